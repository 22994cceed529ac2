import Mathlib.Data.Complex.Basic
import Verif.Model.EigenAccess

/-! # C85: components of Eigen objects.  C86: diagonals of Eigen objects.  C87: broadcast. -/

namespace OpenKalman.EigenAccess

variable {𝕜 : Type}

/-! ## C85 -/

/-- Two indices at most; a missing one is 0. -/
def position (indices : List ℕ) : ℕ × ℕ := (indices.getD 0 0, indices.getD 1 0)

theorem extractIndices_eq {indices : List ℕ} (h : indices.length ≤ 2) : extractIndices indices = some (position indices) := by
  match indices, h with
  | [], _ => rfl
  | [_], _ => rfl
  | [_, _], _ => rfl

theorem extractIndices_none {indices : List ℕ} (h : 2 < indices.length) : extractIndices indices = none := by
  match indices, h with
  | _ :: _ :: _ :: _, _ => rfl

/-- A component of a dense matrix, of a diagonal object on a column vector, of a triangular view that takes its diagonal from the matrix or of a
self-adjoint view is the element of the matrix that the object stands for.  Missing: unit and strict triangular views and diagonal objects on a row
vector; see `C85_get_violated`. -/
theorem C85_get_partial [Zero 𝕜] [One 𝕜] [InvolutiveStar 𝕜] (cplx : Bool) (hc : cplx = false → ∀ x : 𝕜, star x = x) (o : Obj 𝕜)
    (indices : List ℕ) (hi : indices.length ≤ 2)
    (ho : match o with
      | .dense _ => True
      | .diagonal rows cols _ => cols = 1 ∧ (position indices).1 < rows
      | .triangular mode _ => mode.legal = true ∧ mode.unitDiag = false ∧ mode.zeroDiag = false
      | .selfAdjoint mode _ => mode.legal = true ∧ mode.unitDiag = false ∧ mode.zeroDiag = false) :
    getComponent cplx o indices = .ok (o.meaning.elem (position indices).1 (position indices).2) := by
  unfold getComponent
  rw [extractIndices_eq hi]
  generalize position indices = p at ho ⊢
  obtain ⟨i, j⟩ := p
  cases o with
  | dense m => rfl
  | diagonal rows cols m =>
    obtain ⟨rfl, hr⟩ := ho
    show (if i = j then (if i < rows ∧ 0 < 1 then Res.ok (m i 0) else .undefined) else .ok 0) = .ok (if i = j then (if (1 : ℕ) = 1 then m i 0 else _) else 0)
    by_cases e : i = j
    · have hr' : i < rows := hr
      rw [if_pos e, if_pos ⟨hr', by norm_num⟩, if_pos e, if_pos rfl]
    · rw [if_neg e, if_neg e]
  | triangular mode m =>
    obtain ⟨lo, up, u, z⟩ := mode
    obtain ⟨hl, hu, hz⟩ := ho
    simp only at hu hz
    subst hu hz
    rcases lt_trichotomy i j with h | h | h <;> cases lo <;> cases up <;>
      simp [Mode.legal] at hl <;> simp [getCoeff, Obj.meaning, Meaning.elem, within, h, h.le, Nat.ne_of_lt, Nat.ne_of_gt]
  | selfAdjoint mode m =>
    obtain ⟨lo, up, u, z⟩ := mode
    obtain ⟨hl, hu, hz⟩ := ho
    simp only at hu hz
    subst hu hz
    cases cplx with
    | true =>
      rcases lt_trichotomy i j with h | h | h <;> cases lo <;> cases up <;>
        simp [Mode.legal] at hl <;>
        simp [getCoeff, Obj.meaning, Meaning.elem, within, transp, Res.map, h, h.le, Nat.ne_of_lt, Nat.ne_of_gt]
    | false =>
      have hs := hc rfl
      rcases lt_trichotomy i j with h | h | h <;> cases lo <;> cases up <;>
        simp [Mode.legal] at hl <;>
        simp [getCoeff, Obj.meaning, Meaning.elem, within, transp, Res.map, hs, h, h.le, Nat.ne_of_lt, Nat.ne_of_gt]

example : getComponent true (.selfAdjoint ⟨true, false, false, false⟩ fun i j => (⟨i, j⟩ : ℂ)) [0, 1] = .ok (star ⟨1, 0⟩) := by
  have h := C85_get_partial (𝕜 := ℂ) true (by simp) (.selfAdjoint ⟨true, false, false, false⟩ fun i j => ⟨i, j⟩) [0, 1] (by simp) ⟨rfl, rfl, rfl⟩
  rw [h]
  simp [position, Obj.meaning, Meaning.elem, within]

/-- With more than two indices access throws. -/
theorem C85_too_many [Zero 𝕜] [Star 𝕜] (cplx : Bool) (o : Obj 𝕜) (indices : List ℕ) (h : 2 < indices.length) :
    getComponent cplx o indices = .throws := by
  unfold getComponent
  rw [extractIndices_none h]

example : getComponent false (.dense fun _ _ => (0 : ℂ)) [0, 0, 0] = .throws := C85_too_many _ _ _ (by simp)

/-- After a component of a dense matrix or self-adjoint view is set, it has the value, the element opposite to it in a self-adjoint view has the
conjugate, and the others have not changed. -/
theorem C85_set [Zero 𝕜] [One 𝕜] [InvolutiveStar 𝕜] (cplx : Bool) (hc : cplx = false → ∀ x : 𝕜, star x = x) (s : 𝕜) (indices : List ℕ)
    (hi : indices.length ≤ 2) (m : ℕ → ℕ → 𝕜) :
    (∃ o', setComponent cplx (.dense m) s indices = .ok o' ∧
      ∀ a b, o'.meaning.elem a b = if (a, b) = position indices then s else m a b) ∧
    ∀ mode : Mode, mode.lower ≠ mode.upper → ((position indices).1 = (position indices).2 → star s = s) →
      ∃ o', setComponent cplx (.selfAdjoint mode m) s indices = .ok o' ∧
        ∀ a b, o'.meaning.elem a b = if (a, b) = position indices then s else if (b, a) = position indices then star s else
          (Obj.selfAdjoint mode m).meaning.elem a b := by
  unfold setComponent
  rw [extractIndices_eq hi]
  obtain ⟨i, j⟩ := position indices
  refine ⟨⟨_, rfl, ?_⟩, ?_⟩
  · intro a b
    show (if a = i ∧ b = j then s else m a b) = _
    by_cases e : a = i ∧ b = j
    · rw [if_pos e, if_pos (by rw [e.1, e.2])]
    · rw [if_neg e, if_neg (by rintro h; cases h; exact e ⟨rfl, rfl⟩)]
  · rintro ⟨lo, up, u, z⟩ hm hs
    simp only at hm hs
    have key : ∀ (x : 𝕜) (k l : ℕ), (k = i ∧ l = j ∧ x = s ∧ transp ⟨lo, up, u, z⟩ i j = false) ∨
        (k = j ∧ l = i ∧ x = star s ∧ transp ⟨lo, up, u, z⟩ i j = true) → ∀ a b,
        (Obj.selfAdjoint ⟨lo, up, u, z⟩ (put m k l x)).meaning.elem a b =
          if (a, b) = (i, j) then s else if (b, a) = (i, j) then star s else (Obj.selfAdjoint ⟨lo, up, u, z⟩ m).meaning.elem a b := by
      intro x k l hkl a b
      show (if a = b ∨ within up a b then (if a = k ∧ b = l then x else m a b) else star (if b = k ∧ a = l then x else m b a)) =
        if (a, b) = (i, j) then s else if (b, a) = (i, j) then star s else if a = b ∨ within up a b then m a b else star (m b a)
      simp only [Prod.mk.injEq]
      have hup : lo = !up := by cases lo <;> cases up <;> simp_all
      subst hup
      rcases hkl with ⟨rfl, rfl, rfl, ht⟩ | ⟨rfl, rfl, rfl, ht⟩
      · have ht' : k = l ∨ within up k l := by
          cases up <;> simp [transp] at ht <;> simp [within] <;> omega
        by_cases h1 : a = k ∧ b = l
        · obtain ⟨rfl, rfl⟩ := h1
          simp [ht']
        · by_cases h2 : b = k ∧ a = l
          · obtain ⟨rfl, rfl⟩ := h2
            by_cases e : a = b
            · subst e; simp at h1
            · have hw : ¬ (a = b ∨ within up a b) := by
                rcases ht' with h | h
                · exact absurd h.symm e
                · cases up <;> simp [within] at h ⊢ <;> omega
              simp [hw, h1]
          · simp [h1, h2]
      · have ht' : ¬ (l = k ∨ within up l k) ∧ within up k l := by
          cases up <;> simp [transp] at ht <;> simp [within] <;> omega
        have hlk : l ≠ k := fun h => ht'.1 (.inl h)
        by_cases h1 : a = l ∧ b = k
        · obtain ⟨rfl, rfl⟩ := h1
          simp [ht'.1]
        · by_cases h2 : b = l ∧ a = k
          · obtain ⟨rfl, rfl⟩ := h2
            simp [ht'.2, h1]
          · have h1' : ¬ (b = k ∧ a = l) := fun h => h1 ⟨h.2, h.1⟩
            have h2' : ¬ (a = k ∧ b = l) := fun h => h2 ⟨h.2, h.1⟩
            simp [h1, h2, h1', h2']
    cases ht : transp ⟨lo, up, u, z⟩ i j with
    | true =>
      cases cplx with
      | true => exact ⟨_, by simp only [ht, if_true], key _ _ _ (.inr ⟨rfl, rfl, rfl, ht⟩)⟩
      | false => exact ⟨_, by simp only [ht, if_true, Bool.false_eq_true, if_false], key _ _ _ (.inr ⟨rfl, rfl, (hc rfl s).symm, ht⟩)⟩
    | false =>
      cases cplx with
      | true => exact ⟨_, by simp only [ht, if_true, Bool.false_eq_true, if_false], key _ _ _ (.inl ⟨rfl, rfl, rfl, ht⟩)⟩
      | false => exact ⟨_, by simp only [ht, Bool.false_eq_true, if_false], key _ _ _ (.inl ⟨rfl, rfl, rfl, ht⟩)⟩

example : ∃ o', setComponent true (.selfAdjoint ⟨false, true, false, false⟩ fun _ _ => (0 : ℂ)) Complex.I [1, 0] = .ok o' ∧
    o'.meaning.elem 0 1 = star Complex.I ∧ o'.meaning.elem 1 1 = 0 := by
  obtain ⟨o', h, e⟩ := (C85_set (𝕜 := ℂ) true (by simp) Complex.I [1, 0] (by simp) (fun _ _ => 0)).2 ⟨false, true, false, false⟩ (by simp) (by simp [position])
  refine ⟨o', h, ?_, ?_⟩
  · rw [e]; simp [position]
  · rw [e]; simp [position, Obj.meaning, Meaning.elem]

/-- Components of diagonal objects and triangular views cannot be set. -/
theorem C85_set_refused [Star 𝕜] (cplx : Bool) (s : 𝕜) (indices : List ℕ) (rows cols : ℕ) (mode : Mode) (m : ℕ → ℕ → 𝕜) :
    setComponent cplx (.diagonal rows cols m) s indices = .illFormed ∧ setComponent cplx (.triangular mode m) s indices = .illFormed := ⟨rfl, rfl⟩

/-- The diagonal of a unit or strict triangular view is read from the matrix, not as ones or zeros, and a component on the diagonal of a diagonal object
on a row vector is read beyond the vector. -/
theorem C85_get_violated :
    (∃ (mode : Mode) (m : ℕ → ℕ → ℤ) (x : ℤ), mode.legal = true ∧ mode.unitDiag = true ∧
      getComponent (𝕜 := ℤ) false (.triangular mode m) [0, 0] = .ok x ∧ x ≠ (Obj.triangular mode m).meaning.elem 0 0) ∧
    (∃ (mode : Mode) (m : ℕ → ℕ → ℤ) (x : ℤ), mode.legal = true ∧ mode.zeroDiag = true ∧
      getComponent (𝕜 := ℤ) false (.triangular mode m) [0, 0] = .ok x ∧ x ≠ (Obj.triangular mode m).meaning.elem 0 0) ∧
    ∃ m : ℕ → ℕ → ℤ, getComponent (𝕜 := ℤ) false (.diagonal 1 3 m) [1, 1] = .undefined :=
  ⟨⟨⟨false, true, true, false⟩, fun _ _ => 5, 5, rfl, rfl, rfl, by decide⟩,
    ⟨⟨true, false, false, true⟩, fun _ _ => 5, 5, rfl, rfl, rfl, by decide⟩, fun _ _ => 0, rfl⟩

/-! ## C86 -/

/-- The diagonal of a dense matrix, of a self-adjoint view, of a triangular view that takes its diagonal from the matrix and of a diagonal object on a
row vector is the diagonal of the matrix that the object stands for.  Missing: unit and strict triangular views; see `C86_diagonal_of_violated`. -/
theorem C86_diagonal_of_partial [Zero 𝕜] [One 𝕜] [Star 𝕜] (o : Obj 𝕜)
    (ho : match o with
      | .dense _ => True
      | .diagonal rows cols _ => rows = 1 ∧ cols ≠ 1
      | .triangular mode _ => mode.unitDiag = false ∧ mode.zeroDiag = false
      | .selfAdjoint _ _ => True) :
    ∃ v, diagonalOf o = .ok v ∧ ∀ i, v i = o.meaning.elem i i := by
  cases o with
  | dense m => exact ⟨_, rfl, fun i => rfl⟩
  | diagonal rows cols m =>
    obtain ⟨rfl, hc⟩ := ho
    refine ⟨fun i => m 0 i, by rw [diagonalOf, if_neg hc, if_pos rfl], fun i => ?_⟩
    show m 0 i = if i = i then (if cols = 1 then m i 0 else if 1 = 1 then m 0 i else m i 0) else 0
    rw [if_pos rfl, if_neg hc, if_pos rfl]
  | triangular mode m =>
    obtain ⟨hu, hz⟩ := ho
    refine ⟨_, rfl, fun i => ?_⟩
    simp [Obj.meaning, Meaning.elem, hu, hz]
  | selfAdjoint mode m =>
    refine ⟨_, rfl, fun i => ?_⟩
    simp [Obj.meaning, Meaning.elem]

example : ∃ v, diagonalOf (.diagonal 1 3 fun _ j => (j : ℤ)) = .ok v ∧ v 2 = 2 := by
  obtain ⟨v, h, e⟩ := C86_diagonal_of_partial (𝕜 := ℤ) (.diagonal 1 3 fun _ j => j) ⟨rfl, by simp⟩
  exact ⟨v, h, by rw [e]; rfl⟩

/-- `to_diagonal` of a dense column vector, of a lower triangular view of one that takes its first element from the vector, or of the view of a single
element is the diagonal matrix of its elements; an object that is not a column vector throws.  Missing: unit and strict views; see
`C86_to_diagonal_violated`. -/
theorem C86_to_diagonal_partial [Zero 𝕜] [One 𝕜] [Star 𝕜] (rows cols : ℕ) (o : Obj 𝕜)
    (ho : match o with
      | .dense _ => True
      | .diagonal _ _ _ => False
      | .triangular mode _ => mode.upper = false ∧ mode.unitDiag = false ∧ mode.zeroDiag = false
      | .selfAdjoint mode _ => mode.upper = false ∧ rows = cols) :
    (cols ≠ 1 → toDiagonal rows cols o = .throws) ∧
    (cols = 1 → ∃ o', toDiagonal rows cols o = .ok o' ∧
      ∀ i < rows, ∀ j < rows, o'.meaning.elem i j = if i = j then o.meaning.elem i 0 else 0) := by
  have dense : ∀ m : ℕ → ℕ → 𝕜, ∃ o' : Obj 𝕜, (if rows = 1 then Res.ok (Obj.dense m) else .ok (.diagonal rows 1 m)) = .ok o' ∧
      ∀ i < rows, ∀ j < rows, o'.meaning.elem i j = if i = j then m i 0 else 0 := by
    intro m
    by_cases h : rows = 1
    · refine ⟨.dense m, by rw [if_pos h], fun i hi j hj => ?_⟩
      have : i = 0 := by omega
      have : j = 0 := by omega
      subst i j
      rfl
    · refine ⟨.diagonal rows 1 m, by rw [if_neg h], fun i hi j hj => ?_⟩
      rfl
  cases o with
  | dense m =>
    refine ⟨fun h => by rw [toDiagonal, if_pos h], ?_⟩
    rintro rfl
    rw [toDiagonal, if_neg (by simp)]
    exact dense m
  | diagonal r c m => exact ho.elim
  | triangular mode m =>
    obtain ⟨hu, h1, h2⟩ := ho
    refine ⟨fun h => by rw [toDiagonal, if_neg (by simp [hu]), if_pos h], ?_⟩
    rintro rfl
    rw [toDiagonal, if_neg (by simp [hu]), if_neg (by simp)]
    obtain ⟨o', e, h⟩ := dense m
    refine ⟨o', e, fun i hi j hj => ?_⟩
    rw [h i hi j hj]
    congr 1
    rcases Nat.eq_zero_or_pos i with rfl | hi
    · simp [Obj.meaning, Meaning.elem, h1, h2]
    · simp [Obj.meaning, Meaning.elem, within, hu, hi, Nat.ne_of_gt]
  | selfAdjoint mode m =>
    obtain ⟨hu, hrc⟩ := ho
    refine ⟨fun h => by rw [toDiagonal, if_neg (by simp [hu]), if_pos h], ?_⟩
    rintro rfl
    rw [toDiagonal, if_neg (by simp [hu]), if_neg (by simp)]
    obtain ⟨o', e, h⟩ := dense m
    refine ⟨o', e, fun i hi j hj => ?_⟩
    have : i = 0 := by omega
    have : j = 0 := by omega
    subst i j
    rw [h 0 hi 0 hj]
    simp [Obj.meaning, Meaning.elem]

example : ∃ o', toDiagonal 3 1 (.triangular ⟨true, false, false, false⟩ fun i _ => (i : ℤ) + 4) = .ok o' ∧ o'.meaning.elem 2 2 = 6 := by
  obtain ⟨o', h, e⟩ := (C86_to_diagonal_partial (𝕜 := ℤ) 3 1 (.triangular ⟨true, false, false, false⟩ fun i _ => i + 4) ⟨rfl, rfl, rfl⟩).2 rfl
  exact ⟨o', h, by rw [e 2 (by norm_num) 2 (by norm_num)]; decide⟩

/-- The diagonal of a unit triangular view comes from the matrix below it. -/
theorem C86_diagonal_of_violated : ∃ (mode : Mode) (m : ℕ → ℕ → ℤ) (v : ℕ → ℤ), mode.legal = true ∧
    diagonalOf (.triangular mode m) = .ok v ∧ v 0 ≠ (Obj.triangular mode m).meaning.elem 0 0 :=
  ⟨⟨true, false, true, false⟩, fun _ _ => 5, _, rfl, rfl, by decide⟩

/-- So does the first element of a unit lower triangular view of a column vector when it is made a diagonal matrix. -/
theorem C86_to_diagonal_violated : ∃ (mode : Mode) (m : ℕ → ℕ → ℤ) (o' : Obj ℤ), mode.legal = true ∧
    toDiagonal 3 1 (.triangular mode m) = .ok o' ∧ o'.meaning.elem 0 0 ≠ (Obj.triangular mode m).meaning.elem 0 0 :=
  ⟨⟨true, false, true, false⟩, fun _ _ => 5, _, rfl, rfl, by decide⟩

/-! ## C87 -/

/-- The factor for an index: 1 if it is not given. -/
def factorAt (fs : List Factor) (i : ℕ) : ℤ := (fs[i]?.map (·.value)).getD 1

theorem dropLast_concat {fs : List Factor} {f : Factor} (h : fs.getLast? = some f) : fs = fs.dropLast ++ [f] := by
  cases fs with
  | nil => simp at h
  | cons a l =>
    rw [List.getLast?_eq_some_getLast (by simp)] at h
    cases h
    exact (List.dropLast_concat_getLast (by simp)).symm

theorem factorAt_dropLast {fs : List Factor} {f : Factor} (h : fs.getLast? = some f) (h1 : f.value = 1) (i : ℕ) :
    factorAt fs.dropLast i = factorAt fs i := by
  conv_rhs => rw [dropLast_concat h]
  unfold factorAt
  rcases lt_trichotomy i fs.dropLast.length with hi | hi | hi
  · rw [List.getElem?_append_left hi]
  · rw [List.getElem?_append_right (by omega), List.getElem?_eq_none (by omega)]
    simp [hi, h1]
  · rw [List.getElem?_append_right (by omega), List.getElem?_eq_none (by omega), List.getElem?_eq_none (by
      rw [List.length_singleton]; omega)]

/-- If all factors are positive and factors beyond the second are a 1 known at compile time, `broadcast` repeats the matrix. -/
theorem C87_broadcast (r c : ℕ) (m : ℕ → ℕ → 𝕜) (fs : List Factor) (hpos : ∀ f ∈ fs, 0 < f.value)
    (hhigh : ∀ f ∈ fs.drop 2, f.fixed = true ∧ f.value = 1) :
    ∃ m', broadcast r c m fs = .ok (r * (factorAt fs 0).toNat, c * (factorAt fs 1).toNat, m') ∧
      ∀ i < r * (factorAt fs 0).toNat, ∀ j < c * (factorAt fs 1).toNat, m' i j = repeated r c m i j := by
  induction hn : fs.length using Nat.strong_induction_on generalizing fs with
  | _ n ih =>
    rw [broadcast]
    split
    · rename_i h
      have : fs = [] := by
        cases fs with
        | nil => rfl
        | cons a l => rw [List.getLast?_eq_some_getLast (by simp)] at h; cases h
      subst this
      refine ⟨m, by simp [factorAt], fun i hi j hj => ?_⟩
      simp only [factorAt, List.getElem?_nil, Option.map_none, Option.getD_none, Int.toNat_one, mul_one] at hi hj
      rw [repeated, Nat.mod_eq_of_lt hi, Nat.mod_eq_of_lt hj]
    · rename_i f h
      have hcat := dropLast_concat h
      by_cases h1 : (f.fixed && f.value == 1) = true
      · rw [if_pos h1]
        simp only [Bool.and_eq_true, beq_iff_eq] at h1
        have hlt : fs.dropLast.length < n := by
          have : 0 < fs.length := by rw [hcat]; simp
          rw [List.length_dropLast]; omega
        obtain ⟨m', e, hm⟩ := ih _ hlt fs.dropLast (fun g hg => hpos g (List.dropLast_subset _ hg))
          (fun g hg => hhigh g (by
            rw [hcat]
            by_cases hl : 2 ≤ fs.dropLast.length
            · rw [List.drop_append_of_le_length hl]; exact List.mem_append_left _ hg
            · rw [List.drop_eq_nil_of_le (by omega)] at hg; cases hg)) rfl
        rw [factorAt_dropLast h h1.2, factorAt_dropLast h h1.2] at e hm
        exact ⟨m', e, hm⟩
      · rw [if_neg h1]
        have hlen : fs.length ≤ 2 := by
          by_contra hl
          have : f ∈ fs.drop 2 := by
            rw [hcat, List.drop_append_of_le_length (by rw [List.length_dropLast]; omega)]
            simp
          have := hhigh f this
          exact h1 (by simp [this.1, this.2])
        have hno : fs.any (fun f => decide (f.value ≤ 0)) = false := by
          rw [List.any_eq_false]
          intro g hg
          have := hpos g hg
          simp; omega
        rw [hno, Bool.and_false, if_neg (by simp)]
        match fs, hlen, hpos with
        | [], _, _ => simp at h
        | [f0], _, hpos =>
          have h0 := hpos f0 (by simp)
          refine ⟨repeated r c m, ?_, fun i _ j _ => rfl⟩
          simp only [broadcastEigen, replicate, factorAt]
          rw [if_neg (by omega)]
          rfl
        | [f0, f1], _, hpos =>
          have h0 := hpos f0 (by simp)
          have h1 := hpos f1 (by simp)
          refine ⟨repeated r c m, ?_, fun i _ j _ => rfl⟩
          simp only [broadcastEigen, replicate, factorAt]
          rw [if_neg (by omega)]
          rfl

example : ∃ m', broadcast 2 1 (fun i j => (i, j)) [⟨false, 3⟩, ⟨true, 2⟩, ⟨true, 1⟩] = .ok (6, 2, m') ∧ m' 5 1 = (1, 0) := by
  obtain ⟨m', e, h⟩ := C87_broadcast 2 1 (fun i j => (i, j)) [⟨false, 3⟩, ⟨true, 2⟩, ⟨true, 1⟩] (by simp) (by simp)
  exact ⟨m', e, (h 5 (by decide) 1 (by decide)).trans (by decide)⟩

/-- If a factor is only known at run time and some factor is not positive, the call throws.  Missing: lists of factors that are all fixed; see
`C87_zero_violated`. -/
theorem C87_throws_partial (r c : ℕ) (m : ℕ → ℕ → 𝕜) (fs : List Factor) (hd : ∃ f ∈ fs, f.fixed = false) (hn : ∃ f ∈ fs, f.value ≤ 0) :
    broadcast r c m fs = .throws := by
  induction hl : fs.length using Nat.strong_induction_on generalizing fs with
  | _ n ih =>
    rw [broadcast]
    split
    · rename_i h
      obtain ⟨f, hf, -⟩ := hd
      cases fs with
      | nil => cases hf
      | cons a l => rw [List.getLast?_eq_some_getLast (by simp)] at h; cases h
    · rename_i f h
      have hcat := dropLast_concat h
      by_cases h1 : (f.fixed && f.value == 1) = true
      · rw [if_pos h1]
        simp only [Bool.and_eq_true, beq_iff_eq] at h1
        have hlt : fs.dropLast.length < n := by
          have : 0 < fs.length := by rw [hcat]; simp
          rw [List.length_dropLast]; omega
        have mem : ∀ g ∈ fs, g ∈ fs.dropLast ∨ g = f := by
          intro g hg
          rw [hcat] at hg
          simpa using hg
        refine ih _ hlt fs.dropLast ?_ ?_ rfl
        · obtain ⟨g, hg, hg'⟩ := hd
          rcases mem g hg with h2 | rfl
          · exact ⟨g, h2, hg'⟩
          · rw [h1.1] at hg'; cases hg'
        · obtain ⟨g, hg, hg'⟩ := hn
          rcases mem g hg with h2 | rfl
          · exact ⟨g, h2, hg'⟩
          · rw [h1.2] at hg'; omega
      · rw [if_neg h1, if_pos]
        rw [Bool.and_eq_true, List.any_eq_true, List.any_eq_true]
        obtain ⟨g, hg, hg'⟩ := hd
        obtain ⟨g2, hg2, hg2'⟩ := hn
        exact ⟨⟨g, hg, by simp [hg']⟩, g2, hg2, by simpa using hg2'⟩

example : broadcast 2 1 (fun i j => (i, j)) [⟨false, 3⟩, ⟨false, -2⟩] = .throws := C87_throws_partial _ _ _ _ ⟨⟨false, 3⟩, by simp⟩ ⟨⟨false, -2⟩, by simp⟩

/-- The exception says that all factors must be positive, but a 0 known at compile time is accepted unless another factor is only known at run time. -/
theorem C87_zero_violated (r c : ℕ) (m : ℕ → ℕ → 𝕜) :
    (∃ m', broadcast r c m [⟨true, 0⟩] = .ok (0, c, m')) ∧ broadcast r c m [⟨true, 0⟩, ⟨false, 2⟩] = .throws := by
  refine ⟨⟨repeated r c m, ?_⟩, C87_throws_partial _ _ _ _ ⟨⟨false, 2⟩, by simp⟩ ⟨⟨true, 0⟩, by simp⟩⟩
  rw [broadcast]
  simp [broadcastEigen, replicate]
  rfl

end OpenKalman.EigenAccess
