import Mathlib.Data.Complex.Basic
import Verif.Proof.InPlace

/-! # C82: set_triangle.  C83: contract_in_place.  C84: copy_from. -/

namespace OpenKalman.InPlace

open LinAlg (Tri)

variable {𝕜 : Type}

/-! ## C82 -/

/-- The objects for which C82 is proved: towers of adapters on dense Eigen matrices (or, if the diagonal is written, on any dense object with at least
as many columns as rows), where a Hermitian adapter is square and keeps the triangle that is written, unless it is the diagonal. -/
def Supported (t : Part) (r c : ℕ) : Obj 𝕜 → Prop
  | .eigen _ => True
  | .other _ => t = .diag ∧ r ≤ c
  | .triangular _ n => Supported t r c n
  | .hermitian q n => (t = q ∨ t = .diag) ∧ r = c ∧ Supported t r c n
  | .diagonal _ => True

/-- `set_triangle` gives the elements of the source to the part of the object, keeps Hermitian matrices Hermitian and changes nothing else, for any
tower of adapters.  Missing: a Hermitian adapter that keeps the other triangle, and dense objects without a hook; see `C82_hermitian_violated` and
`C82_loop_violated`. -/
theorem C82_set_triangle_partial [Zero 𝕜] [Star 𝕜] (t : Part) (r c : ℕ) (b : Source 𝕜)
    (hl : t = .lower → b.tri ≠ .upper ∧ b.tri ≠ .diagonal) (hu : t = .upper → b.tri ≠ .lower ∧ b.tri ≠ .diagonal) :
    ∀ o : Obj 𝕜, Supported t r c o → o.view.Proper →
      ∃ o', setTriangle t r c o b = .done o' ∧ ∀ i < r, ∀ j < c, o'.view.elem i j = o.view.written t b.get i j := by
  have hacc : accepts t b = true := (accepts_iff t b).2 ⟨hl, hu⟩
  intro o
  induction o with
  | eigen m =>
    intro _ _
    refine ⟨.eigen (setEigen t m b), by rw [setTriangle, if_pos hacc], ?_⟩
    intro i _ j _
    cases t <;> rfl
  | other m =>
    rintro ⟨rfl, hrc⟩ _
    refine ⟨.other fun i j => if i = j ∧ i < r then b.get i i else m i j, by rw [setTriangle, if_pos hacc, setLoop_diag r c m b hrc]; rfl, ?_⟩
    intro i hi j _
    show (if i = j ∧ i < r then b.get i i else m i j) = if i = j then b.get i j else m i j
    by_cases e : i = j
    · rw [if_pos ⟨e, hi⟩, if_pos e, e]
    · rw [if_neg (fun h => e h.1), if_neg e]
  | triangular q n ih =>
    intro hs hp
    obtain ⟨n', e, h⟩ := ih hs hp
    refine ⟨.triangular q n', by rw [setTriangle, if_pos hacc, e]; rfl, ?_⟩
    intro i hi j hj
    show (if q.Has i j then n'.view.elem i j else 0) = if q.Has i j then n.view.written t b.get i j else 0
    rw [h i hi j hj]
  | hermitian q n ih =>
    rintro ⟨htq, rfl, hs⟩ ⟨hq, hh, hp⟩
    obtain ⟨n', e, h⟩ := ih hs hp
    have hne : ¬ ((t = .lower ∧ q = .upper) ∨ (t = .upper ∧ q = .lower)) := by
      rcases htq with rfl | rfl
      · rintro (⟨h1, h2⟩ | ⟨h1, h2⟩) <;> rw [h1] at h2 <;> cases h2
      · rintro (⟨h1, -⟩ | ⟨h1, -⟩) <;> cases h1
    refine ⟨.hermitian q n', by rw [setTriangle, if_pos hacc, if_neg hne, e]; rfl, ?_⟩
    intro i hi j hj
    show (if q.Has i j then n'.view.elem i j else star (n'.view.elem j i)) =
      if t.Has i j then b.get i j else if t.Has j i then star (b.get j i) else
        if q.Has i j then n.view.elem i j else star (n.view.elem j i)
    rw [h i hi j hj, h j hj i hi]
    rcases htq with rfl | rfl
    · by_cases hij : t.Has i j
      · rw [if_pos hij, if_pos hij, View.written_of_has _ hij hh]
      · have hji := Part.has_total hq hij
        rw [if_neg hij, if_neg hij, if_pos hji, View.written_of_has _ hji hh]
    · by_cases hij : i = j
      · subst hij
        have hd : Part.diag.Has i i := rfl
        rw [if_pos (q.has_diag i), if_pos hd, View.written_of_has _ hd (View.holds_diag hh)]
      · have h1 : ¬ Part.diag.Has i j := hij
        have h2 : ¬ Part.diag.Has j i := fun h => hij (Eq.symm h)
        rw [if_neg h1, if_neg h2, View.written_diag_of_ne _ hij, View.written_diag_of_ne _ (Ne.symm hij)]
  | diagonal v =>
    intro _ _
    exact ⟨.diagonal fun i => b.get i i, by rw [setTriangle, if_pos hacc], fun _ _ _ _ => rfl⟩

/-- The lower triangle of a Hermitian matrix kept in the lower triangle of an Eigen matrix. -/
example : ∃ o', setTriangle .lower 2 2 (.hermitian .lower (.eigen fun i j => (⟨i, j⟩ : ℂ))) ⟨fun i j => ⟨5 + i, j⟩, .none⟩ = .done o' ∧
    o'.view.elem 0 1 = ⟨6, 0⟩ := by
  obtain ⟨o', h, e⟩ := C82_set_triangle_partial (𝕜 := ℂ) .lower 2 2 ⟨fun i j => ⟨5 + i, j⟩, .none⟩ (by simp) (by simp)
    (.hermitian .lower (.eigen fun i j => ⟨i, j⟩)) ⟨.inl rfl, rfl, trivial⟩ ⟨by simp, trivial, trivial⟩
  refine ⟨o', h, ?_⟩
  rw [e 0 (by norm_num) 1 (by norm_num)]
  show (if (1 : ℕ) ≤ 0 then _ else if (0 : ℕ) ≤ 1 then star (⟨5 + (1 : ℕ), (0 : ℕ)⟩ : ℂ) else _) = _
  rw [if_neg (by norm_num), if_pos (by norm_num)]
  apply Complex.ext <;> simp <;> norm_num

/-- A source that is known to be triangular the other way, or diagonal, is refused when a triangle is written. -/
theorem C82_refused [Star 𝕜] (t : Part) (r c : ℕ) (b : Source 𝕜)
    (h : (t = .lower ∧ (b.tri = .upper ∨ b.tri = .diagonal)) ∨ (t = .upper ∧ (b.tri = .lower ∨ b.tri = .diagonal))) (o : Obj 𝕜) :
    setTriangle t r c o b = .illFormed := by
  have hn : ¬ accepts t b = true := by
    rw [accepts_iff]
    rintro ⟨h1, h2⟩
    rcases h with ⟨ht, hb | hb⟩ | ⟨ht, hb | hb⟩
    · exact (h1 ht).1 hb
    · exact (h1 ht).2 hb
    · exact (h2 ht).1 hb
    · exact (h2 ht).2 hb
  cases o <;> rw [setTriangle, if_neg hn]

example : setTriangle .lower 2 2 (.eigen fun _ _ => (0 : ℂ)) ⟨fun _ _ => 1, .upper⟩ = .illFormed :=
  C82_refused _ _ _ _ (.inl ⟨rfl, .inl rfl⟩) _

/-- Writing the lower triangle of a Hermitian matrix that is kept in the upper triangle of an Eigen matrix (or the other way round) leaves every element
off the diagonal as it was, whatever the source, and writes the conjugated diagonal of the source. -/
theorem C82_hermitian_violated :
    (∀ (𝕜 : Type) [Zero 𝕜] [Star 𝕜] (t q : Part) (_ : (t = .lower ∧ q = .upper) ∨ (t = .upper ∧ q = .lower)) (r : ℕ) (m : ℕ → ℕ → 𝕜)
      (b : Source 𝕜) (_ : b.tri = .none),
      ∃ o', setTriangle t r r (.hermitian q (.eigen m)) b = .done o' ∧
        (∀ i j, i ≠ j → o'.view.elem i j = (Obj.hermitian q (.eigen m)).view.elem i j) ∧ ∀ i, o'.view.elem i i = star (b.get i i)) ∧
    ∃ (o o' : Obj ℤ) (b : Source ℤ), o.view.Proper ∧ b.tri = .none ∧ setTriangle .lower 2 2 o b = .done o' ∧
      o'.view.elem 1 0 ≠ o.view.written .lower b.get 1 0 := by
  have gen : ∀ (𝕜 : Type) [Zero 𝕜] [Star 𝕜] (t q : Part) (_ : (t = .lower ∧ q = .upper) ∨ (t = .upper ∧ q = .lower)) (r : ℕ) (m : ℕ → ℕ → 𝕜)
      (b : Source 𝕜) (_ : b.tri = .none),
      ∃ o', setTriangle t r r (.hermitian q (.eigen m)) b = .done o' ∧
        (∀ i j, i ≠ j → o'.view.elem i j = (Obj.hermitian q (.eigen m)).view.elem i j) ∧ ∀ i, o'.view.elem i i = star (b.get i i) := by
    intro 𝕜 _ _ t q h r m b hb
    have h1 : accepts t b = true := (accepts_iff t b).2 ⟨fun _ => by rw [hb]; simp, fun _ => by rw [hb]; simp⟩
    have h2 : accepts t b.adjoint = true := (accepts_iff t _).2 (by
      have : b.adjoint.tri = .none := by simp [Source.adjoint, hb]
      exact ⟨fun _ => by rw [this]; simp, fun _ => by rw [this]; simp⟩)
    refine ⟨.hermitian q (.eigen (setEigen t m b.adjoint)), by rw [setTriangle, if_pos h1, if_pos h, setTriangle, if_pos h2]; rfl, ?_, ?_⟩
    rotate_left
    · intro i
      show (if q.Has i i then setEigen t m b.adjoint i i else star (setEigen t m b.adjoint i i)) = star (b.get i i)
      rw [if_pos (q.has_diag i)]
      rcases h with ⟨rfl, -⟩ | ⟨rfl, -⟩ <;> exact if_pos (le_refl i)
    intro i j hij
    have key : ∀ a c, a ≠ c → q.Has a c → setEigen t m b.adjoint a c = m a c := by
      intro a c hac hq
      rcases h with ⟨rfl, rfl⟩ | ⟨rfl, rfl⟩
      · exact if_neg (by simp only [Part.Has] at hq; omega)
      · exact if_neg (by simp only [Part.Has] at hq; omega)
    show (if q.Has i j then setEigen t m b.adjoint i j else star (setEigen t m b.adjoint j i)) = if q.Has i j then m i j else star (m j i)
    have hq : q ≠ .diag := by rcases h with ⟨-, rfl⟩ | ⟨-, rfl⟩ <;> simp
    by_cases hqi : q.Has i j
    · rw [if_pos hqi, if_pos hqi, key i j hij hqi]
    · rw [if_neg hqi, if_neg hqi, key j i (Ne.symm hij) (Part.has_total hq hqi)]
  refine ⟨gen, ?_⟩
  obtain ⟨o', e, h, -⟩ := gen ℤ .lower .upper (.inl ⟨rfl, rfl⟩) 2 (fun _ _ => 0) ⟨fun _ _ => 1, .none⟩ rfl
  refine ⟨.hermitian .upper (.eigen fun _ _ => 0), o', ⟨fun _ _ => 1, .none⟩, ⟨by simp, trivial, trivial⟩, rfl, e, ?_⟩
  rw [h 1 0 (by norm_num)]
  have h1 : (Obj.hermitian .upper (.eigen fun _ _ => (0 : ℤ))).view.elem 1 0 = 0 := by
    show (if (1 : ℕ) ≤ 0 then (0 : ℤ) else star 0) = 0
    simp
  have h2 : (Obj.hermitian .upper (.eigen fun _ _ => (0 : ℤ))).view.written .lower (fun _ _ => 1) 1 0 = 1 := if_pos (Nat.zero_le 1)
  rw [h1, h2]
  norm_num

/-- For a dense object without a hook no element off the diagonal is ever written, and writing the lower triangle does not even write the first
element of the diagonal. -/
theorem C82_loop_violated :
    (∀ (𝕜 : Type) (t : Part) (r c : ℕ) (m m' : ℕ → ℕ → 𝕜) (b : Source 𝕜), setLoop t r c m b = .done m' → ∀ i j, i ≠ j → m' i j = m i j) ∧
    (∃ (m : ℕ → ℕ → ℤ) (b : Source ℤ) (o' : Obj ℤ), b.tri = .none ∧ setTriangle .upper 2 2 (.other m) b = .done o' ∧
      o'.view.elem 0 1 ≠ (Obj.other m).view.written .upper b.get 0 1) ∧
    ∃ (m : ℕ → ℕ → ℤ) (b : Source ℤ) (o' : Obj ℤ), b.tri = .none ∧ setTriangle .lower 2 2 (.other m) b = .done o' ∧
      o'.view.elem 0 0 ≠ (Obj.other m).view.written .lower b.get 0 0 := by
  refine ⟨fun 𝕜 t r c m m' b h i j hij => setLoop_off h hij, ⟨fun _ _ => 0, ⟨fun _ _ => 1, .none⟩, _, rfl, rfl, ?_⟩,
    fun _ _ => 0, ⟨fun _ _ => 1, .none⟩, _, rfl, rfl, ?_⟩
  · show ¬ _
    decide
  · decide

/-! ## C83 -/

/-- What the types say about the operands of an in-place product is true, and the hook for diagonal matrices is used for diagonal matrices. -/
structure Truthful [CommRing 𝕜] (zeroA idB zeroB : Bool) (h : Hook) (n : ℕ) (A B : ℕ → ℕ → 𝕜) : Prop where
  za : zeroA = true → ∀ i < n, ∀ j < n, A i j = 0
  ib : idB = true → ∀ i < n, ∀ j < n, B i j = if i = j then 1 else 0
  zb : zeroB = true → ∀ i < n, ∀ j < n, B i j = 0
  da : h = .diagonal → ∀ i < n, ∀ j < n, i ≠ j → A i j = 0
  db : h = .diagonal → ∀ i < n, ∀ j < n, i ≠ j → B i j = 0

/-- In place of `A` there is the product `A B`, or `B A` if the factor is applied on the left to a dense or diagonal Eigen matrix or one of the special
cases applies.  Missing: application on the left for an Eigen triangular view and for other objects; see `C83_left_violated`. -/
theorem C83_product_partial [CommRing 𝕜] (right zeroA idB zeroB writable : Bool) (h : Hook) (n : ℕ) (A B : ℕ → ℕ → 𝕜)
    (ht : Truthful zeroA idB zeroB h n A B) (hr : right = true ∨ h = .dense ∨ h = .diagonal ∨ zeroA = true ∨ idB = true) :
    ∃ M, contractInPlace right zeroA idB zeroB writable h n n n n A B = .done M ∧
      ∀ i < n, ∀ j < n, M i j = if right then ∑ k ∈ Finset.range n, A i k * B k j else ∑ k ∈ Finset.range n, B i k * A k j := by
  unfold contractInPlace
  rw [if_neg (by simp)]
  have sum1 : ∀ (f : ℕ → 𝕜) (i : ℕ), i < n → (∑ k ∈ Finset.range n, if k = i then f k else 0) = f i := by
    intro f i hi
    rw [Finset.sum_ite_eq' (Finset.range n) i f, if_pos (Finset.mem_range.2 hi)]
  by_cases h1 : (zeroA || idB) = true
  · rw [if_pos h1]
    refine ⟨A, rfl, ?_⟩
    intro i hi j hj
    rw [Bool.or_eq_true_iff] at h1
    rcases h1 with hz | hid
    · have z := ht.za hz
      rw [z i hi j hj]
      cases right
      · rw [if_neg (by simp)]
        exact (Finset.sum_eq_zero fun k hk => by rw [z k (Finset.mem_range.1 hk) j hj, mul_zero]).symm
      · rw [if_pos rfl]
        exact (Finset.sum_eq_zero fun k hk => by rw [z i hi k (Finset.mem_range.1 hk), zero_mul]).symm
    · have z := ht.ib hid
      cases right
      · rw [if_neg (by simp), ← sum1 (fun k => A k j) i hi]
        refine Finset.sum_congr rfl fun k hk => ?_
        rw [z i hi k (Finset.mem_range.1 hk)]
        by_cases e : k = i
        · rw [if_pos e, if_pos e.symm, one_mul]
        · rw [if_neg e, if_neg (Ne.symm e), zero_mul]
      · rw [if_pos rfl, ← sum1 (fun k => A i k) j hj]
        refine Finset.sum_congr rfl fun k hk => ?_
        rw [z k (Finset.mem_range.1 hk) j hj]
        by_cases e : k = j
        · rw [if_pos e, if_pos e, mul_one]
        · rw [if_neg e, if_neg e, mul_zero]
  rw [if_neg h1]
  by_cases h2 : (zeroB && writable) = true
  · rw [if_pos h2]
    refine ⟨B, rfl, ?_⟩
    intro i hi j hj
    rw [Bool.and_eq_true] at h2
    have z := ht.zb h2.1
    rw [z i hi j hj]
    cases right
    · rw [if_neg (by simp)]
      exact (Finset.sum_eq_zero fun k hk => by rw [z i hi k (Finset.mem_range.1 hk), zero_mul]).symm
    · rw [if_pos rfl]
      exact (Finset.sum_eq_zero fun k hk => by rw [z k (Finset.mem_range.1 hk) j hj, mul_zero]).symm
  rw [if_neg h2, if_neg (by simp)]
  have hr' : right = true ∨ h = .dense ∨ h = .diagonal := by
    rcases hr with e | e | e | e | e
    · exact .inl e
    · exact .inr (.inl e)
    · exact .inr (.inr e)
    · exact absurd (by simp [e]) h1
    · exact absurd (by simp [e]) h1
  cases h with
  | noHook =>
    have e : right = true := by rcases hr' with e | e | e <;> first | exact e | cases e
    subst e
    exact ⟨_, rfl, fun i _ j _ => rfl⟩
  | view =>
    have e : right = true := by rcases hr' with e | e | e <;> first | exact e | cases e
    subst e
    exact ⟨_, rfl, fun i _ j _ => rfl⟩
  | dense =>
    refine ⟨_, rfl, fun i _ j _ => ?_⟩
    cases right <;> rfl
  | diagonal =>
    refine ⟨_, rfl, fun i hi j hj => ?_⟩
    have za := ht.da rfl
    have zb := ht.db rfl
    show (if i = j then A i i * B i i else 0) = _
    have comm : ∀ X Y : ℕ → ℕ → 𝕜, (∀ i < n, ∀ j < n, i ≠ j → X i j = 0) → (∀ i < n, ∀ j < n, i ≠ j → Y i j = 0) →
        (∑ k ∈ Finset.range n, X i k * Y k j) = if i = j then X i i * Y i i else 0 := by
      intro X Y hX hY
      rw [Finset.sum_eq_single i]
      · by_cases e : i = j
        · rw [if_pos e, ← e]
        · rw [if_neg e, hY i hi j hj e, mul_zero]
      · intro k hk hki
        rw [hX i hi k (Finset.mem_range.1 hk) (Ne.symm hki), zero_mul]
      · intro hni
        exact absurd (Finset.mem_range.2 hi) hni
    rw [comm A B za zb, comm B A zb za]
    by_cases e : i = j
    · cases right
      · rw [if_neg Bool.false_ne_true, if_pos e, if_pos e, mul_comm]
      · rw [if_pos rfl]
    · cases right
      · rw [if_neg Bool.false_ne_true, if_neg e, if_neg e]
      · rw [if_pos rfl]

example : ∃ M, contractInPlace (𝕜 := ℤ) false false false false true .dense 2 2 2 2 (fun i j => i + 2 * j) (fun i j => if i ≤ j then 1 else 0) = .done M ∧
    M 0 1 = 5 := by
  obtain ⟨M, h, e⟩ := C83_product_partial (𝕜 := ℤ) false false false false true .dense 2 (fun i j => i + 2 * j) (fun i j => if i ≤ j then 1 else 0)
    ⟨by simp, by simp, by simp, by simp, by simp⟩ (.inr (.inl rfl))
  refine ⟨M, h, ?_⟩
  rw [e 0 (by norm_num) 1 (by norm_num)]
  decide

/-- Applied on the left, an Eigen triangular view and any object without a hook get the product in the wrong order, also for two lower triangular
matrices. -/
theorem C83_left_violated (h : Hook) (hh : h = .view ∨ h = .noHook) :
    ∃ (A B M : ℕ → ℕ → ℤ), (∀ i j, i < j → A i j = 0) ∧ (∀ i j, i < j → B i j = 0) ∧ Truthful false false false h 2 A B ∧
      contractInPlace false false false false true h 2 2 2 2 A B = .done M ∧ M 1 0 ≠ ∑ k ∈ Finset.range 2, B 1 k * A k 0 := by
  refine ⟨fun i j => if j ≤ i then 1 else 0, fun i j => if i = j then i else 0, _, ?_, ?_,
    ⟨by simp, by simp, by simp, by rcases hh with rfl | rfl <;> simp, by rcases hh with rfl | rfl <;> simp⟩,
    by rcases hh with rfl | rfl <;> rfl, by decide⟩
  · intro i j hij; exact if_neg (by omega)
  · intro i j hij; exact if_neg (by omega)

/-- Matrices of different sizes are refused. -/
theorem C83_sizes [CommRing 𝕜] (right zeroA idB zeroB writable : Bool) (h : Hook) (ra ca rb cb : ℕ) (A B : ℕ → ℕ → 𝕜) (hs : ra ≠ rb ∨ ca ≠ cb) :
    contractInPlace right zeroA idB zeroB writable h ra ca rb cb A B = .throws := by
  unfold contractInPlace
  rw [if_pos (by omega)]

example : contractInPlace true false false false true .dense 2 2 3 3 (fun _ _ => (0 : ℤ)) (fun _ _ => 0) = .throws :=
  C83_sizes _ _ _ _ _ _ _ _ _ _ _ _ (.inl (by norm_num))

/-- Matrices that are not square are not refused, although the exception says that they have to be: two of the same size get through to the product. -/
theorem C83_square_violated : ∃ (ra ca : ℕ) (A B : ℕ → ℕ → ℤ), ra ≠ ca ∧
    contractInPlace true false false false true .dense ra ca ra ca A B = .undefined :=
  ⟨2, 3, fun _ _ => 1, fun _ _ => 1, by norm_num, rfl⟩

/-! ## C84 -/

open Shape (Extent statics Valid extentOf shapeOf)

/-- If the extents are the same, the destination is known to be neither empty nor to end in an extent 1, the source has at most as many indices and no
element of the source depends on another element of the destination, then every element of the destination becomes that of the source, and nothing
else changes.  Missing: the other cases; see `C84_extents_violated`, `C84_column_violated` and `C84_alias_violated`. -/
theorem C84_copy_partial (md ms : List Extent) (hf : Fits md ms) (read : Elems 𝕜 → List ℕ → 𝕜) (hr : Local md ms read) (s : Elems 𝕜) :
    ∃ s', copyFrom md ms read s = .done s' ∧
      (∀ x, InBounds (shapeOf md) x → s' x = read s (x.take ms.length)) ∧ ∀ x, ¬ InBounds (shapeOf md) x → s' x = s x := by
  have hc : Shape.indexCount (statics md) = md.length := by
    rw [Shape.indexCount]
    have hlast := hf.last
    have : (statics md).length = md.length := by simp [statics]
    rw [← this]
    cases hn : (statics md).length with
    | zero => rfl
    | succ n =>
      rw [Shape.removeTrailing, if_neg]
      intro e
      apply hlast
      rw [List.getLast?_eq_getElem?, hn]
      simpa using e
  obtain ⟨s', e, h1, h2⟩ := copyElements_done hf hr md.length 0 [] s rfl (by omega) (by intro i hi; omega)
  refine ⟨s', by rw [copyFrom, hc]; exact e, fun x hx => h1 x hx ⟨x, by simp⟩, fun x hx => h2 x (fun h => hx h.1)⟩

theorem fits_ex : Fits [⟨some 2, 2⟩, ⟨none, 3⟩] [⟨none, 2⟩, ⟨some 3, 3⟩] where
  vd := by
    intro e he n hn
    simp only [List.mem_cons, List.not_mem_nil, or_false] at he
    rcases he with rfl | rfl <;> simp_all
  vs := by
    intro e he n hn
    simp only [List.mem_cons, List.not_mem_nil, or_false] at he
    rcases he with rfl | rfl <;> simp_all
  last := by decide
  rank := by decide
  ned := by decide
  nes := by decide
  same := by
    intro i
    rfl

example : ∃ s', copyFrom [⟨some 2, 2⟩, ⟨none, 3⟩] [⟨none, 2⟩, ⟨some 3, 3⟩] (fun _ x => (x.getD 0 0, x.getD 1 0)) (fun _ => (9, 9)) = .done s' ∧
    s' [1, 2] = (1, 2) ∧ s' [2, 0] = (9, 9) := by
  obtain ⟨s', e, h1, h2⟩ := C84_copy_partial _ _ fits_ex (fun _ x => (x.getD 0 0, x.getD 1 0)) (fun _ _ _ _ _ => rfl) (fun _ => (9, 9))
  refine ⟨s', e, h1 [1, 2] ⟨rfl, by decide⟩, h2 [2, 0] ?_⟩
  rintro ⟨-, h⟩
  exact absurd (h 0 (by decide)) (by decide)

/-- Nothing compares extents that are only known at run time: a shorter source leaves old elements behind, and a longer one writes beyond the end. -/
theorem C84_extents_violated :
    (∃ s' : Elems ℤ, copyFrom [⟨none, 3⟩] [⟨none, 2⟩] (fun _ _ => 1) (fun _ => 0) = .done s' ∧ InBounds [3] [2] ∧ s' [2] = 0) ∧
    copyFrom [⟨none, 2⟩] [⟨none, 3⟩] (fun _ _ => (1 : ℤ)) (fun _ => 0) = .undefined := by
  refine ⟨⟨_, rfl, ⟨rfl, by decide⟩, by decide⟩, rfl⟩

/-- The destination cannot be a matrix with one column known at compile time: the call does not compile, although source and destination match. -/
theorem C84_column_violated (n : ℕ) (hn : 2 ≤ n) (read : Elems 𝕜 → List ℕ → 𝕜) (s : Elems 𝕜) :
    copyFrom [⟨some n, n⟩, ⟨some 1, 1⟩] [⟨some n, n⟩, ⟨some 1, 1⟩] read s = .illFormed := by
  have hv : Valid [⟨some n, n⟩, ⟨some 1, 1⟩] := by
    intro e he k hk
    simp only [List.mem_cons, List.not_mem_nil, or_false] at he
    rcases he with rfl | rfl <;> simp_all
  have hc : Shape.indexCount (statics [⟨some n, n⟩, ⟨some 1, 1⟩]) = 1 := by
    have : n ≠ 1 := by omega
    simp [Shape.indexCount, Shape.removeTrailing, statics, this]
  have hbody : ∀ i s, copyElements [⟨some n, n⟩, ⟨some 1, 1⟩] [⟨some n, n⟩, ⟨some 1, 1⟩] read 0 1 ([] ++ [i]) s = .illFormed := by
    intro i s
    have : Shape.access [⟨some n, n⟩, ⟨some 1, 1⟩] ⟨true, [i]⟩ = .illFormed := by
      unfold Shape.access
      by_cases h1 : (!Shape.indexCollectionFor (statics [⟨some n, n⟩, ⟨some 1, 1⟩]) ⟨true, [i]⟩ ||
          Shape.emptyObject (statics [⟨some n, n⟩, ⟨some 1, 1⟩])) = true
      · rw [if_pos h1]
      · rw [if_neg h1, if_neg (by simp), if_pos rfl]
    show copyElement _ _ read [i] s = _
    unfold copyElement
    rw [this]
  have hloop : ∀ k, 0 < k → ∀ s, forLoop (fun i s => copyElements [⟨some n, n⟩, ⟨some 1, 1⟩] [⟨some n, n⟩, ⟨some 1, 1⟩] read 0 1 ([] ++ [i]) s) k s
      = .illFormed := by
    intro k
    induction k with
    | zero => intro h; omega
    | succ k ih =>
      intro _ s
      rw [forLoop]
      rcases Nat.eq_zero_or_pos k with rfl | hk
      · exact hbody 0 s
      · rw [ih hk s]
  rw [copyFrom, hc, copyElements, Shape.C72_extent _ hv true 0]
  exact hloop n (by omega) s

/-- A source that is the transpose of the destination is overwritten while it is read: afterwards the destination is not the transpose of what it was. -/
theorem C84_alias_violated : ∃ (s s' : Elems ℤ),
    copyFrom [⟨some 2, 2⟩, ⟨some 2, 2⟩] [⟨some 2, 2⟩, ⟨some 2, 2⟩] (fun s x => s [x.getD 1 0, x.getD 0 0]) s = .done s' ∧
      s' [1, 0] ≠ s [0, 1] := by
  refine ⟨fun x => if x = [0, 1] then 1 else 0, _, rfl, ?_⟩
  decide

end OpenKalman.InPlace
