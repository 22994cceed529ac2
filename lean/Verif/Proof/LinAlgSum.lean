import Verif.Proof.LinAlgContract

/-!
# Lemmas for sums
-/

set_option linter.unusedSectionVars false

namespace OpenKalman.LinAlg
open Finset Classical

variable {F : Type} [Field F] [StarRing F]

namespace Obj
variable {o a b : Obj F}

/-- A diagonal argument that is not zero. -/
def nzDiag (o : Obj F) : Prop := o.diagonal ∧ ¬ o.zero

/-- How many of the arguments are diagonal and not zero. -/
noncomputable def nz (ts : List (Obj F)) : ℕ := ts.countP fun o => decide o.nzDiag

/-- The elementwise sum of tagged objects. -/
def sumArr (r c : ℕ) (ts : List (Obj F)) : Arr F := Arr.sumList r c (ts.map Obj.toArr)

theorem sumArr_get (r c : ℕ) (ts : List (Obj F)) (i j : ℕ) : (sumArr r c ts).get i j = (ts.map fun o => o.get i j).sum := by
  simp [sumArr, Arr.sumList, Function.comp_def]

/-- A truthfully tagged object of the given shape with the given elements. -/
structure Good (r c : ℕ) (f : ℕ → ℕ → F) (o : Obj F) : Prop where
  wf : o.WF
  rows : o.rows = r
  cols : o.cols = c
  get : ∀ i < r, ∀ j < c, o.get i j = f i j

theorem nz_cons (t : Obj F) (ts : List (Obj F)) : nz (t :: ts) = nz ts + (if t.nzDiag then 1 else 0) := by
  unfold nz; rw [List.countP_cons]; simp

theorem dense_nzDiag {x : Arr F} {sr sk cx : Bool} (h : (dense x sr sk cx).nzDiag) : x.rows = x.cols := by
  have h1 := h.1
  unfold diagonal triOf at h1
  have hz := h.2
  by_cases ho : (dense x sr sk cx).oneDim
  · have := dense_oneDim.1 ho; omega
  · rw [if_neg (by simp only [hz, ho, false_or]; simp [dense])] at h1
    split_ifs at h1
    simp [dense] at h1

theorem mkConst_nzDiag {v : F} {f sr sk cx : Bool} {r k : ℕ} (h : (mkConst v f r sr k sk cx).nzDiag) : r = k := by
  have h1 := h.1
  unfold diagonal triOf at h1
  have hz := h.2
  by_cases ho : (mkConst v f r sr k sk cx).oneDim
  · have := oneDim_dims' (by simp [mkConst]) ho; simp only [mkConst] at this; omega
  · rw [if_neg (by simp only [hz, ho, false_or]; simp [mkConst])] at h1
    split_ifs at h1
    simp [mkConst] at h1

theorem sumConsts_good {r c : ℕ} {f g : ℕ → ℕ → F} (ha : Good r c f a) (hb : Good r c g b) (h1 : a.constObj) (h2 : b.constObj) :
    Good r c (fun i j => f i j + g i j) (sumConsts a b) where
  wf := mkConst_wf fun h => by
    rw [Bool.or_eq_false_iff] at h
    rw [star_add, ha.wf.realConst h.1 (Or.inl h1), hb.wf.realConst h.2 (Or.inl h2)]
  rows := ha.rows
  cols := ha.cols
  get := by
    intro i hi j hj
    have e1 := ha.wf.const_get h1 (i := i) (j := j) (by rw [ha.rows]; exact hi) (by rw [ha.cols]; exact hj)
    have e2 := hb.wf.const_get h2 (i := i) (j := j) (by rw [hb.rows]; exact hi) (by rw [hb.cols]; exact hj)
    rw [← ha.get i hi j hj, ← hb.get i hi j hj, e1, e2]; rfl

theorem libAdd_good {r c : ℕ} {f g : ℕ → ℕ → F} (ha : Good r c f a) (hb : Good r c g b) :
    ∃ s, libAdd a b = .ok s ∧ Good r c (fun i j => f i j + g i j) s ∧ (s.nzDiag → r = c) := by
  refine ⟨_, if_neg (by rw [ha.rows, ha.cols, hb.rows, hb.cols]; simp), ⟨dense_wf ?_, ha.rows, ha.cols, ?_⟩, ?_⟩
  · intro h i hi j hj
    rw [Bool.or_eq_false_iff] at h
    simp only [Arr.add, ha.rows, ha.cols] at hi hj ⊢
    rw [star_add, ha.wf.real h.1 i (by rw [ha.rows]; exact hi) j (by rw [ha.cols]; exact hj),
      hb.wf.real h.2 i (by rw [hb.rows]; exact hi) j (by rw [hb.cols]; exact hj)]
  · intro i hi j hj
    simp only [dense, Arr.add]
    rw [ha.get i hi j hj, hb.get i hi j hj]
  · intro h
    have := dense_nzDiag h
    simp only [Arr.add, ha.rows, ha.cols] at this
    exact this

theorem sumFlat_good {r c : ℕ} {f g : ℕ → ℕ → F} (ha : Good r c f a) (hb : Good r c g b) :
    ∃ s, sumFlat a b = .ok s ∧ Good r c (fun i j => f i j + g i j) s := by
  unfold sumFlat
  rw [if_neg (by rw [ha.rows, ha.cols, hb.rows, hb.cols]; simp)]
  split_ifs with h1 h2 h3
  · refine ⟨b, rfl, hb.wf, hb.rows, hb.cols, fun i hi j hj => ?_⟩
    rw [hb.get i hi j hj, ← ha.get i hi j hj, ha.wf.zero_get h1 (by rw [ha.rows]; exact hi) (by rw [ha.cols]; exact hj), zero_add]
  · refine ⟨a, rfl, ha.wf, ha.rows, ha.cols, fun i hi j hj => ?_⟩
    rw [ha.get i hi j hj, ← hb.get i hi j hj, hb.wf.zero_get h2 (by rw [hb.rows]; exact hi) (by rw [hb.cols]; exact hj), add_zero]
  · exact ⟨_, rfl, sumConsts_good ha hb h3.1 h3.2⟩
  · obtain ⟨s, h, h', _⟩ := libAdd_good ha hb
    exact ⟨s, h, h'⟩

/-- Every argument is truthfully tagged and has the given shape. -/
def AllGood (r c : ℕ) (ts : List (Obj F)) : Prop := ∀ o ∈ ts, o.WF ∧ o.rows = r ∧ o.cols = c

theorem AllGood.good {r c : ℕ} {ts : List (Obj F)} (h : AllGood r c ts) {o : Obj F} (ho : o ∈ ts) : Good r c o.get o :=
  ⟨(h o ho).1, (h o ho).2.1, (h o ho).2.2, fun _ _ _ _ => rfl⟩

theorem sumImpl_good (r c : ℕ) (ts : List (Obj F)) (hne : ts ≠ []) (hg : AllGood r c ts) (hsq : r = c ∨ nz ts ≤ 1) :
    ∃ s, sumImpl ts = .ok s ∧ Good r c (fun i j => (ts.map fun o => o.get i j).sum) s ∧ (s.nzDiag → r = c ∨ 1 ≤ nz ts) := by
  generalize hn : ts.length = n
  induction n using Nat.strong_induction_on generalizing ts with
  | _ n ih =>
  match ts, hne with
  | [t], _ =>
    refine ⟨t, by rw [sumImpl], ?_, ?_⟩
    · have := hg.good (List.mem_singleton.2 rfl)
      exact ⟨this.wf, this.rows, this.cols, fun i hi j hj => by simp⟩
    · intro h; right; rw [nz_cons, if_pos h]; omega
  | t0 :: t1 :: ts, _ =>
    have g0 : Good r c t0.get t0 := hg.good (by simp)
    have g1 : Good r c t1.get t1 := hg.good (by simp)
    have gts : AllGood r c ts := fun o ho => hg o (by simp [ho])
    have gcons : ∀ {f : ℕ → ℕ → F} {s : Obj F}, Good r c f s → AllGood r c (s :: ts) := by
      intro f s hs o ho
      rcases List.mem_cons.1 ho with rfl | ho
      · exact ⟨hs.wf, hs.rows, hs.cols⟩
      · exact gts o ho
    simp only [List.length_cons] at hn
    rw [nz_cons, nz_cons] at hsq
    -- replacing the first two arguments by their sum
    have step : ∀ s : Obj F, Good r c (fun i j => t0.get i j + t1.get i j) s → (r = c ∨ nz (s :: ts) ≤ nz (t0 :: t1 :: ts)) →
        ∃ s', sumImpl (s :: ts) = .ok s' ∧ Good r c (fun i j => ((t0 :: t1 :: ts).map fun o => o.get i j).sum) s' ∧
          (s'.nzDiag → r = c ∨ 1 ≤ nz (t0 :: t1 :: ts)) := by
      intro s hs hcount
      rw [nz_cons (ts := t1 :: ts), nz_cons (ts := ts)] at hcount ⊢
      obtain ⟨s', hs', hgood, hnz⟩ := ih (ts.length + 1) (by omega) (s :: ts) (by simp) (gcons hs) (by
        rw [nz_cons] at hcount ⊢; omega) (by simp)
      refine ⟨s', hs', ⟨hgood.wf, hgood.rows, hgood.cols, fun i hi j hj => ?_⟩, fun h => ?_⟩
      · rw [hgood.get i hi j hj]
        simp only [List.map_cons, List.sum_cons]
        rw [hs.get i hi j hj, add_assoc]
      · have := hnz h
        rw [nz_cons] at hcount this
        omega
    rw [sumImpl, if_neg (by rw [g0.rows, g0.cols, g1.rows, g1.cols]; simp)]
    by_cases z0 : t0.zero
    · rw [if_pos z0]
      refine step t1 ⟨g1.wf, g1.rows, g1.cols, fun i hi j hj => ?_⟩ (Or.inr ?_)
      · rw [g0.wf.zero_get z0 (by rw [g0.rows]; exact hi) (by rw [g0.cols]; exact hj), zero_add]
      · rw [nz_cons (ts := t1 :: ts)]; omega
    rw [if_neg z0]
    by_cases z1 : t1.zero
    · rw [if_pos z1]
      refine step t0 ⟨g0.wf, g0.rows, g0.cols, fun i hi j hj => ?_⟩ (Or.inr ?_)
      · rw [g1.wf.zero_get z1 (by rw [g1.rows]; exact hi) (by rw [g1.cols]; exact hj), add_zero]
      · rw [nz_cons, nz_cons, nz_cons]; omega
    rw [if_neg z1]
    by_cases hcc : t0.constObj ∧ t1.constObj
    · rw [if_pos hcc]
      refine step _ (sumConsts_good g0 g1 hcc.1 hcc.2) ?_
      by_cases hd : (sumConsts t0 t1).nzDiag
      · left
        have := mkConst_nzDiag hd
        rw [g0.rows, g0.cols] at this
        exact this
      · right
        rw [nz_cons, if_neg hd, nz_cons, nz_cons]; omega
    rw [if_neg hcc]
    -- a constant moved behind the other argument
    have swap : ∀ x y : Obj F, Good r c x.get x → Good r c y.get y → ts ≠ [] →
        (∀ i j, x.get i j + y.get i j = t0.get i j + t1.get i j) →
        (nz (x :: y :: ts) = nz (t0 :: t1 :: ts)) →
        ∃ s', (do let s ← sumImpl (x :: ts); sumImpl [y, s]) = .ok s' ∧
          Good r c (fun i j => ((t0 :: t1 :: ts).map fun o => o.get i j).sum) s' ∧ (s'.nzDiag → r = c ∨ 1 ≤ nz (t0 :: t1 :: ts)) := by
      intro x y hx hy hts hxy hnzxy
      have hlen : 0 < ts.length := List.length_pos_iff.2 hts
      have hc' : r = c ∨ nz (x :: y :: ts) ≤ 1 := by rw [hnzxy, nz_cons, nz_cons]; exact hsq
      rw [nz_cons, nz_cons] at hc'
      obtain ⟨s, hs, hsg, hsn⟩ := ih (ts.length + 1) (by omega) (x :: ts) (by simp) (gcons hx) (by
        rw [nz_cons]; omega) (by simp)
      have hcnt : r = c ∨ nz [y, s] ≤ nz (x :: y :: ts) := by
        by_cases hd : s.nzDiag
        · rcases hsn hd with h | h
          · exact Or.inl h
          · right
            rw [nz_cons, nz_cons, if_pos hd, nz_cons, nz_cons]
            rw [nz_cons] at h
            simp only [nz, List.countP_nil] at h ⊢
            omega
        · right
          rw [nz_cons, nz_cons, if_neg hd, nz_cons, nz_cons]
          simp only [nz, List.countP_nil]
          omega
      obtain ⟨s', hs', hg', hn'⟩ := ih 2 (by omega) [y, s] (by simp) (by
          intro o ho
          simp only [List.mem_cons, List.not_mem_nil, or_false] at ho
          rcases ho with rfl | rfl
          · exact ⟨hy.wf, hy.rows, hy.cols⟩
          · exact ⟨hsg.wf, hsg.rows, hsg.cols⟩) (by
          rcases hcnt with h | h
          · exact Or.inl h
          · rw [nz_cons (ts := y :: ts), nz_cons (ts := ts)] at h; omega) (by simp)
      refine ⟨s', by rw [hs]; exact hs', ⟨hg'.wf, hg'.rows, hg'.cols, fun i hi j hj => ?_⟩, fun h => ?_⟩
      · rw [hg'.get i hi j hj]
        simp only [List.map_cons, List.sum_cons, List.map_nil, List.sum_nil, add_zero]
        rw [hsg.get i hi j hj]
        simp only [List.map_cons, List.sum_cons]
        rw [← add_assoc, ← add_assoc, add_comm (y.get i j), hxy]
      · rcases hn' h with h' | h'
        · exact Or.inl h'
        · rw [hnzxy] at hcnt; omega
    by_cases hc0 : t0.constObj ∧ ts ≠ []
    · rw [dif_pos hc0]
      exact swap t0 t1 g0 g1 hc0.2 (fun _ _ => rfl) rfl
    rw [dif_neg hc0]
    by_cases hc1 : t1.constObj ∧ ts ≠ []
    · rw [dif_pos hc1]
      refine swap t1 t0 g1 g0 hc1.2 (fun _ _ => add_comm _ _) ?_
      rw [nz_cons, nz_cons, nz_cons, nz_cons]; omega
    rw [dif_neg hc1]
    by_cases hd : t0.diagonal ∧ t1.diagonal
    · rw [if_pos hd]
      have hrc : r = c := by
        rcases hsq with h | h
        · exact h
        · rw [if_pos (show t1.nzDiag from ⟨hd.2, z1⟩), if_pos (show t0.nzDiag from ⟨hd.1, z0⟩)] at h; omega
      obtain ⟨d0, e0, w0, s0, -⟩ := diagonalOf_ok g0.wf (diagonal_plain hd.1)
      obtain ⟨d1, e1, w1, s1, -⟩ := diagonalOf_ok g1.wf (diagonal_plain hd.2)
      have r0 : d0.rows = r := by
        have : d0.rows = min t0.rows t0.cols := s0.1
        rw [this, g0.rows, g0.cols, hrc]; simp
      have r1 : d1.rows = r := by
        have : d1.rows = min t1.rows t1.cols := s1.1
        rw [this, g1.rows, g1.cols, hrc]; simp
      obtain ⟨s, hs, hsg⟩ := sumFlat_good (r := r) (c := 1) (f := fun i _ => t0.get i i) (g := fun i _ => t1.get i i) (a := d0) (b := d1)
        ⟨w0, r0, s0.2.1, fun i hi j hj => s0.2.2 i (by omega) j (by rw [show d0.cols = 1 from s0.2.1]; exact hj)⟩
        ⟨w1, r1, s1.2.1, fun i hi j hj => s1.2.2 i (by omega) j (by rw [show d1.cols = 1 from s1.2.1]; exact hj)⟩
      have hsd := toDiagonal_same hsg.wf hsg.cols
      have gs : Good r c (fun i j => t0.get i j + t1.get i j) s.toDiagonal := by
        refine ⟨toDiagonal_wf hsg.wf hsg.cols, hsd.1.trans hsg.rows, (hsd.2.1.trans hsg.rows).trans hrc, ?_⟩
        intro i hi j hj
        have e := hsd.2.2 i (by rw [hsd.1]; simp only [Arr.diag, hsg.rows]; exact hi) j (by rw [hsd.2.1]; simp only [Arr.diag, hsg.rows]; omega)
        rw [e]
        simp only [Arr.diag]
        split_ifs with hij
        · subst hij; rw [hsg.get i hi 0 (by omega)]
        · rw [g0.wf.diagonal_get hd.1 (by rw [g0.rows]; exact hi) (by rw [g0.cols]; exact hj) hij,
            g1.wf.diagonal_get hd.2 (by rw [g1.rows]; exact hi) (by rw [g1.cols]; exact hj) hij, add_zero]
      obtain ⟨s', hs', h⟩ := step _ gs (Or.inl hrc)
      refine ⟨s', ?_, h⟩
      simp only [e0, e1, hs, bind, Except.bind]
      exact hs'
    rw [if_neg hd]
    obtain ⟨s, hs, hsg, hsn⟩ := libAdd_good g0 g1
    obtain ⟨s', hs', h⟩ := step s hsg (by
      by_cases hsd : s.nzDiag
      · exact Or.inl (hsn hsd)
      · right
        rw [nz_cons, if_neg hsd, nz_cons, nz_cons]; omega)
    exact ⟨s', by rw [hs]; exact hs', h⟩

theorem commonTri_mem {ts : List (Obj F)} {i j : ℕ} (h : ¬ (commonTri ts).mem i j) : ∀ o ∈ ts, ¬ o.triOf.mem i j := by
  intro o ho hm
  apply h
  unfold commonTri
  split_ifs with g1 g2 g3
  · rw [g1 o ho] at hm; exact hm
  · rcases g2 o ho with e | e <;> rw [e] at hm <;> simp only [Tri.mem] at hm ⊢ <;> omega
  · rcases g3 o ho with e | e <;> rw [e] at hm <;> simp only [Tri.mem] at hm ⊢ <;> omega
  · trivial

theorem toHermitian_good {n : ℕ} {f : ℕ → ℕ → F} (hg : Good n n f o) (hf : ∀ i < n, ∀ j < n, f j i = star (f i j)) :
    ∃ s, o.toHermitian = .ok s ∧ Good n n f s := by
  unfold toHermitian
  by_cases h1 : o.hermitian
  · rw [if_pos h1]; exact ⟨o, rfl, hg⟩
  rw [if_neg h1]
  have hr := hg.rows
  have hc := hg.cols
  rw [if_neg (by omega)]
  have hval : ∀ i < n, ∀ j < n, (if j ≤ i then o.get i j else star (o.get j i)) = f i j := by
    intro i hi j hj
    split_ifs with hij
    · exact hg.get i hi j hj
    · rw [hg.get j hj i hi, hf j hj i hi]
  have hvo : ∀ i < o.rows, ∀ j < o.cols, (if j ≤ i then o.get i j else star (o.get j i)) = o.get i j := by
    intro i hi j hj
    rw [hval i (by omega) j (by omega), hg.get i (by omega) j (by omega)]
  have htri : ∀ t : Tri, t = (if o.triOf.times .lower = .diagonal then Tri.diagonal else Tri.none) → t ≠ .lower ∧ t ≠ .upper := by
    intro t ht; split_ifs at ht <;> subst ht <;> simp
  have hdiag : o.triOf.times .lower = .diagonal → ∀ i < o.rows, ∀ j < o.cols, i ≠ j → o.get i j = 0 := by
    intro ht i hi j hj hij
    cases htt : o.triOf with
    | none => simp [htt, Tri.times] at ht
    | lower => simp [htt, Tri.times] at ht
    | diagonal => exact hg.wf.diagonal_get htt hi hj hij
    | upper =>
      rcases Nat.lt_or_gt_of_ne hij with h | h
      · have e := hg.wf.triOf_upper htt (i := j) (j := i) (by omega) (by omega) h
        have e2 := hf j (by omega) i (by omega)
        rw [← hg.get i (by omega) j (by omega), ← hg.get j (by omega) i (by omega), e, star_zero] at e2
        exact e2
      · exact hg.wf.triOf_upper htt hi hj h
  refine ⟨_, rfl, ⟨?_, ?_, ?_, ?_, ?_, ?_, ?_, ?_, ?_, ?_⟩, hr, hc, hval⟩
  · intro _; simp only; omega
  · intro h; exact absurd h (htri _ rfl).1
  · intro h; exact absurd h (htri _ rfl).2
  · intro h i hi j hj hij
    simp only at h hi hj ⊢
    rw [hvo i hi j hj]
    refine hdiag ?_ i hi j hj hij
    by_contra hh
    rw [if_neg hh] at h
    simp at h
  · intro v hv i hi j hj hm
    simp only at hv hm hi hj ⊢
    rw [hvo i hi j hj]
    by_cases hnc : o.constNotComplex
    · rw [if_pos hnc] at hv
      cases hv
      rcases hnc.1 with hcc | hcc
      · exact hg.wf.const_get hcc hi hj
      · have hd : o.triOf = .diagonal := WF.constDiag_diagonal hcc
        rw [if_pos (by simp [hd, Tri.times])] at hm
        have hm : i = j := hm
        rw [hg.wf.constDiag_get hcc hi hj, if_pos hm]
    · rw [if_neg hnc] at hv; simp at hv
  · intro _
    refine ⟨by simp only; omega, fun i hi j hj => ?_⟩
    simp only at hi hj ⊢
    rw [hval i (by omega) j (by omega), hval j (by omega) i (by omega), hf i (by omega) j (by omega)]
  · intro h i hi j hj
    simp only at hi hj h ⊢
    rw [hvo i hi j hj, hg.wf.real h i hi j hj]
  · intro h v hv
    simp only at hv
    by_cases hnc : o.constNotComplex
    · rw [if_pos hnc] at hv; cases hv; exact hnc.2.2
    · rw [if_neg hnc] at hv; simp at hv
  · intro _ _ _; exact (htri _ rfl).2
  · intro _ _ _; exact (htri _ rfl).1

theorem toTriangular_good {r c : ℕ} {f : ℕ → ℕ → F} (hg : Good r c f o) (t : Tri) (hf : ∀ i < r, ∀ j < c, ¬ t.mem i j → f i j = 0) :
    Good r c f (o.toTriangular t) := by
  have hs := toTriangular_same hg.wf t
  have h1 : (o.toTriangular t).rows = r := hs.1.trans hg.rows
  have h2 : (o.toTriangular t).cols = c := hs.2.1.trans hg.cols
  refine ⟨toTriangular_wf hg.wf t, h1, h2, fun i hi j hj => ?_⟩
  rw [hs.2.2 i (by omega) j (by omega)]
  simp only [maskTri]
  split_ifs with h
  · exact hg.get i hi j hj
  · exact (hf i hi j hj h).symm

theorem sum_good (r c : ℕ) (ts : List (Obj F)) (hne : ts ≠ []) (hg : AllGood r c ts) (hsq : r = c ∨ nz ts ≤ 1) :
    ∃ s, sum ts = .ok s ∧ Good r c (fun i j => (ts.map fun o => o.get i j).sum) s := by
  obtain ⟨s, hs, hgs, -⟩ := sumImpl_good r c ts hne hg hsq
  unfold sum
  rw [hs]
  simp only [bind, Except.bind]
  split_ifs with h1 h2
  · refine ⟨_, rfl, toTriangular_good hgs _ ?_⟩
    intro i hi j hj hm
    refine List.sum_eq_zero ?_
    intro x hx
    obtain ⟨o, ho, rfl⟩ := List.mem_map.1 hx
    have := hg.good ho
    exact this.wf.triOf_get (by rw [this.rows]; exact hi) (by rw [this.cols]; exact hj) (commonTri_mem hm o ho)
  · obtain ⟨o, ho⟩ := List.exists_mem_of_ne_nil ts hne
    have hrc : r = c := by
      have := (hg.good ho)
      have h := (this.wf.hermitian_get (h2.1 o ho)).1
      rw [this.rows, this.cols] at h
      exact h
    subst hrc
    obtain ⟨s', hs', hg'⟩ := toHermitian_good hgs (by
      intro i hi j hj
      have e : ∀ l : List (Obj F), (∀ o ∈ l, o ∈ ts) → (l.map fun o => o.get j i).sum = star (l.map fun o => o.get i j).sum := by
        intro l
        induction l with
        | nil => simp
        | cons x xs ih =>
          intro hl
          have hx := hg.good (hl x (by simp))
          simp only [List.map_cons, List.sum_cons]
          rw [star_add, ih (fun o ho => hl o (by simp [ho])),
            (hx.wf.hermitian_get (h2.1 x (hl x (by simp)))).2 i (by rw [hx.rows]; exact hi) j (by rw [hx.cols]; exact hj)]
      exact e ts (fun _ h => h))
    exact ⟨s', hs', hg'⟩
  · exact ⟨s, rfl, hgs⟩

end Obj
end OpenKalman.LinAlg
