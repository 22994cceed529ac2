import Verif.Proof.Factor
import Verif.Theorems.Solve

/-!
# C43: Cholesky factors and squares, LQ and QR decompositions, rank updates

`IsFactor up A L` (specification): `L` is square, lower (upper) triangular, and `L L* = A` (`L* L = A`).  The linear-algebra library's decompositions are
parameters; `FactorLib`, `LQLib`, `QRLib`, `UpdateLib`, `UpdateTriLib` say that what they return is right.
-/

namespace OpenKalman.LinAlg
open Finset Classical Obj

variable {𝕜 : Type} [RCLike 𝕜] {a u r : Obj 𝕜}

/-- C43.  The shortcuts of `cholesky_factor`: a square diagonal, constant-diagonal or zero matrix, or a constant matrix of at least two rows, with no negative
diagonal element, has a factor in lower and in upper form, whatever the library does, and `cholesky_square` returns the original matrix. -/
theorem C43_cholesky_round_trip (path : ContractPath) (lib : Tri → Obj 𝕜 → Except Err (Arr 𝕜)) {tri : Tri} (ha : a.WF) (hsq : a.rows = a.cols) (h0 : 0 < a.rows)
    (hpos : ∀ i < a.rows, 0 ≤ RCLike.re (a.get i i) ∧ RCLike.im (a.get i i) = 0) (ht : tri ≠ .none)
    (hs : a.diagonal ∨ (a.constObj ∧ tri ≠ .diagonal ∧ 2 ≤ a.rows)) :
    ∃ l s, cholFactor lib tri a = .ok l ∧ IsFactor (decide (tri = .upper)) a.toArr l.toArr ∧ cholSquare path l = .ok s ∧ s.toArr.Same a.toArr := by
  obtain ⟨l, hl, hl'⟩ := cholFactor_accepts lib ha hsq h0 hpos ht hs
  have hlib : FactorLib (fun _ _ => .error .illFormed : Tri → Obj 𝕜 → Except Err (Arr 𝕜)) tri a := by intro x hx; cases hx
  obtain ⟨s, hs', hss⟩ := cholFactor_square path ha hlib h0 (hl' _)
  exact ⟨l, s, hl, (cholFactor_sound ha hlib (hl' _)).1, hs', hss⟩

/-- C43.  Whatever branch `cholesky_factor` takes, what it returns is a factor in the form asked for, and `cholesky_square` returns the original matrix. -/
theorem C43_cholesky_factor (path : ContractPath) {lib : Tri → Obj 𝕜 → Except Err (Arr 𝕜)} {tri : Tri} (ha : a.WF) (hlib : FactorLib lib tri a) (h0 : 0 < a.rows)
    (h : cholFactor lib tri a = .ok r) :
    IsFactor (decide (tri = .upper)) a.toArr r.toArr ∧ ∃ s, cholSquare path r = .ok s ∧ s.toArr.Same a.toArr :=
  ⟨(cholFactor_sound ha hlib h).1, cholFactor_square path ha hlib h0 h⟩

/-- C43.  `cholesky_square` of every nonempty square triangular matrix: `A* A` for an upper triangle, `A A*` otherwise.  (`conjOk` excludes a conjugate adapter
holding a constant that it does not conjugate, `C39`.) -/
theorem C43_cholesky_square (path : ContractPath) (ha : a.WF) (ht : a.triOf ≠ .none) (hsq : a.rows = a.cols) (h0 : 0 < a.rows) (hc : a.conjOk) :
    ∃ s, cholSquare path a = .ok s ∧ s.toArr.Same (a.toArr.gram (decide (a.triOf = .upper))) := by
  obtain ⟨s, hs, hg⟩ := cholSquare_ok path ha ht hsq h0 hc
  have hd := Arr.gram_dims (a := a.toArr) (decide (a.triOf = .upper)) hsq
  exact ⟨s, hs, hg.same hd.1 hd.2 fun i _ j _ => (gram_get' hsq _ i j).symm⟩

/-- C43.  What `LQ_decomposition` returns is a square lower triangle `L` with `L L* = A A*`.  What is missing: a matrix already known to be lower triangular
that has more rows than columns, among them every static column vector (`C43_LQ_column_violated`). -/
theorem C43_LQ_partial {lib : Obj 𝕜 → Except Err (Arr 𝕜)} (ha : a.WF) (hlib : LQLib lib a) (hwide : a.triangular .lower → a.rows ≤ a.cols)
    (h : LQ lib a = .ok r) : IsFactor false (a.toArr.mul a.toArr.adj) r.toArr := LQ_sound ha hlib hwide h

/-- C43.  What `QR_decomposition` returns is a square upper triangle `R` with `R* R = A* A`.  What is missing: a matrix already known to be upper triangular that
has more columns than rows. -/
theorem C43_QR_partial {lib : Obj 𝕜 → Except Err (Arr 𝕜)} (ha : a.WF) (hlib : QRLib lib a) (htall : a.triangular .upper → a.cols ≤ a.rows)
    (h : QR lib a = .ok r) : IsFactor true (a.toArr.adj.mul a.toArr) r.toArr := QR_sound ha hlib htall h

/-- C43.  The constant shortcuts of both decompositions never fail on a nonempty matrix, whatever the library does. -/
theorem C43_constant_decompositions (libL libR : Obj 𝕜 → Except Err (Arr 𝕜)) (ha : a.WF) (hc : a.constObj) (hr : 0 < a.rows) (hk : 0 < a.cols)
    (hl : a.triangular .lower → a.rows ≤ a.cols) (hu : a.triangular .upper → a.cols ≤ a.rows) :
    (∃ l, LQ libL a = .ok l ∧ IsFactor false (a.toArr.mul a.toArr.adj) l.toArr) ∧ ∃ l, QR libR a = .ok l ∧ IsFactor true (a.toArr.adj.mul a.toArr) l.toArr := by
  have hfl : ∀ (up : Bool) (v : 𝕜) (n : ℕ) (st cx : Bool), 0 < n → ∃ l, firstLine up true v n st cx = .ok l := by
    intro up v n st cx hn
    unfold firstLine
    rw [if_neg (by omega)]
    by_cases c1 : n = 1
    · rw [if_pos c1, if_pos rfl]; exact ⟨_, rfl⟩
    rw [if_neg c1]
    cases up
    · exact ⟨_, rfl⟩
    · exact ⟨_, rfl⟩
  constructor
  · have key : ∃ l, ∀ lib', LQ lib' a = .ok l := by
      unfold LQ
      by_cases c1 : a.triangular .lower
      · exact ⟨_, fun _ => by rw [if_pos c1]⟩
      obtain ⟨y, hy, -⟩ := rt_nat (𝕜 := 𝕜) a.cols
      obtain ⟨l, hl⟩ := hfl false (a.constVal * y) a.rows a.statRows a.cplx hr
      exact ⟨l, fun _ => by rw [if_neg c1, if_pos hc, hy]; exact hl⟩
    obtain ⟨l, h⟩ := key
    exact ⟨l, h _, LQ_sound (lib := fun _ => .error .illFormed) ha (by intro x hx; cases hx) hl (h _)⟩
  · have key : ∃ l, ∀ lib', QR lib' a = .ok l := by
      unfold QR
      by_cases c1 : a.triangular .upper
      · exact ⟨_, fun _ => by rw [if_pos c1]⟩
      obtain ⟨y, hy, -⟩ := rt_nat (𝕜 := 𝕜) a.rows
      obtain ⟨l, hl⟩ := hfl true (a.constVal * y) a.cols a.statCols a.cplx hk
      exact ⟨l, fun _ => by rw [if_neg c1, if_pos hc, hy]; exact hl⟩
    obtain ⟨l, h⟩ := key
    exact ⟨l, h _, QR_sound (lib := fun _ => .error .illFormed) ha (by intro x hx; cases hx) hu (h _)⟩

/-- C43.  `rank_update_hermitian`: what is returned is `A + α U U*`, for a Hermitian `A` and a real `α`. -/
theorem C43_rank_update_hermitian (path : ContractPath) {lib : Obj 𝕜 → Obj 𝕜 → 𝕜 → Except Err (Arr 𝕜)} {t : Tri} {α : 𝕜} (ht : t = .lower ∨ t = .upper)
    (ha : a.WF) (hu : u.WF) (hsq : a.rows = a.cols) (hr : a.rows = u.rows) (hk : 0 < u.cols) (hc : u.conjOk)
    (hH : ∀ i < a.rows, ∀ j < a.rows, a.get j i = star (a.get i j)) (hα : star α = α) (hlib : UpdateLib lib a u α)
    (h : rankUpdateHermitian path lib t a u α = .ok r) : r.toArr.Same (a.toArr.add ((u.toArr.mul u.toArr.adj).smul α)) :=
  rankUpdateHermitian_sound path ht ha hu hsq hr hk hc hH hα hlib h

/-- C43.  `rank_update_triangular`: what is returned is a factor of `A A* + α U U*`, or of `A* A + α U U*` if `A` is upper triangular.  What is missing, each shown
to fail below: a `1 × 1` matrix `A` that is not real; a zero `A` beside a `U` that is a diagonal matrix or a static column with more rows than columns. -/
theorem C43_rank_update_triangular_partial (path : ContractPath) {libC : Tri → Obj 𝕜 → Except Err (Arr 𝕜)} {libLQ libQR : Obj 𝕜 → Except Err (Arr 𝕜)}
    {lib : Tri → Obj 𝕜 → Obj 𝕜 → 𝕜 → Except Err (Arr 𝕜)} {α : 𝕜} (ha : a.WF) (hu : u.WF) (hsq : a.rows = a.cols) (hr : a.rows = u.rows) (hk : 0 < u.cols)
    (hc : u.conjOk) (hα : star α = α) (hlibC : ∀ t s, FactorLib libC t s) (hlibLQ : ∀ p, LQLib libLQ p) (hlib : UpdateTriLib lib a u α)
    (hone : a.rows = 1 → star (a.get 0 0) = a.get 0 0) (hdu : a.zero → u.diagonal → u.rows ≤ u.cols) (hcol : a.zero → u.colsIs 1 → u.rows = 1)
    (h : rankUpdateTriangular path libC libLQ libQR lib a u α = .ok r) :
    IsFactor (decide (a.triOf = .upper)) ((a.toArr.gram (decide (a.triOf = .upper))).add ((u.toArr.mul u.toArr.adj).smul α)) r.toArr :=
  rankUpdateTriangular_sound path ha hu hsq hr hk hc hα hlibC hlibLQ hlib hone hdu hcol h

/-- C43.  Two square diagonal matrices of at least two static rows: the Hermitian update never fails, whatever the library does. -/
theorem C43_rank_update_diagonal (path : ContractPath) (lib : Obj 𝕜 → Obj 𝕜 → 𝕜 → Except Err (Arr 𝕜)) {t : Tri} {α : 𝕜} (ha : a.WF) (hu : u.WF)
    (hsq : a.rows = a.cols) (hr : a.rows = u.rows) (husq : u.rows = u.cols) (hn : 2 ≤ a.rows) (had : a.diagonal) (hud : u.diagonal) (hz : ¬ u.zero)
    (hα : star α = α) : ∃ r, rankUpdateHermitian path lib t a u α = .ok r ∧ r.toArr.Same (a.toArr.add ((u.toArr.mul u.toArr.adj).smul α)) := by
  have hreq : updateRequires a u := ⟨fun h => h.2.2 hr.symm, fun h => h.2.2 (by omega)⟩
  have hnt : u.triOf ≠ .none := by rw [show u.triOf = .diagonal from hud]; simp
  obtain ⟨s, hs, hg⟩ := cholSquare_ok path hu hnt husq (by omega) fun c hc => Or.inr (Or.inl (Or.inl ⟨by rw [hc]; rfl, hud⟩))
  obtain ⟨p, hp, hps, hpw⟩ := scalarProduct_ok (s := α) (fixed := false) (sc := a.cplx) hg.wf (fun _ => hα) (fun _ _ => by rw [hg.rows, hg.cols])
  obtain ⟨-, hgp⟩ := scaled_square path hu hud hα hs hp
  rw [← hr] at hgp
  have c1 : ¬ (u.zero ∨ a.rowsIs 1 ∨ a.colsIs 1 ∨ u.rowsIs 1) := by
    rintro (g | g | g | g)
    · exact hz g
    · have := g.2; omega
    · have := g.2; omega
    · have := g.2; omega
  unfold rankUpdateHermitian
  rw [if_neg (not_not.2 hreq), if_neg c1]
  by_cases c2 : a.zero ∧ u.diagonal
  · rw [if_pos c2, if_neg (not_not.2 hsq), hs]
    refine ⟨p, hp, hgp.same rfl hsq.symm fun i hi j hj => ?_⟩
    show _ = a.get i j + _
    rw [ha.zero_get c2.1 hi (by omega), zero_add]
    rfl
  rw [if_neg c2, if_pos ⟨had, hud⟩, hs]
  obtain ⟨q, hq, hgq⟩ := sum_good a.rows a.rows [a, p] (by simp) (by
    intro o ho
    simp only [List.mem_cons, List.not_mem_nil, or_false] at ho
    rcases ho with rfl | rfl
    · exact ⟨ha, rfl, hsq.symm⟩
    · exact ⟨hgp.wf, hgp.rows, hgp.cols⟩) (Or.inl rfl)
  refine ⟨q, ?_, hgq.same rfl hsq.symm fun i hi j hj => ?_⟩
  · show (s.scalarProduct α false a.cplx >>= fun p => sum [a, p]) = _
    rw [hp]
    exact hq
  · simp only [List.map_cons, List.map_nil, List.sum_cons, List.sum_nil, add_zero]
    rw [hgp.get i hi j hj]
    rfl

/-! ## Concrete cases -/

/-- `diag(0, 1, 4)`, lower and upper form. -/
example (path : ContractPath) (lib : Tri → Obj ℝ → Except Err (Arr ℝ)) (up : Bool) : ∃ l s,
    cholFactor lib (if up then .upper else .lower) (exDiag 3 3 fun i => i * i) = .ok l ∧
    IsFactor (decide ((if up then .upper else .lower : Tri) = .upper)) (exDiag 3 3 fun i => i * i).toArr l.toArr ∧
    cholSquare path l = .ok s ∧ s.toArr.Same (exDiag 3 3 fun i => i * i).toArr := by
  refine C43_cholesky_round_trip path lib (exDiag_wf _ _ _) rfl (by simp [exDiag]) (fun i hi => ?_) (by cases up <;> simp) (Or.inl (exDiag_diagonal _ _ _))
  simp only [exDiag, if_true]
  refine ⟨?_, by simp⟩
  simp only [RCLike.re_to_real]
  positivity

/-- A constant matrix of run-time size. -/
example (path : ContractPath) (lib : Tri → Obj ℝ → Except Err (Arr ℝ)) : ∃ l s,
    cholFactor lib .upper (mkConst 9 false 3 false 3 false false) = .ok l ∧ IsFactor true (mkConst (9 : ℝ) false 3 false 3 false false).toArr l.toArr ∧
    cholSquare path l = .ok s ∧ s.toArr.Same (mkConst (9 : ℝ) false 3 false 3 false false).toArr :=
  C43_cholesky_round_trip path lib (mkConst_wf (by simp)) rfl (by simp [mkConst]) (by simp [mkConst]) (by simp)
    (Or.inr ⟨mkConst_constObj .., by simp, by simp [mkConst]⟩)

/-- A library factorisation: `[[4, 2], [2, 2]] = L L*` with `L = [[2, 0], [1, 1]]`. -/
example (path : ContractPath) {l : Obj ℝ} (h : cholFactor (fun _ _ => .ok ⟨2, 2, fun i j => if i = 0 then (if j = 0 then 2 else 0) else 1⟩) .lower
    (exDense 2 2 true fun i j => if i = 0 ∧ j = 0 then 4 else 2) = .ok l) :
    IsFactor false (exDense 2 2 true fun i j => if i = 0 ∧ j = 0 then 4 else 2).toArr l.toArr := by
  refine (C43_cholesky_factor path (exDense_wf _ _ _ _) ?_ (by simp [exDense, dense]) h).1
  intro x hx
  cases hx
  refine ⟨⟨rfl, rfl, ?_, rfl, rfl, ?_⟩, by simp⟩
  · intro i hi j hj hij
    simp only at hi hj
    interval_cases i <;> interval_cases j <;> simp_all
  · intro i hi j hj
    have hi' : i < 2 := hi
    have hj' : j < 2 := hj
    interval_cases i <;> interval_cases j <;>
      simp [Obj.Tri.isUp, Arr.gram, Arr.mul, Arr.adj, Arr.transpose, Arr.conj, Arr.map, exDense, dense, Finset.sum_range_succ] <;> norm_num

/-- A dense upper triangle. -/
example (path : ContractPath) : ∃ s, cholSquare path (exTri 3 false none) = .ok s ∧
    s.toArr.Same ((exTri 3 false none).toArr.gram (decide ((exTri 3 false none).triOf = .upper))) :=
  C43_cholesky_square path (exTri_wf 3 false none (by simp)) (by simp [triOf, exTri, zero, oneDim, rowsIs, colsIs]) rfl (by simp [exTri])
    (fun c hc => by simp [exTri] at hc)

/-- A constant matrix with two rows and five columns. -/
example (libL libR : Obj ℝ → Except Err (Arr ℝ)) : (∃ l, LQ libL (mkConst 3 true 2 true 5 true false) = .ok l ∧
    IsFactor false ((mkConst (3 : ℝ) true 2 true 5 true false).toArr.mul (mkConst (3 : ℝ) true 2 true 5 true false).toArr.adj) l.toArr) ∧
    ∃ l, QR libR (mkConst 3 true 2 true 5 true false) = .ok l ∧
    IsFactor true ((mkConst (3 : ℝ) true 2 true 5 true false).toArr.adj.mul (mkConst (3 : ℝ) true 2 true 5 true false).toArr) l.toArr := by
  refine C43_constant_decompositions libL libR (mkConst_wf (by simp)) (mkConst_constObj ..) (by simp [mkConst]) (by simp [mkConst]) (by simp [mkConst]) ?_
  intro h
  simp [triangular, triOf, zero, oneDim, mkConst, rowsIs, colsIs] at h

/-- A row vector and a column vector are decomposed by the library. -/
example {l : Obj ℝ} (h : LQ (fun _ => .ok ⟨1, 1, fun _ _ => 5⟩) (exDense 1 2 true fun _ j => if j = 0 then 3 else 4) = .ok l) :
    IsFactor false ((exDense 1 2 true fun _ j => if j = 0 then 3 else 4).toArr.mul (exDense 1 2 true fun _ j => if j = 0 then 3 else 4).toArr.adj) l.toArr := by
  refine C43_LQ_partial (exDense_wf _ _ _ _) ?_ (by simp [exDense, dense]) h
  intro x hx
  cases hx
  refine ⟨⟨rfl, rfl, ?_, rfl, rfl, ?_⟩, by simp⟩
  · intro i hi j hj hij
    simp only at hi hj
    omega
  · intro i hi j hj
    simp only [Arr.gram, Arr.mul, exDense, dense, Arr.adj, Arr.transpose, Arr.conj, Arr.map] at hi hj ⊢
    simp [Finset.sum_range_succ]
    norm_num

example {l : Obj ℝ} (h : QR (fun _ => .ok ⟨1, 1, fun _ _ => 5⟩) (exDense 2 1 true fun i _ => if i = 0 then 3 else 4) = .ok l) :
    IsFactor true ((exDense 2 1 true fun i _ => if i = 0 then 3 else 4).toArr.adj.mul (exDense 2 1 true fun i _ => if i = 0 then 3 else 4).toArr) l.toArr := by
  refine C43_QR_partial (exDense_wf _ _ _ _) ?_ (by simp [exDense, dense]) h
  intro x hx
  cases hx
  refine ⟨⟨rfl, rfl, ?_, rfl, rfl, ?_⟩, by simp⟩
  · intro i hi j hj hij
    simp only at hi hj
    omega
  · intro i hi j hj
    simp only [Arr.gram, Arr.mul, exDense, dense, Arr.adj, Arr.transpose, Arr.conj, Arr.map] at hi hj ⊢
    simp [Finset.sum_range_succ]
    norm_num

/-- Diagonal matrices: `diag(1, 2, 3) - 5 diag(1, 2, 3)²`. -/
example (path : ContractPath) (lib : Obj ℝ → Obj ℝ → ℝ → Except Err (Arr ℝ)) (t : Tri) :
    ∃ r, rankUpdateHermitian path lib t (exDiag 3 3 fun i => i + 1) (exDiag 3 3 fun i => i + 1) (-5) = .ok r ∧ r.toArr.Same
      ((exDiag 3 3 fun i => i + 1).toArr.add (((exDiag 3 3 fun i => i + 1).toArr.mul (exDiag 3 3 fun i => i + 1).toArr.adj).smul (-5))) :=
  C43_rank_update_diagonal path lib (exDiag_wf _ _ _) (exDiag_wf _ _ _) rfl rfl rfl (by simp [exDiag]) (exDiag_diagonal _ _ _) (exDiag_diagonal _ _ _)
    (exDiag_zero _ _ _) (by simp)

/-- A `1 × 1` Hermitian matrix updated by a row. -/
example (path : ContractPath) (lib : Obj ℝ → Obj ℝ → ℝ → Except Err (Arr ℝ)) (hlib : UpdateLib lib (exDense 1 1 true fun _ _ => 2) (exDense 1 3 true fun _ j => j) 2)
    {r : Obj ℝ} (h : rankUpdateHermitian path lib .lower (exDense 1 1 true fun _ _ => 2) (exDense 1 3 true fun _ j => j) 2 = .ok r) :
    r.toArr.Same ((exDense 1 1 true fun _ _ => 2).toArr.add (((exDense 1 3 true fun _ j => j).toArr.mul (exDense 1 3 true fun _ j => j).toArr.adj).smul 2)) :=
  C43_rank_update_hermitian path (Or.inl rfl) (exDense_wf _ _ _ _) (exDense_wf _ _ _ _) rfl rfl (by simp [exDense, dense])
    (fun c hc => by simp [exDense, dense] at hc) (by simp [exDense, dense]) (by simp) hlib h

/-- Diagonal matrices: a factor of `diag(1, 2, 3)² + 2 diag(1, 2, 3)²`. -/
example (path : ContractPath) {r : Obj ℝ} (h : rankUpdateTriangular path (fun _ _ => .error .illFormed) (fun _ => .error .illFormed) (fun _ => .error .illFormed)
    (fun _ _ _ _ => .error .illFormed) (exDiag 3 3 fun i => i + 1) (exDiag 3 3 fun i => i + 1) 2 = .ok r) :
    IsFactor (decide ((exDiag 3 3 fun i => i + 1).triOf = .upper)) (((exDiag 3 3 fun i => i + 1).toArr.gram (decide ((exDiag 3 3 fun i => i + 1).triOf = .upper))).add
      (((exDiag 3 3 fun i => i + 1).toArr.mul (exDiag 3 3 fun i => i + 1).toArr.adj).smul 2)) r.toArr :=
  C43_rank_update_triangular_partial path (exDiag_wf _ _ _) (exDiag_wf _ _ _) rfl rfl (by simp [exDiag]) (fun c hc => by simp [exDiag] at hc) (by simp)
    (fun _ _ x hx => by cases hx) (fun _ x hx => by cases hx) (fun x hx => by cases hx) (by simp [exDiag]) (fun h => absurd h (exDiag_zero _ _ _))
    (fun h => absurd h (exDiag_zero _ _ _)) h

/-! ## Violations -/

/-- C43.  The LQ decomposition of a static column vector keeps only its first element: `A A*` is `m × m`, but the result is `1 × 1`. -/
theorem C43_LQ_column_violated (lib : Obj ℝ → Except Err (Arr ℝ)) (m : ℕ) (hm : 2 ≤ m) (g : ℕ → ℕ → ℝ) :
    ∃ l, LQ lib (exDense m 1 true g) = .ok l ∧ ¬ IsFactor false ((exDense m 1 true g).toArr.mul (exDense m 1 true g).toArr.adj) l.toArr := by
  have ht : (exDense m 1 true g).triOf = .lower := dense_col_triOf rfl (by simp only; omega)
  have ht' : (exDense m 1 true g).triangular .lower := Or.inl ht.symm
  refine ⟨(exDense m 1 true g).clipSquare, by unfold LQ; rw [if_pos ht'], fun h => ?_⟩
  have h1 : (exDense m 1 true g).clipSquare.rows = m := h.1
  have h2 := (clipSquare_dims (exDense_wf m 1 true g)).1
  simp only [exDense, dense] at h1 h2
  omega

/-- C43.  The Cholesky factor of a constant matrix whose run-time size is one throws `std::length_error`, though the factor exists. -/
theorem C43_cholesky_one_violated (lib : Tri → Obj ℝ → Except Err (Arr ℝ)) (fixed : Bool) :
    (mkConst (4 : ℝ) fixed 1 false 1 false false).WF ∧ (∃ l, IsFactor false (mkConst (4 : ℝ) fixed 1 false 1 false false).toArr l) ∧
    cholFactor lib .lower (mkConst (4 : ℝ) fixed 1 false 1 false false) = .error .lengthError := by
  refine ⟨mkConst_wf (by simp), ⟨⟨1, 1, fun _ _ => 2⟩, rfl, rfl, ?_, rfl, rfl, ?_⟩, ?_⟩
  · intro i hi j hj hij
    simp only at hi hj
    omega
  · intro i hi j hj
    simp [Arr.gram, Arr.mul, Arr.adj, Arr.transpose, Arr.conj, Arr.map, mkConst]
    norm_num
  · have h1 : ¬ (mkConst (4 : ℝ) fixed 1 false 1 false false).zero := by simp [zero, mkConst]
    have h2 : ¬ (mkConst (4 : ℝ) fixed 1 false 1 false false).oneDim := by simp [oneDim, rowsIs, colsIs, square, mkConst]
    have h3 : ¬ (mkConst (4 : ℝ) fixed 1 false 1 false false).diagonal := by
      unfold diagonal triOf
      rw [if_neg (by rintro (h | h | h); exacts [h1 h, h2 h, by simp [mkConst] at h]), if_neg (by simp [colsIs, mkConst]), if_neg (by simp [rowsIs, mkConst])]
      simp [mkConst]
    have h4 : ¬ (mkConst (4 : ℝ) fixed 1 false 1 false false).constDiag := fun h => h3 (WF.constDiag_diagonal h)
    obtain ⟨y, hy⟩ := rt_accepts (x := (mkConst (4 : ℝ) fixed 1 false 1 false false).constVal) (by simp [constVal, mkConst]) (by simp)
    unfold cholFactor
    rw [if_neg (by simp), if_neg (by simp [mkConst]), if_neg (by rintro (h | h); exacts [h1 h, h4 h.1]), if_neg h4, if_pos (mkConst_constObj ..), if_neg (by simp), hy]
    show firstLine (decide (Tri.lower = Tri.upper)) false y 1 false false = _
    unfold firstLine
    rw [if_neg (by simp), if_pos rfl, if_neg (by simp)]

/-- A `1 × 1` complex matrix. -/
def exOne (z : ℂ) : Obj ℂ := dense ⟨1, 1, fun _ _ => z⟩ true true true

/-- C43.  The triangular rank update of a complex `1 × 1` matrix squares the element without conjugating it: with `A = i`, `U = 2` and `α = 1` the result is a root
of 3, not of 5. -/
theorem C43_rank_update_complex_violated (path : ContractPath) (libC : Tri → Obj ℂ → Except Err (Arr ℂ)) (libLQ libQR : Obj ℂ → Except Err (Arr ℂ))
    (lib : Tri → Obj ℂ → Obj ℂ → ℂ → Except Err (Arr ℂ)) : (exOne Complex.I).WF ∧ (exOne 2).WF ∧
    ∃ r, rankUpdateTriangular path libC libLQ libQR lib (exOne Complex.I) (exOne 2) 1 = .ok r ∧
      ¬ IsFactor false (((exOne Complex.I).toArr.gram false).add (((exOne 2).toArr.mul (exOne 2).toArr.adj).smul 1)) r.toArr := by
  have hw : ∀ z, (exOne z).WF := fun z => dense_wf (by simp)
  refine ⟨hw _, hw _, ?_⟩
  have ht : (exOne Complex.I).triOf = .diagonal := triOf_diag (Or.inr (Or.inl (dense_oneDim.2 ⟨⟨rfl, rfl⟩, rfl, rfl⟩)))
  have hcok : (exOne 2).conjOk := fun c hc => by simp [exOne, dense] at hc
  obtain ⟨s, hs, hss, hsw, -⟩ := conjugateTranspose_ok (hw 2)
  have hsr : s.rows = 1 := hss.1
  have hsc : s.cols = 1 := hss.2.1
  obtain ⟨p, hp, -⟩ := contract_ok path (hw 2) (hsw hcok) (by rw [hsr]; rfl) (fun _ _ _ => by rw [hsc]; exact ⟨le_refl 1, Nat.one_pos⟩) (fun _ _ _ _ => by rw [hsr, hsc]; exact ⟨le_refl 1, Nat.one_pos⟩)
    (fun _ _ _ _ _ => by rw [hsc]; exact ⟨rfl, le_refl 1, Nat.one_pos⟩)
  have hp0 := contract_outer path (hw 2) hcok rfl Nat.one_pos hs hp
  have hout : outer (exOne 2).toArr 0 0 = 4 := by
    simp [outer, exOne, dense]
    norm_num
  rw [hout] at hp0
  have hx : (exOne Complex.I).get 0 0 * (exOne Complex.I).get 0 0 + 1 * p.get 0 0 = 3 := by
    rw [hp0]
    show Complex.I * Complex.I + 1 * 4 = 3
    rw [Complex.I_mul_I]; norm_num
  obtain ⟨e, he⟩ := rt_accepts (x := (3 : ℂ)) (by simp) (by simp)
  obtain ⟨hes, hee⟩ := rt_ok he
  refine ⟨toTriangular (exOne Complex.I).updateTri (dense ⟨1, 1, fun _ _ => e⟩ true true true), ?_, fun h => ?_⟩
  · unfold rankUpdateTriangular
    have hreq : updateRequires (exOne Complex.I) (exOne 2) := ⟨by simp [exOne, dense], by simp [exOne, dense]⟩
    have hz : ¬ (exOne 2).zero := dense_not_zero
    have h1 : (exOne Complex.I).rowsIs 1 := ⟨rfl, rfl⟩
    rw [if_neg (by rw [ht]; simp [hreq]), if_neg hz, if_pos (Or.inl h1), if_neg (by simp [exOne, dense]), hs]
    show (contract path (exOne 2) s >>= _) = _
    rw [hp]
    show (rt ((exOne Complex.I).get 0 0 * (exOne Complex.I).get 0 0 + 1 * p.get 0 0) >>= _) = _
    rw [hx, he]
    rfl
  · have htt : toTriangular (exOne Complex.I).updateTri (dense ⟨1, 1, fun _ _ => e⟩ true true true) = dense ⟨1, 1, fun _ _ => e⟩ true true true := by
      unfold toTriangular
      rw [if_pos]
      exact Or.inr ⟨(updateTri_cases _).symm, triOf_diag (Or.inr (Or.inl (dense_oneDim.2 ⟨⟨rfl, rfl⟩, rfl, rfl⟩)))⟩
    rw [htt] at h
    have h' := h.2.2.2.2.2 0 (by simp [Arr.gram, Arr.mul, dense]) 0 (by simp [Arr.gram, Arr.mul, dense, Arr.adj, Arr.transpose, Arr.conj, Arr.map])
    simp only [Arr.gram, Arr.mul, Arr.adj, Arr.transpose, Arr.conj, Arr.map, Arr.add, Arr.smul, dense, exOne, Bool.false_eq_true, if_false, Finset.sum_range_one] at h'
    rw [hes, hee] at h'
    have h3 : (3 : ℂ) = 5 := by
      rw [h']
      simp
      norm_num
    norm_num at h3

/-- C43.  The triangular rank update of a zero matrix by a tall diagonal matrix is as small as the diagonal. -/
theorem C43_rank_update_zero_violated (path : ContractPath) (libC : Tri → Obj ℝ → Except Err (Arr ℝ)) (libLQ libQR : Obj ℝ → Except Err (Arr ℝ))
    (lib : Tri → Obj ℝ → Obj ℝ → ℝ → Except Err (Arr ℝ)) (m n : ℕ) (hn : 2 ≤ n) (hmn : n < m) (d : ℕ → ℝ) :
    ∃ r, rankUpdateTriangular path libC libLQ libQR lib (mkConst 0 true m true m true false) (exDiag m n d) 1 = .ok r ∧ r.rows = n := by
  have hz : (mkConst (0 : ℝ) true m true m true false).zero := ⟨rfl, rfl⟩
  have ht : (mkConst (0 : ℝ) true m true m true false).triOf = .diagonal := triOf_diag (Or.inl hz)
  obtain ⟨y, hy⟩ := rt_accepts (x := (1 : ℝ)) (by simp) (by simp)
  have hys := (rt_ok hy).1
  have hdg := exDiag_diagonal m n d
  have hw := exDiag_wf m n d
  obtain ⟨v, hv, hvw, hvs, hvc⟩ := diagonalOf_ok hw (diagonal_plain hdg)
  obtain ⟨p, hp, hps, hpw⟩ := scalarProduct_ok (s := y) (fixed := false) (sc := false) hvw (fun _ => hys)
    (fun h1 h2 => absurd (constDiag_constObj_of (diagonalOf_col hw (diagonal_plain hdg) hv) h1) h2)
  have hpr : p.rows = n := by
    have e1 : p.rows = v.rows := hps.1
    have e2 : v.rows = min m n := hvs.1
    omega
  refine ⟨p.toDiagonal, ?_, ?_⟩
  · unfold rankUpdateTriangular
    have hreq : updateRequires (mkConst (0 : ℝ) true m true m true false) (exDiag m n d) := ⟨by simp [mkConst, exDiag], by simp [mkConst, exDiag]⟩
    rw [if_neg (by rw [ht]; simp [hreq]), if_neg (exDiag_zero _ _ _),
      if_neg (by simp only [rowsIs, colsIs, mkConst, exDiag]; omega), if_pos hz, hy]
    show (if (exDiag m n d).diagonal then _ else _) = _
    rw [if_pos hdg, hv]
    show (v.scalarProduct y false false >>= _) = _
    rw [hp]
    rfl
  · have hpc : p.cols = 1 := by
      have e1 : p.cols = v.cols := hps.2.1
      have e2 : v.cols = 1 := hvs.2.1
      omega
    have := (toDiagonal_same hpw hpc).1
    exact this.trans hpr

end OpenKalman.LinAlg
