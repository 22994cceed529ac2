import Verif.Model.MonteAngle
import Verif.Spec.MonteAngle
import Verif.Proof.Angular
import Verif.Theorems.Angular
import Verif.Theorems.MonteCarlo
import Mathlib.Tactic.Linarith

/-! # Lemmas for the Monte Carlo transform with angular inputs -/

namespace OpenKalman.MonteAngle
open Matrix Kalman OpenKalman.Angular OpenKalman.MonteCarlo OpenKalman.Patterns

variable {n m : ℕ}

theorem makeMean_eq {es : List Elem} (ha : AxesAndAngles es) {x : List ℝ} (hx : x.length = (coordsOf es).length) :
    makeMean es x = some ⟨.mean, wrapVec es x⟩ := by
  obtain ⟨m, h1, -, h3, -⟩ := C78_construct es ha x hx
  rw [h3, ← h1]
  simp [ofNested, wrapAngles_vec es ha x hx]

theorem ofNested_eq {es : List Elem} (ha : AxesAndAngles es) {x : List ℝ} (hx : x.length = (coordsOf es).length) :
    ofNested es x = some ⟨.mean, wrapVec es x⟩ := by
  simp [ofNested, wrapAngles_vec es ha x hx]

/-- What the reduction computes for the mean of the inputs when one sample is added. -/
theorem meanWithOne_eq {es : List Elem} (ha : AxesAndAngles es) (hn : (coordsOf es).length = n) (s1 s2 : MSum ℝ n m) {k : ℝ} (hk : k ≠ 0) :
    meanWithOne es s1 s2 k = some (numbers ⟨.mean, wrapVec es (vscale (1 / k) (wrapVec es (vadd (wrapVec es (vscale s1.count (List.ofFn s1.x))) (List.ofFn s2.x))))⟩) := by
  have l1 : (List.ofFn s1.x).length = (coordsOf es).length := by simp [hn]
  have l2 : (List.ofFn s2.x).length = (coordsOf es).length := by simp [hn]
  unfold meanWithOne
  simp only [held, scale, makeMean_eq ha (vscale_length _ l1), Option.bind_eq_bind, Option.bind_some, Angular.add,
    makeMean_eq ha (vadd_length (wrapVec_length es _) l2), divide, if_neg hk, makeMean_eq ha (vscale_length _ (wrapVec_length es _))]
  rfl

theorem meanWithMany_eq {es : List Elem} (ha : AxesAndAngles es) (hn : (coordsOf es).length = n) (s1 s2 : MSum ℝ n m) {k : ℝ} (hk : k ≠ 0) :
    meanWithMany es s1 s2 k = some (numbers ⟨.mean, wrapVec es (vscale (1 / k) (wrapVec es (vadd (wrapVec es (vscale s1.count (List.ofFn s1.x)))
      (wrapVec es (vscale s2.count (List.ofFn s2.x))))))⟩) := by
  have l1 : (List.ofFn s1.x).length = (coordsOf es).length := by simp [hn]
  have l2 : (List.ofFn s2.x).length = (coordsOf es).length := by simp [hn]
  unfold meanWithMany
  simp only [held, scale, makeMean_eq ha (vscale_length _ l1), makeMean_eq ha (vscale_length _ l2), Option.bind_eq_bind, Option.bind_some, Angular.add,
    makeMean_eq ha (vadd_length (wrapVec_length es _) (wrapVec_length es _)), divide, if_neg hk, makeMean_eq ha (vscale_length _ (wrapVec_length es _))]
  rfl

theorem ofFn_get (x : Fin n → ℝ) (a : Fin n) : (List.ofFn x).getD a 0 = x a := by
  simp [List.getD_eq_getElem?_getD]

theorem numbers_sub (s1 s2 : Fin n → ℝ) : sub (held s2) (held s1) = some ⟨.matrix, vsub (List.ofFn s2) (List.ofFn s1)⟩ := rfl

theorem numbers_vsub (s1 s2 : Fin n → ℝ) : (numbers ⟨.matrix, vsub (List.ofFn s2) (List.ofFn s1)⟩ : Fin n → ℝ) = s2 - s1 := by
  funext a
  show (vsub _ _).getD a 0 = _
  rw [vsub_get (n := n) (by simp) (by simp), ofFn_get, ofFn_get]
  rfl

/-- When the mean of the inputs comes out exact, the operation is that of Euclidean inputs. -/
theorem op_eq (es : List Elem) (lib : Lib ℝ) (s1 s2 : MSum ℝ n m)
    (h1 : s2.count = 1 → meanWithOne es s1 s2 ((s1.count + 1 : ℕ) : ℝ) = some (((s1.count + 1 : ℕ) : ℝ)⁻¹ • ((s1.count : ℝ) • s1.x + s2.x)))
    (h0 : s1.count + s2.count ≠ 0)
    (h2 : meanWithMany es s1 s2 ((s1.count + s2.count : ℕ) : ℝ) = some (((s1.count + s2.count : ℕ) : ℝ)⁻¹ • ((s1.count : ℝ) • s1.x + (s2.count : ℝ) • s2.x))) :
    op es lib s1 s2 = s1.op lib s2 := by
  unfold op MSum.op
  by_cases hc : s2.count = 1
  · rw [if_pos hc, if_pos hc]
    simp only [h1 hc, Option.bind_some, numbers_sub, numbers_vsub]
  · rw [if_neg hc, if_neg hc]
    simp only [h2, Option.bind_some, numbers_sub, numbers_vsub, if_neg h0]

theorem canonical_between {c : Coord} {x y z : ℝ} (hx : c.Canonical x) (hz : c.Canonical z) (h1 : x ≤ y) (h2 : y ≤ z) : c.Canonical y := by
  match c with
  | .line => trivial
  | .circle mn mx true => exact ⟨lt_of_lt_of_le hx.1 h1, h2.trans hz.2⟩
  | .circle mn mx false => exact ⟨hx.1.trans h1, lt_of_le_of_lt h2 hz.2⟩

theorem sum_max_nonneg {α : Type} (l : List α) (f : α → ℝ) : 0 ≤ (l.map fun s => max (f s) 0).sum := by
  apply List.sum_nonneg
  intro x hx
  obtain ⟨s, -, rfl⟩ := List.mem_map.mp hx
  exact le_max_right _ _

theorem sum_min_nonpos {α : Type} (l : List α) (f : α → ℝ) : (l.map fun s => min (f s) 0).sum ≤ 0 := by
  induction l with
  | nil => simp
  | cons a l ih =>
    simp only [List.map_cons, List.sum_cons]
    have := min_le_right (f a) 0
    linarith

theorem sum_le_max {α : Type} (l : List α) (f : α → ℝ) : (l.map f).sum ≤ (l.map fun s => max (f s) 0).sum := by
  induction l with
  | nil => simp
  | cons a l ih =>
    simp only [List.map_cons, List.sum_cons]
    have := le_max_left (f a) 0
    linarith

theorem min_le_sum {α : Type} (l : List α) (f : α → ℝ) : (l.map fun s => min (f s) 0).sum ≤ (l.map f).sum := by
  induction l with
  | nil => simp
  | cons a l ih =>
    simp only [List.map_cons, List.sum_cons]
    have := min_le_left (f a) 0
    linarith

/-- Between the sum of the negative and that of the positive numbers. -/
theorem narrow_between {c : Coord} {l : List (Sample ℝ n m)} {a : Fin n} (h : Narrow c l a) {y : ℝ}
    (h1 : (l.map fun s => min (s.x a) 0).sum ≤ y) (h2 : y ≤ (l.map fun s => max (s.x a) 0).sum) : c.Canonical y :=
  canonical_between h.2 h.1 h1 h2

theorem narrow_left {c : Coord} {l l' : List (Sample ℝ n m)} {a : Fin n} (h : Narrow c (l ++ l') a) : Narrow c l a := by
  have e1 := sum_max_nonneg l' fun s => s.x a
  have e2 := sum_min_nonpos l' fun s => s.x a
  have e3 := sum_max_nonneg l fun s => s.x a
  have e4 := sum_min_nonpos l fun s => s.x a
  have e5 := sum_max_nonneg (l ++ l') fun s => s.x a
  have e6 := sum_min_nonpos (l ++ l') fun s => s.x a
  have s1 : ((l ++ l').map fun s => max (s.x a) 0).sum = (l.map fun s => max (s.x a) 0).sum + (l'.map fun s => max (s.x a) 0).sum := by simp
  have s2 : ((l ++ l').map fun s => min (s.x a) 0).sum = (l.map fun s => min (s.x a) 0).sum + (l'.map fun s => min (s.x a) 0).sum := by simp
  exact ⟨narrow_between h (by linarith) (by linarith), narrow_between h (by linarith) (by linarith)⟩

theorem narrow_perm {c : Coord} {l l' : List (Sample ℝ n m)} (p : l.Perm l') {a : Fin n} (h : Narrow c l a) : Narrow c l' a := by
  unfold Narrow at h ⊢
  rwa [(p.map _).sum_eq, (p.map fun s : Sample ℝ n m => min (s.x a) 0).sum_eq] at h

theorem narrow_right {c : Coord} {l l' : List (Sample ℝ n m)} {a : Fin n} (h : Narrow c (l ++ l') a) : Narrow c l' a :=
  narrow_left (narrow_perm List.perm_append_comm h)

/-- The sum and the mean of narrow samples are left alone. -/
theorem narrow_sum {c : Coord} {l : List (Sample ℝ n m)} {a : Fin n} (h : Narrow c l a) : c.Canonical (l.map fun s => s.x a).sum :=
  narrow_between h (min_le_sum l _) (sum_le_max l _)

theorem div_between {lo hi s : ℝ} {k : ℕ} (h0 : lo ≤ 0) (h1 : 0 ≤ hi) (hk : k ≠ 0) (h2 : lo ≤ s) (h3 : s ≤ hi) : lo ≤ s / k ∧ s / k ≤ hi := by
  have hk' : (1 : ℝ) ≤ k := by exact_mod_cast Nat.one_le_iff_ne_zero.mpr hk
  have hp : (0 : ℝ) < k := by linarith
  constructor
  · rw [le_div_iff₀ hp]; nlinarith
  · rw [div_le_iff₀ hp]; nlinarith

theorem narrow_avg {c : Coord} {l : List (Sample ℝ n m)} {a : Fin n} (h : Narrow c l a) (hl : l.length ≠ 0) : c.Canonical (avg l fun s => s.x a) := by
  obtain ⟨h1, h2⟩ := div_between (sum_min_nonpos l _) (sum_max_nonneg l _) hl (min_le_sum l fun s => s.x a) (sum_le_max l fun s => s.x a)
  exact narrow_between h h1 h2

/-- Wrapping leaves a vector of canonical numbers alone. -/
theorem wrap_ofFn {es : List Elem} (hn : (coordsOf es).length = n) (x : Fin n → ℝ)
    (h : ∀ (a : Fin n) (c : Coord), (coordsOf es)[(a : ℕ)]? = some c → c.Canonical (x a)) : wrapVec es (List.ofFn x) = List.ofFn x := by
  refine wrapVec_of_canonical ⟨by simp [hn], fun i c hc => ?_⟩
  have hi : i < n := by rw [← hn]; exact (List.getElem?_eq_some_iff.mp hc).1
  have := ofFn_get x ⟨i, hi⟩
  simp only at this
  rw [this]
  exact h ⟨i, hi⟩ c hc

theorem vscale_ofFn (k : ℝ) (x : Fin n → ℝ) : vscale k (List.ofFn x) = List.ofFn (k • x) := by
  simp only [vscale, List.map_ofFn]
  rfl

theorem vadd_ofFn (x y : Fin n → ℝ) : vadd (List.ofFn x) (List.ofFn y) = List.ofFn (x + y) := by
  refine vec_ext (n := n) (by simp [vadd]) (by simp) fun i hi => ?_
  rw [vadd_get (n := n) (by simp) (by simp)]
  have e1 := ofFn_get x ⟨i, hi⟩
  have e2 := ofFn_get y ⟨i, hi⟩
  have e3 := ofFn_get (x + y) ⟨i, hi⟩
  simp only at e1 e2 e3
  rw [e1, e2, e3]; rfl

theorem numbers_ofFn (k : Angular.Kind) (x : Fin n → ℝ) : (numbers ⟨k, List.ofFn x⟩ : Fin n → ℝ) = x := by
  funext a
  exact ofFn_get x a

/-- The samples are narrow in every coordinate. -/
def AllNarrow (es : List Elem) (l : List (Sample ℝ n m)) : Prop := ∀ (a : Fin n) (c : Coord), (coordsOf es)[(a : ℕ)]? = some c → Narrow c l a

theorem stats_scaled (l : List (Sample ℝ n m)) : ((stats l).count : ℝ) • (stats l).x = fun a => (l.map fun s => s.x a).sum := by
  funext a
  exact avg_mul l _

theorem wrap_sum {es : List Elem} (hn : (coordsOf es).length = n) {l : List (Sample ℝ n m)} (h : AllNarrow es l) :
    wrapVec es (List.ofFn fun a => (l.map fun s => s.x a).sum) = List.ofFn fun a => (l.map fun s => s.x a).sum :=
  wrap_ofFn hn _ fun a c hc => narrow_sum (h a c hc)

theorem meanWithMany_stats {es : List Elem} (ha : AxesAndAngles es) (hn : (coordsOf es).length = n) {l l' : List (Sample ℝ n m)}
    (h : AllNarrow es (l ++ l')) (h0 : l.length + l'.length ≠ 0) :
    meanWithMany es (stats l) (stats l') ((l.length + l'.length : ℕ) : ℝ) =
      some (((l.length + l'.length : ℕ) : ℝ)⁻¹ • (((stats l).count : ℝ) • (stats l).x + ((stats l').count : ℝ) • (stats l').x)) := by
  have hk : ((l.length + l'.length : ℕ) : ℝ) ≠ 0 := by exact_mod_cast h0
  have hsum : (fun a => (l.map fun s => s.x a).sum) + (fun a => (l'.map fun s => s.x a).sum) = fun a : Fin n => ((l ++ l').map fun s => s.x a).sum := by
    funext a; simp
  rw [meanWithMany_eq ha hn _ _ hk, vscale_ofFn, vscale_ofFn, stats_scaled, stats_scaled, wrap_sum hn fun a c hc => narrow_left (h a c hc),
    wrap_sum hn fun a c hc => narrow_right (h a c hc), vadd_ofFn, hsum, wrap_sum hn h, vscale_ofFn, one_div, wrap_ofFn hn, numbers_ofFn]
  intro a c hc
  have := narrow_avg (h a c hc) (by simpa using h0)
  unfold avg at this
  rwa [div_eq_inv_mul, List.length_append] at this

theorem meanWithOne_stats {es : List Elem} (ha : AxesAndAngles es) (hn : (coordsOf es).length = n) {l l' : List (Sample ℝ n m)}
    (h : AllNarrow es (l ++ l')) (h1 : l'.length = 1) :
    meanWithOne es (stats l) (stats l') ((l.length + 1 : ℕ) : ℝ) = some (((l.length + 1 : ℕ) : ℝ)⁻¹ • (((stats l).count : ℝ) • (stats l).x + (stats l').x)) := by
  have hk : ((l.length + 1 : ℕ) : ℝ) ≠ 0 := Nat.cast_ne_zero.mpr (Nat.succ_ne_zero _)
  have hsum : (fun a => (l.map fun s => s.x a).sum) + (fun a => (l'.map fun s => s.x a).sum) = fun a : Fin n => ((l ++ l').map fun s => s.x a).sum := by
    funext a; simp
  have hx : (stats l').x = fun a => (l'.map fun s => s.x a).sum := by
    rw [← stats_scaled]
    show _ = ((l'.length : ℕ) : ℝ) • _
    rw [h1]; simp
  rw [meanWithOne_eq ha hn _ _ hk, vscale_ofFn, stats_scaled, hx, wrap_sum hn fun a c hc => narrow_left (h a c hc), vadd_ofFn, hsum, wrap_sum hn h,
    vscale_ofFn, one_div, wrap_ofFn hn, numbers_ofFn]
  intro a c hc
  have := narrow_avg (h a c hc) (by simp [h1])
  unfold avg at this
  rwa [div_eq_inv_mul, List.length_append, h1] at this

/-- Narrow samples have the statistics of Euclidean ones. -/
theorem reduce_stats {es : List Elem} (ha : AxesAndAngles es) (hn : (coordsOf es).length = n) (lib : Lib ℝ) (t : Tree ℝ n m) (h : t.inits ≤ 1)
    (hnar : AllNarrow es t.samples) : reduce es lib t = some (stats t.samples) := by
  induction t with
  | init =>
    have := MonteCarlo.reduce_stats lib (.init : Tree ℝ n m) h
    exact this
  | leaf s =>
    have hw : wrapVec es (List.ofFn s.x) = List.ofFn s.x := wrap_ofFn hn _ fun a c hc => by
      have := narrow_sum (hnar a c hc)
      simpa [Tree.samples] using this
    rw [← MonteCarlo.reduce_stats lib (.leaf s : Tree ℝ n m) h]
    simp only [reduce, one, Tree.reduce, ofNested_eq ha (x := List.ofFn s.x) (by simp [hn]), Option.bind_some, hw, numbers_ofFn]
    rfl
  | node l r ihl ihr =>
    simp only [Tree.inits] at h
    simp only [reduce, ihl (by omega) fun a c hc => narrow_left (hnar a c hc), ihr (by omega) fun a c hc => narrow_right (hnar a c hc), Option.bind_some,
      Tree.samples]
    have h0 : l.samples.length + r.samples.length ≠ 0 := by
      by_cases hl : l.inits = 0
      · have := Tree.samples_ne hl
        omega
      · have := Tree.samples_ne (t := r) (by omega)
        omega
    rw [op_eq es lib _ _ (fun h1 => meanWithOne_stats ha hn hnar h1) h0 (meanWithMany_stats ha hn hnar h0)]
    exact op_stats lib _ _ h0

/-- Two sums that agree except for the inputs. -/
def SameOutput (s s' : MSum ℝ n m) : Prop := s.count = s'.count ∧ s.y = s'.y ∧ s.yy = s'.yy

theorem op_output {es : List Elem} (ha : AxesAndAngles es) (hn : (coordsOf es).length = n) (lib : Lib ℝ) {s1 s2 s1' s2' : MSum ℝ n m}
    (h1 : SameOutput s1 s1') (h2 : SameOutput s2 s2') {r : MSum ℝ n m} (hr : s1'.op lib s2' = some r) :
    ∃ r', op es lib s1 s2 = some r' ∧ SameOutput r' r := by
  obtain ⟨c1, y1, yy1⟩ := h1
  obtain ⟨c2, y2, yy2⟩ := h2
  unfold MSum.op at hr
  unfold op
  by_cases hc : s2.count = 1
  · rw [if_pos (c2 ▸ hc)] at hr
    rw [if_pos hc]
    have hk : ((s1.count + 1 : ℕ) : ℝ) ≠ 0 := Nat.cast_ne_zero.mpr (Nat.succ_ne_zero _)
    simp only [Option.some.injEq] at hr
    simp only [meanWithOne_eq ha hn _ _ hk, Option.bind_some, numbers_sub]
    refine ⟨_, rfl, ?_⟩
    rw [← hr]
    exact ⟨by rw [c1], by simp only [c1, y1, y2], by simp only [c1, y1, y2, yy1]⟩
  · rw [if_neg (c2 ▸ hc)] at hr
    rw [if_neg hc]
    by_cases h0 : s1'.count + s2'.count = 0
    · simp [h0] at hr
    have hk : ((s1.count + s2.count : ℕ) : ℝ) ≠ 0 := by rw [c1, c2]; exact_mod_cast h0
    simp only [if_neg h0, Option.some.injEq] at hr
    simp only [meanWithMany_eq ha hn _ _ hk, Option.bind_some, numbers_sub]
    refine ⟨_, rfl, ?_⟩
    rw [← hr]
    exact ⟨by rw [c1, c2], by simp only [c1, c2, y1, y2], by simp only [c1, c2, y1, y2, yy1, yy2]⟩

theorem reduce_output {es : List Elem} (ha : AxesAndAngles es) (hn : (coordsOf es).length = n) (lib : Lib ℝ) (t : Tree ℝ n m) {r : MSum ℝ n m}
    (hr : t.reduce lib = some r) : ∃ r', reduce es lib t = some r' ∧ SameOutput r' r := by
  induction t generalizing r with
  | init =>
    cases hr
    exact ⟨_, rfl, rfl, rfl, rfl⟩
  | leaf s =>
    cases hr
    simp only [reduce, one, ofNested_eq ha (x := List.ofFn s.x) (by simp [hn]), Option.bind_some]
    exact ⟨_, rfl, rfl, rfl, rfl⟩
  | node l r' ihl ihr =>
    simp only [Tree.reduce] at hr
    cases hl : l.reduce lib with
    | none => simp [hl] at hr
    | some a =>
      cases hb : r'.reduce lib with
      | none => simp [hl, hb] at hr
      | some b =>
        simp only [hl, hb, Option.bind_some] at hr
        obtain ⟨a', ha', hsa⟩ := ihl hl
        obtain ⟨b', hb', hsb⟩ := ihr hb
        obtain ⟨q, hq, hsq⟩ := op_output ha hn lib hsa hsb hr
        exact ⟨q, by simp only [reduce, ha', hb', Option.bind_some, hq], hsq⟩

end OpenKalman.MonteAngle
