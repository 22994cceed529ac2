import Verif.Proof.MonteAngle

/-!
# C114: the Monte Carlo transform with angular inputs

Whatever the pattern of the inputs, of axes and angles, the transform should report the sample statistics, independently of the order in which it
combines the samples.
-/

namespace OpenKalman.MonteAngle
open Matrix Kalman OpenKalman.Angular OpenKalman.MonteCarlo OpenKalman.Patterns

variable {n m : ℕ}

/-- **C114** (outputs): mean and covariance of the outputs are exact, whatever the angles among the inputs. -/
theorem C114_output (es : List Elem) (ha : AxesAndAngles es) (hn : (coordsOf es).length = n) (lib : Lib ℝ) (l : List (Sample ℝ n m)) (t : Tree ℝ n m)
    (hl : t.samples.Perm l) (h2 : 2 ≤ l.length) (hi : t.inits = 1) :
    ∃ r, (reduce es lib t).bind (result l.length) = some r ∧ (∀ a, r.1 a = avg l fun s => s.y a) ∧
      ∀ a b, r.2.1 a b = cov l (fun s => s.y a) fun s => s.y b := by
  have h59 := C59_reduction lib l t hl h2 hi
  cases hr : t.reduce lib with
  | none => simp [hr] at h59
  | some r =>
    obtain ⟨r', h1, hc, hy, hyy⟩ := reduce_output ha hn lib t hr
    rw [hr, Option.bind_some, result, if_neg (by omega)] at h59
    have g1 := congrArg Prod.fst (Option.some.inj h59)
    have g2 := congrArg (fun r => r.2.1) (Option.some.inj h59)
    simp only at g1 g2
    refine ⟨_, by rw [h1, Option.bind_some, result, if_neg (by omega)], fun a => ?_, fun a b => ?_⟩
    · show r'.y a = _
      rw [hy, g1]
    · show (((l.length : ℝ) - 1)⁻¹ • r'.yy) a b = _
      rw [hyy, g2]

/-- **C114** (partial): the cross-covariance of inputs and outputs is that of the samples, for any order and grouping, if in each angular coordinate the
positive inputs, and the negative ones, add up to canonical numbers.  Missing: other samples, for which it is wrong, see below. -/
theorem C114_cross_partial (es : List Elem) (ha : AxesAndAngles es) (hn : (coordsOf es).length = n) (lib : Lib ℝ) (l : List (Sample ℝ n m)) (t : Tree ℝ n m)
    (hl : t.samples.Perm l) (h2 : 2 ≤ l.length) (hi : t.inits = 1)
    (hw : ∀ (a : Fin n) (c : Coord), (coordsOf es)[(a : ℕ)]? = some c → Narrow c l a) :
    (reduce es lib t).bind (result l.length) =
      some (fun a => avg l fun s => s.y a, fun a b => cov l (fun s => s.y a) (fun s => s.y b), fun a b => cov l (fun s => s.x a) (fun s => s.y b)) := by
  rw [reduce_stats ha hn lib t (by omega) fun a c hc => narrow_perm hl.symm (hw a c hc), ← C59_reduction lib l t hl h2 hi,
    MonteCarlo.reduce_stats lib t (by omega)]

/-- **C114** (no angles): for inputs with a fixed Euclidean pattern there is no condition. -/
theorem C114_euclidean (es : List Elem) (he : es.all (·.staticEuclidean) = true) (hn : (es.map (·.d.dimension)).sum = n) (lib : Lib ℝ)
    (l : List (Sample ℝ n m)) (t : Tree ℝ n m) (hl : t.samples.Perm l) (h2 : 2 ≤ l.length) (hi : t.inits = 1) :
    (reduce es lib t).bind (result l.length) =
      some (fun a => avg l fun s => s.y a, fun a b => cov l (fun s => s.y a) (fun s => s.y b), fun a b => cov l (fun s => s.x a) (fun s => s.y b)) := by
  obtain ⟨ha, hnone⟩ := euclidean_lims es he
  refine C114_cross_partial es ha (by rw [coordsOf_length es ha, hn]) lib l t hl h2 hi fun a c hc => ?_
  obtain ⟨o, ho, rfl⟩ := coordsOf_get hc
  rw [hnone o (List.mem_of_getElem? ho)]
  exact ⟨trivial, trivial⟩

/-- Used below: an angle in degrees. -/
def deg : List Elem := [⟨.angle degrees360, false⟩]

theorem deg_ok : AxesAndAngles deg := by intro e he; simp [deg] at he; subst he; trivial

/-- Used below: a sample with the input `x` and the output `y`. -/
def smp (x y : ℝ) : Sample ℝ 1 1 := ⟨fun _ => x, fun _ => y⟩

theorem deg_wrap (x y : ℝ) (k : ℤ) (h0 : 0 ≤ y) (h1 : y < 360) (hk : y = x + k * 360) : wrapVec deg [x] = [y] := by
  have := degrees_wrap x y k h0 h1 hk
  exact Option.some.inj ((wrapAngles_vec deg deg_ok [x] rfl).symm.trans this)

/-- The running sum of the inputs in degrees, when one sample is added. -/
theorem deg_one (s1 s2 : MSum ℝ 1 1) (k : ℝ) (hk : k ≠ 0) (x1 x2 a b c : ℝ) (e1 : s1.x = fun _ => x1) (e2 : s2.x = fun _ => x2)
    (h1 : wrapVec deg [s1.count * x1] = [a]) (h2 : wrapVec deg [a + x2] = [b]) (h3 : wrapVec deg [1 / k * b] = [c]) :
    meanWithOne deg s1 s2 k = some fun _ => c := by
  have hf : ∀ x : ℝ, List.ofFn (fun _ : Fin 1 => x) = [x] := fun x => by simp
  have hs : ∀ p q : ℝ, vscale p [q] = [p * q] := fun p q => rfl
  have hv : ∀ p q : ℝ, vadd [p] [q] = [p + q] := fun p q => rfl
  rw [meanWithOne_eq deg_ok (show (coordsOf deg).length = 1 from rfl) s1 s2 hk, e1, e2, hf, hf, hs, h1, hv, h2, hs, h3]
  congr 1
  funext i
  have : i = 0 := Subsingleton.elim _ _
  subst this
  rfl

/-- Three samples with the same input of 200°, combined one after the other: the cross-covariance. -/
theorem three (lib : Lib ℝ) (y1 y2 y3 : ℝ) :
    ∃ r, (reduce deg lib (.node (.node (.node .init (.leaf (smp 200 y1))) (.leaf (smp 200 y2))) (.leaf (smp 200 y3)))).bind (result 3) = some r ∧
      r.2.2 0 0 = 60 * (y3 - (y1 + y2) / 2) := by
  have hone : ∀ y, one deg (smp 200 y) = some ⟨1, fun _ => 200, fun _ => y, 0, 0⟩ := by
    intro y
    have hf : List.ofFn (smp 200 y).x = [200] := by simp [smp]
    unfold one
    rw [hf, ofNested_eq deg_ok (x := [200]) rfl, deg_wrap 200 200 0 (by norm_num) (by norm_num) (by norm_num), Option.bind_some]
    refine congrArg some (MSum.ext rfl (funext fun i => ?_) rfl rfl rfl)
    obtain rfl : i = 0 := Subsingleton.elim _ _
    rfl
  have hsub : ∀ x x' : ℝ, (sub (held fun _ : Fin 1 => x) (held fun _ : Fin 1 => x')) = some ⟨.matrix, [x - x']⟩ := by
    intro x x'; simp [Angular.sub, held, vsub]
  have hnum : ∀ x : ℝ, (numbers ⟨.matrix, [x]⟩ : Fin 1 → ℝ) = fun _ => x := by
    intro x; funext i
    obtain rfl : i = 0 := Subsingleton.elim _ _
    rfl
  -- the first sample
  have h1 : ∃ yy, op deg lib (.zero : MSum ℝ 1 1) ⟨1, fun _ => 200, fun _ => y1, 0, 0⟩ = some ⟨1, fun _ => 200, fun _ => y1, yy, 0⟩ := by
    unfold op
    rw [if_pos rfl]
    simp only [MSum.zero]
    rw [deg_one _ _ _ (by norm_num) 0 200 0 200 200 rfl rfl
      (by rw [mul_zero]; exact deg_wrap 0 0 0 (by norm_num) (by norm_num) (by norm_num))
      (deg_wrap _ _ 0 (by norm_num) (by norm_num) (by norm_num)) (deg_wrap _ _ 0 (by norm_num) (by norm_num) (by norm_num))]
    have e : (0 : Fin 1 → ℝ) = fun _ => 0 := rfl
    rw [e]
    simp only [Option.bind_some, hsub, hnum]
    refine ⟨_, congrArg some (MSum.ext rfl rfl ?_ rfl ?_)⟩
    · funext i; simp
    · ext i j; simp [Matrix.mul_apply]
  obtain ⟨yy1, h1⟩ := h1
  have h2 : ∃ yy, op deg lib (⟨1, fun _ => 200, fun _ => y1, yy1, 0⟩ : MSum ℝ 1 1) ⟨1, fun _ => 200, fun _ => y2, 0, 0⟩ =
      some ⟨2, fun _ => 20, fun _ => (y1 + y2) / 2, yy, 0⟩ := by
    unfold op
    rw [if_pos rfl]
    simp only []
    rw [deg_one _ _ _ (by norm_num) 200 200 200 40 20 rfl rfl
      (deg_wrap _ _ 0 (by norm_num) (by norm_num) (by norm_num))
      (deg_wrap _ _ (-1) (by norm_num) (by norm_num) (by norm_num)) (deg_wrap _ _ 0 (by norm_num) (by norm_num) (by norm_num))]
    simp only [Option.bind_some, hsub, hnum]
    refine ⟨_, congrArg some (MSum.ext rfl rfl ?_ rfl ?_)⟩
    · funext i; simp; ring
    · ext i j; simp [Matrix.mul_apply, MonteCarlo.col]
  obtain ⟨yy2, h2⟩ := h2
  have h3 : ∃ x y yy, op deg lib (⟨2, fun _ => 20, fun _ => (y1 + y2) / 2, yy2, 0⟩ : MSum ℝ 1 1) ⟨1, fun _ => 200, fun _ => y3, 0, 0⟩ =
      some ⟨3, x, y, yy, fun _ _ => 120 * (y3 - (y1 + y2) / 2)⟩ := by
    unfold op
    rw [if_pos rfl]
    simp only []
    rw [deg_one _ _ _ (by norm_num) 20 200 40 240 80 rfl rfl
      (deg_wrap _ _ 0 (by norm_num) (by norm_num) (by norm_num))
      (deg_wrap _ _ 0 (by norm_num) (by norm_num) (by norm_num)) (deg_wrap _ _ 0 (by norm_num) (by norm_num) (by norm_num))]
    simp only [Option.bind_some, hsub, hnum]
    refine ⟨_, _, _, congrArg some (MSum.ext rfl rfl rfl rfl ?_)⟩
    ext i j
    simp [Matrix.mul_apply, MonteCarlo.col]
    ring
  obtain ⟨x, y, yy3, h3⟩ := h3
  simp only [reduce, hone, Option.bind_some, h1, h2, h3]
  refine ⟨_, rfl, ?_⟩
  show (((3 : ℕ) : ℝ) - 1)⁻¹ * (120 * (y3 - (y1 + y2) / 2)) = _
  push_cast
  ring

/-- **C114** violated: three samples with the same input, an angle of 200°, so that the cross-covariance should be 0, but it is 180. -/
theorem C114_cross_violated (lib : Lib ℝ) :
    let l := [smp 200 0, smp 200 0, smp 200 3]
    ∃ t : Tree ℝ 1 1, t.samples = l ∧ t.inits = 1 ∧ cov l (fun s => s.x 0) (fun s => s.y 0) = 0 ∧
      ∃ r, (reduce deg lib t).bind (result l.length) = some r ∧ r.2.2 0 0 = 180 := by
  refine ⟨.node (.node (.node .init (.leaf (smp 200 0))) (.leaf (smp 200 0))) (.leaf (smp 200 3)), rfl, rfl, ?_, ?_⟩
  · simp [cov, avg, smp]; norm_num
  · obtain ⟨r, h, h'⟩ := three lib 0 0 3
    exact ⟨r, h, by rw [h']; norm_num⟩

/-- **C114** violated: the cross-covariance depends on the order in which the samples are combined. -/
theorem C114_order_violated (lib : Lib ℝ) :
    ∃ t t' : Tree ℝ 1 1, t.samples.Perm t'.samples ∧ t.inits = 1 ∧ t'.inits = 1 ∧
      (reduce deg lib t).bind (result 3) ≠ (reduce deg lib t').bind (result 3) := by
  obtain ⟨r, h, h'⟩ := three lib 0 0 3
  obtain ⟨q, k, k'⟩ := three lib 3 0 0
  refine ⟨.node (.node (.node .init (.leaf (smp 200 0))) (.leaf (smp 200 0))) (.leaf (smp 200 3)),
    .node (.node (.node .init (.leaf (smp 200 3))) (.leaf (smp 200 0))) (.leaf (smp 200 0)), ?_, rfl, rfl, fun e => ?_⟩
  rotate_left 1
  · rw [h, k, Option.some.injEq] at e
    rw [e, k'] at h'
    norm_num at h'
  · show [smp 200 0, smp 200 0, smp 200 3].Perm [smp 200 3, smp 200 0, smp 200 0]
    exact ((List.Perm.swap (smp 200 3) (smp 200 0) []).cons _).trans (List.Perm.swap _ _ _)

/-- Samples of 10°, 20° and 50° are far enough from the ends of the range. -/
example (lib : Lib ℝ) :
    (reduce deg lib (.node (.node (.leaf (smp 20 3)) (.node .init (.leaf (smp 10 1)))) (.leaf (smp 50 8)))).bind (result 3) =
      some (fun a => avg [smp 10 1, smp 20 3, smp 50 8] fun s => s.y a, fun a b => cov [smp 10 1, smp 20 3, smp 50 8] (fun s => s.y a) (fun s => s.y b),
        fun a b => cov [smp 10 1, smp 20 3, smp 50 8] (fun s => s.x a) (fun s => s.y b)) := by
  refine C114_cross_partial deg deg_ok (show (coordsOf deg).length = 1 from rfl) lib [smp 10 1, smp 20 3, smp 50 8] _ ?_ (by simp) rfl fun a c hc => ?_
  · simp only [Tree.samples, List.nil_append, List.cons_append]
    exact List.Perm.swap _ _ _
  · obtain rfl : a = 0 := Subsingleton.elim _ _
    have : c = toCoord (some degrees360) := by
      have : (coordsOf deg)[((0 : Fin 1) : ℕ)]? = some (toCoord (some degrees360)) := rfl
      rw [this] at hc; exact (Option.some.inj hc).symm
    subst this
    constructor
    · constructor <;> simp [smp, degrees360] <;> norm_num
    · constructor <;> simp [smp, degrees360]

end OpenKalman.MonteAngle
