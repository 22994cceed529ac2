import Verif.Proof.MonteLimit
import Mathlib.Probability.Distributions.Gaussian.Real
import Mathlib.Probability.Independence.InfinitePi

/-!
# C173: what the Monte Carlo transform estimates
-/

namespace OpenKalman.MonteCarlo
open MeasureTheory ProbabilityTheory Filter Topology Kalman

variable {Ω δ : Type} [MeasurableSpace Ω] [MeasurableSpace δ] {n m : ℕ}

/-- The reduction combines the first `N` samples, in any order and grouping, and the initial value once. -/
def Combines (x : δ → Fin n → ℝ) (y : δ → Fin m → ℝ) (D : ℕ → Ω → δ) (N : ℕ) (ω : Ω) (t : Tree ℝ n m) : Prop := t.samples.Perm (drawn x y D N ω) ∧ t.inits = 1

variable {P : Measure Ω} [IsProbabilityMeasure P] {D : ℕ → Ω → δ} {x : δ → Fin n → ℝ} {y : δ → Fin m → ℝ}

theorem reported (lib : Lib ℝ) (N : ℕ) (hN : 2 ≤ N) (ω : Ω) (t : Tree ℝ n m) (ht : Combines x y D N ω t) :
    (t.reduce lib).bind (result N) = some (fun a => avg (drawn x y D N ω) fun s => s.y a, fun a b => cov (drawn x y D N ω) (fun s => s.y a) (fun s => s.y b),
      fun a b => cov (drawn x y D N ω) (fun s => s.x a) (fun s => s.y b)) := by
  have hl : (drawn x y D N ω).length = N := by rw [drawn, List.length_map, List.length_range]
  have := C59_reduction lib (drawn x y D N ω) t ht.1 (by omega) ht.2
  rwa [hl] at this

/-- **C173** (consistency): with more and more independent draws, the reported mean, covariance and cross-covariance converge to those of the transformed variable, almost surely, whatever order
the samples are combined in. -/
theorem C173_consistent (lib : Lib ℝ) (h : Draws P D) (hx : ∀ a, Good P D fun d => x d a) (hy : ∀ a, Good P D fun d => y d a) (t : ℕ → Ω → Tree ℝ n m)
    (ht : ∀ N ω, Combines x y D N ω (t N ω)) :
    ∃ (M : ℕ → Ω → Fin m → ℝ) (C : ℕ → Ω → Matrix (Fin m) (Fin m) ℝ) (K : ℕ → Ω → Matrix (Fin n) (Fin m) ℝ),
      (∀ N ω, 2 ≤ N → ((t N ω).reduce lib).bind (result N) = some (M N ω, C N ω, K N ω)) ∧
        ∀ᵐ ω ∂P, (∀ a, Tendsto (fun N => M N ω a) atTop (𝓝 (∫ ω, y (D 0 ω) a ∂P))) ∧
          (∀ a b, Tendsto (fun N => C N ω a b) atTop (𝓝 (cov[fun ω => y (D 0 ω) a, fun ω => y (D 0 ω) b; P]))) ∧
            ∀ a b, Tendsto (fun N => K N ω a b) atTop (𝓝 (cov[fun ω => x (D 0 ω) a, fun ω => y (D 0 ω) b; P])) := by
  refine ⟨_, _, _, fun N ω hN => reported lib N hN ω _ (ht N ω), ?_⟩
  have c : ∀ {F G : Sample ℝ n m → ℝ} {f g : δ → ℝ}, (∀ d, F ⟨x d, y d⟩ = f d) → (∀ d, G ⟨x d, y d⟩ = g d) → Good P D f → Good P D g →
      ∀ᵐ ω ∂P, Tendsto (fun N => cov (drawn x y D N ω) F G) atTop (𝓝 (cov[fun ω => f (D 0 ω), fun ω => g (D 0 ω); P])) := by
    intro F G f g e1 e2 hf hg
    filter_upwards [cov_tendsto hf hg h] with ω hω
    refine hω.congr' ?_
    filter_upwards [eventually_ge_atTop 2] with N hN
    exact (cov_drawn x y D N hN ω F G f g e1 e2).symm
  have h1 : ∀ᵐ ω ∂P, ∀ a, Tendsto (fun N => avg (drawn x y D N ω) fun s => s.y a) atTop (𝓝 (∫ ω, y (D 0 ω) a ∂P)) := ae_all_iff.2 fun a => by
    filter_upwards [avg_tendsto (hy a).meas ((hy a).int h 0) h] with ω hω
    refine hω.congr fun N => ?_
    rw [avg_drawn]
  have h2 := ae_all_iff.2 fun a => ae_all_iff.2 fun b => c (F := fun s => s.y a) (G := fun s => s.y b) (fun _ => rfl) (fun _ => rfl) (hy a) (hy b)
  have h3 := ae_all_iff.2 fun a => ae_all_iff.2 fun b => c (F := fun s => s.x a) (G := fun s => s.y b) (fun _ => rfl) (fun _ => rfl) (hx a) (hy b)
  filter_upwards [h1, h2, h3] with ω a1 a2 a3
  exact ⟨a1, a2, a3⟩

/-- **C173** (no bias): with any number of draws from two on, the expectations of the reported mean, covariance and cross-covariance are those of the transformed variable, and the variance of the
reported mean is that of the variable divided by the number of draws. -/
theorem C173_unbiased (lib : Lib ℝ) (h : Draws P D) (hx : ∀ a, Good P D fun d => x d a) (hy : ∀ a, Good P D fun d => y d a) (N : ℕ) (hN : 2 ≤ N) (t : Ω → Tree ℝ n m)
    (ht : ∀ ω, Combines x y D N ω (t ω)) :
    ∃ (M : Ω → Fin m → ℝ) (C : Ω → Matrix (Fin m) (Fin m) ℝ) (K : Ω → Matrix (Fin n) (Fin m) ℝ),
      (∀ ω, ((t ω).reduce lib).bind (result N) = some (M ω, C ω, K ω)) ∧
        (∀ a, ∫ ω, M ω a ∂P = ∫ ω, y (D 0 ω) a ∂P ∧ Var[fun ω => M ω a; P] = Var[fun ω => y (D 0 ω) a; P] / N) ∧
          (∀ a b, ∫ ω, C ω a b ∂P = cov[fun ω => y (D 0 ω) a, fun ω => y (D 0 ω) b; P]) ∧
            ∀ a b, ∫ ω, K ω a b ∂P = cov[fun ω => x (D 0 ω) a, fun ω => y (D 0 ω) b; P] := by
  refine ⟨_, _, _, fun ω => reported lib N hN ω _ (ht ω), fun a => ?_, fun a b => ?_, fun a b => ?_⟩
  · simp only [avg_drawn]
    exact ⟨avg_mean (hy a) h N (by omega), avg_variance (hy a) h N (by omega)⟩
  · rw [← cov_mean (hy a) (hy b) h N hN]
    exact integral_congr_ae (.of_forall fun ω => cov_drawn x y D N hN ω _ _ _ _ (fun _ => rfl) fun _ => rfl)
  · rw [← cov_mean (hx a) (hy b) h N hN]
    exact integral_congr_ae (.of_forall fun ω => cov_drawn x y D N hN ω _ _ _ _ (fun _ => rfl) fun _ => rfl)

/-! ### A case: twice a normal variable, plus one -/

/-- Independent standard normal numbers. -/
noncomputable abbrev normals : Measure (ℕ → ℝ) := Measure.infinitePi fun _ => gaussianReal 0 1

theorem normals_law (k : ℕ) : MeasurePreserving (fun ω : ℕ → ℝ => ω k) normals (gaussianReal 0 1) := measurePreserving_eval_infinitePi (fun _ => gaussianReal 0 1) k

theorem normals_draws : Draws normals fun k ω => ω k where
  indep i j e := (iIndepFun_infinitePi (P := fun _ : ℕ => gaussianReal 0 1) (X := fun _ x => x) fun _ => measurable_id).indepFun e
  ident k := ⟨(normals_law k).measurable.aemeasurable, (normals_law 0).measurable.aemeasurable, by rw [(normals_law k).map_eq, (normals_law 0).map_eq]⟩

theorem normals_good (a b : ℝ) : Good normals (fun k ω => ω k) fun d : ℝ => a * d + b where
  meas := by fun_prop
  square := by
    have h : MemLp (fun ω : ℕ → ℝ => ω 0) 2 normals := by
      have := (memLp_id_gaussianReal (μ := 0) (v := 1) 2).comp_measurePreserving (normals_law 0)
      exact this
    exact (h.const_mul a).add (memLp_const b)

/-- One sample after the other. -/
def chain (l : List (Sample ℝ 1 1)) : Tree ℝ 1 1 := l.foldl (fun t s => .node t (.leaf s)) .init

theorem chain_ok (l : List (Sample ℝ 1 1)) : (chain l).samples = l ∧ (chain l).inits = 1 := by
  have : ∀ (l : List (Sample ℝ 1 1)) (t : Tree ℝ 1 1), (l.foldl (fun t s => .node t (.leaf s)) t).samples = t.samples ++ l ∧
      (l.foldl (fun t s => Tree.node t (.leaf s)) t).inits = t.inits := by
    intro l
    induction l with
    | nil => intro t; simp
    | cons s l ih =>
      intro t
      obtain ⟨h1, h2⟩ := ih (.node t (.leaf s))
      rw [List.foldl_cons, h1, h2]
      simp [Tree.samples, Tree.inits]
  exact this l .init

/-- The expected mean is 1, the variance of the reported mean is `4 / N`, and the expected variance is 4. -/
example (lib : Lib ℝ) (N : ℕ) (hN : 2 ≤ N) : ∃ (M : (ℕ → ℝ) → Fin 1 → ℝ) (C K : (ℕ → ℝ) → Matrix (Fin 1) (Fin 1) ℝ),
    (∀ ω, ((chain (drawn (fun d _ => d) (fun d _ => 2 * d + 1) (fun k ω => ω k) N ω)).reduce lib).bind (result N) = some (M ω, C ω, K ω)) ∧
      ∫ ω, M ω 0 ∂normals = 1 ∧ Var[fun ω => M ω 0; normals] = 4 / N ∧ ∫ ω, C ω 0 0 ∂normals = 4 := by
  have hg := normals_good 2 1
  have hx : Good normals (fun k ω => ω k) fun d : ℝ => d := by simpa using normals_good 1 0
  obtain ⟨M, C, K, h1, h2, h3, -⟩ := C173_unbiased (P := normals) (D := fun k ω => ω k) (x := fun d (_ : Fin 1) => d) (y := fun d (_ : Fin 1) => 2 * d + 1) lib normals_draws (fun _ => hx) (fun _ => hg) N hN
    (fun ω => chain (drawn (fun d _ => d) (fun d _ => 2 * d + 1) (fun k ω => ω k) N ω)) fun ω => ⟨(chain_ok _).1 ▸ List.Perm.refl _, (chain_ok _).2⟩
  have hid : IdentDistrib (fun ω : ℕ → ℝ => ω 0) id normals (gaussianReal 0 1) :=
    ⟨(normals_law 0).measurable.aemeasurable, measurable_id.aemeasurable, by rw [(normals_law 0).map_eq, Measure.map_id]⟩
  have e1 : ∫ ω : ℕ → ℝ, ω 0 ∂normals = 0 := by
    rw [hid.integral_eq]
    exact integral_id_gaussianReal
  have hv : Var[fun ω : ℕ → ℝ => ω 0; normals] = 1 := by
    rw [hid.variance_eq, variance_id_gaussianReal]; simp
  have hv2 : Var[fun ω : ℕ → ℝ => 2 * ω 0 + 1; normals] = 4 := by
    rw [variance_add_const ((hx.int normals_draws 0).const_mul 2).aestronglyMeasurable, variance_const_mul, hv]; norm_num
  refine ⟨M, C, K, h1, ?_, ?_, ?_⟩
  · rw [(h2 0).1, integral_add ((hx.int normals_draws 0).const_mul 2) (integrable_const 1), integral_const_mul, e1]
    simp
  · rw [(h2 0).2, hv2]
  · rw [h3 0 0, covariance_self (hg.int normals_draws 0).aemeasurable, hv2]

end OpenKalman.MonteCarlo
