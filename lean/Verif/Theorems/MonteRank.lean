import Verif.Theorems.MonteCarlo
import Mathlib.LinearAlgebra.FiniteDimensional.Lemmas
import Mathlib.LinearAlgebra.Matrix.ToLinearEquiv

/-!
# C174: the Monte Carlo transform with few samples

The model is that of C59 (`Model/MonteCarlo`), and the claim is stated about what the transform returns.
-/

namespace OpenKalman.MonteCarlo
open Matrix Kalman

variable {𝕜 : Type} [RCLike 𝕜] {n m : ℕ}

theorem sum_list_mul {α : Type} (l : List α) (F : Fin m → α → 𝕜) (v : Fin m → 𝕜) : ∑ b, (l.map (F b)).sum * v b = (l.map fun s => ∑ b, F b s * v b).sum := by
  induction l with
  | nil => simp
  | cons a l ih =>
    simp only [List.map_cons, List.sum_cons, ← ih, ← Finset.sum_add_distrib, add_mul]

theorem star_cov {α : Type} (l : List α) (f g : α → 𝕜) : star (cov l f g) = cov l g f := by
  have key : ∀ (l' : List α) (c d : 𝕜), star (l'.map fun s => (f s - c) * star (g s - d)).sum = (l'.map fun s => (g s - d) * star (f s - c)).sum := by
    intro l' c d
    induction l' with
    | nil => simp
    | cons a l' ih => rw [List.map_cons, List.sum_cons, star_add, ih, List.map_cons, List.sum_cons, star_mul, star_star]
  rw [cov, cov, star_div₀, key, star_sub, star_natCast, star_one]

/-- Some direction is orthogonal to the deviations of all samples from their mean. -/
theorem exists_flat (l : List (Sample 𝕜 n m)) (h0 : l ≠ []) (hm : l.length ≤ m) :
    ∃ v : Fin m → 𝕜, v ≠ 0 ∧ ∀ s ∈ l, ∑ b, star (s.y b - avg l fun s => s.y b) * v b = 0 := by
  obtain ⟨s0, l', rfl⟩ := List.exists_cons_of_ne_nil h0
  let A : Matrix (Fin l'.length) (Fin m) 𝕜 := fun i b => star (l'[i].y b - s0.y b)
  have hk : LinearMap.ker A.mulVecLin ≠ ⊥ := LinearMap.ker_ne_bot_of_finrank_lt (by
    rw [Module.finrank_fin_fun, Module.finrank_fin_fun]
    rw [List.length_cons] at hm
    omega)
  obtain ⟨v, hv, hv0⟩ := (Submodule.ne_bot_iff _).1 hk
  refine ⟨v, hv0, ?_⟩
  have hA : A *ᵥ v = 0 := hv
  have hc : ∀ s ∈ s0 :: l', ∑ b, star (s.y b) * v b = ∑ b, star (s0.y b) * v b := by
    intro s hs
    rcases List.mem_cons.1 hs with rfl | hs
    · rfl
    · obtain ⟨i, hi, rfl⟩ := List.mem_iff_getElem.1 hs
      have e := congrFun hA ⟨i, hi⟩
      have e : ∑ b, star (l'[i].y b - s0.y b) * v b = 0 := e
      simp only [star_sub, sub_mul, Finset.sum_sub_distrib] at e
      exact sub_eq_zero.1 e
  have hl : (((s0 :: l').length : ℕ) : 𝕜) ≠ 0 := Nat.cast_ne_zero.2 (by simp)
  have ha : ∑ b, star (avg (s0 :: l') fun s => s.y b) * v b = ∑ b, star (s0.y b) * v b := by
    have e1 : ∀ b, star (avg (s0 :: l') fun s => s.y b) * v b = (((s0 :: l').map fun s => star (s.y b)).sum * v b) / ((s0 :: l').length : 𝕜) := by
      intro b
      have key : ∀ k : List (Sample 𝕜 n m), star (k.map fun s => s.y b).sum = (k.map fun s => star (s.y b)).sum := by
        intro k
        induction k with
        | nil => simp
        | cons a k ih => rw [List.map_cons, List.sum_cons, star_add, ih, List.map_cons, List.sum_cons]
      rw [avg, star_div₀, star_natCast, key]
      ring
    rw [Finset.sum_congr rfl fun b _ => e1 b, ← Finset.sum_div, sum_list_mul, List.map_congr_left hc, List.map_const', List.sum_replicate, nsmul_eq_mul]
    field_simp
  intro s hs
  simp only [star_sub, sub_mul, Finset.sum_sub_distrib]
  rw [hc s hs, ha, sub_self]

theorem cov_flat (l : List (Sample 𝕜 n m)) (v : Fin m → 𝕜) (hv : ∀ s ∈ l, ∑ b, star (s.y b - avg l fun s => s.y b) * v b = 0) (f : Sample 𝕜 n m → 𝕜) :
    ∑ b, cov l f (fun s => s.y b) * v b = 0 := by
  have e : ∀ b, cov l f (fun s => s.y b) * v b = ((l.map fun s => (f s - avg l f) * star (s.y b - avg l fun s => s.y b)).sum * v b) / ((l.length : 𝕜) - 1) := fun b => by
    rw [cov]
    ring
  rw [Finset.sum_congr rfl fun b _ => e b, ← Finset.sum_div, sum_list_mul l fun b s => (f s - avg l f) * star (s.y b - avg l fun s => s.y b)]
  have : (l.map fun s => ∑ b, (f s - avg l f) * star (s.y b - avg l fun s => s.y b) * v b) = l.map fun _ => (0 : 𝕜) :=
    List.map_congr_left fun s hs => by
      simp only [mul_assoc]
      rw [← Finset.mul_sum, hv s hs, mul_zero]
  rw [this]
  simp

/-- **C174**: with no more samples than the output has components, the covariance that the transform returns is singular, whatever the samples are and in whatever order they are combined; and a
gain that an update may take from it is never the only one. -/
theorem C174_singular (lib : Lib 𝕜) (l : List (Sample 𝕜 n m)) (t : Tree 𝕜 n m) (hl : t.samples.Perm l) (h2 : 2 ≤ l.length) (hi : t.inits = 1) (hm : l.length ≤ m) :
    ∃ y C K, (t.reduce lib).bind (result l.length) = some (y, C, K) ∧ C.det = 0 ∧
      (0 < n → ∀ G : Matrix (Fin n) (Fin m) 𝕜, G * C = K → ∃ G', G' ≠ G ∧ G' * C = K) := by
  obtain ⟨v, hv0, hv⟩ := exists_flat l (by rintro rfl; simp at h2) hm
  refine ⟨_, _, _, C59_reduction lib l t hl h2 hi, ?_, ?_⟩
  · exact exists_mulVec_eq_zero_iff.1 ⟨v, hv0, funext fun a => cov_flat l v hv fun s => s.y a⟩
  · intro hn G hG
    set C : Matrix (Fin m) (Fin m) 𝕜 := fun a b => cov l (fun s => s.y a) (fun s => s.y b) with hC
    have hH : Cᴴ = C := by
      ext a b
      exact star_cov l _ _
    have hz : C *ᵥ v = 0 := funext fun a => cov_flat l v hv fun s => s.y a
    have hw : star v ᵥ* C = 0 := by
      have := star_mulVec C v
      rw [hz, hH, star_zero] at this
      exact this.symm
    refine ⟨G + vecMulVec (fun _ => 1) (star v), fun e => hv0 ?_, ?_⟩
    · have e : vecMulVec (fun _ : Fin n => (1 : 𝕜)) (star v) = 0 := by simpa using e
      funext b
      have := congrFun (congrFun e ⟨0, hn⟩) b
      simpa [vecMulVec_apply] using this
    · have hz' : vecMulVec (fun _ : Fin n => (1 : 𝕜)) (star v) * C = 0 := by
        rw [vecMulVec_mul, hw]
        ext a b
        simp [vecMulVec_apply]
      rw [Matrix.add_mul, hz', add_zero, hG]

/-- Two samples of an output with two components. -/
example (lib : Lib ℝ) : ∃ y C K, ((Tree.node (.node .init (.leaf ⟨fun _ : Fin 1 => 1, ![1, 2]⟩)) (.leaf ⟨fun _ => 3, ![4, 9]⟩)).reduce lib).bind (result 2) = some (y, C, K) ∧ C.det = (0 : ℝ) := by
  obtain ⟨y, C, K, h, hd, -⟩ := C174_singular lib [⟨fun _ : Fin 1 => 1, ![1, 2]⟩, ⟨fun _ => 3, ![4, 9]⟩]
    (.node (.node .init (.leaf ⟨fun _ => 1, ![1, 2]⟩)) (.leaf ⟨fun _ => 3, ![4, 9]⟩)) (List.Perm.refl _) (by simp) rfl (by simp)
  exact ⟨y, C, K, h, hd⟩

/-- Where the input is the first component of the output there is a gain (the first component is the estimate), and so there are several. -/
example (lib : Lib ℝ) : ∃ y C K, ((Tree.node (.node .init (.leaf ⟨fun _ : Fin 1 => 1, ![1, 2]⟩)) (.leaf ⟨fun _ => 4, ![4, 9]⟩)).reduce lib).bind (result 2) = some (y, C, K) ∧
    ∃ G G' : Matrix (Fin 1) (Fin 2) ℝ, G' ≠ G ∧ G * C = K ∧ G' * C = K := by
  have e := C59_reduction lib [⟨fun _ : Fin 1 => (1 : ℝ), ![1, 2]⟩, ⟨fun _ => 4, ![4, 9]⟩]
    (.node (.node .init (.leaf ⟨fun _ => 1, ![1, 2]⟩)) (.leaf ⟨fun _ => 4, ![4, 9]⟩)) (List.Perm.refl _) (by simp) rfl
  obtain ⟨y, C, K, h, -, hg⟩ := C174_singular lib [⟨fun _ : Fin 1 => (1 : ℝ), ![1, 2]⟩, ⟨fun _ => 4, ![4, 9]⟩]
    (.node (.node .init (.leaf ⟨fun _ => 1, ![1, 2]⟩)) (.leaf ⟨fun _ => 4, ![4, 9]⟩)) (List.Perm.refl _) (by simp) rfl (by simp)
  have hp := Option.some.inj (h.symm.trans e)
  have hC : C = _ := congrArg (fun p => p.2.1) hp
  have hK : K = _ := congrArg (fun p => p.2.2) hp
  have hG : (Matrix.of ![![1, 0]] : Matrix (Fin 1) (Fin 2) ℝ) * C = K := by
    rw [hC, hK]
    ext a b
    rw [Matrix.mul_apply]
    fin_cases a
    fin_cases b <;> simp [Fin.sum_univ_two, cov, avg]
  obtain ⟨G', h1, h2⟩ := hg (by simp) _ hG
  exact ⟨y, C, K, h, _, G', h1, hG, h2⟩

/-- The origin and the ends of the axes. -/
def corners (n m : ℕ) : List (Sample ℝ n m) := ⟨0, 0⟩ :: (List.finRange m).map fun i => ⟨0, Pi.single i 1⟩

theorem corners_length (n m : ℕ) : (corners n m).length = m + 1 := by simp [corners]

theorem corners_cov (n m : ℕ) (a b : Fin m) :
    cov (corners n m) (fun s => s.y a) (fun s => s.y b) = ((if a = b then 1 else 0) - 1 / ((m : ℝ) + 1)) / m := by
  have h1 : ∀ F : Sample ℝ n m → ℝ, ((corners n m).map F).sum = F ⟨0, 0⟩ + ∑ i, F ⟨0, Pi.single i 1⟩ := by
    intro F
    rw [corners, List.map_cons, List.sum_cons, List.map_map, Fin.sum_univ_def]
    rfl
  have e : cov (corners n m) (fun s => s.y a) (fun s => s.y b) = dev (corners n m) (fun s => s.y a) (fun s => s.y b) / (((corners n m).length : ℝ) - 1) := rfl
  rw [e, dev_eq, h1, h1, h1, corners_length]
  have h2 : ∀ c : Fin m, ∑ i : Fin m, (Pi.single i 1 : Fin m → ℝ) c = 1 := fun c => by simp [Pi.single_apply]
  have h3 : ∑ i : Fin m, (Pi.single i 1 : Fin m → ℝ) a * star ((Pi.single i 1 : Fin m → ℝ) b) = if a = b then 1 else 0 := by
    simp [Pi.single_apply]
  simp only [h2, h3, Pi.zero_apply, zero_mul, zero_add, star_one, mul_one, Nat.cast_add, Nat.cast_one, add_sub_cancel_right]

/-- **C174** (sharp): for every number of components, one sample more may give a covariance that is not singular. -/
theorem C174_sharp (lib : Lib ℝ) (n m : ℕ) (hm : 0 < m) :
    ∃ t : Tree ℝ n m, t.inits = 1 ∧ t.samples.length = m + 1 ∧ ∃ y C K, (t.reduce lib).bind (result (m + 1)) = some (y, C, K) ∧ C.det ≠ 0 := by
  have ht : ∀ l : List (Sample ℝ n m), ∃ t : Tree ℝ n m, t.inits = 1 ∧ t.samples = l := by
    intro l
    induction l with
    | nil => exact ⟨.init, rfl, rfl⟩
    | cons s l ih =>
      obtain ⟨t, h1, h2⟩ := ih
      exact ⟨.node (.leaf s) t, by simp [Tree.inits, h1], by simp [Tree.samples, h2]⟩
  obtain ⟨t, h1, h2⟩ := ht (corners n m)
  have h := C59_reduction lib (corners n m) t (by rw [h2]) (by rw [corners_length]; omega) h1
  rw [corners_length] at h
  refine ⟨t, h1, by rw [h2, corners_length], _, _, _, h, fun hd => ?_⟩
  obtain ⟨v, hv0, hv⟩ := exists_mulVec_eq_zero_iff.2 hd
  have hm0 : (m : ℝ) ≠ 0 := by exact_mod_cast hm.ne'
  have hm1 : (m : ℝ) + 1 ≠ 0 := by positivity
  have hs : ∀ a, v a = (∑ b, v b) / ((m : ℝ) + 1) := by
    intro a
    have e : ∑ b, cov (corners n m) (fun s => s.y a) (fun s => s.y b) * v b = 0 := congrFun hv a
    have e2 : ∑ b, cov (corners n m) (fun s => s.y a) (fun s => s.y b) * v b = (v a - (∑ b, v b) / ((m : ℝ) + 1)) / m := by
      rw [Finset.sum_congr rfl fun b _ => by rw [corners_cov n m a b, div_mul_eq_mul_div, sub_mul], ← Finset.sum_div, Finset.sum_sub_distrib, ← Finset.mul_sum]
      congr 1
      simp
      ring
    rw [e2, div_eq_zero_iff] at e
    exact sub_eq_zero.1 (e.resolve_right hm0)
  have hz : ∑ b, v b = 0 := by
    have e : ∑ b, v b = m * ((∑ b, v b) / ((m : ℝ) + 1)) := by
      conv_lhs => rw [Finset.sum_congr rfl fun b _ => hs b]
      simp
    field_simp at e
    linarith
  exact hv0 (funext fun a => by rw [hs a, hz]; simp)

/-- Four samples of an output with three components. -/
example (lib : Lib ℝ) : ∃ t : Tree ℝ 2 3, t.samples.length = 4 ∧ ∃ y C K, (t.reduce lib).bind (result 4) = some (y, C, K) ∧ C.det ≠ 0 := by
  obtain ⟨t, -, h2, h⟩ := C174_sharp lib 2 3 (by decide)
  exact ⟨t, h2, h⟩

end OpenKalman.MonteCarlo
