import Verif.Model.MonteCarlo
import Verif.Theorems.Kalman
import Mathlib.Algebra.BigOperators.Group.List.Lemmas
import Mathlib.Tactic.FieldSimp
import Mathlib.Tactic.Ring

/-! # The Monte Carlo reduction (C59) -/

namespace OpenKalman.MonteCarlo
open Matrix Kalman

variable {𝕜 : Type} [RCLike 𝕜] {n m : ℕ}

/-- The sum of products of deviations. -/
noncomputable def dev {α : Type} (l : List α) (f g : α → 𝕜) : 𝕜 := (l.map fun s => (f s - avg l f) * star (g s - avg l g)).sum

/-- A sum of products of deviations in terms of sums. -/
theorem dev_eq {α : Type} (l : List α) (f g : α → 𝕜) :
    dev l f g = (l.map fun s => f s * star (g s)).sum - (l.map f).sum * star (l.map g).sum / l.length := by
  have key : ∀ (c d : 𝕜), (l.map fun s => (f s - c) * star (g s - d)).sum =
      (l.map fun s => f s * star (g s)).sum - (l.map f).sum * star d - c * star (l.map g).sum + l.length * (c * star d) := by
    intro c d
    induction l with
    | nil => simp
    | cons a l ih =>
      rw [List.map_cons, List.sum_cons, ih]
      simp only [List.map_cons, List.sum_cons, List.length_cons, star_add, star_sub]
      push_cast
      ring
  unfold dev
  rw [key]
  by_cases hl : l = []
  · subst hl
    simp [avg]
  · have h0 : ((l.length : ℕ) : 𝕜) ≠ 0 := by
      simpa using hl
    unfold avg
    rw [star_div₀, star_natCast]
    field_simp
    ring

theorem avg_mul {α : Type} (l : List α) (f : α → 𝕜) : (l.length : 𝕜) * avg l f = (l.map f).sum := by
  unfold avg
  by_cases hl : l = []
  · subst hl; simp
  · have h0 : ((l.length : ℕ) : 𝕜) ≠ 0 := by simpa using hl
    field_simp

theorem avg_append {α : Type} (l l' : List α) (f : α → 𝕜) :
    avg (l ++ l') f = (((l.length + l'.length : ℕ)) : 𝕜)⁻¹ * ((l.length : 𝕜) * avg l f + (l'.length : 𝕜) * avg l' f) := by
  rw [avg_mul, avg_mul]
  unfold avg
  rw [List.map_append, List.sum_append, List.length_append, div_eq_inv_mul]

/-- Merging sums of products of deviations. -/
theorem dev_append {α : Type} (l l' : List α) (f g : α → 𝕜) (h : l.length + l'.length ≠ 0) :
    dev (l ++ l') f g = dev l f g + dev l' f g +
      (avg l' f - avg l f) * ((((l.length + l'.length : ℕ)) : 𝕜)⁻¹ * ((l'.length : 𝕜) * ((l.length : 𝕜) * star (avg l' g - avg l g)))) := by
  have h0 : (((l.length : ℕ) : 𝕜) + ((l'.length : ℕ) : 𝕜)) ≠ 0 := by exact_mod_cast h
  rw [dev_eq, dev_eq, dev_eq]
  simp only [List.map_append, List.sum_append, List.length_append, star_add, star_sub]
  push_cast
  by_cases h1 : l = []
  · subst h1
    simp [avg]
  by_cases h2 : l' = []
  · subst h2
    simp [avg]
  have e1 : ((l.length : ℕ) : 𝕜) ≠ 0 := by simpa using h1
  have e2 : ((l'.length : ℕ) : 𝕜) ≠ 0 := by simpa using h2
  unfold avg
  simp only [star_div₀, star_natCast]
  field_simp
  ring

/-- The exact statistics of a list of samples. -/
noncomputable def stats (l : List (Sample 𝕜 n m)) : MSum 𝕜 n m where
  count := l.length
  x := fun a => avg l fun s => s.x a
  y := fun a => avg l fun s => s.y a
  yy := fun a b => dev l (fun s => s.y a) fun s => s.y b
  xy := fun a b => dev l (fun s => s.x a) fun s => s.y b

theorem stats_herm (l : List (Sample 𝕜 n m)) : (stats l).yy.IsHermitian := by
  ext a b
  rw [Matrix.conjTranspose_apply]
  show star (List.sum _) = List.sum _
  rw [show star (List.sum _) = _ from map_list_sum (starRingEnd 𝕜) _, List.map_map]
  congr 1
  refine List.map_congr_left fun s _ => ?_
  simp only [Function.comp_apply, map_mul]
  rw [starRingEnd_apply, starRingEnd_apply, star_star, mul_comm]

theorem dev_singleton {α : Type} (s : α) (f g : α → 𝕜) : dev [s] f g = 0 := by
  simp [dev, avg]

/-- The operation on exact statistics gives those of the combined list, unless both are empty. -/
theorem op_stats (lib : Lib 𝕜) (l l' : List (Sample 𝕜 n m)) (h : l.length + l'.length ≠ 0) : (stats l).op lib (stats l') = some (stats (l ++ l')) := by
  unfold MSum.op
  have hyy : ∀ (k : 𝕜) (_ : k = (((l.length + l'.length : ℕ)) : 𝕜)⁻¹ * ((l'.length : 𝕜) * (l.length : 𝕜))),
      (stats l).yy + (stats l').yy + col ((stats l').y - (stats l).y) *
        (k • (col ((stats l').y - (stats l).y))ᴴ) = (stats (l ++ l')).yy := by
    intro k hk
    ext a b
    rw [Matrix.add_apply, Matrix.add_apply, Matrix.mul_apply, Fin.sum_univ_one, Matrix.smul_apply, Matrix.conjTranspose_apply]
    show dev l _ _ + dev l' _ _ + _ = dev (l ++ l') _ _
    rw [dev_append l l' _ _ h, hk]
    simp only [stats, smul_eq_mul, col, Pi.sub_apply]
    ring
  have hxy : ∀ (k : 𝕜) (_ : k = (((l.length + l'.length : ℕ)) : 𝕜)⁻¹ * ((l'.length : 𝕜) * (l.length : 𝕜))),
      (stats l).xy + (stats l').xy + col ((stats l').x - (stats l).x) *
        (k • (col ((stats l').y - (stats l).y))ᴴ) = (stats (l ++ l')).xy := by
    intro k hk
    ext a b
    rw [Matrix.add_apply, Matrix.add_apply, Matrix.mul_apply, Fin.sum_univ_one, Matrix.smul_apply, Matrix.conjTranspose_apply]
    show dev l _ _ + dev l' _ _ + _ = dev (l ++ l') _ _
    rw [dev_append l l' _ _ h, hk]
    simp only [stats, smul_eq_mul, col, Pi.sub_apply]
    ring
  have hx : (((l.length + l'.length : ℕ)) : 𝕜)⁻¹ • ((l.length : 𝕜) • (stats l).x + (l'.length : 𝕜) • (stats l').x) = (stats (l ++ l')).x := by
    funext a
    show _ = avg (l ++ l') _
    rw [avg_append]
    rfl
  have hy : (((l.length + l'.length : ℕ)) : 𝕜)⁻¹ • ((l.length : 𝕜) • (stats l).y + (l'.length : 𝕜) • (stats l').y) = (stats (l ++ l')).y := by
    funext a
    show _ = avg (l ++ l') _
    rw [avg_append]
    rfl
  by_cases h1 : (stats l').count = 1
  · have h1' : l'.length = 1 := h1
    obtain ⟨s, rfl⟩ := List.length_eq_one_iff.mp h1'
    rw [if_pos h1]
    have z1 : (stats [s]).yy = 0 := by ext a b; exact dev_singleton s (fun s => s.y a) (fun s => s.y b)
    have z2 : (stats [s]).xy = 0 := by ext a b; exact dev_singleton s (fun s => s.x a) (fun s => s.y b)
    rw [z1, add_zero] at hyy
    rw [z2, add_zero] at hxy
    simp only [List.length_singleton, Nat.cast_one, one_smul, one_mul] at hx hy hyy hxy
    simp only [smul_smul]
    show some (MSum.mk (l.length + 1) _ _ _ _) = _
    congr 1
    refine MSum.ext (by simp [stats]) hx hy ?_ (hxy _ rfl)
    show lib.herm _ = _
    rw [← lib.herm_spec _ (stats_herm (l ++ [s]))]
    exact congrArg lib.herm (hyy _ rfl)
  · rw [if_neg h1]
    simp only
    rw [if_neg (show (stats l).count + (stats l').count ≠ 0 from h)]
    simp only [smul_smul]
    congr 1
    refine MSum.ext (by simp [stats]) hx hy ?_ (hxy _ rfl)
    show lib.herm _ = _
    rw [← lib.herm_spec _ (stats_herm (l ++ l'))]
    exact congrArg lib.herm (hyy _ rfl)

omit [RCLike 𝕜] in
theorem Tree.samples_ne {t : Tree 𝕜 n m} (h : t.inits = 0) : t.samples.length ≠ 0 := by
  induction t with
  | init => simp [Tree.inits] at h
  | leaf s => simp [Tree.samples]
  | node l r ihl ihr =>
    simp only [Tree.inits] at h
    have := ihl (by omega)
    simp only [Tree.samples, List.length_append]
    omega

/-- A reduction in which the initial value is used at most once gives the exact statistics. -/
theorem reduce_stats (lib : Lib 𝕜) (t : Tree 𝕜 n m) (h : t.inits ≤ 1) : t.reduce lib = some (stats t.samples) := by
  induction t with
  | init =>
    show some MSum.zero = some (stats [])
    congr 1
    ext <;> simp [MSum.zero, stats, avg, dev]
  | leaf s =>
    show some (MSum.one s) = some (stats [s])
    congr 1
    ext <;> simp [MSum.one, stats, avg, dev]
  | node l r ihl ihr =>
    simp only [Tree.inits] at h
    simp only [Tree.reduce, ihl (by omega), ihr (by omega), Option.bind_some, Tree.samples]
    refine op_stats lib _ _ ?_
    by_cases hl : l.inits = 0
    · have := Tree.samples_ne hl
      omega
    · have := Tree.samples_ne (t := r) (by omega)
      omega

theorem avg_perm {α : Type} {l l' : List α} (h : l.Perm l') (f : α → 𝕜) : avg l f = avg l' f := by
  unfold avg
  rw [(h.map f).sum_eq, h.length_eq]

/-- C59: for every list of at least two samples, and every order and grouping in which the reduction combines them with the initial value, the transform gives
the mean of the outputs, their unbiased covariance, and the unbiased cross-covariance of inputs and outputs. -/
theorem C59_reduction (lib : Lib 𝕜) (l : List (Sample 𝕜 n m)) (t : Tree 𝕜 n m) (hl : t.samples.Perm l) (h2 : 2 ≤ l.length)
    (hi : t.inits = 1) :
    (t.reduce lib).bind (result l.length) =
      some (fun a => avg l fun s => s.y a, fun a b => cov l (fun s => s.y a) (fun s => s.y b), fun a b => cov l (fun s => s.x a) (fun s => s.y b)) := by
  rw [reduce_stats lib t (by omega), Option.bind_some, result, if_neg (by omega)]
  have hdev : ∀ (f g : Sample 𝕜 n m → 𝕜), ((l.length : 𝕜) - 1)⁻¹ * dev t.samples f g = cov l f g := by
    intro f g
    unfold cov dev
    rw [avg_perm hl, avg_perm hl, (hl.map _).sum_eq, div_eq_inv_mul]
  congr 1
  refine Prod.ext ?_ (Prod.ext ?_ ?_)
  · funext a
    exact avg_perm hl _
  · funext a b
    exact hdev _ _
  · funext a b
    exact hdev _ _

/-- C59: the result does not depend on how the samples are combined. -/
theorem C59_schedule (lib : Lib 𝕜) (t t' : Tree 𝕜 n m) (h : t.samples.Perm t'.samples) (hi : t.inits = 1) (hi' : t'.inits = 1) (size : ℕ) :
    (t.reduce lib).bind (result size) = (t'.reduce lib).bind (result size) := by
  rw [reduce_stats lib t (by omega), reduce_stats lib t' (by omega)]
  congr 2
  have hd : ∀ (f g : Sample 𝕜 n m → 𝕜), dev t.samples f g = dev t'.samples f g := by
    intro f g
    unfold dev
    rw [avg_perm h, avg_perm h, (h.map _).sum_eq]
  refine MSum.ext h.length_eq (funext fun a => avg_perm h _) (funext fun a => avg_perm h _) ?_ ?_
  · funext a b
    exact hd _ _
  · funext a b
    exact hd _ _

/-- C59: what the initial value may not do: combined with itself it divides by zero. -/
theorem C59_init_twice (lib : Lib 𝕜) : (Tree.node (.init : Tree 𝕜 n m) .init).reduce lib = none := by
  simp [Tree.reduce, MSum.op, MSum.zero]

/-- Three samples combined from the right and from the left, the initial value being last or first. -/
example : ∃ t t' : Tree ℝ 1 1, t ≠ t' ∧ t.inits = 1 ∧ t'.inits = 1 ∧ t.samples.Perm t'.samples ∧ t.samples.length = 3 := by
  refine ⟨.node (.node (.node .init (.leaf ⟨fun _ => 1, fun _ => 2⟩)) (.leaf ⟨fun _ => 2, fun _ => 3⟩)) (.leaf ⟨fun _ => 4, fun _ => 7⟩),
    .node (.node (.leaf ⟨fun _ => 2, fun _ => 3⟩) (.leaf ⟨fun _ => 4, fun _ => 7⟩)) (.node (.leaf ⟨fun _ => 1, fun _ => 2⟩) .init), by simp, rfl, rfl, ?_, rfl⟩
  simp only [Tree.samples, List.nil_append, List.append_nil, List.cons_append]
  exact (List.perm_append_comm (l₁ := [_]) (l₂ := [_, _]))

/-- The statistics of two samples. -/
example : cov [(⟨fun _ => 1, fun _ => 2⟩ : Sample ℝ 1 1), ⟨fun _ => 3, fun _ => 8⟩] (fun s => s.x 0) (fun s => s.y 0) = 6 := by
  simp [cov, avg]
  norm_num

end OpenKalman.MonteCarlo
