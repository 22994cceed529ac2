import Verif.Spec.FiniteDiff
import Verif.Model.FiniteDiff
import Mathlib.Analysis.Calculus.Deriv.Pow
import Mathlib.Analysis.Calculus.Deriv.Mul
import Mathlib.Analysis.Calculus.Deriv.Slope
import Mathlib.Analysis.Calculus.Deriv.Add
import Mathlib.Analysis.Calculus.Deriv.Pi
import Mathlib.Analysis.Calculus.Taylor
import Mathlib.Analysis.Calculus.FDeriv.Symmetric
import Mathlib.Tactic.FieldSimp
import Mathlib.Tactic.Ring
import Mathlib.Tactic.Linarith

/-!
# Lemmas: finite differences
-/

namespace OpenKalman.FiniteDiff
open Function

namespace Act
variable {σ α β : Type}

theorem bind_some {m : Act σ α} {k : α → Act σ β} {s s' : σ} {a : α} (h : m.run s = (s', some a)) : (m >>= k).run s = (k a).run s' := by
  show (Act.bind m k).run s = _
  unfold Act.bind
  simp only [h]

theorem bind_none {m : Act σ α} {k : α → Act σ β} {s s' : σ} (h : m.run s = (s', none)) : (m >>= k).run s = (s', none) := by
  show (Act.bind m k).run s = _
  unfold Act.bind
  simp only [h]

/-- A program that ended normally ended so at every step. -/
theorem bind_inv {m : Act σ α} {k : α → Act σ β} {s s' : σ} {b : β} (h : (m >>= k).run s = (s', some b)) : ∃ a s'', m.run s = (s'', some a) ∧ (k a).run s'' = (s', some b) := by
  rcases e : m.run s with ⟨s'', a⟩
  cases a with
  | none => rw [bind_none e] at h; injection h with _ h; exact absurd h (by simp)
  | some a => exact ⟨a, s'', rfl, by rwa [bind_some e] at h⟩

/-- The program ends normally in the state it started in, with the value `v`. -/
def Reads (m : Act σ α) (s : σ) (v : α) : Prop := m.run s = (s, some v)

/-- If the program ends normally, it ends in the state it started in. -/
def Restores (m : Act σ α) : Prop := ∀ s s' a, m.run s = (s', some a) → s' = s

theorem all_reads : {n : ℕ} → {β : Fin n → Type} → (f : (i : Fin n) → Act σ (β i)) → (s : σ) → (v : (i : Fin n) → β i) → (∀ i, Reads (f i) s (v i)) → Reads (all f) s v
  | 0, _, _, s, v, _ => by
    show (s, some _) = (s, some v)
    congr 2
    funext i; exact i.elim0
  | n + 1, β, f, s, v, h => by
    show (f 0 >>= fun a => (all fun i : Fin n => f i.succ) >>= fun as => (Pure.pure (Fin.cons a as) : Act σ ((i : Fin (n + 1)) → β i))).run s = _
    rw [bind_some (h 0), bind_some (all_reads (fun i => f i.succ) s (fun i => v i.succ) fun i => h i.succ)]
    show (s, some _) = (s, some v)
    congr 2
    exact Fin.cons_self_tail v

theorem all_restores : {n : ℕ} → {β : Fin n → Type} → (f : (i : Fin n) → Act σ (β i)) → (∀ i, Restores (f i)) → Restores (all f)
  | 0, _, _, _ => fun s s' a h => by
    have h : (s, some _) = (s', some a) := h
    exact (Prod.ext_iff.mp h).1.symm
  | n + 1, β, f, hf => fun s s' a h => by
    have h : (f 0 >>= fun a => (all fun i : Fin n => f i.succ) >>= fun as => (Pure.pure (Fin.cons a as) : Act σ ((i : Fin (n + 1)) → β i))).run s = (s', some a) := h
    obtain ⟨b, s1, h1, h⟩ := bind_inv h
    obtain ⟨c, s2, h2, h⟩ := bind_inv h
    have e : s2 = s' := (Prod.ext_iff.mp h).1
    rw [← e, all_restores _ (fun i => hf i.succ) _ _ _ h2, hf 0 _ _ _ h1]

theorem map_restores {m : Act σ α} (g : α → β) (h : Restores m) : Restores (m >>= fun a => (Pure.pure (g a) : Act σ β)) := fun s s' b e => by
  obtain ⟨a, s1, h1, e⟩ := bind_inv e
  have : s1 = s' := (Prod.ext_iff.mp e).1
  rw [← this, h _ _ _ h1]

theorem map_reads {m : Act σ α} (g : α → β) {s : σ} {v : α} (h : Reads m s v) : Reads (m >>= fun a => (Pure.pure (g a) : Act σ β)) s (g v) := by
  show (m >>= _).run s = _
  rw [bind_some h]; rfl

end Act

variable {S : Shape} {k : ℕ} {wrap : (Fin k → ℝ) → Fin k → ℝ} {f : Inputs S → Option (Fin k → ℝ)} {δ : Inputs S}
open Act

theorem call_inv {s s' : Inputs S} {v : Fin k → ℝ} (h : (call wrap f).run s = (s', some v)) : s' = s ∧ ∃ y, f s = some y ∧ wrap y = v := by
  obtain ⟨h1, h2⟩ := Prod.ext_iff.mp h
  obtain ⟨y, h2, h3⟩ := Option.map_eq_some_iff.mp h2
  exact ⟨h1.symm, y, h2, h3⟩

theorem call_some {s : Inputs S} {y : Fin k → ℝ} (h : f s = some y) : (call wrap f).run s = (s, some (wrap y)) := by
  show (s, (f s).map wrap) = _
  rw [h]; rfl

theorem bind_write {β : Type} (p : S.Pos) (v : ℝ) (k : Unit → Act (Inputs S) β) (s : Inputs S) : (write p v >>= k).run s = (k ()).run (update s p v) := bind_some rfl

theorem bind_read {β : Type} (p : S.Pos) (k : ℝ → Act (Inputs S) β) (s : Inputs S) : (read p >>= k).run s = (k (s p)).run s := bind_some rfl

theorem update_restore (s : Inputs S) (p : S.Pos) (u v : ℝ) : update (update (update s p u) p v) p (s p) = s := by
  rw [update_idem, update_idem, update_eq_self]

theorem update_swap (s : Inputs S) {p q : S.Pos} (h : p ≠ q) (a b c : ℝ) : update (update (update s p a) q b) p c = update (update s p c) q b := by
  rw [update_comm h.symm, update_idem]

theorem update_restore₂ (s : Inputs S) (p q : S.Pos) : update (update s p (s p)) q (s q) = s := by
  rw [update_eq_self, update_eq_self]

theorem jacColumn_restores (p : S.Pos) : Restores (jacColumn wrap f δ p) := by
  intro s s' r h
  unfold jacColumn at h
  rw [bind_read] at h
  rw [bind_write] at h
  obtain ⟨fp, s2, h2, h⟩ := bind_inv h
  obtain ⟨rfl, -⟩ := call_inv h2
  rw [bind_write] at h
  obtain ⟨fm, s3, h3, h⟩ := bind_inv h
  obtain ⟨rfl, -⟩ := call_inv h3
  rw [bind_write] at h
  have := (Prod.ext_iff.mp h).1
  exact this.symm.trans (update_restore s p _ _)

theorem jacColumn_reads {g : Inputs S → Fin k → ℝ} (hf : ∀ x, f x = some (g x)) (p : S.Pos) (s : Inputs S) :
    Reads (jacColumn wrap f δ p) s fun a => (wrap (g (update s p (s p + δ p))) a - wrap (g (update s p (s p - δ p))) a) / (2 * δ p) := by
  unfold Reads jacColumn
  rw [bind_read, bind_write, bind_some (call_some (hf _)), bind_write, bind_some (call_some (hf _)), bind_write]
  show (_, some _) = _
  rw [update_restore]
  simp only [update_idem]

theorem hessEntry_restores (t : Fin S.terms) (i j : Fin (S.dim t)) : Restores (hessEntry wrap f δ t i j) := by
  intro s s' r h
  unfold hessEntry at h
  rw [bind_read] at h
  by_cases hij : i = j
  · rw [if_pos hij] at h
    obtain ⟨f0, s2, h2, h⟩ := bind_inv h
    obtain ⟨rfl, -⟩ := call_inv h2
    rw [bind_write] at h
    obtain ⟨fp, s2, h2, h⟩ := bind_inv h
    obtain ⟨rfl, -⟩ := call_inv h2
    rw [bind_write] at h
    obtain ⟨fm, s3, h3, h⟩ := bind_inv h
    obtain ⟨rfl, -⟩ := call_inv h3
    rw [bind_write] at h
    have := (Prod.ext_iff.mp h).1
    exact this.symm.trans (update_restore _ _ _ _)
  · rw [if_neg hij] at h
    have hp : (⟨t, i⟩ : S.Pos) ≠ ⟨t, j⟩ := fun e => hij (by injection e)
    rw [bind_read, bind_write, bind_write] at h
    obtain ⟨fp, s2, h2, h⟩ := bind_inv h
    obtain ⟨rfl, -⟩ := call_inv h2
    rw [bind_write] at h
    obtain ⟨fp, s2, h2, h⟩ := bind_inv h
    obtain ⟨rfl, -⟩ := call_inv h2
    rw [bind_write] at h
    obtain ⟨fp, s2, h2, h⟩ := bind_inv h
    obtain ⟨rfl, -⟩ := call_inv h2
    rw [bind_write] at h
    obtain ⟨fp, s2, h2, h⟩ := bind_inv h
    obtain ⟨rfl, -⟩ := call_inv h2
    rw [bind_write, bind_write] at h
    simp only [update_idem, update_swap s hp, update_restore₂ s] at h
    exact (Prod.ext_iff.mp h).1.symm

/-- The value of a Hessian entry without side effects. -/
noncomputable def hessValue (g : Inputs S → Fin k → ℝ) (δ s : Inputs S) (p q : S.Pos) (a : Fin k) : ℝ :=
  if p = q then ((g (update s p (s p + δ p)) a - g s a) - (g s a - g (update s p (s p - δ p)) a)) / (δ p * δ p)
  else ((g (update (update s p (s p + δ p)) q (s q + δ q)) a - g (update (update s p (s p + δ p)) q (s q - δ q)) a) -
    (g (update (update s p (s p - δ p)) q (s q + δ q)) a - g (update (update s p (s p - δ p)) q (s q - δ q)) a)) / (4 * δ p * δ q)

theorem hessEntry_reads {g : Inputs S → Fin k → ℝ} (hf : ∀ x, f x = some (g x)) (t : Fin S.terms) (i j : Fin (S.dim t)) (s : Inputs S) :
    Reads (hessEntry wrap f δ t i j) s (hessValue (fun x => wrap (g x)) δ s ⟨t, i⟩ ⟨t, j⟩) := by
  unfold Reads hessEntry
  rw [bind_read]
  by_cases hij : i = j
  · subst hij
    rw [if_pos rfl, bind_some (call_some (hf _)), bind_write, bind_some (call_some (hf _)), bind_write, bind_some (call_some (hf _)), bind_write]
    show (_, some _) = _
    rw [update_restore]
    simp only [update_idem]
    congr 2
    funext a
    unfold hessValue
    rw [if_pos rfl]
  · have hp : (⟨t, i⟩ : S.Pos) ≠ ⟨t, j⟩ := fun e => hij (by injection e)
    rw [if_neg hij, bind_read, bind_write, bind_write, bind_some (call_some (hf _)), bind_write, bind_some (call_some (hf _)),
      bind_write, bind_some (call_some (hf _)), bind_write, bind_some (call_some (hf _)), bind_write, bind_write]
    simp only [update_idem, update_swap s hp, update_restore₂ s]
    show (_, some _) = _
    congr 2
    funext a
    unfold hessValue
    rw [if_neg hp]

theorem jacobian_reads {g : Inputs S → Fin k → ℝ} (hf : ∀ x, f x = some (g x)) (s : Inputs S) :
    Reads (jacobian wrap f δ) s fun t => Matrix.of fun a i => (wrap (g (update s ⟨t, i⟩ (s ⟨t, i⟩ + δ ⟨t, i⟩))) a - wrap (g (update s ⟨t, i⟩ (s ⟨t, i⟩ - δ ⟨t, i⟩))) a) / (2 * δ ⟨t, i⟩) :=
  all_reads _ _ _ fun t => map_reads _ (all_reads _ _ _ fun i => jacColumn_reads hf ⟨t, i⟩ s)

theorem hessian_reads {g : Inputs S → Fin k → ℝ} (hf : ∀ x, f x = some (g x)) (s : Inputs S) :
    Reads (hessian wrap f δ) s fun t a => Matrix.of fun i j => hessValue (fun x => wrap (g x)) δ s ⟨t, i⟩ ⟨t, j⟩ a :=
  all_reads _ _ _ fun t => map_reads _ (all_reads _ _ _ fun i => all_reads _ _ _ fun j => hessEntry_reads hf t i j s)

/-! ### Quadratic functions -/

variable {P : Type*} [Fintype P] [DecidableEq P]

/-- A quadratic function of one coordinate. -/
theorem quadratic_update {g : (P → ℝ) → ℝ} {c : ℝ} {b : P → ℝ} {A : P → P → ℝ} (hg : IsQuadratic g c b A) (x : P → ℝ) (p : P) (u : ℝ) :
    g (update x p (x p + u)) = g x + (b p + ∑ q, (A p q + A q p) * x q) * u + A p p * u ^ 2 := by
  have hu : ∀ q, update x p (x p + u) q = x q + (if q = p then u else 0) := by
    intro q
    by_cases h : q = p
    · subst h; simp
    · simp [h]
  rw [hg, hg]
  simp only [hu]
  simp only [mul_add, add_mul, Finset.sum_add_distrib, mul_ite, ite_mul, mul_zero, zero_mul, Finset.sum_ite_eq', Finset.mem_univ, if_true, Finset.sum_ite_irrel, Finset.sum_const_zero]
  simp only [Finset.sum_mul]
  have e1 : ∑ q, A q p * x q * u = ∑ q, A q p * x q * u := rfl
  have e2 : ∑ q, A p q * u * x q = ∑ q, A p q * x q * u := Finset.sum_congr rfl fun q _ => by ring
  rw [e2]
  ring

/-- Two coordinates. -/
theorem quadratic_update₂ {g : (P → ℝ) → ℝ} {c : ℝ} {b : P → ℝ} {A : P → P → ℝ} (hg : IsQuadratic g c b A) (x : P → ℝ) {p q : P} (hpq : p ≠ q) (u v : ℝ) :
    g (update (update x p (x p + u)) q (x q + v)) = g x + (b p + ∑ r, (A p r + A r p) * x r) * u + A p p * u ^ 2 + (b q + ∑ r, (A q r + A r q) * x r + (A q p + A p q) * u) * v + A q q * v ^ 2 := by
  have h := quadratic_update hg (update x p (x p + u)) q v
  rw [update_of_ne hpq.symm] at h
  rw [h, quadratic_update hg]
  have e : ∀ r, (A q r + A r q) * update x p (x p + u) r = (A q r + A r q) * x r + (if r = p then (A q p + A p q) * u else 0) := by
    intro r
    by_cases hr : r = p
    · subst hr; simp; ring
    · simp [hr]
  simp_rw [e, Finset.sum_add_distrib, Finset.sum_ite_eq', Finset.mem_univ, if_true]
  ring

theorem quadratic_partial {g : (P → ℝ) → ℝ} {c : ℝ} {b : P → ℝ} {A : P → P → ℝ} (hg : IsQuadratic g c b A) (x : P → ℝ) (p : P) : HasPartial g p x (b p + ∑ q, (A p q + A q p) * x q) := by
  unfold HasPartial
  have e : (fun u => g (update x p u)) = fun u => g x + (b p + ∑ q, (A p q + A q p) * x q) * (u - x p) + A p p * (u - x p) ^ 2 := by
    funext u
    have := quadratic_update hg x p (u - x p)
    rwa [add_sub_cancel] at this
  rw [e]
  have h1 : HasDerivAt (fun u => u - x p) 1 (x p) := (hasDerivAt_id _).sub_const _
  have h2 := ((h1.const_mul (b p + ∑ q, (A p q + A q p) * x q)).const_add (g x)).add ((h1.pow 2).const_mul (A p p))
  have e2 : (b p + ∑ q, (A p q + A q p) * x q) * 1 + A p p * (((2 : ℕ) : ℝ) * (x p - x p) ^ (2 - 1) * 1) = b p + ∑ q, (A p q + A q p) * x q := by simp
  rw [e2] at h2
  exact h2

theorem quadratic_partial₂ {g : (P → ℝ) → ℝ} {c : ℝ} {b : P → ℝ} {A : P → P → ℝ} (hg : IsQuadratic g c b A) (x : P → ℝ) (p q : P) : HasPartial₂ g p q x (A p q + A q p) := by
  refine ⟨fun y => b p + ∑ r, (A p r + A r p) * y r, fun y => quadratic_partial hg y p, ?_⟩
  unfold HasPartial
  have e : (fun u => b p + ∑ r, (A p r + A r p) * update x q u r) = fun u => b p + ∑ r, (A p r + A r p) * x r + (A p q + A q p) * (u - x q) := by
    funext u
    have h : ∀ r, (A p r + A r p) * update x q u r = (A p r + A r p) * x r + (if r = q then (A p q + A q p) * (u - x q) else 0) := by
      intro r
      by_cases hr : r = q
      · subst hr; simp; ring
      · simp [hr]
    simp_rw [h, Finset.sum_add_distrib, Finset.sum_ite_eq', Finset.mem_univ, if_true]
    ring
  rw [e]
  have h1 : HasDerivAt (fun u => u - x q) 1 (x q) := (hasDerivAt_id _).sub_const _
  simpa using (h1.const_mul (A p q + A q p)).const_add (b p + ∑ r, (A p r + A r p) * x r)

/-! ### Small steps -/

open Filter Topology Asymptotics

/-- The central difference quotient converges to the derivative. -/
theorem central_first {φ : ℝ → ℝ} {x d : ℝ} (h : HasDerivAt φ d x) {c : ℝ} (hc : c ≠ 0) :
    Tendsto (fun ε => (φ (x + ε * c) - φ (x - ε * c)) / (2 * (ε * c))) (𝓝[≠] 0) (𝓝 d) := by
  have key : HasDerivAt (fun ε => φ (x + ε * c) - φ (x - ε * c)) (2 * c * d) 0 := by
    have h1 : HasDerivAt (fun ε : ℝ => x + ε * c) c 0 := by simpa using ((hasDerivAt_id (0 : ℝ)).mul_const c).const_add x
    have h2 : HasDerivAt (fun ε : ℝ => x - ε * c) (-c) 0 := by simpa using ((hasDerivAt_id (0 : ℝ)).mul_const c).const_sub x
    have h3 : HasDerivAt φ d (x + 0 * c) := by simpa using h
    have h4 : HasDerivAt φ d (x - 0 * c) := by simpa using h
    have h5 := (h3.comp (0 : ℝ) h1).sub (h4.comp (0 : ℝ) h2)
    have e : d * c - d * -c = 2 * c * d := by ring
    rw [e] at h5
    exact h5
  have h2 := hasDerivAt_iff_tendsto_slope.mp key
  have h3 := h2.div_const (2 * c)
  rw [mul_div_cancel_left₀ d (by positivity)] at h3
  refine h3.congr' ?_
  filter_upwards [self_mem_nhdsWithin] with ε hε
  have hε : ε ≠ 0 := hε
  simp [slope, vsub_eq_sub]
  field_simp

/-- The second central difference quotient converges to the second derivative. -/
theorem central_second {φ ψ : ℝ → ℝ} {c : ℝ} (h : ∀ ε, HasDerivAt φ (ψ ε) ε) (h' : HasDerivAt ψ c 0) :
    Tendsto (fun ε => (φ ε + φ (-ε) - 2 * φ 0) / ε ^ 2) (𝓝[≠] 0) (𝓝 c) := by
  have o1 : (fun ε => ψ ε - ψ 0 - ε * c) =o[𝓝[Set.univ] 0] fun ε : ℝ => (ε - 0) ^ 1 := by
    have := hasDerivAt_iff_isLittleO.mp h'
    simpa [nhdsWithin_univ] using this
  have d1 : ∀ ε ∈ (Set.univ : Set ℝ), HasDerivWithinAt (fun ε => φ ε - φ 0 - ψ 0 * ε - c / 2 * ε ^ 2) (ψ ε - ψ 0 - ε * c) Set.univ ε := by
    intro ε _
    have h3 := (((h ε).sub_const (φ 0)).sub ((hasDerivAt_id ε).const_mul (ψ 0))).sub (((hasDerivAt_id ε).pow 2).const_mul (c / 2))
    have e : ψ ε - ψ 0 * 1 - c / 2 * (((2 : ℕ) : ℝ) * id ε ^ (2 - 1) * 1) = ψ ε - ψ 0 - ε * c := by simp; ring
    rw [e] at h3
    exact h3.hasDerivWithinAt
  have o2 := Convex.isLittleO_pow_succ_real convex_univ (Set.mem_univ (0 : ℝ)) d1 o1
  simp only [nhdsWithin_univ, sub_zero, mul_zero, zero_pow, sub_self, ne_eq, OfNat.ofNat_ne_zero, not_false_eq_true, Nat.reduceAdd] at o2
  have t1 : Tendsto (fun ε => (φ ε - φ 0 - ψ 0 * ε - c / 2 * ε ^ 2) / ε ^ 2) (𝓝[≠] 0) (𝓝 0) := (o2.mono nhdsWithin_le_nhds).tendsto_div_nhds_zero
  have t2 : Tendsto (fun ε : ℝ => -ε) (𝓝[≠] 0) (𝓝[≠] 0) := by
    refine tendsto_nhdsWithin_iff.mpr ⟨?_, ?_⟩
    · have : Tendsto (fun ε : ℝ => -ε) (𝓝 0) (𝓝 (-0)) := continuous_neg.tendsto 0
      rw [neg_zero] at this
      exact this.mono_left nhdsWithin_le_nhds
    · filter_upwards [self_mem_nhdsWithin] with ε hε
      exact neg_ne_zero.mpr hε
  have t3 := (t1.add (t1.comp t2)).add_const c
  rw [add_zero, zero_add] at t3
  refine t3.congr' ?_
  filter_upwards [self_mem_nhdsWithin] with ε hε
  have hε : ε ≠ 0 := hε
  simp only [comp_apply]
  field_simp
  ring

/-- The second central difference quotient along a line. -/
theorem central_line {E : Type*} [NormedAddCommGroup E] [NormedSpace ℝ E] {g : E → ℝ} (hg : ContDiff ℝ 2 g) (x v : E) :
    Tendsto (fun ε : ℝ => (g (x + ε • v) + g (x + (-ε) • v) - 2 * g x) / ε ^ 2) (𝓝[≠] 0) (𝓝 (fderiv ℝ (fderiv ℝ g) x v v)) := by
  have hG : Differentiable ℝ g := hg.differentiable (by norm_num)
  have hG2 : Differentiable ℝ (fderiv ℝ g) := (hg.fderiv_right (m := 1) (by norm_num)).differentiable (by norm_num)
  have hl : ∀ ε : ℝ, HasDerivAt (fun ε : ℝ => x + ε • v) v ε := fun ε => by simpa using ((hasDerivAt_id ε).smul_const v).const_add x
  have := central_second (φ := fun ε => g (x + ε • v)) (ψ := fun ε => fderiv ℝ g (x + ε • v) v) (c := fderiv ℝ (fderiv ℝ g) x v v)
    (fun ε => (hG _).hasFDerivAt.comp_hasDerivAt ε (hl ε)) (by
      have h0 := (hG2 (x + (0 : ℝ) • v)).hasFDerivAt.comp_hasDerivAt (0 : ℝ) (hl 0)
      rw [zero_smul, add_zero] at h0
      exact h0.clm_apply (hasDerivAt_const _ _) |>.congr_deriv (by simp))
  simpa using this

/-- The mixed central difference quotient of a twice continuously differentiable function. -/
theorem central_mixed {E : Type*} [NormedAddCommGroup E] [NormedSpace ℝ E] {g : E → ℝ} (hg : ContDiff ℝ 2 g) (x a b : E) :
    Tendsto (fun ε : ℝ => ((g (x + ε • a + ε • b) - g (x + ε • a - ε • b)) - (g (x - ε • a + ε • b) - g (x - ε • a - ε • b))) / (4 * ε ^ 2)) (𝓝[≠] 0) (𝓝 (fderiv ℝ (fderiv ℝ g) x b a)) := by
  have hG : Differentiable ℝ g := hg.differentiable (by norm_num)
  have hG2 : Differentiable ℝ (fderiv ℝ g) := (hg.fderiv_right (m := 1) (by norm_num)).differentiable (by norm_num)
  have line := central_line hg x
  have sym : fderiv ℝ (fderiv ℝ g) x a b = fderiv ℝ (fderiv ℝ g) x b a :=
    second_derivative_symmetric (fun y => (hG y).hasFDerivAt) (hG2 x).hasFDerivAt a b
  have t := ((line (a + b)).sub (line (a - b))).div_const 4
  have e : (fderiv ℝ (fderiv ℝ g) x (a + b) (a + b) - fderiv ℝ (fderiv ℝ g) x (a - b) (a - b)) / 4 = fderiv ℝ (fderiv ℝ g) x b a := by
    simp only [map_add, map_sub, add_apply, sub_apply, sym]
    ring
  rw [e] at t
  refine t.congr fun ε => ?_
  have e1 : x + ε • (a + b) = x + ε • a + ε • b := by rw [smul_add]; abel
  have e2 : x + -ε • (a + b) = x - ε • a - ε • b := by rw [smul_add, neg_smul, neg_smul]; abel
  have e3 : x + ε • (a - b) = x + ε • a - ε • b := by rw [smul_sub]; abel
  have e4 : x + -ε • (a - b) = x - ε • a + ε • b := by rw [smul_sub, neg_smul, neg_smul]; abel
  rw [e1, e2, e3, e4]
  by_cases hε : ε = 0
  · subst hε; simp
  · field_simp
    ring

section limit
variable {ι : Type*} [Fintype ι] [DecidableEq ι]

omit [Fintype ι] in
theorem update_line (y : ι → ℝ) (p : ι) (v : ℝ) : update y p (y p + v) = y + v • Pi.single p (1 : ℝ) := by
  funext q
  by_cases h : q = p
  · subst h; simp
  · simp [h]

omit [Fintype ι] in
theorem update_line₂ (y : ι → ℝ) {p q : ι} (h : p ≠ q) (u v : ℝ) : update (update y p (y p + u)) q (y q + v) = y + u • Pi.single p (1 : ℝ) + v • Pi.single q (1 : ℝ) := by
  have := update_line (update y p (y p + u)) q v
  rw [update_of_ne (Ne.symm h)] at this
  rw [this, update_line]

omit [Fintype ι] [DecidableEq ι] in
theorem fderiv_smul₂ {G : (ι → ℝ) → ℝ} {s a b : ι → ℝ} {u v : ℝ} (hu : u ≠ 0) (hv : v ≠ 0) :
    fderiv ℝ (fderiv ℝ G) s (v • b) (u • a) / (u * v) = fderiv ℝ (fderiv ℝ G) s b a := by
  simp only [map_smul, smul_apply, smul_eq_mul]
  field_simp

/-- The Hessian entry on the diagonal. -/
theorem hess_limit_diag {G : (ι → ℝ) → ℝ} (hG : ContDiff ℝ 2 G) (δ s : ι → ℝ) (p : ι) (hp : δ p ≠ 0) :
    Tendsto (fun ε : ℝ => ((G (update s p (s p + ε * δ p)) - G s) - (G s - G (update s p (s p - ε * δ p)))) / (ε * δ p * (ε * δ p))) (𝓝[≠] 0)
      (𝓝 (fderiv ℝ (fderiv ℝ G) s (Pi.single p 1) (Pi.single p 1))) := by
  have T := (central_line hG s (δ p • Pi.single p (1 : ℝ))).div_const (δ p * δ p)
  rw [fderiv_smul₂ hp hp] at T
  refine T.congr' ?_
  filter_upwards [self_mem_nhdsWithin] with ε hε
  have hε : ε ≠ 0 := hε
  have e1 := update_line s p (ε * δ p)
  have e2 := update_line s p (-(ε * δ p))
  rw [← sub_eq_add_neg] at e2
  rw [e1, e2, smul_smul, smul_smul, neg_mul]
  field_simp
  ring

/-- The Hessian entry off the diagonal. -/
theorem hess_limit_off {G : (ι → ℝ) → ℝ} (hG : ContDiff ℝ 2 G) (δ s : ι → ℝ) {p q : ι} (h : p ≠ q) (hp : δ p ≠ 0) (hq : δ q ≠ 0) :
    Tendsto (fun ε : ℝ => ((G (update (update s p (s p + ε * δ p)) q (s q + ε * δ q)) - G (update (update s p (s p + ε * δ p)) q (s q - ε * δ q))) -
      (G (update (update s p (s p - ε * δ p)) q (s q + ε * δ q)) - G (update (update s p (s p - ε * δ p)) q (s q - ε * δ q)))) / (4 * (ε * δ p) * (ε * δ q))) (𝓝[≠] 0)
      (𝓝 (fderiv ℝ (fderiv ℝ G) s (Pi.single q 1) (Pi.single p 1))) := by
  have T := (central_mixed hG s (δ p • Pi.single p (1 : ℝ)) (δ q • Pi.single q (1 : ℝ))).div_const (δ p * δ q)
  rw [fderiv_smul₂ hp hq] at T
  refine T.congr' ?_
  filter_upwards [self_mem_nhdsWithin] with ε hε
  have hε : ε ≠ 0 := hε
  have e1 := update_line₂ s h (ε * δ p) (ε * δ q)
  have e2 := update_line₂ s h (ε * δ p) (-(ε * δ q))
  have e3 := update_line₂ s h (-(ε * δ p)) (ε * δ q)
  have e4 := update_line₂ s h (-(ε * δ p)) (-(ε * δ q))
  rw [← sub_eq_add_neg, neg_smul, ← sub_eq_add_neg] at e2
  rw [← sub_eq_add_neg, neg_smul, ← sub_eq_add_neg] at e3
  rw [← sub_eq_add_neg, ← sub_eq_add_neg, neg_smul, neg_smul, ← sub_eq_add_neg, ← sub_eq_add_neg] at e4
  rw [e1, e2, e3, e4]
  simp only [smul_smul]
  field_simp

/-- Second partial derivatives of a twice continuously differentiable function. -/
theorem hasPartial₂_of_contDiff {G : (ι → ℝ) → ℝ} (hg : ContDiff ℝ 2 G) (s : ι → ℝ) (p q : ι) :
    HasPartial₂ G p q s (fderiv ℝ (fderiv ℝ G) s (Pi.single q 1) (Pi.single p 1)) := by
  have hG : Differentiable ℝ G := hg.differentiable (by norm_num)
  have hG2 : Differentiable ℝ (fderiv ℝ G) := (hg.fderiv_right (m := 1) (by norm_num)).differentiable (by norm_num)
  refine ⟨fun y => fderiv ℝ G y (Pi.single p 1), fun y => ?_, ?_⟩
  · have h0 : HasFDerivAt G (fderiv ℝ G y) (update y p (y p)) := by rw [update_eq_self]; exact (hG y).hasFDerivAt
    exact h0.comp_hasDerivAt (y p) (hasDerivAt_update y p (y p))
  · have h0 : HasFDerivAt (fderiv ℝ G) (fderiv ℝ (fderiv ℝ G) s) (update s q (s q)) := by rw [update_eq_self]; exact (hG2 s).hasFDerivAt
    have h1 := h0.comp_hasDerivAt (s q) (hasDerivAt_update s q (s q))
    exact h1.clm_apply (hasDerivAt_const _ _) |>.congr_deriv (by simp)

end limit

end OpenKalman.FiniteDiff
