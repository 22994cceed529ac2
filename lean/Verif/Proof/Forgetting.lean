import Verif.Spec.Forgetting
import Verif.Model.Forgetting
import Verif.Theorems.KalmanBayes

/-! # Lemmas for C172 -/

set_option linter.unusedSectionVars false

namespace OpenKalman.Kalman
open Matrix
open scoped ComplexOrder MatrixOrder

variable {𝕜 : Type} [RCLike 𝕜] (lib : Lib 𝕜) {n : Type} [Fintype n] [DecidableEq n]

theorem recent_add (o : ℕ → Obs 𝕜 n) (s k L : ℕ) : recent o s (k + L) = recent o (s + k) L ++ recent o s k := by
  induction L with
  | zero => rfl
  | succ L ih => rw [← add_assoc, recent, recent, ih, add_assoc]; rfl

theorem mem_recent {o : ℕ → Obs 𝕜 n} {s N : ℕ} {x : Obs 𝕜 n} (h : x ∈ recent o s N) : ∃ k, x = o k := by
  induction N with
  | zero => cases h
  | succ N ih =>
    rcases List.mem_cons.1 h with h | h
    · exact ⟨_, h⟩
    · exact ih h

theorem length_recent (o : ℕ → Obs 𝕜 n) (s N : ℕ) : (recent o s N).length = N := by
  induction N with
  | zero => rfl
  | succ N ih => rw [recent, List.length_cons, ih]

theorem info_psd {o : Obs 𝕜 n} (h : o.R.PosDef) : o.info.PosSemidef := h.inv.posSemidef.conjTranspose_mul_mul_same o.H

/-- One step of the information matrix and vector. -/
theorem rls_cons (lam : ℝ) (hl : 0 < lam) (x0 : Gauss 𝕜 n) (h0 : x0.cov.PosDef) (o : Obs 𝕜 n) (os : List (Obs 𝕜 n)) (hR : ∀ p ∈ o :: os, p.R.PosDef) :
    (rls lib lam x0 (o :: os)).cov⁻¹ = (lam : 𝕜) • (rls lib lam x0 os).cov⁻¹ + o.info ∧
      (rls lib lam x0 (o :: os)).cov⁻¹ *ᵥ (rls lib lam x0 (o :: os)).mean = (lam : 𝕜) • (rls lib lam x0 os).cov⁻¹ *ᵥ (rls lib lam x0 os).mean + (o.Hᴴ * o.R⁻¹) *ᵥ o.z := by
  have hp := (C54_information lib lam hl x0 h0 os fun p hp => hR p (List.mem_cons_of_mem _ hp)).1
  have hs : (rlsTransform (lam : 𝕜) (rls lib lam x0 os) []).cov.PosDef := smul_posDef hl hp
  obtain ⟨-, c2, c3⟩ := C52_information lib o.H o.R 0 o.z _ hs (hR o List.mem_cons_self)
  have e : (rlsTransform (lam : 𝕜) (rls lib lam x0 os) []).cov⁻¹ = (lam : 𝕜) • (rls lib lam x0 os).cov⁻¹ := smul_inv hl hp
  refine ⟨?_, ?_⟩
  · rw [e] at c2; exact c2
  · rw [e, sub_zero] at c3
    rw [← Matrix.smul_mulVec] at *
    exact c3

theorem real_nonneg {r : ℝ} (h : 0 ≤ r) : (0 : 𝕜) ≤ (r : 𝕜) := RCLike.ofReal_nonneg.2 h

/-- The latest observations count at least as much as the oldest of them. -/
theorem info_lower (lam : ℝ) (hl : 0 < lam) (h1 : lam ≤ 1) (x0 : Gauss 𝕜 n) (h0 : x0.cov.PosDef) (old : List (Obs 𝕜 n)) :
    ∀ (e : ℕ) (new : List (Obs 𝕜 n)), (∀ p ∈ new ++ old, p.R.PosDef) → new.length ≤ e + 1 →
      ((rls lib lam x0 (new ++ old)).cov⁻¹ - ((lam ^ e : ℝ) : 𝕜) • (new.map Obs.info).sum).PosSemidef := by
  intro e
  induction e with
  | zero =>
    intro new hR hn
    match new, hR, hn with
    | [], hR, _ => simpa using (C54_information lib lam hl x0 h0 old hR).1.inv.posSemidef
    | [o], hR, _ =>
      have hp := (C54_information lib lam hl x0 h0 old fun p hp => hR p (List.mem_cons_of_mem _ hp)).1
      rw [List.singleton_append, (rls_cons lib lam hl x0 h0 o old hR).1]
      simpa using hp.inv.posSemidef.smul (real_nonneg (𝕜 := 𝕜) hl.le)
  | succ e ih =>
    intro new hR hn
    match new, hR, hn with
    | [], hR, _ => simpa using (C54_information lib lam hl x0 h0 old hR).1.inv.posSemidef
    | o :: new, hR, hn =>
      have hi := ih new (fun p hp => hR p (List.mem_cons_of_mem _ hp)) (by simpa using hn)
      rw [List.cons_append, (rls_cons lib lam hl x0 h0 o (new ++ old) hR).1]
      have a := hi.smul (real_nonneg (𝕜 := 𝕜) hl.le)
      have b := (info_psd (hR o List.mem_cons_self)).smul (real_nonneg (𝕜 := 𝕜) (sub_nonneg.2 (pow_le_one₀ (n := e + 1) hl.le h1)))
      have := a.add b
      refine (congrArg PosSemidef ?_).mp this
      rw [List.map_cons, List.sum_cons, smul_sub, smul_add, smul_smul, RCLike.ofReal_sub, RCLike.ofReal_one, sub_smul, one_smul, pow_succ', RCLike.ofReal_mul]
      abel

/-- A lower bound of the inverse is an upper bound. -/
theorem inv_bound {P : Matrix n n 𝕜} (hP : P.PosDef) {b : ℝ} (hb : 0 < b) (h : (P⁻¹ - (b : 𝕜) • (1 : Matrix n n 𝕜)).PosSemidef) :
    (((b⁻¹ : ℝ) : 𝕜) • (1 : Matrix n n 𝕜) - P).PosSemidef := by
  have hu := unit_of_posDef hP
  have hb' : (b : 𝕜) ≠ 0 := by simpa using hb.ne'
  have a : (P * (P⁻¹ - (b : 𝕜) • (1 : Matrix n n 𝕜)) * P).PosSemidef := by
    have := h.conjTranspose_mul_mul_same P
    rwa [hP.1.eq] at this
  have q : ((1 - (b : 𝕜) • P) * (1 - (b : 𝕜) • P)).PosSemidef := by
    have hh : (1 - (b : 𝕜) • P)ᴴ = 1 - (b : 𝕜) • P := by
      rw [conjTranspose_sub, conjTranspose_one, conjTranspose_smul, hP.1.eq]; simp
    have := posSemidef_conjTranspose_mul_self (1 - (b : 𝕜) • P)
    rwa [hh] at this
  have s := (q.smul (real_nonneg (𝕜 := 𝕜) (inv_nonneg.2 hb.le))).add a
  refine (congrArg PosSemidef ?_).mp s
  have e : P * (P⁻¹ - (b : 𝕜) • (1 : Matrix n n 𝕜)) * P = P - (b : 𝕜) • (P * P) := by
    rw [Matrix.mul_sub, mul_nonsing_inv _ hu, Matrix.sub_mul, Matrix.one_mul, Matrix.mul_smul, Matrix.mul_one, Matrix.smul_mul]
  rw [e, Matrix.sub_mul, Matrix.one_mul, Matrix.mul_sub, Matrix.mul_one, Matrix.smul_mul, Matrix.mul_smul, smul_smul, smul_sub, smul_sub, smul_sub, smul_smul, smul_smul,
    RCLike.ofReal_inv, inv_mul_cancel₀ hb', ← mul_assoc, inv_mul_cancel₀ hb', one_mul, one_smul]
  abel

/-- The weighted sum of squares is a square around the estimate and a constant. -/
theorem rls_cost (lam : ℝ) (hl : 0 < lam) (x0 : Gauss 𝕜 n) (h0 : x0.cov.PosDef) (os : List (Obs 𝕜 n)) (hR : ∀ o ∈ os, o.R.PosDef) :
    ∃ c : 𝕜, 0 ≤ c ∧ ∀ θ, lsCost lam x0.cov x0.mean θ os = quad (rls lib lam x0 os).cov⁻¹ (θ - (rls lib lam x0 os).mean) + c := by
  induction os with
  | nil => exact ⟨0, le_rfl, fun θ => by simp [lsCost, rls]⟩
  | cons o os ih =>
    have hR' : ∀ o ∈ os, o.R.PosDef := fun o ho => hR o (List.mem_cons_of_mem _ ho)
    obtain ⟨c, c0, hc⟩ := ih hR'
    have hp := (C54_information lib lam hl x0 h0 os hR').1
    have hs : (rlsTransform (lam : 𝕜) (rls lib lam x0 os) []).cov.PosDef := smul_posDef hl hp
    have hS := (PosDef.posSemidef_add (hs.posSemidef.mul_mul_conjTranspose_same o.H) (hR o List.mem_cons_self)).inv.posSemidef
    refine ⟨(lam : 𝕜) * c + quad (o.H * (rlsTransform (lam : 𝕜) (rls lib lam x0 os) []).cov * o.Hᴴ + o.R)⁻¹
        (o.z - (o.H *ᵥ (rlsTransform (lam : 𝕜) (rls lib lam x0 os) []).mean + 0)),
      add_nonneg (mul_nonneg (real_nonneg hl.le) c0) (hS.dotProduct_mulVec_nonneg _), fun θ => ?_⟩
    have sq := C52_square lib o.H o.R 0 o.z _ hs (hR o List.mem_cons_self) θ
    simp only [] at sq
    have e : quad (rlsTransform (lam : 𝕜) (rls lib lam x0 os) []).cov⁻¹ (θ - (rlsTransform (lam : 𝕜) (rls lib lam x0 os) []).mean) =
        (lam : 𝕜) * quad (rls lib lam x0 os).cov⁻¹ (θ - (rls lib lam x0 os).mean) := by
      have e' : (rlsTransform (lam : 𝕜) (rls lib lam x0 os) []).cov⁻¹ = (lam : 𝕜) • (rls lib lam x0 os).cov⁻¹ := smul_inv hl hp
      rw [e']
      simp only [quad, smul_mulVec, dotProduct_smul, smul_eq_mul]
      rfl
    rw [e] at sq
    show (lam : 𝕜) * lsCost lam x0.cov x0.mean θ os + quad o.R⁻¹ (o.z - o.H *ᵥ θ) = _
    rw [hc θ, mul_add, add_right_comm]
    rw [add_zero] at sq
    rw [sq]
    show _ = quad (linUpdate lib o.H o.R 0 o.z (rlsTransform (lam : 𝕜) (rls lib lam x0 os) [])).cov⁻¹ _ + _
    simp only [rls]
    ring

/-- Squares of residuals that are at most `E` add up to at most a geometric sum. -/
theorem cost_bound (lam : ℝ) (hl : 0 < lam) (P0 : Matrix n n 𝕜) (m0 θ : n → 𝕜) (E : ℝ) (os : List (Obs 𝕜 n)) (hE : ∀ o ∈ os, quad o.R⁻¹ (o.z - o.H *ᵥ θ) ≤ (E : 𝕜)) :
    lsCost lam P0 m0 θ os ≤ ((lam ^ os.length : ℝ) : 𝕜) * quad P0⁻¹ (θ - m0) + ((E * ∑ k ∈ Finset.range os.length, lam ^ k : ℝ) : 𝕜) := by
  induction os with
  | nil => simp [lsCost]
  | cons o os ih =>
    have h := ih fun o ho => hE o (List.mem_cons_of_mem _ ho)
    rw [lsCost]
    refine (add_le_add (mul_le_mul_of_nonneg_left h (real_nonneg hl.le)) (hE o List.mem_cons_self)).trans (le_of_eq ?_)
    have e : E * ∑ k ∈ Finset.range (os.length + 1), lam ^ k = lam * (E * ∑ k ∈ Finset.range os.length, lam ^ k) + E := by
      rw [Finset.sum_range_succ', pow_zero, mul_add, mul_one, Finset.mul_sum, Finset.mul_sum, Finset.mul_sum]
      congr 1
      refine Finset.sum_congr rfl fun k _ => ?_
      rw [pow_succ]; ring
    rw [List.length_cons, e, pow_succ']
    push_cast
    ring

end OpenKalman.Kalman
