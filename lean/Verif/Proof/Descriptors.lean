import Verif.Spec.Descriptors
import Verif.Model.Descriptors
import Mathlib.Analysis.SpecialFunctions.Trigonometric.Angle
import Mathlib.Analysis.SpecialFunctions.Trigonometric.Complex
import Mathlib.Tactic.Linarith
import Mathlib.Tactic.Ring
import Mathlib.Tactic.FieldSimp

/-! # Lemmas for C01–C08 -/

namespace OpenKalman.Patterns
open Real

theorem SameAngle.refl (p x : ℝ) : SameAngle p x x := ⟨0, by simp⟩

theorem SameAngle.symm {p x y : ℝ} (h : SameAngle p x y) : SameAngle p y x := by
  obtain ⟨k, hk⟩ := h; exact ⟨-k, by push_cast; rw [hk]; ring⟩

theorem SameAngle.trans {p x y z : ℝ} (h : SameAngle p x y) (h' : SameAngle p y z) : SameAngle p x z := by
  obtain ⟨k, hk⟩ := h; obtain ⟨l, hl⟩ := h'
  exact ⟨k + l, by push_cast; rw [hl, hk]; ring⟩

theorem sameAngle_unique {mn mx x y : ℝ} (h : SameAngle (mx - mn) x y) (hx : InRange mn mx x) (hy : InRange mn mx y) : x = y := by
  obtain ⟨k, hk⟩ := h
  have hp : 0 < mx - mn := by linarith [hx.1, hx.2]
  have h1 : (k : ℝ) < 1 := by
    by_contra h; push Not at h
    have : (mx - mn) ≤ k * (mx - mn) := by nlinarith
    linarith [hx.1, hy.2]
  have h2 : (-1 : ℝ) < k := by
    by_contra h; push Not at h
    have : k * (mx - mn) ≤ -(mx - mn) := by nlinarith
    linarith [hx.2, hy.1]
  have h3 : k < 1 := by exact_mod_cast h1
  have h4 : -1 < k := by exact_mod_cast h2
  have : k = 0 := by omega
  rw [hk, this]; simp

theorem fmod_bounds (x : ℝ) {p : ℝ} (hp : 0 < p) : -p < fmod x p ∧ fmod x p < p ∧ (0 ≤ x → 0 ≤ fmod x p) ∧ (x ≤ 0 → fmod x p ≤ 0) := by
  have hx : x = x / p * p := by field_simp
  unfold fmod truncZ
  split_ifs with h
  · have h1 := Int.floor_le (x / p)
    have h2 := Int.lt_floor_add_one (x / p)
    have h0 : 0 ≤ x := by rw [hx]; positivity
    have : x - ⌊x / p⌋ * p = (x / p - ⌊x / p⌋) * p := by rw [sub_mul, ← hx]
    rw [this]
    refine ⟨by nlinarith, by nlinarith, fun _ => by nlinarith, fun h' => ?_⟩
    have : x = 0 := le_antisymm h' h0
    simp [this]
  · have h1 := Int.le_ceil (x / p)
    have h2 := Int.ceil_lt_add_one (x / p)
    push Not at h
    have h0 : x < 0 := by rw [hx]; exact mul_neg_of_neg_of_pos h hp
    have : x - ⌈x / p⌉ * p = (x / p - ⌈x / p⌉) * p := by rw [sub_mul, ← hx]
    rw [this]
    exact ⟨by nlinarith, by nlinarith, fun h' => absurd h' (by linarith), fun _ => by nlinarith⟩

theorem fmod_sub (x p : ℝ) : ∃ k : ℤ, fmod x p = x + k * p := ⟨-truncZ (x / p), by unfold fmod; push_cast; ring⟩

theorem fmod_of_lt {x p : ℝ} (h0 : 0 ≤ x) (h1 : x < p) : fmod x p = x := by
  have hp : 0 < p := lt_of_le_of_lt h0 h1
  have : ⌊x / p⌋ = 0 := by
    rw [Int.floor_eq_zero_iff]; exact ⟨by positivity, by rwa [div_lt_one hp]⟩
  unfold fmod truncZ
  rw [if_pos (by positivity), this]; simp

namespace AngleLim
variable (L : AngleLim)

theorem period_pos : 0 < L.period := by have := L.min_nonpos; have := L.max_pos; unfold period; linarith

theorem mod_range (x : ℝ) : InRange L.min L.max (if fmod (x - L.min) L.period < 0 then L.min + fmod (x - L.min) L.period + L.period
    else L.min + fmod (x - L.min) L.period) := by
  obtain ⟨h1, h2, -, -⟩ := fmod_bounds (x - L.min) L.period_pos
  have hp : L.period = L.max - L.min := rfl
  unfold InRange
  split_ifs with h <;> constructor <;> linarith

theorem mod_same (x : ℝ) : SameAngle L.period x (if fmod (x - L.min) L.period < 0 then L.min + fmod (x - L.min) L.period + L.period
    else L.min + fmod (x - L.min) L.period) := by
  obtain ⟨k, hk⟩ := fmod_sub (x - L.min) L.period
  split_ifs
  · exact ⟨k + 1, by rw [hk]; push_cast; ring⟩
  · exact ⟨k, by rw [hk]; ring⟩

theorem wrapPhiMod_range (x : ℝ) : InRange L.min L.max (L.wrapPhiMod x) := by
  unfold wrapPhiMod
  split_ifs with h
  · exact ⟨h.1, h.2⟩
  · exact L.mod_range x

theorem wrapPhiMod_same (x : ℝ) : SameAngle L.period x (L.wrapPhiMod x) := by
  unfold wrapPhiMod
  split_ifs with h
  · exact SameAngle.refl _ _
  · exact L.mod_same x

theorem eq_wrap {x y : ℝ} (h : SameAngle L.period x y) (hy : InRange L.min L.max y) : y = L.wrapPhiMod x :=
  (sameAngle_unique ((L.wrapPhiMod_same x).symm.trans h) (L.wrapPhiMod_range x) hy).symm

/-- A value within half a period of zero is brought into range by one conditional shift. -/
theorem wrapPhi_range {x : ℝ} (h1 : -(L.period / 2) ≤ x) (h2 : x ≤ L.period / 2) : InRange L.min L.max (L.wrapPhi x) := by
  have := L.min_nonpos; have := L.max_pos; have hp : L.period = L.max - L.min := rfl
  unfold wrapPhi InRange
  split_ifs with h h' <;> constructor <;> linarith

theorem wrapPhi_same (x : ℝ) : SameAngle L.period x (L.wrapPhi x) := by
  unfold wrapPhi
  split_ifs
  · exact ⟨1, by simp⟩
  · exact ⟨-1, by push_cast; ring⟩
  · exact SameAngle.refl _ _

/-- The radian measure used by the encoders. -/
theorem phi_eq (a : ℝ) : (if L.unscaled then a else a * (2 * π / L.period)) = 2 * π * a / L.period := by
  split_ifs with h
  · obtain ⟨h1, h2⟩ := L.unscaled_spec h
    have : L.period = 2 * π := by unfold period; rw [h1, h2]; ring
    rw [this]; field_simp
  · ring

theorem toStat_eq (a : ℝ) : L.toStat a = circlePoint L.period a := by
  have := L.phi_eq a
  unfold toStat circlePoint
  split_ifs at this ⊢ with h <;> rw [← this]

end AngleLim

theorem atan2_polar {r : ℝ} (hr : 0 < r) (θ : ℝ) : ∃ k : ℤ, atan2 (r * sin θ) (r * cos θ) = θ + k * (2 * π) := by
  have h := Complex.arg_mul_cos_add_sin_mul_I_sub hr θ
  have e : (⟨r * cos θ, r * sin θ⟩ : ℂ) = (r : ℂ) * (Complex.cos θ + Complex.sin θ * Complex.I) := by
    apply Complex.ext <;> simp [Complex.cos_ofReal_re, Complex.sin_ofReal_re, Complex.cos_ofReal_im, Complex.sin_ofReal_im]
  refine ⟨⌊(π - θ) / (2 * π)⌋, ?_⟩
  unfold atan2
  rw [e]
  linarith

theorem atan2_unit (θ : ℝ) : ∃ k : ℤ, atan2 (sin θ) (cos θ) = θ + k * (2 * π) := by
  have := atan2_polar one_pos θ; simpa using this

theorem atan2_range (y x : ℝ) : -π < atan2 y x ∧ atan2 y x ≤ π := ⟨Complex.neg_pi_lt_arg _, Complex.arg_le_pi _⟩

theorem cos_atan2 {x y : ℝ} (h : (x, y) ≠ (0, 0)) : cos (atan2 y x) = x / √(x ^ 2 + y ^ 2) := by
  have hne : (⟨x, y⟩ : ℂ) ≠ 0 := by
    intro h'; apply h; have h1 := congrArg Complex.re h'; have h2 := congrArg Complex.im h'; simp at h1 h2; simp [h1, h2]
  unfold atan2; rw [Complex.cos_arg hne, Complex.norm_eq_sqrt_sq_add_sq]

theorem sin_atan2 (x y : ℝ) : sin (atan2 y x) = y / √(x ^ 2 + y ^ 2) := by
  unfold atan2; rw [Complex.sin_arg, Complex.norm_eq_sqrt_sq_add_sq]

theorem atan2_smul {r : ℝ} (hr : 0 < r) (x y : ℝ) : atan2 (r * y) (r * x) = atan2 y x := by
  unfold atan2
  have : (⟨r * x, r * y⟩ : ℂ) = (r : ℂ) * ⟨x, y⟩ := by apply Complex.ext <;> simp
  rw [this, Complex.arg_real_mul _ hr]

theorem circlePoint_inj {p : ℝ} (hp : 0 < p) (a b : ℝ) : circlePoint p a = circlePoint p b ↔ SameAngle p a b := by
  unfold circlePoint SameAngle
  rw [Prod.mk.injEq]
  constructor
  · rintro ⟨h1, h2⟩
    have := Real.Angle.cos_sin_inj h1 h2
    rw [Real.Angle.angle_eq_iff_two_pi_dvd_sub] at this
    obtain ⟨k, hk⟩ := this
    refine ⟨-k, ?_⟩
    have hpi := Real.pi_pos
    have : 2 * π * (a - b) / p = 2 * π * k := by rw [← hk]; ring
    have h3 : a - b = k * p := by
      field_simp at this; linarith
    push_cast; linarith
  · rintro ⟨k, rfl⟩
    have : 2 * π * (a + k * p) / p = 2 * π * a / p + k * (2 * π) := by field_simp
    rw [this]
    exact ⟨(Real.cos_add_int_mul_two_pi _ _).symm, (Real.sin_add_int_mul_two_pi _ _).symm⟩

theorem circlePoint_half {p : ℝ} (hp : 0 < p) (a : ℝ) :
    circlePoint p (a + p * (1 / 2)) = (-(circlePoint p a).1, -(circlePoint p a).2) := by
  unfold circlePoint
  have : 2 * π * (a + p * (1 / 2)) / p = 2 * π * a / p + π := by field_simp
  rw [this, Real.cos_add_pi, Real.sin_add_pi]

theorem planePoint_eq (p r a : ℝ) : planePoint p r a = (r * (circlePoint p a).1, r * (circlePoint p a).2) := rfl

namespace AngleLim
variable (L : AngleLim)

/-- Decoding (scaled branch, or unscaled away from the boundary) any vector pointing in the direction of angle `a`. -/
theorem decode_scaled {a x y : ℝ} {r : ℝ} (hr : 0 < r) (hx : x = r * (circlePoint L.period a).1) (hy : y = r * (circlePoint L.period a).2) :
    L.wrapPhi (atan2 y x * (L.period / (2 * π))) = L.wrapPhiMod a := by
  have hp := L.period_pos
  have hpi := Real.pi_pos
  obtain ⟨k, hk⟩ := atan2_polar hr (2 * π * a / L.period)
  obtain ⟨h1, h2⟩ := atan2_range y x
  apply L.eq_wrap
  · refine SameAngle.trans ?_ (L.wrapPhi_same _)
    refine ⟨k, ?_⟩
    rw [hx, hy]; unfold circlePoint
    rw [hk]; field_simp
  · have e : L.period / 2 = π * (L.period / (2 * π)) := by field_simp
    have hq : 0 < L.period / (2 * π) := by positivity
    apply L.wrapPhi_range
    · rw [e, ← neg_mul]; exact mul_le_mul_of_nonneg_right h1.le hq.le
    · rw [e]; exact mul_le_mul_of_nonneg_right h2 hq.le

/-- Decoding in the unscaled branch. -/
theorem decode_unscaled (hu : L.unscaled = true) {a x y : ℝ} {r : ℝ} (hr : 0 < r) (hx : x = r * (circlePoint L.period a).1)
    (hy : y = r * (circlePoint L.period a).2) :
    atan2 y x = if L.wrapPhiMod a = -π then π else L.wrapPhiMod a := by
  have hp := L.period_pos
  have hpi := Real.pi_pos
  obtain ⟨e1, e2⟩ := L.unscaled_spec hu
  have e3 : L.period = 2 * π := by unfold period; rw [e1, e2]; ring
  obtain ⟨k, hk⟩ := atan2_polar hr (2 * π * a / L.period)
  obtain ⟨h1, h2⟩ := atan2_range y x
  have hs : SameAngle L.period a (atan2 y x) := ⟨k, by rw [hx, hy]; unfold circlePoint; rw [hk, e3]; field_simp⟩
  by_cases hb : atan2 y x = π
  · have : L.wrapPhiMod a = -π := by
      symm; apply L.eq_wrap
      · exact hs.trans ⟨-1, by rw [hb, e3]; push_cast; ring⟩
      · exact ⟨by rw [e1], by rw [e2]; linarith⟩
    rw [if_pos this, hb]
  · have : atan2 y x = L.wrapPhiMod a := by
      apply L.eq_wrap hs
      exact ⟨by rw [e1]; exact h1.le, by rw [e2]; exact lt_of_le_of_ne h2 hb⟩
    rw [if_neg, this]
    rw [← this]; exact ne_of_gt h1

/-- `polarWrapPhiMod` is `wrapPhiMod` of the flipped angle. -/
theorem polarWrapPhiMod_eq (d a : ℝ) : L.polarWrapPhiMod d a = L.wrapPhiMod (if signbit d then a + L.period * (1 / 2) else a) := rfl

end AngleLim

/-! ## Inclination -/

theorem sameIncl_iff {down : ℝ} (hd : 0 < down) (x y : ℝ) : SameIncl down x y ↔ cos (π * x / down) = cos (π * y / down) := by
  have hpi := Real.pi_pos
  rw [Real.cos_eq_cos_iff]
  unfold SameIncl
  refine exists_congr fun k => or_congr ?_ ?_
  · constructor
    · rintro rfl; field_simp; ring
    · intro h; field_simp at h; linarith
  · constructor
    · rintro rfl; field_simp; ring
    · intro h; field_simp at h; linarith

theorem sameIncl_unique {down x y : ℝ} (hd : 0 < down) (h : SameIncl down x y) (hx : 0 ≤ x ∧ x ≤ down) (hy : 0 ≤ y ∧ y ≤ down) : x = y := by
  rw [sameIncl_iff hd] at h
  have hpi := Real.pi_pos
  have mem : ∀ z : ℝ, 0 ≤ z ∧ z ≤ down → π * z / down ∈ Set.Icc 0 π := by
    intro z hz
    refine ⟨by have := hz.1; positivity, ?_⟩
    rw [div_le_iff₀ hd]; nlinarith [hz.2]
  have := Real.injOn_cos (mem x hx) (mem y hy) h
  field_simp at this
  exact this

theorem atan2_of_nonneg {x y : ℝ} (hy : 0 ≤ y) (hne : (x, y) ≠ (0, 0)) : atan2 y x = arccos (x / √(x ^ 2 + y ^ 2)) := by
  have hne' : (⟨x, y⟩ : ℂ) ≠ 0 := by
    intro h'; apply hne; have h1 := congrArg Complex.re h'; have h2 := congrArg Complex.im h'; simp at h1 h2; simp [h1, h2]
  unfold atan2
  rw [Complex.arg_of_im_nonneg_of_ne_zero hy hne', Complex.norm_eq_sqrt_sq_add_sq]

theorem atan2_of_neg {x y : ℝ} (hy : y < 0) : atan2 y x = -arccos (x / √(x ^ 2 + y ^ 2)) := by
  unfold atan2
  rw [Complex.arg_of_im_neg hy, Complex.norm_eq_sqrt_sq_add_sq]

namespace InclLim
variable (I : InclLim)

theorem theta_eq (i : ℝ) : I.theta i = π * i / I.down := by
  unfold theta
  split_ifs with h
  · rw [I.unscaled_spec h]; field_simp
  · ring

theorem wrap_range (i : ℝ) : 0 ≤ I.wrap i ∧ I.wrap i ≤ I.down := by
  have hd := I.down_pos
  unfold wrap
  split_ifs with h
  · exact h
  · obtain ⟨h1, h2, h3, -⟩ := fmod_bounds |i| (by linarith : 0 < I.down * 2)
    have h4 := h3 (abs_nonneg i)
    simp only []
    split_ifs with h5
    · constructor <;> linarith
    · push Not at h5; exact ⟨h4, h5⟩

theorem wrap_same (i : ℝ) : SameIncl I.down i (I.wrap i) := by
  unfold wrap
  split_ifs with h
  · exact ⟨0, by simp⟩
  · obtain ⟨k, hk⟩ := fmod_sub |i| (I.down * 2)
    simp only [hk]
    rcases abs_choice i with e | e
    · split_ifs
      · exact ⟨1 - k, Or.inr (by rw [e]; push_cast; ring)⟩
      · exact ⟨k, Or.inl (by rw [e]; ring)⟩
    · split_ifs
      · exact ⟨1 - k, Or.inl (by rw [e]; push_cast; ring)⟩
      · exact ⟨k, Or.inr (by rw [e]; ring)⟩

theorem eq_wrap {x y : ℝ} (h : SameIncl I.down x y) (hy : 0 ≤ y ∧ y ≤ I.down) : y = I.wrap x := by
  refine sameIncl_unique I.down_pos ?_ hy (I.wrap_range x)
  rw [sameIncl_iff I.down_pos] at h ⊢
  rw [← h]; exact (sameIncl_iff I.down_pos _ _).mp (I.wrap_same x)

theorem fromStat_eq (z w : ℝ) : I.fromStat z w = atan2 |w| z * (I.down / π) := by
  unfold fromStat
  split_ifs with h
  · rw [I.unscaled_spec h]; have := Real.pi_pos; field_simp
  · rfl

theorem fromStat_range (z w : ℝ) : 0 ≤ I.fromStat z w ∧ I.fromStat z w ≤ I.down := by
  have hd := I.down_pos
  have hpi := Real.pi_pos
  have h1 : 0 ≤ atan2 |w| z := by unfold atan2; rw [Complex.arg_nonneg_iff]; exact abs_nonneg w
  have h2 := (atan2_range |w| z).2
  rw [fromStat_eq]
  refine ⟨by positivity, ?_⟩
  rw [mul_div_assoc', div_le_iff₀ hpi]; nlinarith

end InclLim

/-! ## Spherical -/

namespace SphLim
variable (S : SphLim)

theorem phi_wrap (flipA : Bool) (a : ℝ) : InRange S.ang.min S.ang.max (S.wrapPhiMod flipA a) ∧
    SameAngle S.ang.period (if flipA then a + S.ang.period * (1 / 2) else a) (S.wrapPhiMod flipA a) := by
  have h1 := S.ang.mod_range (if flipA then a + S.ang.period * (1 / 2) else a)
  have h2 := S.ang.mod_same (if flipA then a + S.ang.period * (1 / 2) else a)
  have e : S.wrapPhiMod flipA a = (if fmod ((if flipA then a + S.ang.period * (1 / 2) else a) - S.ang.min) S.ang.period < 0 then
      S.ang.min + fmod ((if flipA then a + S.ang.period * (1 / 2) else a) - S.ang.min) S.ang.period + S.ang.period
      else S.ang.min + fmod ((if flipA then a + S.ang.period * (1 / 2) else a) - S.ang.min) S.ang.period) := by
    unfold wrapPhiMod
    simp only []
    split_ifs <;> ring
  rw [e]; exact ⟨h1, h2⟩

theorem circle_wrap (flipA : Bool) (a : ℝ) : circlePoint S.ang.period (S.wrapPhiMod flipA a) =
    (if flipA then (-(circlePoint S.ang.period a).1, -(circlePoint S.ang.period a).2) else circlePoint S.ang.period a) := by
  rw [← (circlePoint_inj S.ang.period_pos _ _).mpr (S.phi_wrap flipA a).2]
  cases flipA
  · simp
  · simp only [if_true]; exact circlePoint_half S.ang.period_pos a

/-- Sine and cosine of the wrapped inclination. -/
theorem theta_wrap (flipD : Bool) (i : ℝ) :
    let im := fmod i (S.inc.down * 2)
    let i' := S.wrapTheta flipD |im|
    (0 ≤ i' ∧ i' ≤ S.inc.down) ∧
    sin (π * i' / S.inc.down) = (if (signbit im != decide (|im| > S.inc.down)) then - sin (π * i / S.inc.down) else sin (π * i / S.inc.down)) ∧
    cos (π * i' / S.inc.down) = (if flipD then - cos (π * i / S.inc.down) else cos (π * i / S.inc.down)) := by
  intro im i'
  have hd := S.inc.down_pos
  obtain ⟨h1, h2, -, -⟩ := fmod_bounds i (by linarith : 0 < S.inc.down * 2)
  obtain ⟨k, hk⟩ := fmod_sub i (S.inc.down * 2)
  have ei : π * i / S.inc.down = π * im / S.inc.down - k * (2 * π) := by
    show _ = π * fmod i (S.inc.down * 2) / S.inc.down - _
    rw [hk]; field_simp; ring
  have es : sin (π * i / S.inc.down) = sin (π * im / S.inc.down) := by rw [ei]; exact Real.sin_sub_int_mul_two_pi _ _
  have ec : cos (π * i / S.inc.down) = cos (π * im / S.inc.down) := by rw [ei]; exact Real.cos_sub_int_mul_two_pi _ _
  rw [es, ec]
  have h1' : -(S.inc.down * 2) < im := h1
  have h2' : im < S.inc.down * 2 := h2
  clear_value im
  have sabs : sin (π * |im| / S.inc.down) = if im < 0 then - sin (π * im / S.inc.down) else sin (π * im / S.inc.down) := by
    split_ifs with h
    · rw [abs_of_neg h, ← Real.sin_neg]; ring_nf
    · rw [abs_of_nonneg (not_lt.mp h)]
  have cabs : cos (π * |im| / S.inc.down) = cos (π * im / S.inc.down) := by
    rcases abs_choice im with h | h
    · rw [h]
    · rw [h, ← Real.cos_neg]; ring_nf
  have habs : |im| < S.inc.down * 2 := abs_lt.mpr ⟨by linarith, by linarith⟩
  have h0 := abs_nonneg im
  have r1 : π * (S.inc.down * 2 - |im|) / S.inc.down = 2 * π - π * |im| / S.inc.down := by field_simp
  have r2 : π * (|im| - S.inc.down) / S.inc.down = π * |im| / S.inc.down - π := by field_simp
  have r3 : π * (S.inc.down - |im|) / S.inc.down = π - π * |im| / S.inc.down := by field_simp
  unfold signbit
  show (0 ≤ S.wrapTheta flipD |im| ∧ S.wrapTheta flipD |im| ≤ S.inc.down) ∧ sin (π * S.wrapTheta flipD |im| / S.inc.down) = _ ∧
    cos (π * S.wrapTheta flipD |im| / S.inc.down) = _
  unfold wrapTheta
  by_cases hh : |im| > S.inc.down <;> by_cases hn : im < 0 <;> cases flipD <;>
    simp only [hh, hn, if_true, if_false, r1, r2, r3, Real.sin_two_pi_sub, Real.cos_two_pi_sub, Real.sin_sub_pi, Real.cos_sub_pi,
      Real.sin_pi_sub, Real.cos_pi_sub, sabs, cabs, decide_true, decide_false, neg_neg, bne_self_eq_false, Bool.false_eq_true, and_true,
      Bool.true_bne, Bool.false_bne, Bool.not_false] <;>
    (refine ⟨?_, ?_⟩ <;> linarith)

/-- The scaled radian measure of the inclination in `to_stat_space`. -/
theorem theta_eq (i : ℝ) : (if S.inc.unscaled then i else i * (π / S.inc.down)) = π * i / S.inc.down := S.inc.theta_eq i

theorem calcPhi_eq (x y : ℝ) : S.calcPhi (hypot x y) x (copysign (S.ang.period / (2 * π)) y) = atan2 y x * (S.ang.period / (2 * π)) := by
  have hp := S.ang.period_pos
  have hpi := Real.pi_pos
  have hs : 0 < S.ang.period / (2 * π) := by positivity
  have hh : hypot x y = √(x ^ 2 + y ^ 2) := by unfold hypot; congr 1; ring
  unfold calcPhi copysign
  rw [abs_of_pos hs, hh]
  by_cases h0 : (x, y) = (0, 0)
  · obtain ⟨rfl, rfl⟩ := Prod.mk.injEq .. ▸ h0
    simp [atan2, show (⟨0, 0⟩ : ℂ) = 0 from rfl]
  · have hne : √(x ^ 2 + y ^ 2) ≠ 0 := by
      rw [Real.sqrt_ne_zero']
      by_contra hc; push Not at hc
      apply h0
      have hx : x = 0 := by nlinarith [sq_nonneg x, sq_nonneg y]
      have hy : y = 0 := by nlinarith [sq_nonneg x, sq_nonneg y]
      rw [hx, hy]
    rw [if_neg hne]
    split_ifs with hy
    · rw [atan2_of_neg hy]; ring
    · rw [atan2_of_nonneg (not_lt.mp hy) h0]; ring

end SphLim
end OpenKalman.Patterns
