import Verif.Proof.Descriptors
import Mathlib.Analysis.Real.Pi.Bounds
import Mathlib.Tactic.NormNum
import Mathlib.Tactic.IntervalCases

/-!
# C01–C08: the pattern descriptors

Limits are arbitrary; `L.unscaled` records whether the code's compile-time test for `[-π, π)` succeeded.
-/

namespace OpenKalman.Patterns
open Real

/-! ## Concrete limits used in the examples -/

/-- `angle::PositiveDegrees`. -/
def degrees360 : AngleLim := ⟨0, 360, le_refl _, by norm_num, false, by simp⟩
/-- `angle::Radians` where the compile-time test succeeds. -/
noncomputable def radians : AngleLim := ⟨-π, π, by linarith [pi_pos], pi_pos, true, fun _ => ⟨rfl, rfl⟩⟩
/-- `inclination::Degrees`. -/
def incDegrees : InclLim := ⟨180, by norm_num, false, by simp⟩

/-! ## C01 -/

/-- **C01** (canonical): the wrapped angle is in `[min, max)` and differs from the input by a whole number of periods; no other value does. -/
theorem C01_wrap_canonical (L : AngleLim) (a : ℝ) :
    InRange L.min L.max (L.wrap a) ∧ SameAngle (L.max - L.min) a (L.wrap a) ∧
    ∀ y, InRange L.min L.max y → SameAngle (L.max - L.min) a y → y = L.wrap a :=
  ⟨L.wrapPhiMod_range a, L.wrapPhiMod_same a, fun _ h1 h2 => L.eq_wrap h2 h1⟩

example : degrees360.wrap 725 = 5 :=
  ((C01_wrap_canonical degrees360 725).2.2 5 ⟨by norm_num [degrees360], by norm_num [degrees360]⟩ ⟨-2, by norm_num [degrees360]⟩).symm

/-- **C01** (laws): identity in range, idempotent, invariant under whole periods. -/
theorem C01_wrap_laws (L : AngleLim) (a : ℝ) (k : ℤ) :
    (InRange L.min L.max a → L.wrap a = a) ∧ L.wrap (L.wrap a) = L.wrap a ∧ L.wrap (a + k * (L.max - L.min)) = L.wrap a := by
  have h0 : ∀ a, InRange L.min L.max a → L.wrap a = a := fun a h => (L.eq_wrap (SameAngle.refl _ _) h).symm
  refine ⟨h0 a, h0 _ (L.wrapPhiMod_range a), ?_⟩
  apply L.eq_wrap _ (L.wrapPhiMod_range _)
  exact SameAngle.trans ⟨k, rfl⟩ (L.wrapPhiMod_same _)

example : degrees360.wrap (-10 + (3 : ℤ) * (360 - 0)) = degrees360.wrap (-10) := (C01_wrap_laws degrees360 (-10) 3).2.2

/-! ## C02 -/

/-- **C02** (scaled branch): decoding the encoding is wrapping, for all limits and angles. -/
theorem C02_round_trip_partial (L : AngleLim) (hL : L.unscaled = false) (a : ℝ) :
    L.fromStat (L.toStat a).1 (L.toStat a).2 = L.wrap a := by
  rw [L.toStat_eq]
  unfold AngleLim.fromStat
  rw [hL]
  exact L.decode_scaled one_pos (by simp) (by simp)

example : degrees360.fromStat (degrees360.toStat 725).1 (degrees360.toStat 725).2 = degrees360.wrap 725 := C02_round_trip_partial _ rfl _

/-- **C02** (unscaled branch, exactly): decoding the encoding gives `π` where wrapping gives `-π`, and is wrapping everywhere else. -/
theorem C02_round_trip_unscaled (L : AngleLim) (hL : L.unscaled = true) (a : ℝ) :
    L.fromStat (L.toStat a).1 (L.toStat a).2 = if L.wrap a = -π then π else L.wrap a := by
  rw [L.toStat_eq]
  unfold AngleLim.fromStat
  rw [hL]
  exact L.decode_unscaled hL one_pos (by simp) (by simp)

/-- **C02 fails** for the default limits `[-π, π)`: the angle `π` decodes to `π`, which is outside the canonical interval, while wrapping gives `-π`. -/
theorem C02_violated_at_pi : radians.fromStat (radians.toStat π).1 (radians.toStat π).2 = π ∧ radians.wrap π = -π ∧
    ¬ InRange radians.min radians.max π := by
  have hw : radians.wrap π = -π := by
    refine ((C01_wrap_canonical radians π).2.2 (-π) ?_ ?_).symm
    · exact ⟨le_refl _, by show -π < π; linarith [pi_pos]⟩
    · exact ⟨-1, by show -π = π + _ * (π - -π); push_cast; ring⟩
  refine ⟨?_, hw, ?_⟩
  · rw [C02_round_trip_unscaled radians rfl, hw]; simp
  · rintro ⟨-, h⟩; exact absurd h (lt_irrefl π)

/-! ## C03 -/

/-- **C03** (identification): coordinates lie on the unit circle and coincide exactly for angles that differ by whole periods. -/
theorem C03_identify (L : AngleLim) (a b : ℝ) :
    (L.toStat a).1 ^ 2 + (L.toStat a).2 ^ 2 = 1 ∧ (L.toStat a = L.toStat b ↔ SameAngle (L.max - L.min) a b) := by
  rw [L.toStat_eq, L.toStat_eq]
  exact ⟨by unfold circlePoint; exact Real.cos_sq_add_sin_sq _, circlePoint_inj L.period_pos a b⟩

example : degrees360.toStat 10 = degrees360.toStat 370 ∧ degrees360.toStat 10 ≠ degrees360.toStat 190 := by
  rw [(C03_identify degrees360 10 370).2, Ne, (C03_identify degrees360 10 190).2]
  refine ⟨⟨1, by norm_num [degrees360]⟩, ?_⟩
  rintro ⟨k, hk⟩
  simp only [degrees360] at hk
  have h2 : (2 : ℤ) * k = 1 := by
    have : (2 : ℝ) * k = 1 := by linarith
    exact_mod_cast this
  omega

/-- **C03** (decoding): unaffected by positive scaling, lands in `[min, max)` (scaled limits) or `(-π, π]` (unscaled), and re-encoding the decoded
value of a nonzero vector is the normalised vector. -/
theorem C03_decode (L : AngleLim) (x y r : ℝ) (hr : 0 < r) :
    L.fromStat (r * x) (r * y) = L.fromStat x y ∧
    (L.unscaled = false → InRange L.min L.max (L.fromStat x y)) ∧
    (L.unscaled = true → -π < L.fromStat x y ∧ L.fromStat x y ≤ π) ∧
    ((x, y) ≠ (0, 0) → L.toStat (L.fromStat x y) = (x / √(x ^ 2 + y ^ 2), y / √(x ^ 2 + y ^ 2))) := by
  have hp := L.period_pos
  have hpi := pi_pos
  refine ⟨?_, ?_, ?_, ?_⟩
  · unfold AngleLim.fromStat; rw [atan2_smul hr]
  · intro hu
    unfold AngleLim.fromStat; rw [hu]
    obtain ⟨h1, h2⟩ := atan2_range y x
    have e : L.period / 2 = π * (L.period / (2 * π)) := by field_simp
    have hq : 0 < L.period / (2 * π) := by positivity
    apply L.wrapPhi_range
    · rw [e, ← neg_mul]; exact mul_le_mul_of_nonneg_right h1.le hq.le
    · rw [e]; exact mul_le_mul_of_nonneg_right h2 hq.le
  · intro hu
    unfold AngleLim.fromStat; rw [if_pos hu]
    exact atan2_range y x
  · intro hne
    have key : ∀ b, SameAngle L.period (atan2 y x * (L.period / (2 * π))) b → L.toStat b = (x / √(x ^ 2 + y ^ 2), y / √(x ^ 2 + y ^ 2)) := by
      intro b hb
      rw [L.toStat_eq, ← (circlePoint_inj hp _ _).mpr hb, ← cos_atan2 hne, ← sin_atan2]
      unfold circlePoint
      have : 2 * π * (atan2 y x * (L.period / (2 * π))) / L.period = atan2 y x := by field_simp
      rw [this]
    apply key
    unfold AngleLim.fromStat
    split_ifs with hu
    · obtain ⟨e1, e2⟩ := L.unscaled_spec hu
      have e3 : L.period = 2 * π := by unfold AngleLim.period; rw [e1, e2]; ring
      rw [e3, div_self (by positivity), mul_one]; exact SameAngle.refl _ _
    · exact L.wrapPhi_same _

example : degrees360.toStat (degrees360.fromStat 0 (-3)) = (0, -1) := by
  rw [(C03_decode degrees360 0 (-3) 1 one_pos).2.2.2 (by simp)]
  have : √((0 : ℝ) ^ 2 + (-3) ^ 2) = 3 := by rw [show ((0 : ℝ) ^ 2 + (-3) ^ 2) = 3 ^ 2 by norm_num]; exact Real.sqrt_sq (by norm_num)
  rw [this]; norm_num

/-! ## C04 -/

/-- **C04** (canonical): the wrapped inclination is in `[0, down]`, equals the input up to sign and whole turns, and is the only such value. -/
theorem C04_wrap_canonical (I : InclLim) (i : ℝ) :
    (0 ≤ I.wrap i ∧ I.wrap i ≤ I.down) ∧ SameIncl I.down i (I.wrap i) ∧
    ∀ y, 0 ≤ y ∧ y ≤ I.down → SameIncl I.down i y → y = I.wrap i :=
  ⟨I.wrap_range i, I.wrap_same i, fun _ h1 h2 => I.eq_wrap h2 h1⟩

example : incDegrees.wrap 190 = 170 :=
  ((C04_wrap_canonical incDegrees 190).2.2 170 (by norm_num [incDegrees]) ⟨1, Or.inr (by norm_num [incDegrees])⟩).symm

/-- **C04** (laws): identity in range, idempotent, even, periodic with period `2 * down`. -/
theorem C04_wrap_laws (I : InclLim) (i : ℝ) (k : ℤ) :
    (0 ≤ i ∧ i ≤ I.down → I.wrap i = i) ∧ I.wrap (I.wrap i) = I.wrap i ∧ I.wrap (-i) = I.wrap i ∧ I.wrap (i + k * (2 * I.down)) = I.wrap i := by
  have h0 : ∀ i, 0 ≤ i ∧ i ≤ I.down → I.wrap i = i := fun i h => (I.eq_wrap ⟨0, Or.inl (by simp)⟩ h).symm
  have hd := I.down_pos
  refine ⟨h0 i, h0 _ (I.wrap_range i), ?_, ?_⟩
  · apply I.eq_wrap _ (I.wrap_range _)
    rw [sameIncl_iff hd, ← (sameIncl_iff hd _ _).mp (I.wrap_same (-i)), ← Real.cos_neg]; ring_nf
  · apply I.eq_wrap _ (I.wrap_range _)
    rw [sameIncl_iff hd, ← (sameIncl_iff hd _ _).mp (I.wrap_same (i + k * (2 * I.down)))]
    have : π * (i + k * (2 * I.down)) / I.down = π * i / I.down + k * (2 * π) := by field_simp
    rw [this, Real.cos_add_int_mul_two_pi]

/-- **C04** (round trip): decoding the encoding is wrapping. -/
theorem C04_round_trip (I : InclLim) (i : ℝ) : I.fromStat (I.toStat i).1 (I.toStat i).2 = I.wrap i := by
  have hd := I.down_pos
  have hpi := pi_pos
  apply I.eq_wrap _ (I.fromStat_range _ _)
  rw [sameIncl_iff hd, I.fromStat_eq]
  unfold InclLim.toStat
  rw [I.theta_eq, abs_abs]
  have : π * (atan2 |sin (π * i / I.down)| (cos (π * i / I.down)) * (I.down / π)) / I.down = atan2 |sin (π * i / I.down)| (cos (π * i / I.down)) := by
    field_simp
  have h1 : cos (π * i / I.down) ^ 2 + |sin (π * i / I.down)| ^ 2 = 1 := by rw [sq_abs]; exact Real.cos_sq_add_sin_sq _
  rw [this, cos_atan2, h1]
  · simp
  · intro h
    obtain ⟨h2, h3⟩ := Prod.mk.injEq .. ▸ h
    rw [h2, h3] at h1; norm_num at h1

/-- **C04** (encoding): the coordinates lie on the upper unit half circle, and are injective on `[0, down]`; decoding any pair lands in
`[0, down]`. -/
theorem C04_encoding (I : InclLim) (i j z w : ℝ) :
    (I.toStat i).1 ^ 2 + (I.toStat i).2 ^ 2 = 1 ∧ 0 ≤ (I.toStat i).2 ∧
    (0 ≤ i ∧ i ≤ I.down → 0 ≤ j ∧ j ≤ I.down → I.toStat i = I.toStat j → i = j) ∧
    (0 ≤ I.fromStat z w ∧ I.fromStat z w ≤ I.down) := by
  refine ⟨?_, abs_nonneg _, fun hi hj h => ?_, I.fromStat_range z w⟩
  · unfold InclLim.toStat; rw [sq_abs]; exact Real.cos_sq_add_sin_sq _
  · rw [← (C04_wrap_laws I i 0).1 hi, ← (C04_wrap_laws I j 0).1 hj, ← C04_round_trip, ← C04_round_trip, h]

example : incDegrees.fromStat (incDegrees.toStat 190).1 (incDegrees.toStat 190).2 = 170 := by
  rw [C04_round_trip]
  exact ((C04_wrap_canonical incDegrees 190).2.2 170 (by norm_num [incDegrees]) ⟨1, Or.inr (by norm_num [incDegrees])⟩).symm

/-! ## C05 -/

/-- **C05** (wrap and round trip): the wrapped distance is non-negative and has the input's magnitude; wrapping is idempotent and is decoding the
encoding. -/
theorem C05_wrap_partial (d : ℝ) : 0 ≤ Distance.wrap d ∧ (Distance.wrap d = d ∨ Distance.wrap d = -d) ∧ Distance.wrap (Distance.wrap d) = Distance.wrap d ∧
    Distance.fromStat (Distance.toStat d) = Distance.wrap d :=
  ⟨abs_nonneg d, abs_choice d, abs_abs d, rfl⟩

example : Distance.wrap (-2.5) = 2.5 := by unfold Distance.wrap Distance.toStat; norm_num

/-- **C05 fails** for decoding in general: every negative statistical coordinate is returned as a negative distance.  Such coordinates arise as
weighted means with a negative weight: here weights `-1` and `2` on the encodings of `3` and `1`. -/
theorem C05_decode_can_be_negative :
    (∀ s < 0, Distance.fromStat s < 0) ∧
    ∃ w₀ w₁ d₀ d₁ : ℝ, w₀ + w₁ = 1 ∧ Distance.fromStat (w₀ * Distance.toStat d₀ + w₁ * Distance.toStat d₁) < 0 :=
  ⟨fun _ h => h, -1, 2, 3, 1, by norm_num, by unfold Distance.fromStat Distance.toStat; norm_num⟩

/-! ## C06 -/

/-- **C06** (wrap): non-negative radius, angle in range, the same point of the plane. -/
theorem C06_wrap (L : AngleLim) (d a : ℝ) :
    0 ≤ (L.polarWrap d a).1 ∧ InRange L.min L.max (L.polarWrap d a).2 ∧
    planePoint (L.max - L.min) (L.polarWrap d a).1 (L.polarWrap d a).2 = planePoint (L.max - L.min) d a := by
  refine ⟨abs_nonneg d, by unfold AngleLim.polarWrap; rw [L.polarWrapPhiMod_eq]; exact L.wrapPhiMod_range _, ?_⟩
  show planePoint L.period |d| (L.polarWrapPhiMod d a) = planePoint L.period d a
  rw [L.polarWrapPhiMod_eq, planePoint_eq, planePoint_eq, ← (circlePoint_inj L.period_pos _ _).mpr (L.wrapPhiMod_same _)]
  unfold signbit
  by_cases h : d < 0
  · simp only [h, decide_true, if_true, abs_of_neg h, circlePoint_half L.period_pos]; simp
  · simp only [h, decide_false, Bool.false_eq_true, if_false, abs_of_nonneg (not_lt.mp h)]

/-- **C06** (canonical form): canonical coordinates are fixed points, hence wrapping is idempotent; a positive radius determines the result. -/
theorem C06_wrap_laws (L : AngleLim) (d a d' a' : ℝ) :
    (0 ≤ d → InRange L.min L.max a → L.polarWrap d a = (d, a)) ∧
    L.polarWrap (L.polarWrap d a).1 (L.polarWrap d a).2 = L.polarWrap d a ∧
    (0 < d' → InRange L.min L.max a' → planePoint (L.max - L.min) d' a' = planePoint (L.max - L.min) d a → L.polarWrap d a = (d', a')) := by
  have h0 : ∀ d a, 0 ≤ d → InRange L.min L.max a → L.polarWrap d a = (d, a) := by
    intro d a hd ha
    unfold AngleLim.polarWrap
    rw [L.polarWrapPhiMod_eq]
    unfold signbit
    simp only [not_lt.mpr hd, decide_false, Bool.false_eq_true, if_false, abs_of_nonneg hd]
    rw [← L.eq_wrap (SameAngle.refl _ _) ha]
  refine ⟨h0 d a, h0 _ _ (C06_wrap L d a).1 (C06_wrap L d a).2.1, fun hd' ha' hpt => ?_⟩
  obtain ⟨w1, w2, w3⟩ := C06_wrap L d a
  rw [← hpt] at w3
  set r := (L.polarWrap d a).1
  set φ := (L.polarWrap d a).2
  have hp := L.period_pos
  rw [planePoint_eq, planePoint_eq] at w3
  obtain ⟨e1, e2⟩ := Prod.mk.injEq .. ▸ w3
  have n1 : (circlePoint (L.max - L.min) φ).1 ^ 2 + (circlePoint (L.max - L.min) φ).2 ^ 2 = 1 := Real.cos_sq_add_sin_sq _
  have n2 : (circlePoint (L.max - L.min) a').1 ^ 2 + (circlePoint (L.max - L.min) a').2 ^ 2 = 1 := Real.cos_sq_add_sin_sq _
  have hr : r ^ 2 = d' ^ 2 := by
    calc r ^ 2 = r ^ 2 * ((circlePoint (L.max - L.min) φ).1 ^ 2 + (circlePoint (L.max - L.min) φ).2 ^ 2) := by rw [n1, mul_one]
      _ = (r * (circlePoint (L.max - L.min) φ).1) ^ 2 + (r * (circlePoint (L.max - L.min) φ).2) ^ 2 := by ring
      _ = (d' * (circlePoint (L.max - L.min) a').1) ^ 2 + (d' * (circlePoint (L.max - L.min) a').2) ^ 2 := by rw [e1, e2]
      _ = d' ^ 2 * ((circlePoint (L.max - L.min) a').1 ^ 2 + (circlePoint (L.max - L.min) a').2 ^ 2) := by ring
      _ = d' ^ 2 := by rw [n2, mul_one]
  have hrd : r = d' := by
    have := (pow_left_inj₀ w1 hd'.le two_ne_zero).mp hr
    exact this
  rw [hrd] at e1 e2
  have hc : circlePoint (L.max - L.min) φ = circlePoint (L.max - L.min) a' :=
    Prod.ext (mul_left_cancel₀ hd'.ne' e1) (mul_left_cancel₀ hd'.ne' e2)
  have := sameAngle_unique ((circlePoint_inj hp _ _).mp hc) w2 ha'
  exact Prod.ext hrd this

example : degrees360.polarWrap (-2) 30 = (2, 210) := by
  refine (C06_wrap_laws degrees360 (-2) 30 2 210).2.2 (by norm_num) ⟨by norm_num [degrees360], by norm_num [degrees360]⟩ ?_
  have h := circlePoint_half (p := 360) (by norm_num) 30
  rw [planePoint_eq, planePoint_eq]
  have e : (30 : ℝ) + 360 * (1 / 2) = 210 := by norm_num
  rw [e] at h
  simp only [degrees360, sub_zero]
  rw [h]; simp

/-- **C06** (round trip): outside the unscaled branch, decoding the encoding is wrapping. -/
theorem C06_round_trip (L : AngleLim) (hL : L.unscaled = false) (d a : ℝ) :
    L.polarFromStat (L.polarToStat d a).1 (L.polarToStat d a).2.1 (L.polarToStat d a).2.2 = L.polarWrap d a := by
  have hphi := L.phi_eq a
  rw [hL] at hphi
  simp only [Bool.false_eq_true, if_false] at hphi
  unfold AngleLim.polarToStat AngleLim.polarFromStat AngleLim.polarWrap AngleLim.flipAxis
  rw [L.polarWrapPhiMod_eq, hL]
  simp only [Bool.false_eq_true, if_false, hphi]
  congr 1
  cases h : signbit d
  · exact L.decode_scaled one_pos (by simp [circlePoint]) (by simp [circlePoint])
  · refine L.decode_scaled one_pos ?_ ?_ <;> simp only [if_true, circlePoint_half L.period_pos] <;> simp [circlePoint]

/-- **C06** (round trip, unscaled branch): as for angles, `-π` is returned as `π`. -/
theorem C06_round_trip_unscaled (L : AngleLim) (hL : L.unscaled = true) (d a : ℝ) :
    L.polarFromStat (L.polarToStat d a).1 (L.polarToStat d a).2.1 (L.polarToStat d a).2.2 =
      ((L.polarWrap d a).1, if (L.polarWrap d a).2 = -π then π else (L.polarWrap d a).2) := by
  have hphi := L.phi_eq a
  rw [hL] at hphi
  simp only [if_true] at hphi
  unfold AngleLim.polarToStat AngleLim.polarFromStat AngleLim.polarWrap AngleLim.flipAxis
  rw [L.polarWrapPhiMod_eq, hL]
  simp only [if_true]
  congr 1
  cases h : signbit d
  · exact L.decode_unscaled hL one_pos (by simp [circlePoint, ← hphi]) (by simp [circlePoint, ← hphi])
  · refine L.decode_unscaled hL one_pos ?_ ?_ <;> simp only [if_true, circlePoint_half L.period_pos] <;> simp [circlePoint, ← hphi]

/-! ## C07 -/

/-- **C07** (wrap): non-negative radius, inclination and azimuth in range, the same point of three-space.  The direction itself is preserved too (up
to the radius' sign), so nothing is lost at zero radius. -/
theorem C07_wrap (S : SphLim) (d i a : ℝ) :
    0 ≤ (S.wrap d i a).1 ∧ (0 ≤ (S.wrap d i a).2.1 ∧ (S.wrap d i a).2.1 ≤ S.inc.down) ∧
    InRange S.ang.min S.ang.max (S.wrap d i a).2.2 ∧
    direction S.inc.down (S.ang.max - S.ang.min) (S.wrap d i a).2.1 (S.wrap d i a).2.2 =
      (if d < 0 then (-1 : ℝ) else 1) • direction S.inc.down (S.ang.max - S.ang.min) i a ∧
    spacePoint S.inc.down (S.ang.max - S.ang.min) (S.wrap d i a).1 (S.wrap d i a).2.1 (S.wrap d i a).2.2 =
      spacePoint S.inc.down (S.ang.max - S.ang.min) d i a := by
  have ht := S.theta_wrap (signbit d) i
  simp only [] at ht
  obtain ⟨t1, t2, t3⟩ := ht
  set flipI := (signbit (fmod i (S.inc.down * 2)) != decide (|fmod i (S.inc.down * 2)| > S.inc.down)) with hfI
  have hc := S.circle_wrap (flipI != signbit d) a
  have hdir : direction S.inc.down (S.ang.max - S.ang.min) (S.wrap d i a).2.1 (S.wrap d i a).2.2 =
      (if d < 0 then (-1 : ℝ) else 1) • direction S.inc.down (S.ang.max - S.ang.min) i a := by
    have hc1 := congrArg Prod.fst hc
    have hc2 := congrArg Prod.snd hc
    simp only [circlePoint, AngleLim.period] at hc1 hc2
    show (sin _ * cos _, sin _ * sin _, cos _) = _
    have ew : (S.wrap d i a).2.1 = S.wrapTheta (signbit d) |fmod i (S.inc.down * 2)| := rfl
    have ea : (S.wrap d i a).2.2 = S.wrapPhiMod (flipI != signbit d) a := rfl
    rw [ew, ea, t2, t3, hc1, hc2]
    unfold direction
    have hsd : signbit d = decide (d < 0) := rfl
    cases flipI <;> by_cases hd : d < 0 <;> simp [hsd, hd]
  refine ⟨abs_nonneg d, t1, (S.phi_wrap _ a).1, hdir, ?_⟩
  unfold spacePoint
  rw [hdir, smul_smul]
  congr 1
  show |d| * _ = d
  split_ifs with h
  · rw [abs_of_neg h]; ring
  · rw [abs_of_nonneg (not_lt.mp h)]; ring

/-- **C07** (fixed points): canonical coordinates are unchanged; hence wrapping is idempotent. -/
theorem C07_wrap_laws (S : SphLim) (d i a : ℝ) :
    (0 ≤ d → 0 ≤ i ∧ i ≤ S.inc.down → InRange S.ang.min S.ang.max a → S.wrap d i a = (d, i, a)) ∧
    S.wrap (S.wrap d i a).1 (S.wrap d i a).2.1 (S.wrap d i a).2.2 = S.wrap d i a := by
  have h0 : ∀ d i a, 0 ≤ d → 0 ≤ i ∧ i ≤ S.inc.down → InRange S.ang.min S.ang.max a → S.wrap d i a = (d, i, a) := by
    intro d i a hd hi ha
    have hdp := S.inc.down_pos
    have hfm : fmod i (S.inc.down * 2) = i := fmod_of_lt hi.1 (by linarith)
    have hs : signbit d = false := by simp [signbit, hd]
    have hsi : signbit i = false := by simp [signbit, hi.1]
    have hfa : fmod (a - S.ang.min) S.ang.period = a - S.ang.min :=
      fmod_of_lt (by linarith [ha.1]) (by unfold AngleLim.period; linarith [ha.2])
    have hhi : ¬ i > S.inc.down := not_lt.mpr hi.2
    unfold SphLim.wrap SphLim.wrapTheta SphLim.wrapPhiMod
    simp only [hfm, hs, hsi, abs_of_nonneg hi.1, abs_of_nonneg hd, hhi, decide_false, bne_self_eq_false, Bool.false_eq_true, if_false, hfa,
      not_lt.mpr (sub_nonneg.mpr ha.1), sub_add_cancel]
  obtain ⟨w1, w2, w3, -⟩ := C07_wrap S d i a
  exact ⟨h0 d i a, h0 _ _ _ w1 w2 w3⟩

example : (⟨degrees360, incDegrees⟩ : SphLim).wrap (-2) 200 30 = (2, 20, 30) := by
  have hf : fmod 200 360 = 200 := fmod_of_lt (by norm_num) (by norm_num)
  have hg : fmod 30 360 = 30 := fmod_of_lt (by norm_num) (by norm_num)
  unfold SphLim.wrap SphLim.wrapTheta SphLim.wrapPhiMod
  norm_num [incDegrees, degrees360, hf, hg, AngleLim.period, signbit]

/-! ## C08 -/

/-- **C08**: decoding the encoding gives the radius' magnitude, and the same direction (reversed for a negative radius) in canonical coordinates;
away from the poles it is exactly wrapping. -/
theorem C08_round_trip (S : SphLim) (d i a : ℝ) :
    let s := S.toStat d i a
    let r := S.fromStat s.1 s.2.1 s.2.2.1 s.2.2.2
    r.1 = |d| ∧ (0 ≤ r.2.1 ∧ r.2.1 ≤ S.inc.down) ∧ InRange S.ang.min S.ang.max r.2.2 ∧
    direction S.inc.down (S.ang.max - S.ang.min) r.2.1 r.2.2 =
      (if d < 0 then (-1 : ℝ) else 1) • direction S.inc.down (S.ang.max - S.ang.min) i a ∧
    (sin (π * i / S.inc.down) ≠ 0 → r = S.wrap d i a) ∧
    (sin (π * i / S.inc.down) = 0 → r = ((S.wrap d i a).1, (S.wrap d i a).2.1, 0)) := by
  intro s r
  have hd := S.inc.down_pos
  have hp := S.ang.period_pos
  have hpi := pi_pos
  obtain ⟨w1, w2, w3, w4, -⟩ := C07_wrap S d i a
  -- the encoded vector in terms of the wrapped coordinates
  set i' := (S.wrap d i a).2.1 with hi'
  set a' := (S.wrap d i a).2.2 with ha'
  have hsd : s.1 = |d| := by
    show (if signbit d then -d else d) = |d|
    unfold signbit
    by_cases h : d < 0
    · simp [h, abs_of_neg h]
    · simp [h, abs_of_nonneg (not_lt.mp h)]
  have hs : (s.2.1, s.2.2.1, s.2.2.2) = direction S.inc.down S.ang.period i' a' := by
    show _ = direction S.inc.down (S.ang.max - S.ang.min) i' a'
    rw [w4]
    show (AngleLim.flipAxis _ _, AngleLim.flipAxis _ _, AngleLim.flipAxis _ _) = _
    rw [S.theta_eq, S.ang.phi_eq]
    unfold direction AngleLim.flipAxis signbit AngleLim.period
    by_cases h : d < 0 <;> simp [h]
  obtain ⟨hx, hyz⟩ := Prod.mk.injEq .. ▸ hs
  obtain ⟨hy, hz⟩ := Prod.mk.injEq .. ▸ hyz
  set θ := π * i' / S.inc.down with hθ
  set φ := 2 * π * a' / S.ang.period with hφ
  have hθ0 : 0 ≤ θ := by have := w2.1; positivity
  have hθ1 : θ ≤ π := by rw [hθ, div_le_iff₀ hd]; nlinarith [w2.2]
  have hsin : 0 ≤ sin θ := Real.sin_nonneg_of_nonneg_of_le_pi hθ0 hθ1
  have hxy : hypot s.2.1 s.2.2.1 = sin θ := by
    unfold hypot
    rw [hx, hy]
    have : sin θ * cos φ * (sin θ * cos φ) + sin θ * sin φ * (sin θ * sin φ) = sin θ ^ 2 := by
      nlinarith [Real.cos_sq_add_sin_sq φ]
    rw [this, Real.sqrt_sq hsin]
  have hh : √(hypot s.2.1 s.2.2.1 * hypot s.2.1 s.2.2.1 + s.2.2.2 * s.2.2.2) = 1 := by
    rw [hxy, hz]
    have : sin θ * sin θ + cos θ * cos θ = 1 := by nlinarith [Real.sin_sq_add_cos_sq θ]
    rw [this, Real.sqrt_one]
  have r1 : r.1 = |d| := hsd
  have r2 : r.2.1 = i' := by
    show S.calcTheta (√(hypot s.2.1 s.2.2.1 * hypot s.2.1 s.2.2.1 + s.2.2.2 * s.2.2.2)) s.2.2.2 = i'
    rw [hh]
    unfold SphLim.calcTheta
    rw [if_neg one_ne_zero, div_one, hz, Real.arccos_cos hθ0 hθ1, hθ]
    field_simp
  have r3 : r.2.2 = S.ang.wrapPhi (atan2 s.2.2.1 s.2.1 * (S.ang.period / (2 * π))) := by
    show S.ang.wrapPhi (S.calcPhi (hypot s.2.1 s.2.2.1) s.2.1 (copysign (S.ang.period / (2 * π)) s.2.2.1)) = _
    rw [S.calcPhi_eq]
  have hsini : sin θ = 0 ↔ sin (π * i / S.inc.down) = 0 := by
    have := S.theta_wrap (signbit d) i
    simp only [] at this
    obtain ⟨-, t2, -⟩ := this
    have : sin θ = _ := t2
    rw [this]
    split_ifs <;> simp
  have rpos : sin (π * i / S.inc.down) ≠ 0 → r.2.2 = a' := by
    intro hne
    have hpos : 0 < sin θ := lt_of_le_of_ne hsin (fun h => hne (hsini.mp h.symm))
    rw [r3, S.ang.decode_scaled hpos (a := a') (by rw [hx]; rfl) (by rw [hy]; rfl)]
    exact (S.ang.eq_wrap (SameAngle.refl _ _) w3).symm
  have rzero : sin (π * i / S.inc.down) = 0 → r.2.2 = 0 := by
    intro h0
    have h0' := hsini.mpr h0
    rw [r3, hx, hy, show sin (π * i' / S.inc.down) = 0 from h0', zero_mul, zero_mul]
    have : atan2 0 0 = 0 := by unfold atan2; exact Complex.arg_zero
    rw [this, zero_mul]
    unfold AngleLim.wrapPhi
    rw [if_neg (not_lt.mpr S.ang.min_nonpos), if_neg (not_le.mpr S.ang.max_pos)]
  refine ⟨r1, by rw [r2]; exact w2, ?_, ?_, ?_, ?_⟩
  · by_cases h : sin (π * i / S.inc.down) = 0
    · rw [rzero h]; exact ⟨S.ang.min_nonpos, S.ang.max_pos⟩
    · rw [rpos h]; exact w3
  · rw [r2]
    by_cases h : sin (π * i / S.inc.down) = 0
    · rw [rzero h, ← w4]
      have h0' : sin (π * i' / S.inc.down) = 0 := hsini.mpr h
      unfold direction
      rw [h0']; simp
    · rw [rpos h, ← w4]
  · intro h
    exact Prod.ext r1 (Prod.ext r2 (rpos h))
  · intro h
    exact Prod.ext r1 (Prod.ext r2 (rzero h))

/-- Away from the poles. -/
example : sin (π * 90 / incDegrees.down) ≠ 0 := by
  have : π * 90 / incDegrees.down = π / 2 := by simp only [incDegrees]; ring
  rw [this, Real.sin_pi_div_two]; norm_num

end OpenKalman.Patterns
