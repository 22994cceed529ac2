import Mathlib.Tactic.Linarith
import Mathlib.Tactic.NormNum
import Mathlib.Tactic.Positivity
import Mathlib.Algebra.Order.Floor.Ring
import Verif.Model.Scalars

/-!
# Lemmas for C92–C94
-/

namespace OpenKalman.Scalars

theorem trunc_int (z : ℤ) : trunc (z : ℚ) = z := by
  unfold trunc
  split_ifs <;> simp

theorem bmod_self {w : ℕ} {z : ℤ} (h1 : -2 ^ w ≤ 2 * z) (h2 : 2 * z < 2 ^ w) : Int.bmod z (2 ^ w) = z := by
  have e : ((2 ^ w : ℕ) : ℤ) = 2 ^ w := by push_cast; rfl
  apply Int.bmod_eq_of_le
  · rw [e]; generalize (2 : ℤ) ^ w = m at *; omega
  · rw [e]; generalize (2 : ℤ) ^ w = m at *; omega

/-- Conversion keeps what the type can represent. -/
theorem conv_rep {src dst : RTy} {x : ℚ} (h : dst.Rep x) : conv src dst x = some x := by
  cases dst with
  | flt k => rfl
  | uint w =>
    obtain ⟨z, rfl, h1, h2⟩ := h
    cases src <;> simp only [conv, trunc_int, Int.floor_intCast]
    · rw [Int.emod_eq_of_lt h1 h2]
    · rw [Int.emod_eq_of_lt h1 h2]
    · rw [if_pos ⟨h1, h2⟩]
  | sint w =>
    obtain ⟨z, rfl, h1, h2⟩ := h
    cases src <;> simp only [conv, trunc_int, Int.floor_intCast]
    · rw [bmod_self h1 h2]
    · rw [bmod_self h1 h2]
    · rw [if_pos ⟨h1, h2⟩]

/-- The common type if one of the types is floating. -/
theorem usual_flt {a b : RTy} (h : a.IsFlt ∨ b.IsFlt) : usual a b = .flt (max a.digits b.digits) := by
  rcases h with ⟨k, rfl⟩ | ⟨k, rfl⟩
  · cases b <;> simp only [usual, promote, RTy.digits] <;> first | (split_ifs <;> simp [usualPromoted]) | simp [usualPromoted]
  · cases a <;> simp only [usual, promote, RTy.digits] <;> first | (split_ifs <;> simp [usualPromoted]) | simp [usualPromoted]

theorem promote_uint (w : ℕ) : promote (.uint w) = if w < 32 then .sint (max 32 w) else .uint (max 32 w) := by
  simp only [promote]
  split_ifs with h
  · rw [max_eq_left (by omega)]
  · rw [max_eq_right (by omega)]

theorem promote_sint (w : ℕ) : promote (.sint w) = .sint (max 32 w) := by
  simp only [promote]
  split_ifs with h
  · rw [max_eq_left (by omega)]
  · rw [max_eq_right (by omega)]

/-- The common type of integral types has the bits of the wider one. -/
theorem usual_int {a b : RTy} (ha : ¬ a.IsFlt) (hb : ¬ b.IsFlt) :
    (usual a b = .sint (max a.bits b.bits) ∨
      usual a b = .uint (max a.bits b.bits) ∧ (a.IsWideUnsigned ∨ b.IsWideUnsigned)) := by
  cases a with
  | flt k => exact absurd ⟨k, rfl⟩ ha
  | uint i =>
    cases b with
    | flt k => exact absurd ⟨k, rfl⟩ hb
    | uint j =>
      simp only [usual, promote_uint, RTy.bits]
      split_ifs with h1 h2 h2
      · left; rfl
      · have : (max 32 i) ≤ max 32 j := by omega
        right; refine ⟨?_, .inr ⟨j, rfl, by omega⟩⟩
        simp only [usualPromoted]; rw [if_pos this, max_eq_right this]
      · have : (max 32 j) ≤ max 32 i := by omega
        right; refine ⟨?_, .inl ⟨i, rfl, by omega⟩⟩
        simp only [usualPromoted]; rw [if_pos this, max_eq_left this]
      · right; exact ⟨rfl, .inl ⟨i, rfl, by omega⟩⟩
    | sint j =>
      simp only [usual, promote_uint, promote_sint, RTy.bits]
      split_ifs with h1
      · left; rfl
      · simp only [usualPromoted]
        split_ifs with h3
        · right; rw [max_eq_left h3]; exact ⟨rfl, .inl ⟨i, rfl, by omega⟩⟩
        · left; congr 1; omega
  | sint i =>
    cases b with
    | flt k => exact absurd ⟨k, rfl⟩ hb
    | uint j =>
      simp only [usual, promote_uint, promote_sint, RTy.bits]
      split_ifs with h1
      · left; rfl
      · simp only [usualPromoted]
        split_ifs with h3
        · right; rw [max_eq_right h3]; exact ⟨rfl, .inr ⟨j, rfl, by omega⟩⟩
        · left; congr 1; omega
    | sint j => left; simp only [usual, promote_sint, RTy.bits]; rfl

theorem usual_comm (a b : RTy) : usual a b = usual b a := by
  unfold usual
  cases promote a <;> cases promote b <;> simp [usualPromoted, max_comm]

/-- If the common type is signed and one type is unsigned and wide, the other is wider. -/
theorem wide_lt {w : ℕ} {b : RTy} {W : ℕ} (hw : 32 ≤ w) (h : usual (.uint w) b = .sint W) : w < W := by
  have hp : promote (.uint w) = .uint w := by simp only [promote]; rw [if_neg (by omega)]
  unfold usual at h
  rw [hp] at h
  cases b with
  | flt k => simp [promote, usualPromoted] at h
  | uint j =>
    rw [promote_uint] at h
    split_ifs at h
    · simp only [usualPromoted] at h
      split_ifs at h
      cases h; omega
    · simp only [usualPromoted] at h; exact absurd h (by simp)
  | sint j =>
    rw [promote_sint] at h
    simp only [usualPromoted] at h
    split_ifs at h
    cases h; omega

/-- A number of an integral type is a number of the common type unless it is negative and the other type is unsigned. -/
theorem rep_usual {a b : RTy} {x : ℚ} (hx : a.Rep x) (h : b.IsWideUnsigned → 0 ≤ x) : (usual a b).Rep x := by
  by_cases ha : a.IsFlt
  · rw [usual_flt (.inl ha)]; trivial
  by_cases hb : b.IsFlt
  · rw [usual_flt (.inr hb)]; trivial
  have mono : ∀ i j : ℕ, i ≤ j → (2 : ℤ) ^ i ≤ 2 ^ j := fun i j hij => pow_le_pow_right₀ (by norm_num) hij
  rcases usual_int ha hb with hu | ⟨hu, hw⟩
  · cases a with
    | flt k => exact absurd ⟨k, rfl⟩ ha
    | uint w =>
      obtain ⟨z, rfl, h1, h2⟩ := hx
      have lt : w < max (RTy.uint w).bits b.bits := by
        by_cases h32 : 32 ≤ w
        · exact wide_lt h32 hu
        · simp only [RTy.bits]; omega
      rw [hu]
      refine ⟨z, rfl, ?_, ?_⟩
      · have := mono 0 (max (RTy.uint w).bits b.bits) (by omega)
        simp at this; omega
      · have := mono (w + 1) (max (RTy.uint w).bits b.bits) (by omega)
        rw [pow_succ] at this; omega
    | sint w =>
      obtain ⟨z, rfl, h1, h2⟩ := hx
      rw [hu]
      have := mono w (max (RTy.sint w).bits b.bits) (by simp only [RTy.bits]; omega)
      exact ⟨z, rfl, by omega, by omega⟩
  · rw [hu]
    cases a with
    | flt k => exact absurd ⟨k, rfl⟩ ha
    | uint w =>
      obtain ⟨z, rfl, h1, h2⟩ := hx
      have := mono w (max (RTy.uint w).bits b.bits) (by simp only [RTy.bits]; omega)
      exact ⟨z, rfl, h1, by omega⟩
    | sint w =>
      obtain ⟨z, rfl, h1, h2⟩ := hx
      have h0 : (0 : ℚ) ≤ z := h (hw.resolve_left fun ⟨_, h, _⟩ => nomatch h)
      have h0' : 0 ≤ z := by exact_mod_cast h0
      have := mono w (max (RTy.sint w).bits b.bits) (by simp only [RTy.bits]; omega)
      exact ⟨z, rfl, h0', by omega⟩

/-- Types of expressions. -/
def Promoted (t : RTy) : Prop := promote t = t

theorem promote_promote (a : RTy) : promote (promote a) = promote a := by
  cases a with
  | flt k => rfl
  | uint w =>
    rw [promote_uint]
    by_cases h : w < 32
    · rw [if_pos h, promote_sint]; simp
    · rw [if_neg h, promote_uint, if_neg (by omega)]; simp
  | sint w => rw [promote_sint, promote_sint]; simp

theorem promoted_usual (a b : RTy) : Promoted (usual a b) := by
  unfold Promoted usual
  have ha := promote_promote a
  have hb := promote_promote b
  have key : ∀ s t : RTy, promote s = s → promote t = t → promote (usualPromoted s t) = usualPromoted s t := by
    intro s t hs ht
    cases s with
    | flt i => cases t <;> rfl
    | uint i =>
      have hi : 32 ≤ i := by by_contra h; simp [promote, not_le.mp h] at hs
      cases t with
      | flt j => rfl
      | uint j => simp only [usualPromoted, promote]; rw [if_neg (by omega)]
      | sint j =>
        have hj : 32 ≤ j := by
          by_contra h; rw [promote, if_pos (by omega)] at ht; cases ht; omega
        simp only [usualPromoted]; split_ifs <;> simp only [promote] <;> rw [if_neg (by omega)]
    | sint i =>
      have hi : 32 ≤ i := by
        by_contra h; rw [promote, if_pos (by omega)] at hs; cases hs; omega
      cases t with
      | flt j => rfl
      | uint j =>
        have hj : 32 ≤ j := by by_contra h; simp [promote, not_le.mp h] at ht
        simp only [usualPromoted]; split_ifs <;> simp only [promote] <;> rw [if_neg (by omega)]
      | sint j => simp only [usualPromoted, promote]; rw [if_neg (by omega)]
  exact key _ _ ha hb

theorem usual_self {t : RTy} (h : Promoted t) : usual t t = t := by
  unfold usual
  rw [h]
  cases t <;> simp [usualPromoted]

theorem leq_same {t : RTy} (h : Promoted t) {x y : ℚ} (hx : t.Rep x) (hy : t.Rep y) :
    leq ⟨t, x⟩ ⟨t, y⟩ = some (decide (x ≤ y)) := by
  unfold leq
  simp only [usual_self h, conv_rep hx, conv_rep hy]
  rfl

theorem within_flt (k : ℕ) (ep d : ℚ) : within ⟨.flt k, ep⟩ ⟨.flt k, d⟩ = some (decide (|d| ≤ ep)) := by
  have hp : Promoted (.flt k) := rfl
  unfold within neg
  simp only [norm, Option.map_some, Option.bind_eq_bind, Option.bind_some]
  rw [leq_same hp trivial trivial, leq_same hp trivial trivial]
  simp only [Option.bind_some, abs_le]
  by_cases h : -ep ≤ d <;> simp [h]

theorem within_sint {w : ℕ} (hp : Promoted (.sint w)) {ep d : ℚ} (h0 : 0 ≤ ep) (he : (RTy.sint w).Rep ep) (hd : (RTy.sint w).Rep d) :
    within ⟨.sint w, ep⟩ ⟨.sint w, d⟩ = some (decide (|d| ≤ ep)) := by
  obtain ⟨z, rfl, h1, h2⟩ := he
  have h0' : 0 ≤ z := by exact_mod_cast h0
  have hn : (RTy.sint w).Rep (-(z : ℚ)) := ⟨-z, by push_cast; rfl, by omega, by omega⟩
  have hn1 : -(2 : ℚ) ^ w ≤ 2 * -(z : ℚ) := by
    have : -(2 : ℤ) ^ w ≤ 2 * -z := by omega
    exact_mod_cast this
  have hn2 : 2 * -(z : ℚ) < (2 : ℚ) ^ w := by
    have : 2 * -z < (2 : ℤ) ^ w := by omega
    exact_mod_cast this
  unfold within neg
  simp only [norm]
  rw [if_pos ⟨hn1, hn2⟩]
  simp only [Option.map_some, Option.bind_eq_bind, Option.bind_some]
  rw [leq_same hp hn hd, leq_same hp hd ⟨z, rfl, h1, h2⟩]
  simp only [Option.bind_some, abs_le]
  by_cases h : -(z : ℚ) ≤ d <;> simp [h]

theorem within_uint {w : ℕ} (hp : Promoted (.uint w)) {z d : ℤ} (hz : 0 ≤ z ∧ z < 2 ^ w) (hd : 0 ≤ d ∧ d < 2 ^ w) :
    within ⟨.uint w, z⟩ ⟨.uint w, d⟩ = some (decide (-z % 2 ^ w ≤ d ∧ d ≤ z)) := by
  have hpos : (0 : ℤ) < 2 ^ w := by positivity
  have hn : (RTy.uint w).Rep ((-z % 2 ^ w : ℤ) : ℚ) := ⟨_, rfl, Int.emod_nonneg _ hpos.ne', Int.emod_lt_of_pos _ hpos⟩
  have hfl : ⌊-(z : ℚ)⌋ = -z := by
    have : (-(z : ℚ)) = ((-z : ℤ) : ℚ) := by push_cast; rfl
    rw [this, Int.floor_intCast]
  unfold within neg
  simp only [norm, hfl, Option.map_some, Option.bind_eq_bind, Option.bind_some]
  rw [leq_same hp hn ⟨d, rfl, hd.1, hd.2⟩, leq_same hp ⟨d, rfl, hd.1, hd.2⟩ ⟨z, rfl, hz.1, hz.2⟩]
  simp only [Option.bind_some, Int.cast_le]
  by_cases h : -z % 2 ^ w ≤ d <;> simp [h]

/-- An operation on numbers that the common type holds. -/
theorem arith_rep (op : ℚ → ℚ → ℚ) {p q : R} (hp : p.ty.Rep p.v) (hq : q.ty.Rep q.v) (h1 : q.ty.IsWideUnsigned → 0 ≤ p.v)
    (h2 : p.ty.IsWideUnsigned → 0 ≤ q.v) :
    arith op p q = (norm (usual p.ty q.ty) (op p.v q.v)).map (R.mk (usual p.ty q.ty)) := by
  have r1 := rep_usual (b := q.ty) hp h1
  have r2 := rep_usual (b := p.ty) hq h2
  rw [usual_comm] at r2
  unfold arith
  rw [conv_rep r1, conv_rep r2]
  simp only [Option.bind_eq_bind, Option.bind_some]
  cases norm (usual p.ty q.ty) (op p.v q.v) <;> rfl

theorem arith_flt (op : ℚ → ℚ → ℚ) {p q : R} (h : p.ty.IsFlt ∨ q.ty.IsFlt) :
    arith op p q = some ⟨.flt (max p.ty.digits q.ty.digits), op p.v q.v⟩ := by
  unfold arith
  rw [usual_flt h]
  rfl

theorem nearReal_flt (f : ℕ) {p q : R} (h : p.ty.IsFlt ∨ q.ty.IsFlt) :
    nearReal f p q = some (decide (|p.v - q.v| ≤ f * epsilon p.ty q.ty)) := by
  unfold nearReal
  rw [arith_flt _ h]
  simp only [Option.bind_eq_bind, Option.bind_some, within_flt, epsilonOf, epsilon]
  congr

theorem int_sub {a b : RTy} {x y : ℚ} (ha : ¬ a.IsFlt) (hb : ¬ b.IsFlt) (hx : a.Rep x) (hy : b.Rep y) : ∃ z : ℤ, x - y = z := by
  have h : ∀ {t : RTy} {u : ℚ}, ¬ t.IsFlt → t.Rep u → ∃ z : ℤ, u = z := by
    intro t u ht hu
    cases t with
    | flt k => exact absurd ⟨k, rfl⟩ ht
    | uint w => obtain ⟨z, h, _⟩ := hu; exact ⟨z, h⟩
    | sint w => obtain ⟨z, h, _⟩ := hu; exact ⟨z, h⟩
  obtain ⟨m, rfl⟩ := h ha hx
  obtain ⟨n, rfl⟩ := h hb hy
  exact ⟨m - n, by push_cast; rfl⟩

/-- The difference in a signed common type. -/
theorem sub_sint {p q : R} {W : ℕ} (ha : ¬ p.ty.IsFlt) (hb : ¬ q.ty.IsFlt) (hp : p.ty.Rep p.v) (hq : q.ty.Rep q.v) (h1 : q.ty.IsWideUnsigned → 0 ≤ p.v)
    (h2 : p.ty.IsWideUnsigned → 0 ≤ q.v) (hu : usual p.ty q.ty = .sint W) (hd : -2 ^ W ≤ 2 * (p.v - q.v) ∧ 2 * (p.v - q.v) < 2 ^ W) :
    arith (· - ·) p q = some ⟨.sint W, p.v - q.v⟩ ∧ (RTy.sint W).Rep (p.v - q.v) := by
  rw [arith_rep _ hp hq h1 h2, hu]
  simp only [norm]
  rw [if_pos hd]
  obtain ⟨z, hz⟩ := int_sub ha hb hp hq
  refine ⟨rfl, z, hz, ?_, ?_⟩
  · have := hd.1; rw [hz] at this; exact_mod_cast this
  · have := hd.2; rw [hz] at this; exact_mod_cast this

/-- The difference in an unsigned common type. -/
theorem sub_uint {p q : R} {W : ℕ} (hp : p.ty.Rep p.v) (hq : q.ty.Rep q.v) (h1 : q.ty.IsWideUnsigned → 0 ≤ p.v)
    (h2 : p.ty.IsWideUnsigned → 0 ≤ q.v) (hu : usual p.ty q.ty = .uint W) :
    ∃ m n : ℤ, p.v = m ∧ q.v = n ∧ (0 ≤ m ∧ m < 2 ^ W) ∧ (0 ≤ n ∧ n < 2 ^ W) ∧
      arith (· - ·) p q = some ⟨.uint W, (((m - n) % 2 ^ W : ℤ) : ℚ)⟩ := by
  have r1 := rep_usual (b := q.ty) hp h1
  have r2 := rep_usual (b := p.ty) hq h2
  rw [usual_comm] at r2
  rw [hu] at r1 r2
  obtain ⟨m, hm, hm1, hm2⟩ := r1
  obtain ⟨n, hn, hn1, hn2⟩ := r2
  refine ⟨m, n, hm, hn, ⟨hm1, hm2⟩, ⟨hn1, hn2⟩, ?_⟩
  rw [arith_rep _ hp hq h1 h2, hu]
  simp only [norm, hm, hn]
  have : ⌊(m : ℚ) - n⌋ = m - n := by
    have : (m : ℚ) - n = ((m - n : ℤ) : ℚ) := by push_cast; rfl
    rw [this, Int.floor_intCast]
  rw [this]; rfl

theorem emod_sub_eq_zero {W : ℕ} {m n : ℤ} (hm : 0 ≤ m ∧ m < 2 ^ W) (hn : 0 ≤ n ∧ n < 2 ^ W) : (m - n) % 2 ^ W = 0 ↔ m = n := by
  constructor
  · intro h
    obtain ⟨k, hk⟩ := Int.dvd_of_emod_eq_zero h
    generalize (2 : ℤ) ^ W = M at *
    have : k = 0 := by
      have h1 : M * k < M * 1 := by omega
      have h2 : M * (-1) < M * k := by omega
      have hM : 0 < M := by omega
      have := lt_of_mul_lt_mul_left h1 hM.le
      have := lt_of_mul_lt_mul_left h2 hM.le
      omega
    rw [this] at hk; omega
  · rintro rfl; simp

end OpenKalman.Scalars
