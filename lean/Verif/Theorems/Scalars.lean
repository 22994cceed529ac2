import Mathlib.Tactic.Ring
import Verif.Proof.Scalars

/-!
# C92–C94: closeness, comparison and conversion of numbers
-/

namespace OpenKalman.Scalars

/-! ## C92 -/

/-- Fixed arguments give the result that the same numbers give at run time, and the result is fixed exactly if all arguments are. -/
theorem C92_fixed (f : ℕ) (p q e : Val) :
    near f p q = (nearNum f p.num q.num).map (fun b => (b, p.fixed && q.fixed)) ∧
      (p.fixed = true ∨ q.fixed = true → nearErr p q e = (nearNumErr p.num q.num e.num).map fun b => (b, p.fixed && q.fixed && e.fixed)) ∧
      (nearErr p q e).map Prod.fst = nearNumErr p.num q.num e.num := by
  obtain ⟨p, pf⟩ := p
  obtain ⟨q, qf⟩ := q
  obtain ⟨e, ef⟩ := e
  refine ⟨?_, ?_, ?_⟩
  · cases pf <;> cases qf <;> simp [near, operation]
  · intro h
    cases pf <;> cases qf <;> simp_all [nearErr, operation]
  · cases pf <;> cases qf <;> simp [nearErr, operation, Option.map_map, Function.comp_def]

/-- Real numbers of which one is floating are near exactly if they differ by no more than the factor times the epsilon of the wider type. -/
theorem C92_near_floating (f : ℕ) (p q : Num) (a b : RTy) (hp : p.ty = .real a) (hq : q.ty = .real b) (h : a.IsFlt ∨ b.IsFlt) :
    nearNum f p q = some (decide (|p.re - q.re| ≤ f * epsilon a b)) := by
  unfold nearNum
  rw [hp, hq]
  exact nearReal_flt f h

/-- Complex numbers with floating parts are near exactly if both parts are. -/
theorem C92_near_complex (f : ℕ) (p q : Num) (hp : p.Ok) (hq : q.Ok) (hc : p.ty.Complex ∨ q.ty.Complex) (hf : p.ty.elem.IsFlt) (hg : q.ty.elem.IsFlt) :
    nearNum f p q = some (decide (|p.re - q.re| ≤ f * epsilon p.ty.elem q.ty.elem ∧ |p.im - q.im| ≤ f * epsilon p.ty.elem q.ty.elem)) := by
  obtain ⟨pt, pr, pi⟩ := p
  obtain ⟨qt, qr, qi⟩ := q
  have hb : (pt.isCplx || qt.isCplx) = true := by
    cases pt <;> cases qt <;> simp_all [Ty.Complex, Ty.isCplx]
  have part : ∀ (t : Ty) (r i : ℚ), t.elem.IsFlt → (Num.mk t r i).Ok →
      realPart ⟨t, r, i⟩ = ⟨t.elem, r⟩ ∧ imagPart ⟨t, r, i⟩ = ⟨t.elem, i⟩ := by
    intro t r i ht ho
    obtain ⟨k, hk⟩ := ht
    cases t with
    | cplx s => exact ⟨rfl, rfl⟩
    | real s =>
      simp only [Ty.elem] at hk
      subst hk
      have : i = 0 := ho.2.2 (by simp [Ty.Complex])
      subst this
      exact ⟨rfl, rfl⟩
  obtain ⟨e1, e2⟩ := part pt pr pi hf hp
  obtain ⟨e3, e4⟩ := part qt qr qi hg hq
  unfold nearNum
  simp only [hb, if_true, e1, e2, e3, e4]
  rw [nearReal_flt f (.inl hf), nearReal_flt f (.inl hf)]
  simp

/-- Integral numbers are near exactly if they are equal, if no negative number meets a wide unsigned type and their difference fits the type of the
difference should that be signed. -/
theorem C92_near_integral_partial (f : ℕ) (p q : Num) (a b : RTy) (hp : p.ty = .real a) (hq : q.ty = .real b) (ha : ¬ a.IsFlt) (hb : ¬ b.IsFlt)
    (h1 : a.Rep p.re) (h2 : b.Rep q.re) (h3 : b.IsWideUnsigned → 0 ≤ p.re) (h4 : a.IsWideUnsigned → 0 ≤ q.re)
    (h5 : DiffFits a b (p.re - q.re) ∨ a.IsWideUnsigned ∧ b.IsWideUnsigned) :
    nearNum f p q = some (decide (p.re = q.re)) := by
  unfold nearNum
  rw [hp, hq]
  change nearReal f ⟨a, p.re⟩ ⟨b, q.re⟩ = _
  unfold nearReal
  rcases usual_int ha hb with hu | ⟨hu, -⟩
  · have hd : DiffFits a b (p.re - q.re) := by
      rcases h5 with h | ⟨⟨i, rfl, hi⟩, ⟨j, rfl, hj⟩⟩
      · exact h
      · exfalso
        simp only [usual, promote_uint, if_neg (show ¬ i < 32 by omega), if_neg (show ¬ j < 32 by omega), usualPromoted] at hu
        exact absurd hu (by simp)
    obtain ⟨e, r⟩ := sub_sint (p := ⟨a, p.re⟩) (q := ⟨b, q.re⟩) ha hb h1 h2 h3 h4 hu hd
    have hpr : Promoted (.sint (max a.bits b.bits)) := hu ▸ promoted_usual a b
    rw [e]
    simp only [Option.bind_eq_bind, Option.bind_some, epsilonOf, mul_zero]
    rw [within_sint hpr le_rfl ⟨0, by simp, by simp, by simp⟩ r]
    congr 1
    rw [decide_eq_decide, abs_nonpos_iff, sub_eq_zero]
  · obtain ⟨m, n, hm, hn, bm, bn, e⟩ := sub_uint (p := ⟨a, p.re⟩) (q := ⟨b, q.re⟩) h1 h2 h3 h4 hu
    have hpr : Promoted (.uint (max a.bits b.bits)) := hu ▸ promoted_usual a b
    have hpos : (0 : ℤ) < 2 ^ max a.bits b.bits := by positivity
    rw [e]
    simp only [Option.bind_eq_bind, Option.bind_some, epsilonOf, mul_zero]
    have w := within_uint hpr (z := 0) (d := (m - n) % 2 ^ max a.bits b.bits) ⟨le_rfl, hpos⟩
      ⟨Int.emod_nonneg _ hpos.ne', Int.emod_lt_of_pos _ hpos⟩
    simp only [Int.cast_zero, neg_zero, Int.zero_emod] at w
    rw [w]
    congr 1
    simp only at hm hn
    rw [decide_eq_decide, hm, hn, Int.cast_inj, ← emod_sub_eq_zero bm bn]
    have := Int.emod_nonneg (m - n) hpos.ne'
    omega

/-- With an error that is not negative, real numbers are near exactly if they differ by no more than the error: always if a floating number is among the
two, and for integral numbers if their difference has a signed type that holds it, and that type holds the error. -/
theorem C92_err_partial (p q e : Num) (a b c : RTy) (hp : p.ty = .real a) (hq : q.ty = .real b) (he : e.ty = .real c) (h0 : 0 ≤ e.re)
    (h : (a.IsFlt ∨ b.IsFlt) ∨
      ((¬ a.IsFlt ∧ ¬ b.IsFlt ∧ a.Rep p.re ∧ b.Rep q.re) ∧ ¬ a.IsWideUnsigned ∧ ¬ b.IsWideUnsigned ∧ DiffFits a b (p.re - q.re) ∧
        e.re < 2 ^ (max a.bits b.bits - 1))) (hc : c.Rep e.re) :
    nearNumErr p q e = some (decide (|p.re - q.re| ≤ e.re)) := by
  unfold nearNumErr
  rw [hp, hq, he]
  change nearRealErr ⟨a, p.re⟩ ⟨b, q.re⟩ ⟨c, e.re⟩ = _
  unfold nearRealErr
  rcases h with h | ⟨⟨ha, hb, h1, h2⟩, h3, h4, hd, hE⟩
  · rw [arith_flt _ h]
    simp only [Option.bind_eq_bind, Option.bind_some, conv, within_flt]
  · have hu : usual a b = .sint (max a.bits b.bits) := by
      rcases usual_int ha hb with hu | ⟨-, h | h⟩
      · exact hu
      · exact absurd h h3
      · exact absurd h h4
    obtain ⟨er, r⟩ := sub_sint (p := ⟨a, p.re⟩) (q := ⟨b, q.re⟩) ha hb h1 h2 (fun h => absurd h h4) (fun h => absurd h h3) hu hd
    have hpr : Promoted (.sint (max a.bits b.bits)) := hu ▸ promoted_usual a b
    rw [er]
    simp only [Option.bind_eq_bind, Option.bind_some]
    obtain ⟨z, hz⟩ := int_sub ha hb h1 h2
    have hW : 1 ≤ max a.bits b.bits := by cases a <;> simp_all [RTy.bits, RTy.IsFlt]
    generalize hWe : max a.bits b.bits = W at *
    have hpow : (2 : ℤ) ^ W = 2 * 2 ^ (W - 1) := by
      rw [← pow_succ']; congr 1; omega
    -- the error truncated
    have hfl0 : 0 ≤ ⌊e.re⌋ := Int.floor_nonneg.mpr h0
    have hfl1 : ⌊e.re⌋ < 2 ^ (W - 1) := by
      rw [Int.floor_lt]; push_cast; exact hE
    have rep : (RTy.sint W).Rep ((⌊e.re⌋ : ℤ) : ℚ) := ⟨_, rfl, by
      have : (0 : ℤ) < 2 ^ W := by positivity
      omega, by omega⟩
    have hconv : conv c (.sint W) e.re = some ((⌊e.re⌋ : ℤ) : ℚ) := by
      cases c with
      | flt k =>
        have ht : trunc e.re = ⌊e.re⌋ := if_pos h0
        simp only [conv, ht]
        rw [if_pos]
        constructor
        · have : (0 : ℤ) < 2 ^ W := by positivity
          omega
        · omega
      | uint w =>
        obtain ⟨y, hy, -⟩ := hc
        have hy' : ((⌊e.re⌋ : ℤ) : ℚ) = e.re := by rw [hy, Int.floor_intCast]
        rw [hy'] at rep ⊢
        exact conv_rep rep
      | sint w =>
        obtain ⟨y, hy, -⟩ := hc
        have hy' : ((⌊e.re⌋ : ℤ) : ℚ) = e.re := by rw [hy, Int.floor_intCast]
        rw [hy'] at rep ⊢
        exact conv_rep rep
    rw [hconv]
    simp only [Option.bind_some]
    rw [within_sint hpr (by exact_mod_cast hfl0) rep r]
    congr 1
    rw [decide_eq_decide, hz, ← Int.cast_abs, Int.cast_le, Int.le_floor]

/-- Complex numbers with floating parts are within an error exactly if the modulus of the difference is no more than the modulus of the error. -/
theorem C92_err_complex (p q e : Num) (hp : p.Ok) (hq : q.Ok) (he : e.Ok) (hc : p.ty.Complex ∨ q.ty.Complex ∨ e.ty.Complex)
    (h1 : p.ty.elem.IsFlt) (h2 : q.ty.elem.IsFlt) (h3 : e.ty.elem.IsFlt) :
    nearNumErr p q e = some (decide (p.distSq q ≤ e.re ^ 2 + e.im ^ 2)) := by
  obtain ⟨pt, pr, pi⟩ := p
  obtain ⟨qt, qr, qi⟩ := q
  obtain ⟨et, er, ei⟩ := e
  have hb : (pt.isCplx || qt.isCplx || et.isCplx) = true := by
    cases pt <;> cases qt <;> cases et <;> simp_all [Ty.Complex, Ty.isCplx]
  have part : ∀ (t : Ty) (r i : ℚ), t.elem.IsFlt → (Num.mk t r i).Ok →
      realPart ⟨t, r, i⟩ = ⟨t.elem, r⟩ ∧ imagPart ⟨t, r, i⟩ = ⟨t.elem, i⟩ := by
    intro t r i ht ho
    obtain ⟨k, hk⟩ := ht
    cases t with
    | cplx s => exact ⟨rfl, rfl⟩
    | real s =>
      simp only [Ty.elem] at hk
      subst hk
      have : i = 0 := ho.2.2 (by simp [Ty.Complex])
      subst this
      exact ⟨rfl, rfl⟩
  obtain ⟨e1, e2⟩ := part pt pr pi h1 hp
  obtain ⟨e3, e4⟩ := part qt qr qi h2 hq
  obtain ⟨e5, e6⟩ := part et er ei h3 he
  unfold nearNumErr
  simp only [hb, if_true, e1, e2, e3, e4, e5, e6]
  rw [arith_flt _ (.inl h2), arith_flt _ (.inl h2), arith_flt _ (.inl h3), arith_flt _ (.inl h3)]
  simp only [Option.bind_eq_bind, Option.bind_some]
  rw [arith_flt _ (.inl ⟨_, rfl⟩), arith_flt _ (.inl ⟨_, rfl⟩), arith_flt _ (.inl ⟨_, rfl⟩)]
  simp only [Option.bind_some]
  rw [arith_flt _ (.inl ⟨_, rfl⟩)]
  simp only [Option.bind_some]
  unfold leq
  rw [usual_flt (.inl ⟨_, rfl⟩)]
  simp only [conv, Option.bind_eq_bind, Option.bind_some]
  congr 1
  apply decide_eq_decide.mpr
  have : (qr - pr) * (qr - pr) + (qi - pi) * (qi - pi) = (Num.mk pt pr pi).distSq ⟨qt, qr, qi⟩ := by
    simp only [Num.distSq]; ring
  rw [this, ← sq, ← sq]

example : near 2 ⟨⟨.real (.flt 53), 1, 0⟩, true⟩ ⟨⟨.real (.sint 32), 1, 0⟩, false⟩ = some (true, false) := by
  rw [(C92_fixed 2 _ _ ⟨⟨.real (.flt 53), 0, 0⟩, true⟩).1, C92_near_floating 2 _ _ (.flt 53) (.sint 32) rfl rfl (.inl ⟨53, rfl⟩)]
  norm_num [epsilon, RTy.digits]
example : nearNumErr ⟨.real (.sint 32), 3, 0⟩ ⟨.real (.sint 16), 5, 0⟩ ⟨.real (.flt 53), 5 / 2, 0⟩ = some true := by
  rw [C92_err_partial _ _ _ (.sint 32) (.sint 16) (.flt 53) rfl rfl rfl (by norm_num) (.inr ⟨⟨by simp [RTy.IsFlt], by simp [RTy.IsFlt],
    ⟨3, by norm_num, by norm_num, by norm_num⟩, ⟨5, by norm_num, by norm_num, by norm_num⟩⟩, by simp [RTy.IsWideUnsigned],
    by simp [RTy.IsWideUnsigned], by norm_num [DiffFits, RTy.bits], by norm_num [RTy.bits]⟩) trivial]
  norm_num [abs_le]

/-- Unsigned numbers: with any error greater than 0, no number is near itself. -/
theorem C92_unsigned_violated (w : ℕ) (hw : 32 ≤ w) (x e : ℤ) (hx : 0 ≤ x ∧ x < 2 ^ w) (he : 0 < e ∧ e < 2 ^ w) :
    nearNumErr ⟨.real (.uint w), x, 0⟩ ⟨.real (.uint w), x, 0⟩ ⟨.real (.uint w), e, 0⟩ = some false := by
  have hu : usual (.uint w) (.uint w) = .uint w :=
    usual_self (by unfold Promoted; rw [promote_uint, if_neg (by omega), max_eq_right hw])
  have hpr : Promoted (.uint w) := by unfold Promoted; rw [promote_uint, if_neg (by omega), max_eq_right hw]
  have hx0 : (0 : ℚ) ≤ x := by exact_mod_cast hx.1
  have hr : (RTy.uint w).Rep (x : ℚ) := ⟨x, rfl, hx.1, hx.2⟩
  obtain ⟨m, n, hm, hn, -, -, ar⟩ := sub_uint (p := ⟨.uint w, x⟩) (q := ⟨.uint w, x⟩) (W := w) hr hr (fun _ => hx0) (fun _ => hx0) hu
  change nearRealErr ⟨.uint w, x⟩ ⟨.uint w, x⟩ ⟨.uint w, e⟩ = _
  unfold nearRealErr
  rw [ar]
  have hmn : m = n := by
    have : (m : ℚ) = n := hm.symm.trans hn
    exact_mod_cast this
  subst hmn
  simp only [sub_self, Int.zero_emod, Option.bind_eq_bind, Option.bind_some]
  have hre : (RTy.uint w).Rep (e : ℚ) := ⟨e, rfl, he.1.le, he.2⟩
  rw [conv_rep hre]
  simp only [Option.bind_some]
  have hpos : (0 : ℤ) < 2 ^ w := by positivity
  rw [within_uint hpr ⟨he.1.le, he.2⟩ ⟨le_rfl, hpos⟩]
  congr 1
  rw [decide_eq_false_iff_not]
  rintro ⟨h, -⟩
  have h0 := Int.emod_nonneg (-e) hpos.ne'
  have : (-e) % 2 ^ w = 0 := le_antisymm h h0
  have hdvd := Int.dvd_of_emod_eq_zero this
  have := Int.le_of_dvd he.1 (by simpa using hdvd)
  omega

/-- A negative `int` is near the `unsigned` number that it wraps to. -/
theorem C92_sign_violated : nearNum 2 ⟨.real (.sint 32), -1, 0⟩ ⟨.real (.uint 32), 4294967295, 0⟩ = some true := by decide +kernel

/-- The difference of `int`s may overflow, also at compile time. -/
theorem C92_overflow_violated : nearNum 2 ⟨.real (.sint 32), -2147483648, 0⟩ ⟨.real (.sint 32), 1, 0⟩ = none := by decide +kernel

/-- A negative error: never near for real numbers, but its sign is ignored if any of the numbers is complex. -/
theorem C92_negative_violated (x y e : ℚ) (he : e < 0) :
    nearNumErr ⟨.real double, x, 0⟩ ⟨.real double, y, 0⟩ ⟨.real double, e, 0⟩ = some false ∧
      (|x - y| ≤ -e → nearNumErr ⟨.cplx double, x, 0⟩ ⟨.cplx double, y, 0⟩ ⟨.real double, e, 0⟩ = some true) := by
  constructor
  · change nearRealErr ⟨double, x⟩ ⟨double, y⟩ ⟨double, e⟩ = _
    unfold nearRealErr
    rw [arith_flt _ (.inl ⟨53, rfl⟩)]
    simp only [Option.bind_eq_bind, Option.bind_some, conv, within_flt]
    congr 1
    rw [decide_eq_false_iff_not]
    intro h
    have := abs_nonneg (x - y)
    linarith
  · intro h
    have hf : double.IsFlt := ⟨53, rfl⟩
    rw [C92_err_complex ⟨.cplx double, x, 0⟩ ⟨.cplx double, y, 0⟩ ⟨.real double, e, 0⟩ ⟨trivial, trivial, fun h => absurd trivial h⟩
      ⟨trivial, trivial, fun h => absurd trivial h⟩ ⟨trivial, trivial, fun _ => rfl⟩ (.inl trivial) hf hf hf]
    congr 1
    rw [decide_eq_true_iff]
    simp only [Num.distSq]
    have := abs_le.mp h
    nlinarith [this.1, this.2]

/-! ## C93 -/

/-- A fixed value compares with a number that its type can represent as the two numbers compare; with a tolerance, numbers within it are equal and the
others compare as they are. -/
theorem C93_compare_partial (comp : Ordering → Bool) (f : ℕ) (n t : R) (h : t.ty.Rep n.v)
    (hf : f ≠ 0 → t.ty.IsFlt) :
    comparesWith comp f n t true =
      comp (if |t.v - n.v| ≤ (if f = 0 then 0 else f * epsilon t.ty t.ty) then .eq else if t.v < n.v then .lt else .gt) ∧
      comparesWith comp f n t false = false := by
  refine ⟨?_, by simp [comparesWith]⟩
  unfold comparesWith compareNear
  rw [conv_rep h]
  simp only [Option.bind_eq_bind, Option.bind_some, Bool.true_and]
  by_cases h0 : f = 0
  · subst h0
    simp only [if_true, Option.map_some, Option.getD_some, cmp]
    congr 1
    by_cases e : t.v = n.v
    · simp [e]
    · have : ¬ |t.v - n.v| ≤ 0 := by rw [abs_nonpos_iff, sub_eq_zero]; exact e
      rw [if_neg this, if_neg e]
  · simp only [if_neg h0]
    rw [nearReal_flt f (.inl (hf h0))]
    simp only [Option.bind_some]
    by_cases hn : |t.v - n.v| ≤ f * epsilon t.ty t.ty
    · simp [hn]
    · simp only [hn, decide_false, Bool.false_eq_true, if_false, Option.map_some, Option.getD_some, cmp]
      have e : t.v ≠ n.v := by
        rintro e
        apply hn
        rw [e]
        simp only [sub_self, abs_zero, epsilon]
        positivity
      simp [e]

example : comparesWith (· == .gt) 0 ⟨.sint 32, 1⟩ ⟨.uint 64, 3⟩ true = true := by
  rw [(C93_compare_partial _ 0 _ ⟨.uint 64, 3⟩ ⟨1, by norm_num, by norm_num, by norm_num⟩
    (fun h => absurd rfl h)).1]
  have : ¬ |(3 : ℚ) - 1| ≤ 0 := by norm_num
  simp [this]

/-- The number is first converted to the type of the value: an integral 1 equals 1.5, an unsigned 3 is less than −1, and a signed −1 equals the number that
stands for an extent that is not fixed. -/
theorem C93_convert_violated :
    compareNear 0 ⟨double, 3 / 2⟩ ⟨.sint 32, 1⟩ = some .eq ∧ compareNear 0 ⟨.sint 32, -1⟩ ⟨.uint 64, 3⟩ = some .lt ∧
      compareNear 0 ⟨.uint 64, 18446744073709551615⟩ ⟨.sint 32, -1⟩ = some .eq := by
  refine ⟨?_, ?_, ?_⟩ <;> decide +kernel

/-! ## C94 -/

/-- A real number cast to a real type that can represent it has that type and keeps its value, and is fixed exactly if it was. -/
theorem C94_cast (s d : RTy) (x : ℚ) (fixed : Bool) (h : d.Rep x) :
    castTo (.real d) ⟨⟨.real s, x, 0⟩, fixed⟩ = some ⟨⟨.real d, x, 0⟩, fixed⟩ := by
  unfold castTo
  split_ifs with e
  · simp only [Ty.real.injEq] at e
    subst e; rfl
  · simp only [Ty.elem, conv_rep h]
    rfl

/-- A complex number cast to a floating type, or to a complex type with floating parts, becomes the complex number with parts of that type and the same
value. -/
theorem C94_cast_complex_partial (T : Ty) (s : RTy) (x y : ℚ) (fixed : Bool) (h : T.elem.IsFlt) :
    castTo T ⟨⟨.cplx s, x, y⟩, fixed⟩ = some ⟨⟨.cplx T.elem, x, y⟩, fixed⟩ := by
  obtain ⟨k, hk⟩ := h
  have hr : realTypeOf T = .flt k := by
    cases T with
    | real t => simp only [Ty.elem] at hk; subst hk; rfl
    | cplx t => exact hk
  unfold castTo
  split_ifs with e
  · have : T = .cplx s := e
    subst this
    simp only [Ty.elem]
  · change makeComplexFrom (.real (realTypeOf T)) ⟨⟨.cplx s, x, y⟩, fixed⟩ = _
    rw [hr, hk]
    unfold makeComplexFrom
    by_cases e2 : realTypeOf (.real (.flt k)) = realTypeOf (.cplx s)
    · rw [if_pos e2]
      simp only [realTypeOf] at e2
      rw [e2]
    · rw [if_neg e2]
      rfl

/-- A complex number made from two real numbers that the type of the parts can represent has them as its parts. -/
theorem C94_make (T : Ty) (re im : R) (fixed : Bool) (h1 : T.elem.Rep re.v) (h2 : T.elem.Rep im.v) :
    makeComplex T re im fixed = some ⟨⟨.cplx T.elem, re.v, im.v⟩, fixed⟩ := by
  simp [makeComplex, conv_rep h1, conv_rep h2]

/-- Updating the real part of a complex number gives the new real part and keeps the imaginary part, if neither number is negative where the other is of an
unsigned type; of a real number it gives the new number. -/
theorem C94_update (t : Val) (re : R) (fixed : Bool) (h1 : re.ty.Rep re.v) (h2 : t.num.Ok)
    (h3 : t.num.ty.elem.IsWideUnsigned → 0 ≤ re.v) (h4 : re.ty.IsWideUnsigned → 0 ≤ t.num.im) :
    ∃ r, updateRealPart t re fixed = some r ∧ r.num.re = re.v ∧ r.num.im = t.num.im ∧ (r.num.ty.Complex ↔ t.num.ty.Complex) ∧
      (t.num.ty.Complex → (r.fixed = true ↔ fixed = true ∧ t.fixed = true)) ∧ (¬ t.num.ty.Complex → r.fixed = fixed) := by
  obtain ⟨⟨tt, tr, ti⟩, tf⟩ := t
  cases tt with
  | real s =>
    have : ti = 0 := h2.2.2 (by simp [Ty.Complex])
    exact ⟨_, rfl, rfl, this.symm, by simp [Ty.Complex], by simp [Ty.Complex], fun _ => rfl⟩
  | cplx s =>
    have c1 : (commonType s re.ty).Rep re.v := by
      unfold commonType
      split_ifs with e
      · exact e ▸ h1
      · rw [usual_comm]; exact rep_usual h1 h3
    have c2 : (commonType s re.ty).Rep ti := by
      unfold commonType
      split_ifs with e
      · exact h2.2.1
      · exact rep_usual h2.2.1 h4
    refine ⟨⟨⟨.cplx (commonType s re.ty), re.v, ti⟩, fixed && tf⟩, ?_, rfl, rfl, by simp [Ty.Complex], by simp, by simp [Ty.Complex]⟩
    simp only [updateRealPart]
    exact C94_make (.real (commonType s re.ty)) re (imagPart ⟨.cplx s, tr, ti⟩) _ c1 c2

example : castTo (.cplx (.flt 24)) ⟨⟨.cplx (.flt 53), 3, 4⟩, true⟩ = some ⟨⟨.cplx (.flt 24), 3, 4⟩, true⟩ :=
  C94_cast_complex_partial _ _ 3 4 true ⟨24, rfl⟩
example : ∃ r, updateRealPart ⟨⟨.cplx (.sint 32), 3, 4⟩, false⟩ ⟨.flt 53, 26 / 5⟩ true = some r ∧ r.num.re = 26 / 5 ∧ r.num.im = 4 := by
  obtain ⟨r, h, h1, h2, -⟩ := C94_update ⟨⟨.cplx (.sint 32), 3, 4⟩, false⟩ ⟨.flt 53, 26 / 5⟩ true trivial
    ⟨⟨3, by norm_num, by norm_num, by norm_num⟩, ⟨4, by norm_num, by norm_num, by norm_num⟩, by simp [Ty.Complex]⟩
    (by simp [RTy.IsWideUnsigned, Ty.elem]) (by simp [RTy.IsWideUnsigned])
  exact ⟨r, h, h1, h2⟩

/-- A complex number with parts of type `double` cast to a complex type with integral parts keeps parts of type `double`: the real type of an integral type
is `double`. -/
theorem C94_cast_complex_violated (w : ℕ) (x y : ℚ) (fixed : Bool) :
    castTo (.cplx (.sint w)) ⟨⟨.cplx double, x, y⟩, fixed⟩ = some ⟨⟨.cplx double, x, y⟩, fixed⟩ := by
  simp [castTo, makeComplexFrom, realTypeOf, double]

/-- A negative real part given to a complex number with unsigned parts wraps around. -/
theorem C94_update_violated : updateRealPart ⟨⟨.cplx (.uint 32), 1, 2⟩, false⟩ ⟨.sint 32, -1⟩ false =
    some ⟨⟨.cplx (.uint 32), 4294967295, 2⟩, false⟩ := by decide +kernel

end OpenKalman.Scalars
