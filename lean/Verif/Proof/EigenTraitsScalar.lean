import Verif.Model.EigenTraits

/-! # Facts about the functors that the trait tables rely on -/

namespace OpenKalman.EigenTraits
open Classical RCLike

variable {𝕜 : Type*} [RCLike 𝕜]

/-- Where a unary functor commutes with conjugation: everywhere for real scalars; off the branch cut for logarithms and square roots; nowhere in general for the
functors whose values are real (`arg`) or whose branch cuts lie elsewhere. -/
def hermDom (S : Scalar 𝕜) (op : Un) (x : 𝕜) : Prop :=
  S.cplx = false ∨
    match op with
    | .log | .log10 | .log2 | .sqrt | .rsqrt => im x ≠ 0 ∨ 0 < re x
    | .log1p => im x ≠ 0 ∨ 0 < 1 + re x
    | .arg | .acos | .asin | .acosh | .atanh | .atan | .asinh => False
    | _ => True

structure Scalar.Ok (S : Scalar 𝕜) : Prop where
  real : S.cplx = false → ∀ x : 𝕜, star x = x
  constUn : ∀ op x v, S.dom op x → constUn S op x = some v → v = S.un op x
  un0 : ∀ op, presTri op = true → S.un op 0 = 0
  constBin : ∀ op x y, S.bdom op x y → constBin S op x y = S.bin op x y
  bin0 : ∀ op, (kind op = .sum ∨ presDiag op = true) → S.bin op 0 0 = 0
  sumL : ∀ y, S.bin .sum 0 y = y
  sumR : ∀ x, S.bin .sum x 0 = x
  diffR : ∀ x, S.bin .diff x 0 = x
  mulL : ∀ op y, kind op = .product → S.bin op 0 y = 0
  mulR : ∀ op x, kind op = .product → S.bin op x 0 = 0
  or : ∀ x y, S.bin .or x y = bit (x ≠ 0 ∨ y ≠ 0)
  min : ∀ x y, S.bdom .min x y → ((re x : ℝ) : 𝕜) = x ∧ ((re y : ℝ) : 𝕜) = y ∧ S.bin .min x y = ((Min.min (re x) (re y) : ℝ) : 𝕜)
  max : ∀ x y, S.bdom .max x y → ((re x : ℝ) : 𝕜) = x ∧ ((re y : ℝ) : 𝕜) = y ∧ S.bin .max x y = ((Max.max (re x) (re y) : ℝ) : 𝕜)
  unHerm : ∀ op x, presHerm S.cplx op = true → hermDom S op x → S.un op (star x) = star (S.un op x)
  binHerm : ∀ op x y, S.bdom op x y → (S.cplx = true → op ≠ .pow) → S.bin op (star x) (star y) = star (S.bin op x y)

theorem realScalar_ok : realScalar.Ok where
  real _ x := by simp
  constUn op x v hd h := by
    cases op <;> simp [constUn, realScalar, unR, domR] at h hd ⊢ <;> try exact h.symm
    · rw [← h]; ring
    · rw [← h]
      have e : (⟨x, 0⟩ : ℂ) = (x : ℂ) := rfl
      rw [e]
      split
      · exact Complex.arg_ofReal_of_neg ‹_›
      · exact Complex.arg_ofReal_of_nonneg (not_lt.mp ‹_›)
    · exact h.2.symm
    · exact h.2.symm
    · rw [← h]; ring
    · rw [← h]; ring
  un0 op h := by cases op <;> simp_all [presTri, realScalar, unR]
  constBin op x y h := by
    cases op <;> simp [constBin, realScalar, binR, unR]
    · rw [min_def]; split_ifs <;> first | rfl | (exfalso; linarith)
    · rw [max_def]; split_ifs <;> first | rfl | linarith
    · ring_nf
    · split
      · rw [abs_of_neg (by linarith)]; ring
      · rw [abs_of_nonneg (by linarith)]
  bin0 op h := by cases op <;> simp_all [kind, presDiag, realScalar, binR, bit]
  sumL y := by simp [realScalar, binR]
  sumR y := by simp [realScalar, binR]
  diffR y := by simp [realScalar, binR]
  mulL op y h := by cases op <;> simp_all [kind, realScalar, binR, bit]
  mulR op y h := by cases op <;> simp_all [kind, realScalar, binR, bit]
  or x y := rfl
  min x y _ := by simp [realScalar, binR]
  max x y _ := by simp [realScalar, binR]
  unHerm op x _ _ := by simp
  binHerm op x y _ _ := by simp

theorem csqrt_conj {x : ℂ} (h : x.im ≠ 0 ∨ 0 < x.re) : csqrt (star x) = star (csqrt x) := by
  have ha : x.arg ≠ Real.pi := by
    intro e
    rw [Complex.arg_eq_pi_iff] at e
    rcases h with h | h
    · exact h e.2
    · linarith [e.1]
  have := Complex.conj_cpow x (1 / 2) ha
  simp only [csqrt]
  rw [starRingEnd_apply, starRingEnd_apply] at this
  rw [this]
  congr 2
  rw [starRingEnd_apply]
  simp

theorem clog_conj {x : ℂ} (h : x.im ≠ 0 ∨ 0 < x.re) : Complex.log (star x) = star (Complex.log x) := by
  have ha : x.arg ≠ Real.pi := by
    intro e
    rw [Complex.arg_eq_pi_iff] at e
    rcases h with h | h
    · exact h e.2
    · linarith [e.1]
  exact Complex.log_conj x ha

theorem bit_star (p : Prop) : star (bit p : ℂ) = bit p := by
  unfold bit; split <;> simp

theorem complexScalar_ok : complexScalar.Ok where
  real h := by simp [complexScalar] at h
  constUn op x v hd h := by
    cases op <;> simp [constUn, complexScalar, unC, domC] at h hd ⊢ <;> try exact h.symm
    · rw [← h, ← Complex.ofReal_pow, Complex.sq_norm, Complex.normSq_apply]; push_cast; ring
    · exact h.2.symm
    · exact h.2.symm
    · rw [← h]; ring
    · rw [← h]; ring
  un0 op h := by cases op <;> simp_all [presTri, complexScalar, unC, csqrt, casin, casinh, catanh, Complex.arctan]
  constBin op x y h := by
    cases op <;> simp_all [constBin, complexScalar, binC, bdomC]
  bin0 op h := by cases op <;> simp_all [kind, presDiag, complexScalar, binC, bit]
  sumL y := by simp [complexScalar, binC]
  sumR y := by simp [complexScalar, binC]
  diffR y := by simp [complexScalar, binC]
  mulL op y h := by cases op <;> simp_all [kind, complexScalar, binC, bit]
  mulR op y h := by cases op <;> simp_all [kind, complexScalar, binC, bit]
  or x y := rfl
  min x y h := by simp [complexScalar, bdomC] at h
  max x y h := by simp [complexScalar, bdomC] at h
  unHerm op x hp h := by
    cases op <;> simp [hermDom, complexScalar, unC, presHerm] at h hp ⊢
    case not => exact (bit_star _).symm
    case log => exact clog_conj h
    case log1p =>
      have := clog_conj (x := 1 + x) (by simpa using h)
      rw [star_add, star_one] at this
      exact this
    case log10 =>
      have e := clog_conj (x := x) h
      have e' : (starRingEnd ℂ) (Complex.log 10) = Complex.log 10 := by
        have := clog_conj (x := 10) (Or.inr (by norm_num))
        rw [show star (10 : ℂ) = 10 from by simp] at this
        exact this.symm
      rw [e']
      exact congrArg (· / Complex.log 10) e
    case log2 =>
      have e := clog_conj (x := x) h
      have e' : (starRingEnd ℂ) (Complex.log 2) = Complex.log 2 := by
        have := clog_conj (x := 2) (Or.inr (by norm_num))
        rw [show star (2 : ℂ) = 2 from by simp] at this
        exact this.symm
      rw [e']
      exact congrArg (· / Complex.log 2) e
    case sqrt => exact csqrt_conj h
    case rsqrt => exact csqrt_conj h
    case cos => exact Complex.cos_conj x
    case sin => exact Complex.sin_conj x
    case tan => exact Complex.tan_conj x
    case tanh => exact Complex.tanh_conj x
    case sinh => exact Complex.sinh_conj x
    case cosh => exact Complex.cosh_conj x
    case logistic => rw [← map_neg, Complex.exp_conj]
  binHerm op x y h hp := by
    have hinj : ((starRingEnd ℂ) x = (starRingEnd ℂ) y) ↔ x = y := (starRingEnd ℂ).injective.eq_iff
    cases op <;> simp [complexScalar, binC, bdomC] at h hp ⊢
    case cmp c =>
      cases c <;> simp at h ⊢
      · rw [hinj]; exact (bit_star _).symm
      · rw [hinj]; exact (bit_star _).symm
    case and => exact (bit_star _).symm
    case or => exact (bit_star _).symm
    case equalTo => rw [hinj]; exact (bit_star _).symm
    case notEqualTo => rw [hinj]; exact (bit_star _).symm

end OpenKalman.EigenTraits
