import Verif.Proof.Evaluators
import Mathlib.Data.Int.Basic
import Mathlib.Algebra.Group.Prod

/-! # C108: what Eigen reads through adapters, C109: what Eigen writes through adapters -/

namespace OpenKalman.Evaluators

variable {𝕜 : Type}

/-- C108: Eigen reads each element of any tower of adapters as it should be, if numbers are real, or no adapter is Hermitian, or the elements of the matrix inside are
not objects that can be referred to.  What is missing: complex Hermitian adapters around matrices (`C108_dangling_violated`, `C108_diagonal_violated`) and
diagonal adapters around other adapters (`C108_nested_violated`). -/
theorem C108_read_partial [Zero 𝕜] (N : Numbers 𝕜) (m : ℕ → ℕ → 𝕜) {t : Tower} (hv : t.Valid) (hs : t.Simple)
    (hok : N.complex = false ∨ t.someHermitian = false ∨ t.base.lvalue = false) {i j : ℕ} (hi : i < t.rows) (hj : j < t.cols) :
    t.coeff N m i j = .value (t.elem N m i j) := coeff_eq N m hv hs hok hi hj

/-- C108: where Eigen may read by a single index, it reads the element at that place.  What is missing: complex Hermitian adapters; see `C108_linear_violated`. -/
theorem C108_linear_partial [Zero 𝕜] (N : Numbers 𝕜) (m : ℕ → ℕ → 𝕜) {t : Tower} (hv : t.Valid) (hl : t.evalLinear = true)
    (hok : N.complex = false ∨ t.someHermitian = false) {i : ℕ} (hi : i < t.rows * t.cols) :
    t.coeffAt m i = .value (t.elem N m (t.base.position i).1 (t.base.position i).2) := by
  obtain h | ⟨l, rfl⟩ := one_of_evalLinear hl
  · obtain ⟨h1, h2, h3, h4⟩ := one_size hv h
    rw [h1, h2] at hi
    obtain rfl : i = 0 := by omega
    rw [show t.base.position 0 = (0, 0) by simp [Leaf.position]]
    exact coeffAt_one N m hok hv h
  · rfl

/-- Integers. -/
def integers : Numbers ℤ := ⟨false, id, id, fun _ _ => ⟨rfl, rfl⟩⟩

/-- Gaussian integers, as pairs. -/
def gaussian : Numbers (ℤ × ℤ) := ⟨true, fun x => (x.1, -x.2), fun x => (x.1, 0), fun h => by cases h⟩

/-- A matrix of three rows and three columns. -/
def mat3 : Leaf := ⟨true, true, false, false, 3, 3⟩

/-- The lower triangle of a symmetric matrix given by its upper triangle. -/
example : (Tower.triangular .lower (.hermitian true (.leaf mat3))).Valid ∧ (Tower.triangular .lower (.hermitian true (.leaf mat3))).Simple ∧
    (Tower.triangular .lower (.hermitian true (.leaf mat3))).coeff integers (fun i j => 10 * i + j) 2 1 = .value 12 ∧
    (Tower.triangular .lower (.hermitian true (.leaf mat3))).coeff integers (fun i j => 10 * i + j) 1 2 = .value 0 := by
  refine ⟨⟨by simp [Tower.Valid, mat3], rfl⟩, trivial, by decide, by decide⟩

/-- Complex expressions: the conjugate is read, and the real part on the diagonal. -/
example : (Tower.hermitian true (.leaf { mat3 with lvalue := false })).coeff gaussian (fun i j => (i, j)) 2 1 = .value (1, -2) ∧
    (Tower.hermitian true (.leaf { mat3 with lvalue := false })).coeff gaussian (fun i j => (i, j)) 2 2 = .value (2, 0) := by
  exact ⟨by decide, by decide⟩

/-- C108: below the diagonal of a complex Hermitian adapter around a matrix, a reference to a temporary is returned. -/
theorem C108_dangling_violated : (Tower.hermitian true (.leaf mat3)).Valid ∧
    ∀ m, (Tower.hermitian true (.leaf mat3)).coeff gaussian m 1 0 = .dangling :=
  ⟨⟨by simp [Tower.Valid, mat3], rfl⟩, fun _ => rfl⟩

/-- C108: on the diagonal of a complex Hermitian adapter around a matrix, the imaginary part is read too. -/
theorem C108_diagonal_violated : (Tower.hermitian true (.leaf mat3)).coeff gaussian (fun _ _ => (1, 5)) 0 0 = .value (1, 5) ∧
    (Tower.hermitian true (.leaf mat3)).elem gaussian (fun _ _ => (1, 5)) 0 0 = (1, 0) := ⟨by decide, by decide⟩

/-- C108: the element of a one-by-one complex Hermitian adapter, read by a single index, has its imaginary part. -/
theorem C108_linear_violated : ∃ t : Tower, t.Valid ∧ t.base.lvalue = false ∧ t.evalLinear = true ∧
    t.coeffAt (fun _ _ => ((1, 5) : ℤ × ℤ)) 0 = .value (1, 5) ∧ t.elem gaussian (fun _ _ => (1, 5)) 0 0 = (1, 0) :=
  ⟨.hermitian true (.leaf ⟨false, true, false, true, 1, 1⟩), ⟨by simp [Tower.Valid], rfl⟩, rfl, rfl, by decide, by decide⟩

/-- C108: a diagonal adapter around a triangular adapter that is one-by-one, but not known to be so at compile time, cannot be read. -/
theorem C108_nested_violated : ∃ t : Tower, t.Valid ∧ t.rows = 1 ∧ t.cols = 1 ∧ ∀ m, t.coeff integers m 0 0 = .illFormed :=
  ⟨.diagonal (.triangular .lower (.leaf ⟨true, true, false, false, 1, 1⟩)), ⟨by simp [Tower.Valid], rfl⟩, rfl, rfl, fun _ => rfl⟩

/-- C109: after an element is written through Eigen, it has the new value if it is stored at all; nothing happens if it is always zero; and no
other element changes, except that the one in the mirrored place may take the new value. -/
theorem C109_write [Zero 𝕜] (N : Numbers 𝕜) (m m' : ℕ → ℕ → 𝕜) {t : Tower} (hv : t.Valid) (hs : t.Simple) {i j : ℕ} (hi : i < t.rows) (hj : j < t.cols)
    {x : 𝕜} (h : t.write N m i j x = some m') :
    (t.Stored N i j → t.elem N m' i j = x) ∧
    (¬ t.Stored N i j → ∀ k l, k < t.rows → l < t.cols → t.elem N m' k l = t.elem N m k l) ∧
    (∀ k l, k < t.rows → l < t.cols → ¬ (k = i ∧ l = j) →
      t.elem N m' k l = t.elem N m k l ∨ (k = j ∧ l = i ∧ t.elem N m' k l = x)) := by
  have hne : ∀ k l, t.ref N k l ≠ .illFormed := by
    intro k l hk
    have : t.ref N i j = .illFormed := (ref_illFormed hs).mpr ((ref_illFormed hs).mp hk)
    simp [Tower.write, this] at h
  have he : ∀ m k l, k < t.rows → l < t.cols → t.elem N m k l = (t.ref N k l).read m := fun m k l hk hl => elem_ref m hv hs hk hl (hne k l)
  unfold Tower.write at h
  cases hr : t.ref N i j with
  | illFormed => exact absurd hr (hne i j)
  | dummy =>
    rw [hr] at h
    obtain rfl : m = m' := by simpa using h
    refine ⟨?_, fun _ _ _ _ _ => rfl, fun _ _ _ _ _ => .inl rfl⟩
    rintro ⟨m₀, h0⟩
    rw [he _ _ _ hi hj, hr] at h0
    exact absurd rfl h0
  | element p q =>
    rw [hr] at h
    simp only [Option.some.injEq] at h
    refine ⟨?_, ?_, ?_⟩
    · intro _
      rw [he _ _ _ hi hj, hr, ← h]
      simp [Ref.read]
    · intro hns k l hk hl
      have hz : ∀ y : 𝕜, y = 0 := by
        intro y
        by_contra hy
        exact hns ⟨fun _ _ => y, by rw [he _ _ _ hi hj, hr]; exact hy⟩
      rw [hz (t.elem N m' k l), hz (t.elem N m k l)]
    · intro k l hk hl hkl
      rw [he _ _ _ hk hl, he _ _ _ hk hl]
      cases hr' : t.ref N k l with
      | illFormed => exact .inl rfl
      | dummy => exact .inl rfl
      | element p' q' =>
        rw [← h]
        by_cases hpq : p' = p ∧ q' = q
        · obtain ⟨rfl, rfl⟩ := hpq
          right
          obtain hx | hx := ref_inj hv hs hi hj hk hl hr hr'
          · exact absurd hx hkl
          · exact ⟨hx.1, hx.2, by simp [Ref.read]⟩
        · left
          simp [Ref.read, hpq]

/-- C109: elements can be written if and only if the elements of the matrix inside can, and no adapter is Hermitian with complex numbers. -/
theorem C109_writable (N : Numbers 𝕜) (m : ℕ → ℕ → 𝕜) {t : Tower} (hs : t.Simple) (i j : ℕ) (x : 𝕜) :
    (t.write N m i j x).isSome = true ↔ t.base.lvalue = true ∧ (N.complex = true → t.someHermitian = false) := by
  rw [← not_iff_not, ← ref_illFormed hs (i := i) (j := j)]
  unfold Tower.write
  cases t.ref N i j <;> simp

/-- Writing below the diagonal of a symmetric adapter that stores the upper triangle changes the element above. -/
example : (Tower.hermitian true (.leaf mat3)).Stored integers 2 0 ∧ ∃ m', (Tower.hermitian true (.leaf mat3)).write integers (fun i j => 10 * i + j) 2 0 7 = some m' ∧
    (Tower.hermitian true (.leaf mat3)).elem integers m' 2 0 = 7 ∧ (Tower.hermitian true (.leaf mat3)).elem integers m' 0 2 = 7 ∧ m' 2 0 = 20 :=
  ⟨⟨fun _ _ => 1, by decide⟩, _, rfl, by decide, by decide, by decide⟩

/-- Writing off the diagonal of a diagonal adapter changes nothing. -/
example : ¬ (Tower.diagonal (.leaf ⟨true, true, false, false, 3, 1⟩)).Stored integers 2 0 ∧
    ∃ m', (Tower.diagonal (.leaf ⟨true, true, false, false, 3, 1⟩)).write integers (fun i j => 10 * i + j) 2 0 7 = some m' ∧ m' 2 0 = 20 :=
  ⟨fun ⟨m, h⟩ => h (by simp [Tower.elem]), _, rfl, by decide⟩

end OpenKalman.Evaluators
