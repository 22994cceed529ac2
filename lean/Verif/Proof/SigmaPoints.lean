import Verif.Model.SigmaPoints
import Mathlib.Data.List.GetD
import Mathlib.Algebra.BigOperators.Intervals

/-! # Lemmas about the sample points -/

namespace OpenKalman.SigmaPoints
open Matrix Kalman
open scoped ComplexOrder

variable {𝕜 : Type} [RCLike 𝕜]

/-- The points of a distribution, whose frame begins at column `s`. -/
def bump {k : ℕ} (s : ℕ) (delta : Matrix (Fin k) (Fin k) 𝕜) (a : Fin k) (c : ℕ) : 𝕜 :=
  if h : s ≤ c ∧ c < s + k then delta a ⟨c - s, by omega⟩
  else if h : s + k ≤ c ∧ c < s + k + k then -delta a ⟨c - s - k, by omega⟩ else 0

theorem elem_bump {k : ℕ} (s w : ℕ) (delta : Matrix (Fin k) (Fin k) 𝕜) (a : Fin k) (c : ℕ) :
    elem delta a c [.zero s, .plus, .minus, .zero w] = bump s delta a c := by
  show (if c < s then (0 : 𝕜) else if c - s < k then (if h : c - s < k then delta a ⟨c - s, h⟩ else 0) else
    if c - s - k < k then (if h : c - s - k < k then -delta a ⟨c - s - k, h⟩ else 0) else if c - s - k - k < w then 0 else 0) = _
  unfold bump
  split_ifs <;> first | rfl | omega

theorem elem_bump' {k : ℕ} (s : ℕ) (delta : Matrix (Fin k) (Fin k) 𝕜) (a : Fin k) (c : ℕ) :
    elem delta a c [.zero s, .plus, .minus] = bump s delta a c := by
  rw [← elem_bump s 0]
  simp only [elem, Piece.width]
  split_ifs <;> rfl

theorem elem_bump0 {k : ℕ} (w : ℕ) (delta : Matrix (Fin k) (Fin k) 𝕜) (a : Fin k) (c : ℕ) :
    elem delta a c [.plus, .minus, .zero w] = bump 0 delta a c := by
  rw [← elem_bump 0 w]
  simp [elem, Piece.width]
  rfl

theorem elem_bump0' {k : ℕ} (delta : Matrix (Fin k) (Fin k) 𝕜) (a : Fin k) (c : ℕ) :
    elem delta a c [.plus, .minus] = bump 0 delta a c := by
  rw [← elem_bump' 0]
  simp [elem, Piece.width]
  rfl

/-- The layout puts the frames of the distributions one after the other, from column `s`. -/
def Frames (s : ℕ) (ks : List ℕ) (L : List (List Piece)) : Prop :=
  ∀ (i k : ℕ), ks[i]? = some k → ∀ {𝕜 : Type} [RCLike 𝕜] (delta : Matrix (Fin k) (Fin k) 𝕜) (a : Fin k) (c : ℕ),
    elem delta a c (L.getD i []) = bump (s + 2 * (ks.take i).sum) delta a c

theorem Frames.cons {s k : ℕ} {ks : List ℕ} {L : List (List Piece)} {ps : List Piece} (h : Frames (s + 2 * k) ks L)
    (hp : ∀ {𝕜 : Type} [RCLike 𝕜] (delta : Matrix (Fin k) (Fin k) 𝕜) (a : Fin k) (c : ℕ), elem delta a c ps = bump s delta a c) :
    Frames s (k :: ks) (ps :: L) := by
  intro i k' hi
  cases i with
  | zero =>
    simp only [List.getElem?_cons_zero, Option.some.injEq] at hi
    subst hi
    intro 𝕜 _ delta a c
    simpa using hp delta a c
  | succ i =>
    intro 𝕜 _ delta a c
    have := h i k' (by simpa using hi) delta a c
    rw [List.getD_cons_succ, this, List.take_succ_cons, List.sum_cons]
    congr 1
    ring

theorem Frames.nil {s : ℕ} {L : List (List Piece)} : Frames s [] L := by
  intro i k' hi
  simp at hi

theorem sum_pos_of {ks : List ℕ} (hk : ∀ k ∈ ks, 0 < k) (hne : ks ≠ []) : 0 < ks.sum := by
  cases ks with
  | nil => exact absurd rfl hne
  | cons k ks =>
    have := hk k (by simp)
    simp only [List.sum_cons]
    omega

theorem cubature_tail (dim : ℕ) : ∀ (ks : List ℕ) (pos : ℕ), 0 < pos → ks ≠ [] → (∀ k ∈ ks, 0 < k) → pos + 2 * ks.sum = dim * 2 →
    ∃ L, cubatureLayout dim pos ks = some L ∧ Frames pos ks L := by
  intro ks
  induction ks with
  | nil => intro pos _ h; exact absurd rfl h
  | cons k ks ih =>
    intro pos hpos _ hk hs
    simp only [List.sum_cons] at hs
    unfold cubatureLayout
    simp only
    rw [if_neg (by omega), if_neg (by omega)]
    by_cases hks : ks = []
    · subst hks
      simp only [List.sum_nil] at hs
      rw [if_neg (by omega), if_pos rfl]
      exact ⟨_, rfl, Frames.cons Frames.nil (fun delta a c => elem_bump' pos delta a c)⟩
    · have := sum_pos_of (fun k hk' => hk k (by simp [hk'])) hks
      rw [if_pos (by omega)]
      obtain ⟨L, hL, hF⟩ := ih (pos + k * 2) (by omega) hks (fun k hk' => hk k (by simp [hk'])) (by omega)
      refine ⟨_, by rw [hL]; rfl, Frames.cons ?_ (fun delta a c => elem_bump pos _ delta a c)⟩
      rwa [mul_comm 2 k]

theorem cubature_frames (dim : ℕ) (ks : List ℕ) (hne : ks ≠ []) (hk : ∀ k ∈ ks, 0 < k) (hs : ks.sum = dim) :
    ∃ L, cubatureLayout dim 0 ks = some L ∧ Frames 0 ks L := by
  cases ks with
  | nil => exact absurd rfl hne
  | cons k ks =>
    have hk0 := hk k (by simp)
    simp only [List.sum_cons] at hs
    unfold cubatureLayout
    simp only
    by_cases hks : ks = []
    · subst hks
      simp only [List.sum_nil] at hs
      rw [if_pos (by omega), if_pos rfl]
      exact ⟨_, rfl, Frames.cons Frames.nil (fun delta a c => elem_bump0' delta a c)⟩
    · have := sum_pos_of (fun k hk' => hk k (by simp [hk'])) hks
      rw [if_neg (by omega), if_pos trivial]
      obtain ⟨L, hL, hF⟩ := cubature_tail dim ks (k * 2) (by omega) hks (fun k hk' => hk k (by simp [hk'])) (by omega)
      refine ⟨_, by rw [hL]; rfl, Frames.cons ?_ (fun delta a c => elem_bump0 _ delta a c)⟩
      rwa [mul_comm 2 k, zero_add]

theorem unscented_tail (dim : ℕ) : ∀ (ks : List ℕ) (pos : ℕ), 1 < pos → ks ≠ [] → (∀ k ∈ ks, 0 < k) → pos + 2 * ks.sum = dim * 2 + 1 →
    ∃ L, unscentedLayout dim pos ks = some L ∧ Frames pos ks L := by
  intro ks
  induction ks with
  | nil => intro pos _ h; exact absurd rfl h
  | cons k ks ih =>
    intro pos hpos _ hk hs
    simp only [List.sum_cons] at hs
    unfold unscentedLayout
    simp only
    rw [if_neg (by omega), if_neg (by omega)]
    by_cases hks : ks = []
    · subst hks
      simp only [List.sum_nil] at hs
      rw [if_neg (by omega), if_pos rfl]
      exact ⟨_, rfl, Frames.cons Frames.nil (fun delta a c => elem_bump' pos delta a c)⟩
    · have := sum_pos_of (fun k hk' => hk k (by simp [hk'])) hks
      rw [if_pos (by omega)]
      obtain ⟨L, hL, hF⟩ := ih (pos + k * 2) (by omega) hks (fun k hk' => hk k (by simp [hk'])) (by omega)
      refine ⟨_, by rw [hL]; rfl, Frames.cons ?_ (fun delta a c => elem_bump pos _ delta a c)⟩
      rwa [mul_comm 2 k]

theorem unscented_frames (dim : ℕ) (ks : List ℕ) (hne : ks ≠ []) (hk : ∀ k ∈ ks, 0 < k) (hs : ks.sum = dim) :
    ∃ L, unscentedLayout dim 0 ks = some L ∧ Frames 1 ks L := by
  cases ks with
  | nil => exact absurd rfl hne
  | cons k ks =>
    have hk0 := hk k (by simp)
    simp only [List.sum_cons] at hs
    unfold unscentedLayout
    simp only
    by_cases hks : ks = []
    · subst hks
      simp only [List.sum_nil] at hs
      rw [if_pos (by omega), if_pos rfl]
      exact ⟨_, rfl, Frames.cons Frames.nil (fun delta a c => elem_bump' 1 delta a c)⟩
    · have := sum_pos_of (fun k hk' => hk k (by simp [hk'])) hks
      rw [if_neg (by omega), if_pos trivial]
      obtain ⟨L, hL, hF⟩ := unscented_tail dim ks (1 + k * 2) (by omega) hks (fun k hk' => hk k (by simp [hk'])) (by omega)
      refine ⟨_, by rw [hL]; rfl, Frames.cons ?_ (fun delta a c => elem_bump 1 _ delta a c)⟩
      rwa [mul_comm 2 k]

/-! ## Sums over the points -/

/-- A sum whose terms vanish outside a frame. -/
theorem sum_frame {M : Type} [AddCommMonoid M] (f : ℕ → M) (count s k : ℕ) (h : s + k + k ≤ count) (h0 : ∀ c, c < s ∨ s + k + k ≤ c → f c = 0) :
    ∑ c ∈ Finset.range count, f c = ∑ c ∈ Finset.range k, f (s + c) + ∑ c ∈ Finset.range k, f (s + k + c) := by
  have h1 : ∑ c ∈ Finset.range count, f c = ∑ c ∈ Finset.Ico s (s + k + k), f c := by
    symm
    refine Finset.sum_subset ?_ ?_
    · intro c hc
      simp only [Finset.mem_Ico, Finset.mem_range] at hc ⊢
      omega
    · intro c _ hc
      refine h0 c ?_
      simp only [Finset.mem_Ico] at hc
      omega
  rw [h1, ← Finset.sum_Ico_consecutive f (show s ≤ s + k by omega) (show s + k ≤ s + k + k by omega), Finset.sum_Ico_eq_sum_range,
    Finset.sum_Ico_eq_sum_range]
  simp only [Nat.add_sub_cancel_left]

theorem bump_plus {k : ℕ} (s : ℕ) (delta : Matrix (Fin k) (Fin k) 𝕜) (a : Fin k) (c : Fin k) : bump s delta a (s + c) = delta a c := by
  unfold bump
  rw [dif_pos (by omega)]
  congr 1
  exact Fin.ext (by simp)

theorem bump_minus {k : ℕ} (s : ℕ) (delta : Matrix (Fin k) (Fin k) 𝕜) (a : Fin k) (c : Fin k) : bump s delta a (s + k + c) = -delta a c := by
  unfold bump
  rw [dif_neg (by omega), dif_pos (by omega)]
  congr 2
  exact Fin.ext (by simp; omega)

theorem bump_out {k : ℕ} (s : ℕ) (delta : Matrix (Fin k) (Fin k) 𝕜) (a : Fin k) (c : ℕ) (h : c < s ∨ s + k + k ≤ c) : bump s delta a c = 0 := by
  unfold bump
  rw [dif_neg (by omega), dif_neg (by omega)]

/-- The weighted sum of the points of one distribution. -/
theorem bump_sum {k : ℕ} (count s : ℕ) (h : s + k + k ≤ count) (delta : Matrix (Fin k) (Fin k) 𝕜) (a : Fin k) (w : ℕ → 𝕜) (W : 𝕜)
    (hw : ∀ c, s ≤ c → w c = W) : ∑ c ∈ Finset.range count, bump s delta a c * w c = 0 := by
  rw [sum_frame _ count s k h (fun c hc => by rw [bump_out s delta a c hc, zero_mul]), Finset.sum_range, Finset.sum_range, ← Finset.sum_add_distrib]
  refine Finset.sum_eq_zero fun c _ => ?_
  rw [bump_plus, bump_minus, hw _ (by omega), hw _ (by omega)]
  ring

/-- The weighted second moment of the points of one distribution. -/
theorem bump_sq {k : ℕ} (count s : ℕ) (h : s + k + k ≤ count) (delta : Matrix (Fin k) (Fin k) 𝕜) (a a' : Fin k) (w : ℕ → 𝕜) (W : 𝕜)
    (hw : ∀ c, s ≤ c → w c = W) :
    ∑ c ∈ Finset.range count, bump s delta a c * w c * star (bump s delta a' c) = 2 * W * (delta * deltaᴴ) a a' := by
  rw [sum_frame _ count s k h (fun c hc => by rw [bump_out s delta a c hc, zero_mul, zero_mul]), Finset.sum_range, Finset.sum_range,
    ← Finset.sum_add_distrib, Matrix.mul_apply, Finset.mul_sum]
  refine Finset.sum_congr rfl fun c _ => ?_
  rw [bump_plus, bump_minus, bump_plus, bump_minus, hw _ (by omega), hw _ (by omega), star_neg, Matrix.conjTranspose_apply]
  ring

/-- Frames that do not overlap. -/
theorem bump_disjoint {k k' : ℕ} (s s' : ℕ) (h : s + k + k ≤ s') (delta : Matrix (Fin k) (Fin k) 𝕜) (delta' : Matrix (Fin k') (Fin k') 𝕜) (a : Fin k)
    (a' : Fin k') (c : ℕ) : bump s delta a c = 0 ∨ bump s' delta' a' c = 0 := by
  by_cases hc : c < s'
  · exact Or.inr (bump_out s' delta' a' c (Or.inl hc))
  · exact Or.inl (bump_out s delta a c (Or.inr (by omega)))

/-! ## Moments of the points -/

section moments
variable {b : ℕ} (k : Fin b → ℕ)

/-- Where the frame of a distribution begins. -/
def start (i : Fin b) : ℕ := ((List.ofFn k).take i).sum

theorem start_add (i : Fin b) : start k i + k i = ((List.ofFn k).take (i + 1)).sum := by
  unfold start
  rw [List.take_add_one, List.sum_append, List.getElem?_ofFn]
  simp

theorem start_lt {i j : Fin b} (h : i < j) : start k i + k i ≤ start k j := by
  rw [start_add]
  unfold start
  have h1 : (List.ofFn k).take (i + 1) = ((List.ofFn k).take j).take (i + 1) := by
    rw [List.take_take, Nat.min_eq_left]
    have := Fin.lt_def.mp h
    omega
  rw [h1]
  conv_rhs => rw [← List.take_append_drop (i + 1) ((List.ofFn k).take j), List.sum_append]
  omega

theorem start_le (i : Fin b) : start k i + k i ≤ ∑ i, k i := by
  rw [start_add, ← List.sum_ofFn]
  conv_rhs => rw [← List.take_append_drop (i + 1) (List.ofFn k), List.sum_append]
  omega

/-- A matrix of points consisting of frames from column `s`. -/
theorem points_moments (s count : ℕ) (hc : s + 2 * ∑ i, k i ≤ count) (L : List (List Piece)) (hF : Frames s (List.ofFn k) L)
    (delta : (i : Fin b) → Matrix (Fin (k i)) (Fin (k i)) 𝕜) (w : Fin count → 𝕜) (W : 𝕜) (hw : ∀ c : Fin count, s ≤ c → w c = W) :
    pointsOf k count L delta *ᵥ w = 0 ∧
      pointsOf k count L delta * diagonal w * (pointsOf k count L delta)ᴴ = blockDiagonal' fun i => (2 * W) • (delta i * (delta i)ᴴ) := by
  have hpt : ∀ (i : Fin b) (a : Fin (k i)) (c : Fin count), pointsOf k count L delta ⟨i, a⟩ c = bump (s + 2 * start k i) (delta i) a c := by
    intro i a c
    exact hF i (k i) (by rw [List.getElem?_ofFn]; simp) (delta i) a c
  let w' : ℕ → 𝕜 := fun c => if h : c < count then w ⟨c, h⟩ else W
  have hww : ∀ c : Fin count, w c = w' c := by
    intro c
    simp only [w']
    rw [dif_pos c.2]
  have hw' : ∀ c, s ≤ c → w' c = W := by
    intro c hc
    simp only [w']
    split_ifs with h
    · exact hw ⟨c, h⟩ hc
    · rfl
  have hle := start_le k
  constructor
  · funext ⟨i, a⟩
    simp only [Matrix.mulVec, dotProduct, Pi.zero_apply]
    rw [Finset.sum_congr rfl fun c _ => by rw [hpt, hww c], ← Finset.sum_range (fun c => bump (s + 2 * start k i) (delta i) a c * w' c)]
    refine bump_sum count _ ?_ _ _ w' W (fun c hc => hw' c (by omega))
    have := hle i
    omega
  · ext ⟨i, a⟩ ⟨j, a'⟩
    rw [Matrix.mul_apply]
    rw [Finset.sum_congr rfl fun c _ => by rw [Matrix.mul_diagonal, Matrix.conjTranspose_apply, hpt, hpt, hww c],
      ← Finset.sum_range (fun c => bump (s + 2 * start k i) (delta i) a c * w' c * star (bump (s + 2 * start k j) (delta j) a' c))]
    by_cases hij : i = j
    · subst hij
      rw [bump_sq count _ (by have := hle i; omega) _ _ _ w' W (fun c hc => hw' c (by omega)), blockDiagonal'_apply_eq, Matrix.smul_apply, smul_eq_mul]
    · rw [blockDiagonal'_apply_ne _ _ _ hij]
      refine Finset.sum_eq_zero fun c _ => ?_
      have key : bump (s + 2 * start k i) (delta i) a c = 0 ∨ bump (s + 2 * start k j) (delta j) a' c = 0 := by
        rcases lt_or_gt_of_ne hij with h | h
        · exact bump_disjoint _ _ (by have := start_lt k h; omega) _ _ _ _ _
        · exact (bump_disjoint _ _ (by have := start_lt k h; omega) _ _ _ _ _).symm
      rcases key with h | h
      · rw [h, zero_mul, zero_mul]
      · rw [h, star_zero, mul_zero]

end moments

end OpenKalman.SigmaPoints
