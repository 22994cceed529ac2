import Mathlib.Algebra.BigOperators.Intervals
import Mathlib.Order.Interval.Finset.Nat

/-!
# `for` loops

The counting loops of the bundled linear algebra library (`linalg-reference-implementation`), over any state.  An array is a function of its indices of
which only the part in range counts; a write is `Function.update`.
-/

namespace OpenKalman.Blas

/-- `for (i = lo; i < hi; ++i) body` -/
def loop {σ : Type*} (lo hi : ℕ) (body : ℕ → σ → σ) (s : σ) : σ := (List.range' lo (hi - lo)).foldl (fun s i => body i s) s

/-- `for (i = n - 1; i >= 0; --i) body` with a signed `i`; also `for (k = n; k > 0; --k)` with `k - 1` in the body. -/
def loopDown {σ : Type*} (n : ℕ) (body : ℕ → σ → σ) (s : σ) : σ := (List.range n).reverse.foldl (fun s i => body i s) s

variable {σ : Type*}

theorem loop_of_le {lo hi : ℕ} (h : hi ≤ lo) (body : ℕ → σ → σ) (s : σ) : loop lo hi body s = s := by
  simp [loop, Nat.sub_eq_zero_of_le h]

theorem loop_succ {lo hi : ℕ} (h : lo ≤ hi) (body : ℕ → σ → σ) (s : σ) : loop lo (hi + 1) body s = body hi (loop lo hi body s) := by
  unfold loop
  rw [show hi + 1 - lo = (hi - lo) + 1 by omega, List.range'_concat, List.foldl_append]
  simp [Nat.add_sub_cancel' h]

theorem loop_zero_succ (n : ℕ) (body : ℕ → σ → σ) (s : σ) : loop 0 (n + 1) body s = body n (loop 0 n body s) := loop_succ (Nat.zero_le _) body s

theorem loopDown_zero (body : ℕ → σ → σ) (s : σ) : loopDown 0 body s = s := rfl

theorem loopDown_succ (n : ℕ) (body : ℕ → σ → σ) (s : σ) : loopDown (n + 1) body s = loopDown n body (body n s) := by
  unfold loopDown
  rw [List.range_succ, List.reverse_append]
  rfl

/-- An invariant of an ascending loop. -/
theorem loop_invariant (P : ℕ → σ → Prop) {lo hi : ℕ} (hle : lo ≤ hi) (body : ℕ → σ → σ) (s : σ) (h0 : P lo s)
    (hs : ∀ i, lo ≤ i → i < hi → ∀ t, P i t → P (i + 1) (body i t)) : P hi (loop lo hi body s) := by
  induction hi with
  | zero =>
    have : lo = 0 := by omega
    subst this
    exact h0
  | succ n ih =>
    rcases Nat.lt_or_ge n lo with h | h
    · have : lo = n + 1 := by omega
      subst this
      rw [loop_of_le le_rfl]
      exact h0
    · rw [loop_succ h]
      exact hs n h (by omega) _ (ih h (fun i h1 h2 => hs i h1 (by omega)))

/-- An invariant of a descending loop: `P n` before, `P 0` after. -/
theorem loopDown_invariant (P : ℕ → σ → Prop) {n : ℕ} (body : ℕ → σ → σ) (s : σ) (h0 : P n s) (hs : ∀ i, i < n → ∀ t, P (i + 1) t → P i (body i t)) :
    P 0 (loopDown n body s) := by
  induction n generalizing s with
  | zero => exact h0
  | succ n ih =>
    rw [loopDown_succ]
    exact ih _ (hs n (by omega) s h0) (fun i hi => hs i (by omega))

/-- A loop each pass of which adds something that does not depend on the state, adds the sum. -/
theorem loop_add {ι M : Type*} [AddCommMonoid M] (c : ℕ → ι → M) {lo hi : ℕ} (body : ℕ → (ι → M) → ι → M)
    (h : ∀ i, lo ≤ i → i < hi → ∀ y p, body i y p = y p + c i p) (y : ι → M) (p : ι) : loop lo hi body y p = y p + ∑ i ∈ Finset.Ico lo hi, c i p := by
  induction hi with
  | zero => rw [loop_of_le (Nat.zero_le _)]; simp
  | succ n ih =>
    rcases Nat.lt_or_ge n lo with hlt | hge
    · rw [loop_of_le (by omega), Finset.Ico_eq_empty_of_le (by omega)]
      simp
    · rw [loop_succ hge, h n hge (by omega), ih (fun i h1 h2 => h i h1 (by omega)), Finset.sum_Ico_succ_top hge, add_assoc]

/-- A sum in a variable: `for (…) t += c(i)`. -/
theorem loop_sum {M : Type*} [AddCommMonoid M] (c : ℕ → M) (lo hi : ℕ) (t : M) : loop lo hi (fun i t => t + c i) t = t + ∑ i ∈ Finset.Ico lo hi, c i := by
  have := loop_add (ι := Unit) (fun i _ => c i) (lo := lo) (hi := hi) (fun i y p => y p + c i) (fun _ _ _ _ _ => rfl) (fun _ => t) ()
  rw [← this]
  have key : ∀ l : List ℕ, l.foldl (fun s i => s + c i) t = l.foldl (fun (s : Unit → M) i => fun p => s p + c i) (fun _ => t) () := by
    intro l
    induction l using List.reverseRecOn with
    | nil => rfl
    | append_singleton l a ih => simp only [List.foldl_append, List.foldl_cons, List.foldl_nil, ih]
  exact key _

end OpenKalman.Blas
