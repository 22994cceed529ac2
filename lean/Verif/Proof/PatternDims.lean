import Verif.Spec.PatternDims
import Verif.Model.PatternDims
import Verif.Proof.Shape

/-!
# Lemmas for the dimensions in a pattern collection
-/

namespace OpenKalman.PatternDims

open Shape

/-- A collection is one of its type. -/
structure Valid (c : Coll) : Prop where
  fixedLen : ∀ n, c.type.size = .fixed n → c.dims.len = some n
  dynLen : c.type.size = .dynamic → c.dims.len ≠ none
  unbounded : c.type.size = .unbounded → c.dims.len = none
  elem : ∀ n, c.type.size = .fixed n → ∀ i < n, ∀ f, c.type.elem i = some f → c.dims.dim i = f
  common : ∀ f, c.type.fixedCommon = some f → ∀ i, c.dims.Has i → c.dims.dim i = f

/-- The elements of a type of compile-time size with a fixed common dimension have that dimension. -/
def Coherent (t : CollType) : Prop := ∀ n f, t.size = .fixed n → t.fixedCommon = some f → ∀ i < n, t.elem i = some f

theorem compareImpl_iff (r : Rel) (c : Dims) (d : Nat) : ∀ k i,
    compareImpl r.test c d i k = true ↔ ∀ j, i ≤ j → j < i + k → r.holds (c.padded j) d
  | 0, i => by simp only [compareImpl, true_iff]; intro j h1 h2; omega
  | k + 1, i => by
    simp only [compareImpl, Bool.and_eq_true, cmpNat_natCmp, test_natCmp, compareImpl_iff r c d k (i + 1)]
    constructor
    · rintro ⟨h1, h2⟩ j hj hj2
      rcases Nat.eq_or_lt_of_le hj with e | e
      · subst e; exact h1
      · exact h2 j e (by omega)
    · intro h; exact ⟨h i (le_refl _) (by omega), fun j h1 h2 => h j (by omega) (by omega)⟩

theorem compareLoop_eq (comp : POrd → Bool) (c : Dims) (d : Nat) : ∀ k i, compareLoop comp c d i k = compareImpl comp c d i k
  | 0, _ => rfl
  | k + 1, i => by
    simp only [compareLoop, compareImpl, compareLoop_eq comp c d k]
    cases comp (Collections.cmpNat (c.padded i) d) <;> simp

theorem commonLoop_iff (c : Dims) (d : Nat) : ∀ k i,
    (commonLoop c d i k = some d ∧ ∀ j, i ≤ j → j < i + k → c.padded j = d) ∨
    (commonLoop c d i k = none ∧ ∃ j, i ≤ j ∧ j < i + k ∧ c.padded j ≠ d)
  | 0, i => .inl ⟨rfl, fun j h1 h2 => by omega⟩
  | k + 1, i => by
    unfold commonLoop
    by_cases h : c.padded i = d
    · rw [if_neg (not_not.2 h)]
      rcases commonLoop_iff c d k (i + 1) with ⟨h1, h2⟩ | ⟨h1, j, h2, h3, h4⟩
      · refine .inl ⟨h1, fun j hj hj2 => ?_⟩
        rcases Nat.eq_or_lt_of_le hj with e | e
        · subst e; exact h
        · exact h2 j e (by omega)
      · exact .inr ⟨h1, j, by omega, by omega, h4⟩
    · rw [if_pos h]
      exact .inr ⟨rfl, i, le_refl _, by omega, h⟩

theorem commonImpl_iff (c : Dims) : ∀ k i,
    (commonImpl c i k = some (c.padded i) ∧ ∀ j, i ≤ j → j ≤ i + k → c.padded j = c.padded i) ∨
    (commonImpl c i k = none ∧ ∃ j, i ≤ j ∧ j ≤ i + k ∧ c.padded j ≠ c.padded i)
  | 0, i => .inl ⟨rfl, fun j h1 h2 => by have : j = i := by omega
                                         rw [this]⟩
  | k + 1, i => by
    unfold commonImpl
    rcases commonImpl_iff c k (i + 1) with ⟨h1, h2⟩ | ⟨h1, j, h2, h3, h4⟩
    · rw [h1]
      simp only
      by_cases h : c.padded (i + 1) = c.padded i
      · rw [if_pos h]
        refine .inl ⟨rfl, fun j hj hj2 => ?_⟩
        rcases Nat.eq_or_lt_of_le hj with e | e
        · subst e; rfl
        · rw [h2 j e (by omega), h]
      · rw [if_neg h]
        exact .inr ⟨rfl, i + 1, by omega, by omega, h⟩
    · rw [h1]
      refine .inr ⟨rfl, ?_⟩
      by_cases h : c.padded (i + 1) = c.padded i
      · exact ⟨j, by omega, by omega, by rw [← h]; exact h4⟩
      · exact ⟨i + 1, by omega, by omega, h⟩

theorem isLteq_test : POrd.isLteq = Rel.test .lteq := by
  funext o; cases o <;> rfl

theorem has_of_len {c : Dims} {n : Nat} (h : c.len = some n) (i : Nat) : c.Has i ↔ i < n :=
  ⟨fun hh => hh n h, fun hi m hm => by rw [h] at hm; cases hm; exact hi⟩

theorem has_of_none {c : Dims} (h : c.len = none) (i : Nat) : c.Has i := fun n hn => by rw [h] at hn; cases hn

theorem common_padded {c : Coll} (hv : Valid c) {f : Nat} (hf : c.type.fixedCommon = some f) {i : Nat} (hi : c.dims.Has i) : c.dims.padded i = f := by
  unfold Dims.padded; rw [if_pos hi]; exact hv.common f hf i hi

/-- The element at `i` has its fixed dimension. -/
theorem elemFixed_padded {c : Coll} (hv : Valid c) {n : Nat} (hs : c.type.size = .fixed n) {i f : Nat} (h : c.type.elemFixed n i = some f) :
    c.dims.padded i = f := by
  unfold CollType.elemFixed at h
  unfold Dims.padded
  have hl := hv.fixedLen n hs
  by_cases hi : i < n
  · rw [if_pos hi] at h
    rw [if_pos ((has_of_len hl i).2 hi)]
    exact hv.elem n hs i hi f h
  · rw [if_neg hi] at h
    rw [if_neg (fun hh => hi ((has_of_len hl i).1 hh))]
    simpa using h

/-- A collection of a type of compile-time size whose unknown dimensions are chosen by `g`. -/
def choose (t : CollType) (n : Nat) (g : Nat → Nat) : Coll := ⟨t, ⟨some n, fun i => (t.elem i).getD (g i)⟩⟩

theorem choose_valid {t : CollType} {n : Nat} (hs : t.size = .fixed n) (hc : Coherent t) (g : Nat → Nat) : Valid (choose t n g) := by
  refine ⟨fun m hm => ?_, fun h => ?_, fun h => ?_, fun m hm i hi f hf => ?_, fun f hf i hi => ?_⟩
  · have hm' : t.size = .fixed m := hm
    rw [hs] at hm'; cases hm'; rfl
  · have h' : t.size = .dynamic := h
    rw [hs] at h'; cases h'
  · have h' : t.size = .unbounded := h
    rw [hs] at h'; cases h'
  · have hf' : t.elem i = some f := hf
    simp [choose, hf']
  · have hf' : t.fixedCommon = some f := hf
    have hi' : i < n := (has_of_len rfl i).1 hi
    simp [choose, hc n f hs hf' i hi']

theorem choose_padded (t : CollType) (n : Nat) (g : Nat → Nat) (i : Nat) : (choose t n g).dims.padded i = (t.elemFixed n i).getD (g i) := by
  unfold Dims.padded CollType.elemFixed
  by_cases hi : i < n
  · rw [if_pos ((has_of_len rfl i).2 hi), if_pos hi]; rfl
  · rw [if_neg (fun hh => hi ((has_of_len (c := (choose t n g).dims) rfl i).1 hh)), if_neg hi]; rfl

theorem among_fixed {c : Coll} (hv : Valid c) {n : Nat} (hs : c.type.size = .fixed n) (N : Option Nat) (i : Nat) :
    c.dims.Among N i ↔ i < N.getD n := by
  cases N with
  | some k => rfl
  | none => exact has_of_len (hv.fixedLen n hs) i

theorem bestDim_spec (t : CollType) (n : Nat) : ∀ k i,
    (∃ j, i ≤ j ∧ j < i + k ∧ t.elemFixed n j = bestDim t n i k ∧ bestDim t n i k ≠ none) ∨
    (bestDim t n i k = none ∧ ∀ j, i ≤ j → j < i + k → t.elemFixed n j = none)
  | 0, i => .inr ⟨rfl, fun j h1 h2 => by omega⟩
  | k + 1, i => by
    unfold bestDim
    cases h : t.elemFixed n i with
    | some f => exact .inl ⟨i, le_refl _, by omega, by simp [h], by simp⟩
    | none =>
      simp only
      rcases bestDim_spec t n k (i + 1) with ⟨j, h1, h2, h3, h4⟩ | ⟨h1, h2⟩
      · exact .inl ⟨j, by omega, by omega, h3, h4⟩
      · refine .inr ⟨h1, fun j hj hj2 => ?_⟩
        rcases Nat.eq_or_lt_of_le hj with e | e
        · subst e; exact h
        · exact h2 j e (by omega)

theorem scw_eq_guaranteed (a b : Option Nat) : sizeComparesWith POrd.isEq true (Size.ofOption a) (Size.ofOption b) = true ↔ a ≠ none ∧ a = b := by
  have hand : ∀ o : POrd, doComps POrd.isEq true [o, .equivalent] = POrd.isEq o := by intro o; cases o <;> rfl
  cases a with
  | none =>
    cases b with
    | none => simp [Size.ofOption, sizeComparesWith]
    | some m => simp [Size.ofOption, sizeComparesWith, hand, POrd.isEq]
  | some n =>
    cases b with
    | none => simp [Size.ofOption, sizeComparesWith, hand, POrd.isEq]
    | some m => simp only [Size.ofOption, sizeComparesWith, isEq_test, cmpNat_natCmp, test_natCmp, Rel.holds]; simp

theorem scw_eq_permitted (a b : Option Nat) : sizeComparesWith POrd.isEq false (Size.ofOption a) (Size.ofOption b) = true ↔ a = none ∨ b = none ∨ a = b := by
  have hor : ∀ o : POrd, doComps POrd.isEq false [o, .equivalent] = true := by intro o; cases o <;> rfl
  cases a with
  | none =>
    cases b with
    | none => simp [Size.ofOption, sizeComparesWith]
    | some m => simp [Size.ofOption, sizeComparesWith, hor]
  | some n =>
    cases b with
    | none => simp [Size.ofOption, sizeComparesWith, hor]
    | some m => simp only [Size.ofOption, sizeComparesWith, isEq_test, cmpNat_natCmp, test_natCmp, Rel.holds]; simp

/-- All of the first `k` elements have a fixed dimension, and it is the same. -/
theorem same_guaranteed_iff {t : CollType} {n : Nat} (hs : t.size = .fixed n) (hc : Coherent t) (k : Nat) (hk : k ≠ 1) (N : Option Nat) (hN : N.getD n = k) :
    ((List.range k).all fun i => sizeComparesWith POrd.isEq true (Size.ofOption (t.elemFixed n i)) (Size.ofOption (bestDim t n 0 k))) = true ↔
      ∀ c, Valid c → c.type = t → AllSame N c.dims := by
  simp only [List.all_eq_true, List.mem_range, scw_eq_guaranteed]
  constructor
  · intro h c hv hct
    subst hct
    by_cases h0 : k = 0
    · refine ⟨0, fun i hi => ?_⟩
      rw [among_fixed hv hs, hN] at hi; omega
    · obtain ⟨f, hf⟩ := Option.ne_none_iff_exists'.1 (h 0 (by omega)).1
      have hb : bestDim c.type n 0 k = some f := by rw [← (h 0 (by omega)).2, hf]
      refine ⟨f, fun i hi => ?_⟩
      rw [among_fixed hv hs, hN] at hi
      exact elemFixed_padded hv hs ((h i hi).2.trans hb)
  · intro h i hi
    have hk2 : 2 ≤ k := by omega
    have hall : ∀ j, j < k → t.elemFixed n j ≠ none := by
      intro j hj hn
      -- two collections that differ only at `j`
      have h1 := h _ (choose_valid hs hc (fun _ => 0)) rfl
      have h2 := h _ (choose_valid hs hc (fun i => if i = j then 1 else 0)) rfl
      obtain ⟨d1, h1⟩ := h1
      obtain ⟨d2, h2⟩ := h2
      have am : ∀ g i, i < k → (choose t n g).dims.Among N i := fun g i hi => by
        rw [among_fixed (choose_valid hs hc g) hs, hN]; exact hi
      obtain ⟨l, hl, hlj⟩ : ∃ l < k, l ≠ j := by
        by_cases hj0 : j = 0
        · exact ⟨1, by omega, by omega⟩
        · exact ⟨0, by omega, fun e => hj0 e.symm⟩
      have a1 := h1 j (am _ j hj)
      have a2 := h1 l (am _ l hl)
      have b1 := h2 j (am _ j hj)
      have b2 := h2 l (am _ l hl)
      rw [choose_padded] at a1 a2 b1 b2
      rw [hn] at a1 b1
      simp only [Option.getD_none, if_true] at a1 b1
      cases he : t.elemFixed n l with
      | none => rw [he] at a2 b2; simp [hlj] at a2 b2; omega
      | some f => rw [he] at a2 b2; simp at a2 b2; omega
    refine ⟨hall i hi, ?_⟩
    rcases bestDim_spec t n k 0 with ⟨j, -, hj, h3, h4⟩ | ⟨-, h2⟩
    · rw [← h3]
      obtain ⟨d, hd⟩ := h _ (choose_valid hs hc (fun _ => 0)) rfl
      have am : ∀ i, i < k → (choose t n fun _ => 0).dims.Among N i := fun i hi => by
        rw [among_fixed (choose_valid hs hc _) hs, hN]; exact hi
      have a1 := hd i (am i hi)
      have a2 := hd j (am j (by omega))
      rw [choose_padded] at a1 a2
      obtain ⟨x, hx⟩ := Option.ne_none_iff_exists'.1 (hall i hi)
      obtain ⟨y, hy⟩ := Option.ne_none_iff_exists'.1 (hall j (by omega))
      rw [hx] at a1
      rw [hy] at a2
      simp only [Option.getD_some] at a1 a2
      rw [hx, hy, a1, a2]
    · exact absurd (h2 i (Nat.zero_le _) (by omega)) (hall i hi)

theorem same_permitted_iff {t : CollType} {n : Nat} (hs : t.size = .fixed n) (hc : Coherent t) (k : Nat) (N : Option Nat) (hN : N.getD n = k) :
    ((List.range k).all fun i => sizeComparesWith POrd.isEq false (Size.ofOption (t.elemFixed n i)) (Size.ofOption (bestDim t n 0 k))) = true ↔
      ∃ c, Valid c ∧ c.type = t ∧ AllSame N c.dims := by
  simp only [List.all_eq_true, List.mem_range, scw_eq_permitted]
  constructor
  · intro h
    refine ⟨choose t n fun _ => (bestDim t n 0 k).getD 0, choose_valid hs hc _, rfl, (bestDim t n 0 k).getD 0, fun i hi => ?_⟩
    rw [among_fixed (choose_valid hs hc _) hs, hN] at hi
    rw [choose_padded]
    rcases h i hi with e | e | e
    · rw [e]; rfl
    · rcases bestDim_spec t n k 0 with ⟨j, -, -, -, h4⟩ | ⟨-, h2⟩
      · exact absurd e h4
      · rw [h2 i (Nat.zero_le _) (by omega)]; rfl
    · rw [e]; cases bestDim t n 0 k <;> rfl
  · rintro ⟨c, hv, rfl, d, hd⟩ i hi
    cases hx : c.type.elemFixed n i with
    | none => exact .inl rfl
    | some x =>
      right
      rcases bestDim_spec c.type n k 0 with ⟨j, -, hj, h3, h4⟩ | ⟨h1, -⟩
      · right
        obtain ⟨y, hy⟩ := Option.ne_none_iff_exists'.1 h4
        have e1 := hd i ((among_fixed hv hs N i).2 (by omega))
        have e2 := hd j ((among_fixed hv hs N j).2 (by omega))
        rw [elemFixed_padded hv hs hx] at e1
        rw [elemFixed_padded hv hs (h3.trans hy)] at e2
        rw [hy, e1, e2]
      · exact .inl h1

end OpenKalman.PatternDims
