import Verif.Model.Makers
import Verif.Proof.Comma

/-! # Lemmas on objects made from lists of components -/

namespace OpenKalman.Makers

open Comma

variable {α : Type}

/-! ## Lists as tableaux of numbers -/

/-- Rows of numbers. -/
def rowsOf (L : List (List α)) : List (Row α) := L.map fun l => ⟨1, l.map Block.num⟩

theorem exists_chunks (c : ℕ) : ∀ (r : ℕ) (xs : List α), xs.length = r * c → ∃ L : List (List α), L.length = r ∧ (∀ l ∈ L, l.length = c) ∧ L.flatten = xs
  | 0, xs, h => ⟨[], rfl, by simp, by
      have : xs = [] := List.length_eq_zero_iff.1 (by simpa using h)
      simp [this]⟩
  | r + 1, xs, h => by
      have h1 : xs.length = c + r * c := by rw [h]; ring
      obtain ⟨L, e1, e2, e3⟩ := exists_chunks c r (xs.drop c) (by rw [List.length_drop, h1]; omega)
      refine ⟨xs.take c :: L, by simp [e1], ?_, by rw [List.flatten_cons, e3, List.take_append_drop]⟩
      intro l hl
      rcases List.mem_cons.1 hl with rfl | hl
      · rw [List.length_take, h1]; omega
      · exact e2 l hl

theorem getElem?_flatten {c : ℕ} : ∀ (L : List (List α)), (∀ l ∈ L, l.length = c) → ∀ i j, j < c → L.flatten[i * c + j]? = (L[i]?).bind fun l => l[j]?
  | [], _, i, j, _ => by simp
  | l :: L, h, i, j, hj => by
      have hl := h l (by simp)
      cases i with
      | zero =>
        rw [List.flatten_cons, List.getElem?_append_left (by omega)]
        simp
      | succ i =>
        rw [List.flatten_cons, List.getElem?_append_right (by rw [hl]; nlinarith)]
        have e : (i + 1) * c + j - l.length = i * c + j := by
          rw [hl, Nat.add_mul]
          omega
        rw [e, getElem?_flatten L (fun l hl => h l (by simp [hl])) i j hj]
        rfl

theorem rowVal_nums (l : List α) (i : ℕ) : ∀ j, rowVal (l.map Block.num) i j = l[j]? := by
  induction l with
  | nil => intro j; rfl
  | cons a l ih =>
    intro j
    cases j with
    | zero => rfl
    | succ j =>
      show (if j + 1 < 1 then _ else _) = _
      rw [if_neg (by omega)]
      show rowVal (l.map Block.num) i (j + 1 - 1) = _
      rw [Nat.add_sub_cancel, ih]
      rfl

theorem tabVal_rowsOf (L : List (List α)) (j : ℕ) : ∀ i, tabVal (rowsOf L) i j = (L[i]?).bind fun l => l[j]? := by
  induction L with
  | nil => intro i; rfl
  | cons l L ih =>
    intro i
    cases i with
    | zero => exact rowVal_nums l 0 j
    | succ i =>
      show (if i + 1 < 1 then _ else _) = _
      rw [if_neg (by omega)]
      show tabVal (rowsOf L) (i + 1 - 1) j = _
      rw [Nat.add_sub_cancel, ih]
      rfl

theorem blocksOf_rowsOf (L : List (List α)) : blocksOf (rowsOf L) = L.flatten.map Block.num := by
  rw [blocksOf, rowsOf, List.map_map, List.map_flatten]
  rfl

theorem width_nums (l : List α) : width (l.map Block.num) = l.length := by
  simp [width, Block.num, Function.comp_def]

theorem rowsOf_tableau {r c : ℕ} {L : List (List α)} (hr : L.length = r) (hc : ∀ l ∈ L, l.length = c) (h0 : 0 < c) : Tableau r c (rowsOf L) := by
  constructor
  · intro t ht
    obtain ⟨l, hl, rfl⟩ := List.mem_map.1 ht
    refine ⟨fun h => ?_, fun b hb => ?_, by rw [width_nums, hc l hl]⟩
    · have h : l = [] := List.map_eq_nil_iff.1 h
      have := hc l hl
      rw [h] at this
      simp at this
      omega
    · obtain ⟨a, _, rfl⟩ := List.mem_map.1 hb
      rfl
  · simp [total, rowsOf, Function.comp_def, hr]

theorem nums_proper (xs : List α) : ∀ b ∈ xs.map Block.num, b.Proper := by
  intro b hb
  obtain ⟨a, _, rfl⟩ := List.mem_map.1 hb
  exact ⟨Nat.one_pos, Nat.one_pos⟩

/-- As many numbers as there are elements fill a matrix row by row. -/
theorem fill_nums {r c : ℕ} (M : ℕ → ℕ → α) (x : α) (xs : List α) (h : (x :: xs).length = r * c) :
    ∃ N, Comma.fill r c M (Block.num x) (xs.map Block.num) = .ok N ∧ (∀ i j, i < r → j < c → some (N i j) = byRows c (x :: xs) i j) := by
  have h0 : 0 < c := Nat.pos_of_ne_zero fun hc => by simp [hc] at h
  obtain ⟨L, e1, e2, e3⟩ := exists_chunks c r (x :: xs) h
  obtain ⟨N, k1, k2, -⟩ := fill_tableau M (rowsOf L) (Block.num x) (xs.map Block.num) (rowsOf_tableau e1 e2 h0) (by rw [blocksOf_rowsOf, e3]; rfl) (nums_proper (x :: xs))
  refine ⟨N, k1, fun i j hi hj => ?_⟩
  rw [k2 i j hi hj, tabVal_rowsOf, byRows, ← e3, getElem?_flatten L e2 i j hj]

theorem tableau_of_nums {r c : ℕ} {t : List (Row α)} {xs : List α} (ht : Tableau r c t) (hb : blocksOf t = xs.map Block.num) : xs.length = r * c := by
  have key : ∀ t : List (Row α), (∀ q ∈ t, q.Fills c) → (∀ b ∈ blocksOf t, b.rows = 1 ∧ b.cols = 1) → (blocksOf t).length = total t * c := by
    intro t
    induction t with
    | nil => intro _ _; simp [blocksOf, total]
    | cons q t ih =>
      intro hf hn
      have hq := hf q (by simp)
      have hn' : ∀ b ∈ q.blocks, b.rows = 1 ∧ b.cols = 1 := fun b hb => hn b (by simp [blocksOf, hb])
      have e1 : q.height = 1 := by
        obtain ⟨b, hb⟩ := List.exists_mem_of_ne_nil _ hq.1
        rw [← hq.2.1 b hb, (hn' b hb).1]
      have e2 : q.blocks.length = c := by
        rw [← hq.2.2, width]
        have : q.blocks.map Block.cols = q.blocks.map fun _ => 1 := List.map_congr_left fun b hb => (hn' b hb).2
        rw [this]
        simp
      have e3 := ih (fun q hq => hf q (by simp [hq])) (fun b hb => hn b (by
        simp only [blocksOf, List.map_cons, List.flatten_cons, List.mem_append] at hb ⊢
        exact Or.inr hb))
      have e4 : (blocksOf (q :: t)).length = q.blocks.length + (blocksOf t).length := by simp [blocksOf]
      have e5 : total (q :: t) = q.height + total t := by simp [total]
      rw [e4, e5, e3, e2, e1]
      ring
  have h := key t ht.1 (fun b hb' => by
    rw [hb] at hb'
    obtain ⟨a, _, rfl⟩ := List.mem_map.1 hb'
    exact ⟨rfl, rfl⟩)
  rw [hb, List.length_map, ht.2] at h
  exact h

/-- No other number of numbers is accepted. -/
theorem fill_nums_only {r c : ℕ} {M N : ℕ → ℕ → α} {x : α} {xs : List α} (h : Comma.fill r c M (Block.num x) (xs.map Block.num) = .ok N) : (x :: xs).length = r * c := by
  rcases Nat.eq_zero_or_pos c with hc | hc
  · subst hc
    exfalso
    rw [Comma.fill, CI.items, CI.start, if_neg (by simp [Block.num])] at h
    cases h
  · obtain ⟨t, ht, hb⟩ := fill_accepted (nums_proper (x :: xs)) hc h
    exact tableau_of_nums (xs := x :: xs) ht hb

/-! ## Shapes with open extents -/

theorem fits_fixed : ∀ {ds : List (Option ℕ)} {ss : List ℕ}, (∀ d ∈ ds, d.isNone = false) → (List.Forall₂ (fun d s => ∀ k, d = some k → s = k) ds ss ↔ ss = ds.map fun d => d.getD 1) := by
  intro ds
  induction ds with
  | nil =>
    intro ss _
    simp
  | cons d ds ih =>
    intro ss h
    obtain ⟨k, rfl⟩ : ∃ k, d = some k := by
      cases d with
      | none => exact absurd (h none (by simp)) (by simp)
      | some k => exact ⟨k, rfl⟩
    have ih := fun ss => ih (ss := ss) fun d hd => h d (by simp [hd])
    cases ss with
    | nil => simp
    | cons s ss =>
      rw [List.forall₂_cons, ih]
      simp

theorem split_open : ∀ {ds : List (Option ℕ)}, ds.countP (fun d => d.isNone) = 1 →
    ∃ as bs, ds = as ++ none :: bs ∧ (∀ d ∈ as, d.isNone = false) ∧ ∀ d ∈ bs, d.isNone = false := by
  intro ds
  induction ds with
  | nil => simp
  | cons d ds ih =>
    intro h
    cases d with
    | none =>
      rw [List.countP_cons_of_pos rfl] at h
      have h0 : ds.countP (fun d => d.isNone) = 0 := by omega
      exact ⟨[], ds, rfl, by simp, fun d hd => by
        have := List.countP_eq_zero.1 h0 d hd
        cases d with
        | none => exact absurd rfl this
        | some k => rfl⟩
    | some k =>
      rw [List.countP_cons_of_neg (by simp)] at h
      obtain ⟨as, bs, e, h1, h2⟩ := ih h
      exact ⟨some k :: as, bs, by rw [e]; rfl, fun d hd => by
        rcases List.mem_cons.1 hd with rfl | hd
        · rfl
        · exact h1 d hd, h2⟩

theorem forall₂_split {β γ : Type} {R : β → γ → Prop} : ∀ (as : List β) {bs : List β} {ss : List γ}, List.Forall₂ R (as ++ bs) ss →
    ∃ l1 l2, List.Forall₂ R as l1 ∧ List.Forall₂ R bs l2 ∧ ss = l1 ++ l2
  | [], _, ss, h => ⟨[], ss, .nil, h, rfl⟩
  | a :: as, bs, _, h => by
      cases h with
      | cons h1 h2 =>
        obtain ⟨l1, l2, f1, f2, rfl⟩ := forall₂_split as h2
        exact ⟨_ :: l1, l2, .cons h1 f1, f2, rfl⟩

theorem fits_open {as bs : List (Option ℕ)} (h1 : ∀ d ∈ as, d.isNone = false) (h2 : ∀ d ∈ bs, d.isNone = false) {N : ℕ} {ss : List ℕ} :
    Fits (as ++ none :: bs) N ss ↔ ∃ s, ss = (as.map fun d => d.getD 1) ++ s :: (bs.map fun d => d.getD 1) ∧ fixedSize (as ++ none :: bs) * s = N := by
  have e : fixedSize (as ++ none :: bs) = (as.map fun d => d.getD 1).prod * (bs.map fun d => d.getD 1).prod := by
    simp [fixedSize]
  rw [e]
  constructor
  · rintro ⟨hf, hp⟩
    obtain ⟨l1, l2, f1, f2, rfl⟩ := forall₂_split as hf
    match l2, f2 with
    | s :: l3, .cons _ f3 =>
      rw [(fits_fixed h1).1 f1, (fits_fixed h2).1 f3] at hp ⊢
      refine ⟨s, rfl, ?_⟩
      rw [← hp, List.prod_append, List.prod_cons]
      ring
  · rintro ⟨s, rfl, rfl⟩
    refine ⟨List.rel_append ((fits_fixed h1).2 rfl) (List.Forall₂.cons (by simp) ((fits_fixed h2).2 rfl)), ?_⟩
    rw [List.prod_append, List.prod_cons]
    ring

theorem side_sq (n : ℕ) : side (n * n) = n := by
  rw [side]
  push_cast
  rw [Real.sqrt_mul_self (by positivity), Nat.floor_natCast]

end OpenKalman.Makers
