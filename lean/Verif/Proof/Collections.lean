import Verif.Spec.Collections
import Verif.Model.Collections
import Mathlib.Tactic.Linarith
import Mathlib.Tactic.Ring
import Mathlib.Data.List.Forall2

/-! Helper lemmas for `Verif.Theorems.Collections`. -/

namespace OpenKalman.Collections
variable {α β : Type}

/-- `c` behaves as the list `l`. -/
structure Refines (c : Coll α) (l : List α) : Prop where
  size : c.size = l.length
  get : ∀ i < l.length, c.get i = l[i]?
  at' : ∀ p o, p + o < l.length → c.at' p o = l[p + o]?

theorem foldl_add (ss : List Nat) (a : Nat) : ss.foldl (· + ·) a = a + ss.sum := by
  induction ss generalizing a with
  | nil => simp
  | cons s ss ih => simp [ih, Nat.add_assoc]

theorem concatIndices_spec (ls : List (List α)) (i : Nat) (h : i < ls.flatten.length) :
    ∃ l, ls[(concatIndices i (ls.map List.length)).1]? = some l ∧ (concatIndices i (ls.map List.length)).2 < l.length ∧
      l[(concatIndices i (ls.map List.length)).2]? = ls.flatten[i]? := by
  induction ls generalizing i with
  | nil => simp at h
  | cons l ls ih =>
    simp only [List.flatten_cons, List.length_append] at h
    by_cases hi : i < l.length
    · refine ⟨l, ?_, ?_, ?_⟩ <;> simp [concatIndices, hi, List.getElem?_append]
    · obtain ⟨m, h1, h2, h3⟩ := ih (i - l.length) (by omega)
      refine ⟨m, ?_, ?_, ?_⟩
      · simp only [List.map_cons, concatIndices, hi, if_false, Nat.add_comm 1]
        simpa using h1
      · simpa [concatIndices, hi] using h2
      · simp only [List.map_cons, concatIndices, hi, if_false, List.flatten_cons, List.getElem?_append]
        exact h3

theorem refines_base (l : List α) : Refines (Coll.base l) l := ⟨rfl, fun _ _ => rfl, fun _ _ _ => rfl⟩

theorem refines_concat {cs : List (Coll α)} {ls : List (List α)} (h : List.Forall₂ Refines cs ls) :
    Refines (Coll.concat cs) ls.flatten := by
  have hsz : cs.map Coll.size = ls.map List.length := by
    induction h with
    | nil => rfl
    | cons h _ ih => simp [h.size, ih]
  have hlen : cs.length = ls.length := h.length_eq
  have key : ∀ i < ls.flatten.length, (cs[(concatIndices i (ls.map List.length)).1]?).bind
      (fun c => c.get (concatIndices i (ls.map List.length)).2) = ls.flatten[i]? := by
    intro i hi
    obtain ⟨l, h1, h2, h3⟩ := concatIndices_spec ls i hi
    generalize hg : concatIndices i (ls.map List.length) = ab at *
    obtain ⟨ha, e1⟩ := List.getElem?_eq_some_iff.mp h1
    have hr : Refines (cs[ab.1]'(by omega)) (ls[ab.1]'ha) := List.Forall₂.get h (by omega) ha
    rw [List.getElem?_eq_getElem (by omega)]
    simp only [Option.bind_some]
    rw [e1] at hr
    rw [hr.get _ h2, h3]
  refine ⟨?_, ?_, ?_⟩
  · simp only [Coll.concat, hsz, foldl_add, List.length_flatten, Nat.zero_add]
  · intro i hi; simp only [Coll.concat, hsz]; exact key i hi
  · intro p o hi; simp only [Coll.concat, hsz]; exact key (p + o) hi

theorem repeatList_length (l : List α) (f : Nat) : (repeatList l f).length = l.length * f := by
  simp [repeatList, Nat.mul_comm]

theorem repeatList_get (l : List α) (f i : Nat) (h : i < l.length * f) : (repeatList l f)[i]? = l[i % l.length]? := by
  induction f generalizing i with
  | zero => simp at h
  | succ f ih =>
    have : repeatList l (f + 1) = l ++ repeatList l f := by simp [repeatList, List.replicate_succ]
    rw [this, List.getElem?_append]
    split
    · rename_i hi; rw [Nat.mod_eq_of_lt hi]
    · rename_i hi
      have hm : l.length * (f + 1) = l.length * f + l.length := by ring
      rw [ih _ (by omega)]
      rw [Nat.mod_eq_sub_mod (by omega : l.length ≤ i)]

theorem refines_replicate {c : Coll α} {l : List α} (h : Refines c l) (f : Nat) : Refines (c.replicate f) (repeatList l f) := by
  refine ⟨?_, ?_, ?_⟩
  · simp [Coll.replicate, h.size, repeatList_length]
  · intro i hi
    rw [repeatList_length] at hi
    have hpos : 0 < l.length := Nat.pos_of_ne_zero (by rintro e; simp [e] at hi)
    rw [repeatList_get _ _ _ hi]
    simp only [Coll.replicate, h.size, Nat.ne_of_gt hpos, if_false]
    exact h.get _ (Nat.mod_lt _ hpos)
  · intro p o hi
    rw [repeatList_length] at hi
    have hpos : 0 < l.length := Nat.pos_of_ne_zero (by rintro e; simp [e] at hi)
    rw [repeatList_get _ _ _ hi]
    simp only [Coll.replicate, h.size, Nat.ne_of_gt hpos, if_false]
    rw [h.at' 0 _ (by simpa using Nat.mod_lt _ hpos), Nat.zero_add]

theorem refines_slice {c : Coll α} {l : List α} (h : Refines c l) (off : Nat) (ext : Option Nat) (hb : off ≤ l.length)
    (he : ∀ e, ext = some e → off + e ≤ l.length) : Refines (c.slice off ext) (subList l off ext) := by
  cases ext with
  | none =>
    refine ⟨by simp [Coll.slice, subList, h.size], ?_, ?_⟩
    · intro i hi
      simp only [subList, List.length_drop] at hi
      simp only [Coll.slice, subList, List.getElem?_drop]
      exact h.get _ (by omega)
    · intro p o hi
      simp only [subList, List.length_drop] at hi
      simp only [Coll.slice, subList, List.getElem?_drop]
      rw [h.at' _ _ (by omega), Nat.add_assoc]
  | some e =>
    have he := he e rfl
    refine ⟨by simp [Coll.slice, subList]; omega, ?_, ?_⟩
    · intro i hi
      simp only [subList, List.length_take, List.length_drop] at hi
      simp only [Coll.slice, subList, List.getElem?_take, List.getElem?_drop]
      rw [if_pos (by omega)]
      exact h.get _ (by omega)
    · intro p o hi
      simp only [subList, List.length_take, List.length_drop] at hi
      simp only [Coll.slice, subList, List.getElem?_take, List.getElem?_drop]
      rw [if_pos (by omega), h.at' _ _ (by omega), Nat.add_assoc]

theorem refines_reverse {c : Coll α} {l : List α} (h : Refines c l) : Refines c.reverse l.reverse := by
  refine ⟨by simp [Coll.reverse, h.size], ?_, ?_⟩
  · intro i hi
    rw [List.length_reverse] at hi
    simp only [Coll.reverse, h.size]
    rw [if_neg (by omega), h.get _ (by omega), List.getElem?_reverse hi]
    congr 1; omega
  · intro p o hi
    rw [List.length_reverse] at hi
    simp only [Coll.reverse, h.size]
    rw [if_neg (by omega), h.get _ (by omega), List.getElem?_reverse hi]
    congr 1; omega

theorem refines_generate (f : Nat → α) (n : Nat) : Refines (Coll.generate f n) ((List.range n).map f) := by
  refine ⟨by simp [Coll.generate], ?_, ?_⟩
  · intro i hi; simp at hi; simp [Coll.generate, hi]
  · intro p o hi; simp at hi; simp [Coll.generate, hi]

theorem refines_repeat (a : α) (n : Nat) : Refines (Coll.repeat' a n) (List.replicate n a) := by
  refine ⟨by simp [Coll.repeat'], ?_, ?_⟩
  · intro i hi; simp at hi; simp [Coll.repeat', hi]
  · intro p o hi; simp at hi; simp [Coll.repeat', hi]

/-! ### Lexicographic comparison -/

theorem loopLex_nil_nil (cmp : α → β → POrd) : loopLex cmp [] [] = .equivalent := rfl
theorem loopLex_nil_cons (cmp : α → β → POrd) (b : β) (r : List β) : loopLex cmp [] (b :: r) = .less := rfl
theorem loopLex_cons_nil (cmp : α → β → POrd) (a : α) (l : List α) : loopLex cmp (a :: l) [] = .greater := rfl
theorem loopLex_cons_cons (cmp : α → β → POrd) (a : α) (b : β) (l : List α) (r : List β) :
    loopLex cmp (a :: l) (b :: r) = if cmp a b = .equivalent then loopLex cmp l r else cmp a b := by
  simp only [loopLex]; cases h : cmp a b <;> simp

theorem fixedLex_eq_loop (cmp : α → β → POrd) (dl dr : Bool) (hd : dl = false ∨ dr = false) (l : List α) (r : List β) (i : Nat)
    (hl : i ≤ l.length) (hr : i ≤ r.length) : fixedLex cmp dl dr l r i = loopLex cmp (l.drop i) (r.drop i) := by
  induction hn : l.length - i generalizing i with
  | zero =>
    have e : i = l.length := by omega
    have hle : l.drop i = [] := by simp [e]
    rw [hle]
    unfold fixedLex
    by_cases er : i = r.length
    · have hre : r.drop i = [] := by simp [er]
      rw [hre]
      have e' : l.length = r.length := by omega
      subst er
      rcases hd with rfl | rfl
      · cases dr <;> simp [e', loopLex_nil_nil]
      · cases dl <;> simp [e', loopLex_nil_nil]
    · have hlt : i < r.length := by omega
      rw [List.drop_eq_getElem_cons hlt, loopLex_nil_cons]
      subst e
      cases dl <;> cases dr <;> simp [er, Ne.symm er]
  | succ n ih =>
    have hlt : i < l.length := by omega
    have hne : l.length ≠ i := by omega
    rw [List.drop_eq_getElem_cons hlt]
    unfold fixedLex
    by_cases er : i = r.length
    · have hre : r.drop i = [] := by simp [er]
      rw [hre, loopLex_cons_nil]
      subst er
      cases dl <;> cases dr <;> simp [hne, Ne.symm hne]
    · have hltr : i < r.length := by omega
      rw [List.drop_eq_getElem_cons hltr, loopLex_cons_cons, ← ih (i + 1) (by omega) (by omega) (by omega)]
      have hner : r.length ≠ i := Ne.symm er
      simp only [List.getElem?_eq_getElem hltr]
      cases hc : cmp l[i] r[i] <;> simp [hne, hner, er, Ne.symm hne, hlt, hc]

end OpenKalman.Collections
