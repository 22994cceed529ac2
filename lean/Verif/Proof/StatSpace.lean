import Verif.Model.StatSpace
import Verif.Theorems.Shape
import Verif.Theorems.Pattern
import Mathlib.Algebra.BigOperators.Ring.Finset
import Mathlib.Algebra.Order.BigOperators.Ring.Finset

/-!
# Lemmas on the statistics-space adapters
-/

namespace OpenKalman.StatSpace

open Shape Patterns Finset

/-- What `access` reads from the object, given at least as many indices as its rank, are the components of the tensor. -/
structure Represents (n : Nested) (t : Tensor) : Prop where
  valid : Valid n.exts
  shape : t.shape = shapeOf n.exts
  comp : ∀ ix : List Nat, n.exts.length ≤ ix.length → t.InRange (ix.getD · 0) → n.component ix = .ok (t.at_ (ix.getD · 0))

theorem flatMap_len {α : Type} (f : Nat → List α) (L : Nat) (n : Nat) (hf : ∀ q < n, (f q).length = L) : ((List.range n).flatMap f).length = n * L := by
  induction n with
  | zero => simp
  | succ m ih =>
    rw [List.range_succ, List.flatMap_append, List.length_append, ih fun q hq => hf q (by omega)]
    simp [hf m (by omega), Nat.succ_mul]

theorem flatMap_get' {α : Type} (f : Nat → List α) (L n q r : Nat) (hf : ∀ q < n, (f q).length = L) (hq : q < n) (hr : r < L) :
    ((List.range n).flatMap f)[q * L + r]? = (f q)[r]? := by
  induction n with
  | zero => omega
  | succ n ih =>
    have hlen := flatMap_len f L n fun q hq => hf q (by omega)
    rw [List.range_succ, List.flatMap_append]
    rcases Nat.lt_or_ge q n with h | h
    · rw [List.getElem?_append_left, ih (fun q hq => hf q (by omega)) h]
      rw [hlen]
      calc q * L + r < q * L + L := by omega
        _ = (q + 1) * L := by rw [Nat.succ_mul]
        _ ≤ n * L := Nat.mul_le_mul_right _ h
    · have : q = n := by omega
      subst this
      rw [List.getElem?_append_right (by rw [hlen]; omega), hlen]
      simp

theorem consIx_getD (i : Nat) (js : List Nat) : (fun l => (i :: js).getD l 0) = consIx i (js.getD · 0) := by
  funext l; cases l <;> simp [consIx]

section
variable {n : Nested} {A : Tensor} (h : Represents n A)
include h

theorem Represents.extent (i : Nat) : n.extent i = .ok (extentOf A.shape i) := by
  unfold Nested.extent
  rw [getIndexExtent_eq h.valid, h.shape]

theorem Represents.rangeOf_many (hne : some 0 ∉ statics n.exts) (js : List Nat) (hlen : n.exts.length ≤ js.length + 1)
    (hjs : ∀ i, js.getD i 0 < extentOf A.shape (i + 1)) : StatSpace.rangeOf n js = .ok (A.column (js.getD · 0)) := by
  unfold StatSpace.rangeOf
  have he : emptyObject (statics n.exts) = false := by
    rw [← Bool.not_eq_true, emptyObject_iff]; exact hne
  have hc : n.count ≤ n.exts.length := by
    have := indexCount_le (statics n.exts)
    rwa [statics, List.length_map] at this
  rw [if_neg (by simp [he]; omega), h.extent]
  show (List.range (extentOf A.shape 0)).mapM (fun i => n.component (i :: js)) = _
  unfold Tensor.column
  have key : ∀ l : List Nat, (∀ i ∈ l, i < extentOf A.shape 0) →
      l.mapM (fun i => n.component (i :: js)) = Except.ok (l.map fun i => A.at_ (consIx i (js.getD · 0))) := by
    intro l
    induction l with
    | nil => intro _; rfl
    | cons i l ih =>
      intro hl
      rw [List.mapM_cons, ih fun j hj => hl j (List.mem_cons_of_mem _ hj), h.comp (i :: js) (by simp; omega) ?_]
      · rw [consIx_getD]; rfl
      · rw [consIx_getD]
        intro l
        cases l with
        | zero => exact hl i (List.mem_cons_self ..)
        | succ l => exact hjs l
  exact key _ fun i hi => List.mem_range.1 hi

theorem Represents.rangeOf (hne : some 0 ∉ statics n.exts) (hrank : n.exts.length ≤ n.count + 1) (js : List Nat) (hlen : js.length = n.count)
    (hjs : ∀ i, js.getD i 0 < extentOf A.shape (i + 1)) : StatSpace.rangeOf n js = .ok (A.column (js.getD · 0)) := h.rangeOf_many hne js (by omega) hjs

end

/-- The columns written by `fill_store` from level `i` on. -/
noncomputable def block (conv : List ℝ → Option (List ℝ)) (A : Tensor) : Nat → List Nat → List ℝ
  | 0, js => (conv (A.column (js.getD · 0))).getD []
  | i + 1, js => (List.range (extentOf A.shape (i + 1))).flatMap fun k => block conv A i (k :: js)

section
variable {n : Nested} {A : Tensor} {conv : List ℝ → Option (List ℝ)} {D : Nat}

theorem cons_inRange {A : Tensor} {i k : Nat} {js : List Nat} (hk : k < extentOf A.shape (i + 1)) (hjs : ∀ l, js.getD l 0 < extentOf A.shape (i + 1 + 1 + l)) :
    ∀ l, (k :: js).getD l 0 < extentOf A.shape (i + 1 + l) := by
  intro l
  cases l with
  | zero => simpa using hk
  | succ l =>
    have := hjs l
    rw [show i + 1 + (l + 1) = i + 1 + 1 + l by omega]
    simpa using this

theorem block_length (hconv : ∀ k : Nat → Nat, (∀ i, k i < extentOf A.shape (i + 1)) → ∃ o, conv (A.column k) = some o ∧ o.length = D) :
    ∀ (i : Nat) (js : List Nat), (∀ l, js.getD l 0 < extentOf A.shape (i + 1 + l)) →
      (block conv A i js).length = D * ∏ m ∈ Finset.range i, extentOf A.shape (m + 1)
  | 0, js, hjs => by
    obtain ⟨o, ho, hl⟩ := hconv (js.getD · 0) (fun i => by have := hjs i; rwa [show 0 + 1 + i = i + 1 by omega] at this)
    simp only [block, ho, Option.getD_some, hl, Finset.range_zero, Finset.prod_empty, mul_one]
  | i + 1, js, hjs => by
    unfold block
    rw [flatMap_len _ (D * ∏ m ∈ Finset.range i, extentOf A.shape (m + 1)) _ fun q hq => block_length hconv i _ (cons_inRange hq hjs),
      Finset.prod_range_succ]
    ring

theorem fillStore_eq (h : Represents n A) (hne : some 0 ∉ statics n.exts) (hrank : n.exts.length ≤ n.count + 1)
    (hconv : ∀ k : Nat → Nat, (∀ i, k i < extentOf A.shape (i + 1)) → ∃ o, conv (A.column k) = some o ∧ o.length = D) :
    ∀ (i : Nat) (s : Store) (js : List Nat), js.length + i = n.count → (∀ l, js.getD l 0 < extentOf A.shape (i + 1 + l)) →
      s.written.length + D * ∏ m ∈ Finset.range i, extentOf A.shape (m + 1) ≤ s.size →
      fillStore conv n i s js = .ok ⟨s.size, s.written ++ block conv A i js⟩
  | 0, s, js, hlen, hjs, hcap => by
    have hjs' : ∀ i, js.getD i 0 < extentOf A.shape (i + 1) := fun i => by have := hjs i; rwa [show 0 + 1 + i = i + 1 by omega] at this
    obtain ⟨o, ho, hl⟩ := hconv (js.getD · 0) hjs'
    unfold fillStore
    rw [h.rangeOf hne hrank js (by omega) hjs']
    show (match conv (A.column (js.getD · 0)) with | some o => s.write o | none => .error .undefined) = _
    simp only [Finset.range_zero, Finset.prod_empty, mul_one] at hcap
    rw [ho]
    show s.write o = _
    unfold Store.write
    rw [if_pos (by omega)]
    simp only [block, ho, Option.getD_some]
  | i + 1, s, js, hlen, hjs, hcap => by
    unfold fillStore
    rw [h.extent]
    show (List.range (extentOf A.shape (i + 1))).foldlM (fun s k => fillStore conv n i s (k :: js)) s = _
    unfold block
    rw [Finset.prod_range_succ] at hcap
    set L := D * ∏ m ∈ Finset.range i, extentOf A.shape (m + 1) with hL
    have hcap' : s.written.length + extentOf A.shape (i + 1) * L ≤ s.size := by
      rw [hL]; calc _ = s.written.length + D * ((∏ m ∈ Finset.range i, extentOf A.shape (m + 1)) * extentOf A.shape (i + 1)) := by ring
        _ ≤ _ := hcap
    have key : ∀ q, q ≤ extentOf A.shape (i + 1) → (List.range q).foldlM (fun s k => fillStore conv n i s (k :: js)) s =
        Except.ok ⟨s.size, s.written ++ (List.range q).flatMap fun k => block conv A i (k :: js)⟩ := by
      intro q
      induction q with
      | zero => intro _; simp [pure, Except.pure]
      | succ q ih =>
        intro hq
        rw [List.range_succ, List.foldlM_append, ih (by omega)]
        show List.foldlM (fun s k => fillStore conv n i s (k :: js)) _ [q] = _
        rw [List.foldlM_cons]
        have hwl : ((List.range q).flatMap fun k => block conv A i (k :: js)).length = q * L :=
          flatMap_len _ _ _ fun q' hq' => block_length hconv i _ (cons_inRange (by omega) hjs)
        rw [fillStore_eq h hne hrank hconv i _ (q :: js) (by simp; omega) (cons_inRange (by omega) hjs) (by
          show (s.written ++ _).length + L ≤ s.size
          rw [List.length_append, hwl]
          have : (q + 1) * L ≤ extentOf A.shape (i + 1) * L := Nat.mul_le_mul_right _ hq
          rw [Nat.succ_mul] at this
          omega)]
        simp [bind, Except.bind, pure, Except.pure]
    exact key _ le_rfl

theorem block_get (hconv : ∀ k : Nat → Nat, (∀ i, k i < extentOf A.shape (i + 1)) → ∃ o, conv (A.column k) = some o ∧ o.length = D) (d : Nat) (hd : d < D)
    (k : Nat → Nat) : ∀ (i : Nat) (js : List Nat), (∀ l < i, k l < extentOf A.shape (l + 1)) → (∀ l, js.getD l 0 < extentOf A.shape (i + 1 + l)) →
      (block conv A i js)[d + D * leftOffset (fun m => extentOf A.shape (m + 1)) k i]? =
        ((conv (A.column ((((List.range i).map k) ++ js).getD · 0))).getD [])[d]?
  | 0, js, _, _ => by simp [block, leftOffset]
  | i + 1, js, hk, hjs => by
    have ih := block_get hconv d hd k i (k i :: js) (fun l hl => hk l (by omega)) (cons_inRange (hk i (by omega)) hjs)
    have hL : ∀ q < extentOf A.shape (i + 1), (block conv A i (q :: js)).length = D * ∏ m ∈ Finset.range i, extentOf A.shape (m + 1) :=
      fun q hq => block_length hconv i _ (cons_inRange hq hjs)
    have hlt : d + D * leftOffset (fun m => extentOf A.shape (m + 1)) k i < D * ∏ m ∈ Finset.range i, extentOf A.shape (m + 1) := by
      by_contra hc
      have hnone : (block conv A i (k i :: js))[d + D * leftOffset (fun m => extentOf A.shape (m + 1)) k i]? = none := by
        rw [List.getElem?_eq_none_iff, hL _ (hk i (by omega))]; omega
      rw [hnone] at ih
      obtain ⟨o, ho, hl⟩ := hconv ((((List.range i).map k) ++ k i :: js).getD · 0) (by
        intro l
        rcases Nat.lt_or_ge l i with hli | hli
        · have : (((List.range i).map k) ++ k i :: js).getD l 0 = k l := by simp [List.getD, List.getElem?_append_left, hli]
          rw [this]; exact hk l (by omega)
        · have := cons_inRange (hk i (by omega)) hjs (l - i)
          rw [show i + 1 + (l - i) = l + 1 by omega] at this
          have e : (((List.range i).map k) ++ k i :: js).getD l 0 = (k i :: js).getD (l - i) 0 := by
            simp only [List.getD]
            rw [List.getElem?_append_right (by simpa using hli)]; simp
          rw [e]; exact this)
      rw [ho] at ih
      have := List.getElem?_eq_none_iff.1 ih.symm
      simp at this; omega
    unfold block
    have hoff : d + D * leftOffset (fun m => extentOf A.shape (m + 1)) k (i + 1) =
        k i * (D * ∏ m ∈ Finset.range i, extentOf A.shape (m + 1)) + (d + D * leftOffset (fun m => extentOf A.shape (m + 1)) k i) := by
      unfold leftOffset
      rw [Finset.sum_range_succ]; ring
    rw [hoff, flatMap_get' _ _ _ _ _ hL (hk i (by omega)) hlt, ih, List.range_succ, List.map_append]
    simp

theorem storeSize_eq (dimOf : IdxPat → Nat) (n : Nested) : ∀ k i prod, storeSize dimOf n i k prod = prod * ∏ m ∈ Finset.range k, dimOf (n.pattern (i + m))
  | 0, i, prod => by simp [storeSize]
  | k + 1, i, prod => by
    unfold storeSize
    rw [storeSize_eq dimOf n k, Finset.prod_range_succ', mul_assoc]
    congr 1
    rw [mul_comm]
    simp only [Nat.add_zero]
    congr 1
    refine Finset.prod_congr rfl fun m _ => ?_
    rw [show i + 1 + m = i + (m + 1) by omega]

theorem storeInit_eq (h : Represents n A) (hne : some 0 ∉ statics n.exts) (hrank : n.exts.length ≤ n.count + 1)
    (hconv : ∀ k : Nat → Nat, (∀ i, k i < extentOf A.shape (i + 1)) → ∃ o, conv (A.column k) = some o ∧ o.length = D)
    (dimOf : IdxPat → Nat) (hfix : ∀ i < n.count, (n.pattern i).dyn = false) (hone : ∀ i, n.count ≤ i → extentOf A.shape i = 1)
    (hcap : D * ∏ m ∈ Finset.range n.count, extentOf A.shape (m + 1) ≤ ∏ m ∈ Finset.range n.count, dimOf (n.pattern m)) :
    storeInit dimOf conv n = .ok ⟨∏ m ∈ Finset.range n.count, dimOf (n.pattern m), block conv A n.count []⟩ := by
  unfold storeInit
  have hf : ((List.range n.count).all fun i => !(n.pattern i).dyn) = true := by
    rw [List.all_eq_true]; intro i hi; simp [hfix i (List.mem_range.1 hi)]
  simp only [hf, if_true]
  rw [fillStore_eq h hne hrank hconv n.count _ [] (by simp) (by intro l; rw [hone _ (by omega)]; simp) (by
    simp only [List.length_nil, Nat.zero_add, storeSize_eq, one_mul]; exact hcap)]
  simp [storeSize_eq]

theorem leftOffset_stable (e e' k : Nat → Nat) (R R' : Nat) (he : ∀ i < R, e i = e' i) (hR : ∀ l, R ≤ l → k l = 0) (hR' : ∀ l, R' ≤ l → k l = 0) :
    leftOffset e k R = leftOffset e' k R' := by
  have h1 : leftOffset e k R = leftOffset e' k R := by
    unfold leftOffset
    refine Finset.sum_congr rfl fun l hl => ?_
    congr 1
    refine Finset.prod_congr rfl fun m hm => he m ?_
    simp at hl hm; omega
  rw [h1]
  have key : ∀ a b, a ≤ b → (∀ l, a ≤ l → k l = 0) → leftOffset e' k a = leftOffset e' k b := by
    intro a b hab ha
    unfold leftOffset
    refine Finset.sum_subset (Finset.range_mono hab) fun l _ hl => ?_
    rw [ha l (by simpa using hl), zero_mul]
  rcases le_total R R' with hle | hle
  · exact key _ _ hle hR
  · exact (key _ _ hle hR').symm

theorem leftOffset_succ (e k : Nat → Nat) (R : Nat) : leftOffset e k (R + 1) = k 0 + e 0 * leftOffset (fun m => e (m + 1)) (fun l => k (l + 1)) R := by
  unfold leftOffset
  rw [Finset.sum_range_succ', Finset.mul_sum]
  simp only [Finset.range_zero, Finset.prod_empty, mul_one]
  rw [add_comm]
  congr 1
  refine Finset.sum_congr rfl fun l _ => ?_
  rw [Finset.prod_range_succ']
  ring

/-- The tensor an adapter should hold. -/
noncomputable def converted (conv : List ℝ → Option (List ℝ)) (A : Tensor) (shape : List Nat) : Tensor :=
  ⟨shape, fun k => ((conv (A.column fun l => k (l + 1))).getD []).getD (k 0) 0⟩

theorem converted_converts (hconv : ∀ k : Nat → Nat, (∀ i, k i < extentOf A.shape (i + 1)) → ∃ o, conv (A.column k) = some o ∧ o.length = D)
    (shape : List Nat) (h0 : extentOf shape 0 = D) (hs : ∀ i, extentOf shape (i + 1) = extentOf A.shape (i + 1)) :
    Converts conv A (converted conv A shape) := by
  refine ⟨hs, fun k hk => ?_⟩
  obtain ⟨o, ho, hl⟩ := hconv k hk
  rw [ho]
  congr 1
  unfold Tensor.column
  have : extentOf (converted conv A shape).shape 0 = o.length := by rw [hl]; exact h0
  rw [this]
  apply List.ext_getElem
  · simp
  · intro i h1 h2
    simp only [List.getElem_map, List.getElem_range, converted, consIx]
    rw [show (fun l => k l) = k from rfl, ho, Option.getD_some, List.getD_eq_getElem]

/-- Components read through the adapter. -/
theorem adapter_represents (h : Represents n A) (hone : ∀ i, n.count ≤ i → extentOf A.shape i = 1)
    (hconv : ∀ k : Nat → Nat, (∀ i, k i < extentOf A.shape (i + 1)) → ∃ o, conv (A.column k) = some o ∧ o.length = D)
    (S : Nat) (r : List Extent) (hr : Valid r) (h0 : extentOf (shapeOf r) 0 = D) (hs : ∀ i, extentOf (shapeOf r) (i + 1) = extentOf A.shape (i + 1))
    (ps : List IdxPat) :
    Represents ⟨r, ps, Adapter.read ⟨⟨S, block conv A n.count []⟩, r⟩⟩ (converted conv A (shapeOf r)) := by
  refine ⟨hr, rfl, fun ix hlen hin => ?_⟩
  have hin' : ∀ i, ix.getD i 0 < extentOf (shapeOf r) i := hin
  have hne : some 0 ∉ statics r := by
    intro hm
    obtain ⟨e, he, h1⟩ := List.mem_map.1 hm
    obtain ⟨i, hi, h2⟩ := List.getElem_of_mem he
    have hv := hr e he 0 h1
    have := hin' i
    have e0 : extentOf (shapeOf r) i = 0 := by simp [extentOf, shapeOf, List.getD, hi, h2, hv]
    omega
  have hacc := (C73_access_partial r hr ⟨true, ix⟩ hlen hne).1 fun i _ => hin' i
  unfold Nested.component
  simp only
  rw [hacc]
  simp only [Adapter.read]
  have hget : ∀ l < r.length, (ix.take r.length).getD l 0 = ix.getD l 0 := by
    intro l hl; simp [List.getD, List.getElem?_take, hl]
  have hoff : leftOffset (fun i => (mdExtent r i).getD 0) ((ix.take r.length).getD · 0) r.length =
      ix.getD 0 0 + D * leftOffset (fun m => extentOf A.shape (m + 1)) (fun l => ix.getD (l + 1) 0) n.count := by
    have e1 : leftOffset (fun i => (mdExtent r i).getD 0) ((ix.take r.length).getD · 0) r.length =
        leftOffset (fun i => (mdExtent r i).getD 0) (ix.getD · 0) r.length := by
      unfold leftOffset
      refine Finset.sum_congr rfl fun l hl => ?_
      show (ix.take r.length).getD l 0 * _ = ix.getD l 0 * _
      rw [hget l (by simpa using hl)]
    have e2 : leftOffset (fun i => (mdExtent r i).getD 0) (ix.getD · 0) r.length = leftOffset (extentOf (shapeOf r)) (ix.getD · 0) (n.count + 1) := by
      refine leftOffset_stable _ _ _ _ _ (fun i hi => ?_) (fun l hl => ?_) (fun l hl => ?_)
      · simp [mdExtent, extentOf, shapeOf, List.getD, hi]
      · have := hin' l
        have e : extentOf (shapeOf r) l = 1 := by simp [extentOf, shapeOf, List.getD, hl]
        rw [e] at this
        exact Nat.lt_one_iff.1 this
      · obtain ⟨l, rfl⟩ : ∃ l', l = l' + 1 := ⟨l - 1, by omega⟩
        have := hin' (l + 1)
        rw [hs, hone _ (by omega)] at this
        exact Nat.lt_one_iff.1 this
    rw [e1, e2, leftOffset_succ, h0]
    congr 2
    refine leftOffset_stable _ _ _ _ _ (fun i _ => hs i) (fun l hl => ?_) (fun l hl => ?_) <;>
    · have := hin' (l + 1)
      rw [hs, hone _ (by omega)] at this
      exact Nat.lt_one_iff.1 this
  rw [hoff]
  unfold Store.get
  simp only
  have hk : ∀ l, ix.getD (l + 1) 0 < extentOf A.shape (l + 1) := fun l => by have := hin' (l + 1); rwa [hs] at this
  have hd : ix.getD 0 0 < D := by have := hin' 0; rwa [h0] at this
  rw [block_get hconv _ hd (fun l => ix.getD (l + 1) 0) n.count [] (fun l _ => hk l) (by intro l; rw [hone _ (by omega)]; simp)]
  have hcol : (fun x => ((List.range n.count).map (fun l => ix.getD (l + 1) 0) ++ []).getD x 0) = fun l => ix.getD (l + 1) 0 := by
    funext l
    rw [List.append_nil]
    rcases Nat.lt_or_ge l n.count with hl | hl
    · simp [List.getD, hl]
    · have := hk l
      rw [hone _ (by omega)] at this
      rw [Nat.lt_one_iff.1 this]
      simp [List.getD, hl]
  rw [hcol]
  obtain ⟨o, ho, hl⟩ := hconv (fun l => ix.getD (l + 1) 0) hk
  have hval : (converted conv A (shapeOf r)).at_ (fun x => ix.getD x 0) = o.getD (ix.getD 0 0) 0 := by
    simp only [converted]; rw [ho]; rfl
  rw [hval, ho]
  have : ix.getD 0 0 < o.length := by omega
  simp only [Option.getD_some]
  rw [List.getElem?_eq_getElem this, List.getD_eq_getElem _ _ this]

end

end OpenKalman.StatSpace
