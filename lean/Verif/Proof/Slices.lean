import Verif.Model.Slices
import Mathlib.Tactic.Ring
import Mathlib.Tactic.Linarith
import Mathlib.Data.List.GetD
import Mathlib.Algebra.Order.BigOperators.Group.List

/-! # Lemmas for slices and tiles -/

namespace OpenKalman.Slices

variable {F : Type}

/-- All positions of a box, in row-major order. -/
def boxList : List ℕ → List (List ℕ)
  | [] => [[]]
  | n :: ds => (List.range n).flatMap fun i => (boxList ds).map (i :: ·)

theorem mem_boxList {ds js : List ℕ} : js ∈ boxList ds ↔ InBox ds js := by
  induction ds generalizing js with
  | nil => simp [boxList, InBox]
  | cons n ds ih =>
    simp only [boxList, List.mem_flatMap, List.mem_range, List.mem_map, InBox]
    constructor
    · rintro ⟨i, hi, x, hx, rfl⟩
      exact List.Forall₂.cons hi (ih.1 hx)
    · intro h
      cases h with
      | cons h1 h2 => exact ⟨_, h1, _, ih.2 h2, rfl⟩

theorem nodup_boxList (ds : List ℕ) : (boxList ds).Nodup := by
  induction ds with
  | nil => simp [boxList]
  | cons n ds ih =>
    simp only [boxList]
    rw [List.nodup_flatMap]
    refine ⟨fun i _ => ih.map (fun a b h => by simpa using h), ?_⟩
    refine List.Pairwise.imp_of_mem ?_ (List.pairwise_lt_range)
    intro i j _ _ hij
    rw [Function.onFun, List.disjoint_left]
    intro x hx hy
    obtain ⟨a, -, rfl⟩ := List.mem_map.1 hx
    obtain ⟨b, -, hb⟩ := List.mem_map.1 hy
    simp at hb
    omega

theorem foldlM_flatMap' {α β σ : Type} (f : σ → β → Except Err σ) (g : α → List β) (l : List α) (a : σ) :
    (l.flatMap g).foldlM f a = l.foldlM (fun a x => (g x).foldlM f a) a := by
  induction l generalizing a with
  | nil => rfl
  | cons x l ih =>
    simp only [List.flatMap_cons, List.foldlM_append, List.foldlM_cons]
    congr 1
    funext b
    exact ih b

theorem assign_eq (block : Ten F) (ps : List (ℕ × ℕ)) (jb ja : List ℕ) (a : Ten F) :
    assignElems block ps jb ja a =
      (boxList (ps.map Prod.fst)).foldlM (fun a js => a.setComponent (block.get (jb ++ js)) (ja ++ shift (ps.map Prod.snd) js)) a := by
  induction ps generalizing jb ja a with
  | nil => simp [assignElems, boxList, shift]
  | cons p ps ih =>
    obtain ⟨n, b⟩ := p
    simp only [assignElems, List.map_cons, boxList]
    rw [foldlM_flatMap']
    congr 1
    funext a i
    rw [ih, List.foldlM_map]
    simp [shift]

/-- Storing a list of elements at distinct positions within the array. -/
theorem foldlM_set_ok {ι : Type} (src : ι → Option F) (dst : ι → List ℕ) (l : List ι) (a : Ten F)
    (hd : (l.map dst).Nodup) (hin : ∀ x ∈ l, InBox a.dims (dst x)) :
    ∃ a', l.foldlM (fun a x => a.setComponent (src x) (dst x)) a = .ok a' ∧ a'.dims = a.dims ∧
      (∀ x ∈ l, a'.get (dst x) = src x ∧ a'.writes (dst x) = a.writes (dst x) + 1) ∧
      (∀ ix, ix ∉ l.map dst → a'.get ix = a.get ix ∧ a'.writes ix = a.writes ix) := by
  induction l generalizing a with
  | nil => exact ⟨a, rfl, rfl, by simp, by simp⟩
  | cons x l ih =>
    simp only [List.map_cons, List.nodup_cons] at hd
    obtain ⟨hx, hd⟩ := hd
    have h1 : a.setComponent (src x) (dst x) = .ok { a with get := Function.update a.get (dst x) (src x), writes := Function.update a.writes (dst x) (a.writes (dst x) + 1) } := by
      rw [Ten.setComponent, if_pos (hin x (by simp))]
    obtain ⟨a', ha, hdim, hget, hout⟩ := ih { a with get := Function.update a.get (dst x) (src x), writes := Function.update a.writes (dst x) (a.writes (dst x) + 1) } hd
      (fun y hy => hin y (by simp [hy]))
    refine ⟨a', ?_, hdim, ?_, ?_⟩
    · rw [List.foldlM_cons, h1]; exact ha
    · intro y hy
      rcases List.mem_cons.1 hy with rfl | hy
      · have := hout (dst y) hx
        simpa using this
      · have hne : dst y ≠ dst x := fun h => hx (h ▸ List.mem_map_of_mem hy)
        have := hget y hy
        simpa [Function.update_of_ne hne] using this
    · intro ix hix
      simp only [List.map_cons, List.mem_cons, not_or] at hix
      have := hout ix hix.2
      simpa [Function.update_of_ne hix.1] using this

/-- Storing an element outside the array stops the loop. -/
theorem foldlM_set_error {ι : Type} (src : ι → Option F) (dst : ι → List ℕ) (l : List ι) (a : Ten F)
    (hout : ∃ x ∈ l, ¬ InBox a.dims (dst x)) :
    l.foldlM (fun a x => a.setComponent (src x) (dst x)) a = .error .outOfRange := by
  induction l generalizing a with
  | nil => simp at hout
  | cons x l ih =>
    rw [List.foldlM_cons]
    by_cases h : InBox a.dims (dst x)
    · rw [Ten.setComponent, if_pos h]
      refine ih _ ?_
      obtain ⟨y, hy, hn⟩ := hout
      rcases List.mem_cons.1 hy with rfl | hy
      · exact absurd h hn
      · exact ⟨y, hy, hn⟩
    · rw [Ten.setComponent, if_neg h]; rfl

theorem shift_inj {bs js js' : List ℕ} (h1 : js.length = bs.length) (h2 : js'.length = bs.length) (h : shift bs js = shift bs js') : js = js' := by
  induction bs generalizing js js' with
  | nil => simp at h1 h2; subst h1; subst h2; rfl
  | cons b bs ih =>
    cases js with
    | nil => simp at h1
    | cons x xs => cases js' with
      | nil => simp at h2
      | cons y ys =>
        simp only [shift, List.zipWith_cons_cons, List.cons.injEq] at h
        simp only [List.length_cons, Nat.add_right_cancel_iff] at h1 h2
        rw [ih h1 h2 h.2]
        congr 1; omega

theorem InBox.length_eq {ds ix : List ℕ} (h : InBox ds ix) : ix.length = ds.length := List.Forall₂.length_eq h

theorem inBox_shift {bs ds ns js : List ℕ} (hf : List.Forall₂ (fun (oe : ℕ × ℕ) n => oe.1 + oe.2 ≤ n) (bs.zip ds) ns) (hl : bs.length = ds.length)
    (hj : InBox ds js) : InBox ns (shift bs js) := by
  induction ds generalizing bs ns js with
  | nil => cases hj; simp at hl; subst hl; cases hf; exact List.Forall₂.nil
  | cons d ds ih =>
    cases bs with
    | nil => simp at hl
    | cons b bs => cases hj with
      | cons h1 h2 => cases hf with
        | cons g1 g2 =>
          refine List.Forall₂.cons ?_ (ih g2 (by simpa using hl) h2)
          simp only at g1 ⊢; omega

theorem pairs_fst {a : Ten F} {bs : List ℕ} (h : bs.length = a.dims.length) :
    ((List.range bs.length).map fun k => (a.dim k, bs.getD k 0)).map Prod.fst = a.dims := by
  rw [List.map_map]
  apply List.ext_getElem
  · simp [h]
  · intro i h1 h2
    simp [Ten.dim, List.getElem?_eq_getElem h2]

theorem pairs_snd {a : Ten F} {bs : List ℕ} : ((List.range bs.length).map fun k => (a.dim k, bs.getD k 0)).map Prod.snd = bs := by
  rw [List.map_map]
  apply List.ext_getElem
  · simp
  · intro i h1 h2
    simp [List.getElem?_eq_getElem h2]

/-- A box that fits. -/
abbrev FitsAt (a block : Ten F) (bs : List ℕ) : Prop := List.Forall₂ (fun (oe : ℕ × ℕ) n => oe.1 + oe.2 ≤ n) (bs.zip block.dims) a.dims

theorem FitsAt.len {a block : Ten F} {bs : List ℕ} (h : FitsAt a block bs) : min bs.length block.dims.length = a.dims.length := by
  have := List.Forall₂.length_eq h
  simpa using this

theorem setSlice_ok {a block : Ten F} {bs : List ℕ} (hl : bs.length = block.dims.length) (h : FitsAt a block bs) :
    ∃ a', setSlice a block bs = .ok a' ∧ a'.dims = a.dims ∧
      (∀ js, InBox block.dims js → a'.get (shift bs js) = block.get js ∧ a'.writes (shift bs js) = a.writes (shift bs js) + 1) ∧
      (∀ ix, (∀ js, InBox block.dims js → ix ≠ shift bs js) → a'.get ix = a.get ix ∧ a'.writes ix = a.writes ix) := by
  have hlen := h.len
  rw [setSlice, if_neg (by omega), assign_eq, pairs_fst hl, pairs_snd]
  simp only [List.nil_append]
  obtain ⟨a', h1, h2, h3, h4⟩ := foldlM_set_ok (fun js => block.get js) (fun js => shift bs js) (boxList block.dims) a
    (by
      refine List.Nodup.map_on ?_ (nodup_boxList _)
      intro x hx y hy hxy
      exact shift_inj ((mem_boxList.1 hx).length_eq.trans hl.symm) ((mem_boxList.1 hy).length_eq.trans hl.symm) hxy)
    (fun js hjs => inBox_shift h hl (mem_boxList.1 hjs))
  refine ⟨a', h1, h2, fun js hjs => h3 js (mem_boxList.2 hjs), fun ix hix => h4 ix ?_⟩
  intro hm
  obtain ⟨js, hjs, rfl⟩ := List.mem_map.1 hm
  exact hix js (mem_boxList.1 hjs) rfl

theorem setSlice_error {a block : Ten F} {bs : List ℕ} (hl : bs.length = block.dims.length) (hla : a.dims.length = bs.length)
    (h : ∃ js, InBox block.dims js ∧ ¬ InBox a.dims (shift bs js)) : setSlice a block bs = .error .outOfRange := by
  rw [setSlice, if_neg (by omega), assign_eq, pairs_fst hl, pairs_snd]
  simp only [List.nil_append]
  obtain ⟨js, h1, h2⟩ := h
  exact foldlM_set_error _ _ _ _ ⟨js, mem_boxList.2 h1, h2⟩

/-! ### `get_slice` -/

theorem mapM_range_ok {f : ℕ → Except Err ℕ} {g : ℕ → ℕ} (n : ℕ) (h : ∀ k < n, f k = .ok (g k)) :
    (List.range n).mapM f = .ok ((List.range n).map g) := by
  have : ∀ l : List ℕ, (∀ k ∈ l, f k = .ok (g k)) → l.mapM f = .ok (l.map g) := by
    intro l
    induction l with
    | nil => intro _; rfl
    | cons x l ih =>
      intro hl
      rw [List.mapM_cons, hl x (by simp), ih (fun k hk => hl k (by simp [hk]))]
      rfl
  exact this _ (fun k hk => h k (List.mem_range.1 hk))

theorem blockLimit_mem {k d : ℕ} {ixs ls : List ℕ} (hn : ixs.Nodup) (hl : ixs.length = ls.length) {q : ℕ} (hq : q < ixs.length)
    (hk : ixs[q] = k) : blockLimit k d ixs ls = .ok (ls[q]'(hl ▸ hq)) := by
  induction ixs generalizing ls q with
  | nil => simp at hq
  | cons x xs ih =>
    cases ls with
    | nil => simp at hl
    | cons l ls =>
      rw [List.nodup_cons] at hn
      cases q with
      | zero =>
        simp only [List.getElem_cons_zero] at hk
        subst hk
        rw [blockLimit, if_pos rfl, if_neg hn.1]
        rfl
      | succ q =>
        simp only [List.getElem_cons_succ] at hk
        have hxs : k ∈ xs := hk ▸ List.getElem_mem _
        have hne : k ≠ x := fun h => hn.1 (h ▸ hxs)
        rw [blockLimit, if_neg hne, ih hn.2 (by simpa using hl) (by simpa using hq) hk]
        rfl

theorem blockLimit_not_mem {k d : ℕ} {ixs ls : List ℕ} (h : k ∉ ixs) : blockLimit k d ixs ls = .ok d := by
  induction ixs generalizing ls with
  | nil => rfl
  | cons x xs ih =>
    cases ls with
    | nil => rfl
    | cons l ls =>
      simp only [List.mem_cons, not_or] at h
      rw [blockLimit, if_neg h.1, ih h.2]

theorem mapM_blockLimit {rank : ℕ} {indices vals full : List ℕ} {dflt : ℕ → ℕ} (hn : indices.Nodup) (hl : indices.length = vals.length)
    (h : Expands rank indices vals dflt full) : (List.range rank).mapM (fun k => blockLimit k (dflt k) indices vals) = .ok full := by
  rw [mapM_range_ok rank (g := fun k => full.getD k 0)]
  · congr 1
    apply List.ext_getElem
    · simp [h.len]
    · intro i h1 h2
      simp [List.getElem?_eq_getElem h2]
  · intro k hk
    by_cases hm : k ∈ indices
    · obtain ⟨q, hq, rfl⟩ := List.getElem_of_mem hm
      rw [blockLimit_mem hn hl hq rfl]
      have := h.given q hq
      rw [List.getD_eq_getElem _ _ hq, List.getD_eq_getElem vals _ (hl ▸ hq)] at this
      rw [this]
    · rw [blockLimit_not_mem hm, h.other k hk hm]

theorem libSlice_ok {a : Ten F} {offs exts : List ℕ} (h : List.Forall₂ (fun (oe : ℕ × ℕ) n => oe.1 + oe.2 ≤ n) (offs.zip exts) a.dims) :
    libSlice a offs exts = .ok ⟨exts, fun ix => a.get (shift offs ix), fun _ => 1⟩ := by
  rw [libSlice, if_pos h]

theorem describeFirst_eq {dims : List ℕ} (k : ℕ) (h : ∀ i, k ≤ i → i < dims.length → dims.getD i 1 = 1) :
    dims.take k ++ List.replicate (dims.length - k) 1 = dims := by
  apply List.ext_getElem
  · simp; omega
  · intro i h1 h2
    by_cases hi : i < k
    · rw [List.getElem_append_left (by simp; omega)]
      simp
    · rw [List.getElem_append_right (by simp; omega)]
      have := h i (by omega) h2
      rw [List.getD_eq_getElem _ _ h2] at this
      simp [this]

/-- With offsets and extents for every index. -/
theorem getSlice_whole {a : Ten F} (static : Bool) {indices offsets extents offs exts : List ℕ} (hi : indices ≠ []) (hn : indices.Nodup)
    (hlo : indices.length = offsets.length) (hle : indices.length = extents.length)
    (ho : Expands a.dims.length indices offsets (fun _ => 0) offs) (he : Expands a.dims.length indices extents a.dim exts) :
    getSlice static indices a offsets extents = getSliceImpl static a offs exts offsets.length := by
  have h0 : offsets ≠ [] := by
    intro h; rw [h] at hlo; exact hi (List.length_eq_zero_iff.1 hlo)
  rw [getSlice, if_neg h0, if_neg hi]
  have e1 := mapM_blockLimit hn hlo ho
  have e2 := mapM_blockLimit hn hle he
  simp only [e1, e2, bind, Except.bind]

theorem getSliceImpl_ok {a : Ten F} (static : Bool) {offs exts : List ℕ} {k : ℕ}
    (hfit : List.Forall₂ (fun (oe : ℕ × ℕ) n => oe.1 + oe.2 ≤ n) (offs.zip exts) a.dims)
    (h1 : ∀ i, k ≤ i → i < exts.length → exts.getD i 1 = 1) :
    getSliceImpl static a offs exts k = .ok ⟨exts, fun ix => a.get (shift offs ix), fun _ => 1⟩ := by
  rw [getSliceImpl, libSlice_ok hfit]
  have : (Ten.describeFirst (⟨exts, fun ix => a.get (shift offs ix), fun _ => 1⟩ : Ten F) k) = ⟨exts, fun ix => a.get (shift offs ix), fun _ => 1⟩ := by
    rw [Ten.describeFirst]
    simp only [describeFirst_eq k h1]
  show (if static = true ∧ (Ten.describeFirst (⟨exts, _, _⟩ : Ten F) k).dims ≠ exts then _ else _) = _
  rw [this, if_neg (by simp)]

end OpenKalman.Slices
