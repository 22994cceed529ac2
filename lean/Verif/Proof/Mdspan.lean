import Verif.Model.Mdspan
import Mathlib.Data.List.Basic
import Mathlib.Data.List.GetD
import Mathlib.Data.List.Chain
import Mathlib.Data.Nat.ModEq
import Mathlib.Data.Fintype.EquivFin
import Mathlib.Data.Fintype.Basic
import Mathlib.Algebra.BigOperators.Group.List.Lemmas
import Mathlib.Tactic.Ring
import Mathlib.Tactic.Linarith

/-! # Lemmas about extents, layouts and slices -/

namespace OpenKalman.Mdspan

/-! ## Extents -/

theorem staticGet_lt : ∀ (l : List (Option ℕ)) (r : ℕ) (h : r < l.length), staticGet l r = l[r]
  | [], r, h => by simp at h
  | [x], 0, _ => by simp [staticGet]
  | [x], r + 1, h => by simp at h
  | x :: y :: l, 0, _ => by simp [staticGet]
  | x :: y :: l, r + 1, h => by
    rw [staticGet]
    have h' : r < (y :: l).length := by simpa using h
    rw [staticGet_lt (y :: l) r h']
    simp

theorem scan_eq : ∀ (l : List ℕ) (R r : ℕ), R ≤ r → r < R + l.length →
    scan R l r = (l.take (r - R)).sum
  | [], R, r, h, h' => by simp at h'; omega
  | [v], R, r, h, h' => by
    have : r = R := by simp at h'; omega
    subst this
    simp [scan]
  | v :: w :: l, R, r, h, h' => by
    rw [scan]
    split
    · rename_i hlt
      rw [scan_eq (w :: l) (R + 1) r (by omega) (by simp at h' ⊢; omega)]
      obtain ⟨k, hk⟩ : ∃ k, r - R = k + 1 := ⟨r - R - 1, by omega⟩
      have hk' : r - (R + 1) = k := by omega
      rw [hk, hk', List.take_succ_cons, List.sum_cons]
    · have : r = R := by omega
      subst this
      simp

theorem openPlace_eq (l : List (Option ℕ)) (r : ℕ) (h : r < l.length) :
    openPlace l r = openCount (l.take r) := by
  unfold openPlace openCount openFlags
  rw [scan_eq _ _ _ (by omega) (by simpa using h)]
  simp [List.map_take]

theorem openCount_cons_none (l : List (Option ℕ)) : openCount (none :: l) = openCount l + 1 := by
  simp [openCount, openFlags, Nat.add_comm]

theorem openCount_cons_some (v : ℕ) (l : List (Option ℕ)) :
    openCount (some v :: l) = openCount l := by
  simp [openCount, openFlags]

theorem openCount_append (a b : List (Option ℕ)) :
    openCount (a ++ b) = openCount a + openCount b := by
  simp [openCount, openFlags]

theorem openCount_le : ∀ l : List (Option ℕ), openCount l ≤ l.length
  | [] => by simp [openCount, openFlags]
  | none :: l => by rw [openCount_cons_none]; simpa using openCount_le l
  | some v :: l => by
    rw [openCount_cons_some]; have := openCount_le l; simp; omega

theorem openExtents_length : ∀ (l : List (Option ℕ)) (shape : List ℕ), Agrees l shape →
    (openExtents l shape).length = openCount l
  | _, _, .nil => by simp [openExtents, openCount, openFlags]
  | none :: l, n :: ns, .cons _ h => by
    rw [openExtents, openCount_cons_none, List.length_cons, openExtents_length l ns h]
  | some v :: l, n :: ns, .cons _ h => by
    rw [openExtents, openCount_cons_some, openExtents_length l ns h]

/-- The value of an open extent is where the count of the open extents before it says. -/
theorem openExtents_get : ∀ (l : List (Option ℕ)) (shape : List ℕ), Agrees l shape →
    ∀ r (h : r < l.length), l[r] = none →
      (openExtents l shape).getD (openCount (l.take r)) 0 = shape.getD r 0
  | _, _, .nil, r, h, _ => by simp at h
  | none :: l, n :: ns, .cons _ _, 0, _, _ => by simp [openExtents, openCount, openFlags]
  | some v :: l, n :: ns, .cons _ _, 0, _, h0 => by simp at h0
  | none :: l, n :: ns, .cons _ h, r + 1, hr, h0 => by
    have hr' : r < l.length := by simpa using hr
    have := openExtents_get l ns h r hr' (by simpa using h0)
    rw [openExtents, List.take_succ_cons, openCount_cons_none, List.getD_cons_succ,
      List.getD_cons_succ, this]
  | some v :: l, n :: ns, .cons _ h, r + 1, hr, h0 => by
    have hr' : r < l.length := by simpa using hr
    have := openExtents_get l ns h r hr' (by simpa using h0)
    rw [openExtents, List.take_succ_cons, openCount_cons_some, List.getD_cons_succ, this]

theorem agrees_fixed (l : List (Option ℕ)) (shape : List ℕ) (hA : Agrees l shape) (r v : ℕ)
    (h : r < l.length) (hv : l[r] = some v) : shape.getD r 0 = v := by
  have hlen := hA.length_eq
  have := (List.forall₂_iff_get.mp hA).2 r h (by omega) v (by simpa using hv)
  rw [List.getD_eq_getElem _ _ (by omega)]
  simpa using this

/-- Extents whose stored values are the open ones of a shape have that shape. -/
theorem extent_of_open (l : List (Option ℕ)) (shape : List ℕ) (hA : Agrees l shape) (e : Ext)
    (hs : e.statics = l) (hd : e.dyn = openExtents l shape) (r : ℕ) (h : r < l.length) :
    e.extent r = shape.getD r 0 := by
  unfold Ext.extent
  rw [hs, hd, staticGet_lt l r h]
  cases hl : l[r] with
  | none => simp only []; rw [openPlace_eq l r h]; exact openExtents_get l shape hA r h hl
  | some v => exact (agrees_fixed l shape hA r v h hl).symm

theorem shape_of_open (l : List (Option ℕ)) (shape : List ℕ) (hA : Agrees l shape) (e : Ext)
    (hs : e.statics = l) (hd : e.dyn = openExtents l shape) : e.shape = shape := by
  have hlen := hA.length_eq
  apply List.ext_getElem
  · simp [Ext.shape, Ext.rank, hs, hlen]
  · intro r h1 h2
    simp only [Ext.shape, List.getElem_map, List.getElem_range]
    rw [extent_of_open l shape hA e hs hd r (by omega), List.getD_eq_getElem _ _ h2]

theorem map_mod_self (M : ℕ) (l : List ℕ) (h : ∀ x ∈ l, x < M) : l.map (· % M) = l := by
  conv_rhs => rw [← List.map_id l]
  apply List.map_congr_left
  intro x hx
  simpa using Nat.mod_eq_of_lt (h x hx)

theorem openExtents_mem : ∀ (l : List (Option ℕ)) (shape : List ℕ) (x : ℕ),
    x ∈ openExtents l shape → x ∈ shape
  | [], _, x, h => by simp [openExtents] at h
  | none :: l, [], x, h => by simp [openExtents] at h
  | some v :: l, [], x, h => by simp [openExtents] at h
  | none :: l, n :: ns, x, h => by
    rw [openExtents] at h
    rcases List.mem_cons.mp h with rfl | h
    · simp
    · exact List.mem_cons_of_mem _ (openExtents_mem l ns x h)
  | some v :: l, n :: ns, x, h => by
    rw [openExtents] at h
    exact List.mem_cons_of_mem _ (openExtents_mem l ns x h)

/-- The loop over the first `k` ranks has filled in the open extents among them. -/
theorem fillAll_prefix (M : ℕ) (l : List (Option ℕ)) (shape : List ℕ) (hA : Agrees l shape)
    (hM : ∀ x ∈ shape, x < M) : ∀ k, k ≤ l.length →
    (List.range k).foldl
      (fun dyn r =>
        if (staticGet l r).isNone then dyn.set (openPlace l r) (shape.getD r 0 % M) else dyn)
      (List.replicate (openCount l) 0) =
    (openExtents l shape).take (openCount (l.take k)) ++
      List.replicate (openCount l - openCount (l.take k)) 0
  | 0, _ => by simp [openCount, openFlags]
  | k + 1, hk => by
    have hk' : k < l.length := by omega
    rw [List.range_succ, List.foldl_append, fillAll_prefix M l shape hA hM k (by omega)]
    simp only [List.foldl_cons, List.foldl_nil]
    rw [staticGet_lt l k hk']
    have htake : l.take (k + 1) = l.take k ++ [l[k]] := (List.take_append_getElem hk').symm
    have hcnt : openCount (l.take (k + 1)) =
        openCount (l.take k) + if l[k].isNone then 1 else 0 := by
      rw [htake, openCount_append]
      cases l[k] with
      | none => rw [openCount_cons_none]; simp [openCount, openFlags]
      | some v => rw [openCount_cons_some]; simp [openCount, openFlags]
    have hsum : openCount (l.take (k + 1)) ≤ openCount l := by
      conv_rhs => rw [← List.take_append_drop (k + 1) l]
      rw [openCount_append]
      omega
    cases hl : l[k] with
    | some v =>
      have : openCount (l.take (k + 1)) = openCount (l.take k) := by rw [hcnt, hl]; simp
      simp [this]
    | none =>
      have h1 : openCount (l.take (k + 1)) = openCount (l.take k) + 1 := by rw [hcnt, hl]; simp
      have hlen := openExtents_length l shape hA
      have hget := openExtents_get l shape hA k hk' hl
      have hlt : openCount (l.take k) < (openExtents l shape).length := by omega
      rw [List.getD_eq_getElem _ _ hlt] at hget
      have hmem : shape.getD k 0 < M := by
        rw [← hget]
        exact hM _ (openExtents_mem l shape _ (List.getElem_mem hlt))
      simp only [Option.isNone_none, if_true]
      rw [openPlace_eq l k hk', Nat.mod_eq_of_lt hmem, h1]
      have hrep : List.replicate (openCount l - openCount (l.take k)) 0 =
          0 :: List.replicate (openCount l - (openCount (l.take k) + 1)) 0 := by
        rw [← List.replicate_succ]; congr 1; omega
      rw [hrep]
      have hl' : ((openExtents l shape).take (openCount (l.take k))).length =
          openCount (l.take k) := by rw [List.length_take]; omega
      rw [List.set_append_right _ _ (by omega)]
      rw [hl', Nat.sub_self, List.set_cons_zero, ← hget, ← List.take_append_getElem hlt,
        List.append_assoc]
      rfl

theorem fillAll_eq (M : ℕ) (l : List (Option ℕ)) (shape : List ℕ) (hA : Agrees l shape)
    (hM : ∀ x ∈ shape, x < M) : fillAll M l shape = openExtents l shape := by
  unfold fillAll
  rw [fillAll_prefix M l shape hA hM l.length le_rfl, List.take_length, Nat.sub_self,
    ← openExtents_length l shape hA]
  simp

theorem openExtents_nil (l : List (Option ℕ)) (shape : List ℕ) (hA : Agrees l shape)
    (h : openCount l = 0) : openExtents l shape = [] := by
  rw [← List.length_eq_zero_iff, openExtents_length l shape hA, h]

theorem openExtents_all : ∀ (l : List (Option ℕ)) (shape : List ℕ), Agrees l shape →
    openCount l = l.length → openExtents l shape = shape
  | _, _, .nil, _ => by simp [openExtents]
  | none :: l, n :: ns, .cons _ h, hc => by
    rw [openCount_cons_none, List.length_cons] at hc
    rw [openExtents, openExtents_all l ns h (by omega)]
  | some v :: l, n :: ns, .cons _ h, hc => by
    rw [openCount_cons_some, List.length_cons] at hc
    have := openCount_le l
    omega

/-- Construction from all extents or from the open ones alone. -/
theorem construct_eq (M : ℕ) (l : List (Option ℕ)) (shape vals : List ℕ) (hA : Agrees l shape)
    (hM : ∀ x ∈ shape, x < M) (hv : vals = shape ∨ vals = openExtents l shape) :
    construct M l vals = some ⟨l, openExtents l shape⟩ := by
  have hlen := hA.length_eq
  have hol := openExtents_length l shape hA
  unfold construct
  have hc : vals.length = l.length ∨ vals.length = openCount l := by
    rcases hv with rfl | rfl
    · left; omega
    · right; exact hol
  rw [if_pos hc]
  split
  · rename_i h0
    rw [openExtents_nil l shape hA h0]
  · split
    · rename_i h1
      congr 2
      have : vals = openExtents l shape := by
        rcases hv with rfl | h
        · exact (openExtents_all l _ hA (by omega)).symm
        · exact h
      rw [this]
      exact map_mod_self M _ fun x hx => hM x (openExtents_mem l shape x hx)
    · rename_i h1
      rcases hv with rfl | rfl
      · rw [fillAll_eq M l _ hA hM]
      · exact absurd hol h1

/-- Construction in which the values handed over are wrong for fixed extents: they are dropped. -/
theorem construct_dropped (M : ℕ) (l : List (Option ℕ)) (shape vals : List ℕ) (hA : Agrees l shape)
    (hM : ∀ x ∈ shape, x < M) (hlen : vals.length = l.length)
    (hv : ∀ r (h : r < l.length), l[r] = none → vals.getD r 0 % M = shape.getD r 0) :
    construct M l vals = some ⟨l, openExtents l shape⟩ := by
  have hlen' := hA.length_eq
  unfold construct
  rw [if_pos (Or.inl hlen)]
  split
  · rename_i h0
    rw [openExtents_nil l shape hA h0]
  · split
    · rename_i h1
      have hall : openCount l = l.length := by omega
      have hnone : ∀ r (h : r < l.length), l[r] = none := by
        intro r h
        by_contra hne
        obtain ⟨v, hv⟩ := Option.ne_none_iff_exists'.mp hne
        have : openCount l < l.length := by
          have hsplit : l = l.take r ++ some v :: l.drop (r + 1) := by
            rw [← hv, List.getElem_cons_drop, List.take_append_drop]
          have h2 := openCount_le (l.take r)
          have h3 := openCount_le (l.drop (r + 1))
          have : openCount l = openCount (l.take r) + openCount (l.drop (r + 1)) := by
            conv_lhs => rw [hsplit]
            simp [openCount, openFlags]
          simp at h2 h3
          omega
        omega
      rw [openExtents_all l shape hA hall]
      congr 2
      apply List.ext_getElem
      · simp; omega
      · intro r h2 h3
        have h4 : r < l.length := by omega
        have := hv r h4 (hnone r h4)
        rw [List.getElem_map]
        rw [List.getD_eq_getElem _ _ (by omega), List.getD_eq_getElem _ _ h3] at this
        exact this
    · have : fillAll M l vals = fillAll M l shape := by
        unfold fillAll
        apply List.foldl_ext
        intro dyn r hr
        have hr' : r < l.length := by simpa using hr
        rw [staticGet_lt l r hr']
        cases hl : l[r] with
        | some v => simp
        | none =>
          have h5 := hv r hr' hl
          simp only [Option.isNone_none, if_true]
          rw [h5, Nat.mod_eq_of_lt]
          rw [List.getD_eq_getElem _ _ (by omega)]
          exact hM _ (List.getElem_mem _)
      rw [this, fillAll_eq M l shape hA hM]

theorem collectOpen_eq (M : ℕ) (other : Ext) : ∀ (l : List (Option ℕ)) (ns : List ℕ) (k : ℕ),
    Agrees l ns → (∀ r, r < l.length → other.extent (k + r) = ns.getD r 0) → (∀ x ∈ ns, x < M) →
    collectOpen M other k l = openExtents l ns
  | _, _, _, .nil, _, _ => by simp [collectOpen, openExtents]
  | none :: l, n :: ns, k, .cons _ h, ho, hM => by
    have h0 := ho 0 (by simp)
    simp only [Nat.add_zero, List.getD_cons_zero] at h0
    rw [collectOpen, openExtents, h0, Nat.mod_eq_of_lt (hM n (by simp)),
      collectOpen_eq M other l ns (k + 1) h
        (fun r hr => by
          have := ho (r + 1) (by simpa using hr)
          rw [List.getD_cons_succ] at this
          rw [← this]; congr 1; omega)
        (fun x hx => hM x (List.mem_cons_of_mem _ hx))]
  | some v :: l, n :: ns, k, .cons _ h, ho, hM => by
    rw [collectOpen, openExtents,
      collectOpen_eq M other l ns (k + 1) h
        (fun r hr => by
          have := ho (r + 1) (by simpa using hr)
          rw [List.getD_cons_succ] at this
          rw [← this]; congr 1; omega)
        (fun x hx => hM x (List.mem_cons_of_mem _ hx))]

theorem foldl_and {α : Type} (p : α → Bool) : ∀ (l : List α) (b : Bool),
    l.foldl (fun v r => v && p r) b = (b && l.all p)
  | [], b => by simp
  | x :: l, b => by simp [foldl_and p l, Bool.and_assoc]

theorem equal_iff (a b : Ext) (h : a.rank = b.rank) : a.equal b = true ↔ a.shape = b.shape := by
  unfold Ext.equal Ext.shape
  rw [foldl_and, Bool.true_and, h, List.all_eq_true]
  constructor
  · intro hall
    apply List.map_congr_left
    intro r hr
    have := hall r hr
    simp only [beq_iff_eq] at this
    exact this.symm
  · intro hmap r hr
    have := List.map_inj_left.mp hmap r hr
    simp [this]

theorem shape_length (e : Ext) : e.shape.length = e.rank := by simp [Ext.shape]

theorem shape_getD (e : Ext) (r : ℕ) (h : r < e.rank) : e.shape.getD r 0 = e.extent r := by
  rw [List.getD_eq_getElem _ _ (by rw [shape_length]; exact h)]
  simp [Ext.shape]

/-! ## Positions without overflow -/

/-- The column-major position, over the natural numbers. -/
def leftPos : List ℕ → List ℕ → ℕ
  | e :: es, i :: is => leftPos es is * e + i
  | _, _ => 0

/-- The row-major position, over the natural numbers. -/
def rightPos : List ℕ → List ℕ → ℕ
  | _ :: es, i :: is => i * es.prod + rightPos es is
  | _, _ => 0

theorem leftPos_lt : ∀ {shape idx : List ℕ}, InBounds shape idx → leftPos shape idx < shape.prod
  | _, _, .nil => by simp [leftPos]
  | e :: es, i :: is, .cons h hs => by
    have := leftPos_lt hs
    rw [leftPos, List.prod_cons]
    calc leftPos es is * e + i < leftPos es is * e + e := by omega
      _ = (leftPos es is + 1) * e := by ring
      _ ≤ es.prod * e := Nat.mul_le_mul_right _ this
      _ = e * es.prod := Nat.mul_comm _ _

theorem leftPos_inj : ∀ {shape i j : List ℕ}, InBounds shape i → InBounds shape j →
    leftPos shape i = leftPos shape j → i = j
  | _, _, _, .nil, .nil, _ => rfl
  | e :: es, i :: is, j :: js, .cons h hs, .cons h' hs', heq => by
    rw [leftPos, leftPos] at heq
    have hmod : i = j := by
      have := congrArg (· % e) heq
      simpa [Nat.mul_add_mod', Nat.mod_eq_of_lt h, Nat.mod_eq_of_lt h'] using this
    subst hmod
    have he : 0 < e := by omega
    have : leftPos es is = leftPos es js :=
      Nat.eq_of_mul_eq_mul_right he (by omega)
    rw [leftPos_inj hs hs' this]

theorem leftPos_surj : ∀ (shape : List ℕ) (p : ℕ), p < shape.prod →
    ∃ i, InBounds shape i ∧ leftPos shape i = p
  | [], p, h => ⟨[], .nil, by simp [leftPos] at h ⊢; omega⟩
  | e :: es, p, h => by
    rw [List.prod_cons] at h
    have he : 0 < e := by
      rcases Nat.eq_zero_or_pos e with rfl | h'
      · simp at h
      · exact h'
    obtain ⟨is, hin, hp⟩ := leftPos_surj es (p / e) (Nat.div_lt_of_lt_mul h)
    refine ⟨p % e :: is, .cons (Nat.mod_lt _ he) hin, ?_⟩
    rw [leftPos, hp]
    exact Nat.div_add_mod' p e

theorem rightPos_lt : ∀ {shape idx : List ℕ}, InBounds shape idx → rightPos shape idx < shape.prod
  | _, _, .nil => by simp [rightPos]
  | e :: es, i :: is, .cons h hs => by
    have := rightPos_lt hs
    rw [rightPos, List.prod_cons]
    calc i * es.prod + rightPos es is < i * es.prod + es.prod := by omega
      _ = (i + 1) * es.prod := by ring
      _ ≤ e * es.prod := Nat.mul_le_mul_right _ h

theorem rightPos_inj : ∀ {shape i j : List ℕ}, InBounds shape i → InBounds shape j →
    rightPos shape i = rightPos shape j → i = j
  | _, _, _, .nil, .nil, _ => rfl
  | e :: es, i :: is, j :: js, .cons h hs, .cons h' hs', heq => by
    rw [rightPos, rightPos] at heq
    have h1 := rightPos_lt hs
    have h2 := rightPos_lt hs'
    have hmod : rightPos es is = rightPos es js := by
      have := congrArg (· % es.prod) heq
      simpa [Nat.mul_add_mod', Nat.mod_eq_of_lt h1, Nat.mod_eq_of_lt h2] using this
    have hij : i = j := Nat.eq_of_mul_eq_mul_right (by omega : 0 < es.prod) (by omega)
    rw [hij, rightPos_inj hs hs' hmod]

theorem rightPos_surj : ∀ (shape : List ℕ) (p : ℕ), p < shape.prod →
    ∃ i, InBounds shape i ∧ rightPos shape i = p
  | [], p, h => ⟨[], .nil, by simp [rightPos] at h ⊢; omega⟩
  | e :: es, p, h => by
    rw [List.prod_cons] at h
    have he : 0 < es.prod := by
      rcases Nat.eq_zero_or_pos es.prod with h' | h'
      · rw [h'] at h; simp at h
      · exact h'
    obtain ⟨is, hin, hp⟩ := rightPos_surj es (p % es.prod) (Nat.mod_lt _ he)
    refine ⟨p / es.prod :: is, .cons (Nat.div_lt_of_lt_mul (by rwa [Nat.mul_comm] at h)) hin, ?_⟩
    rw [rightPos, hp]
    exact Nat.div_add_mod' p es.prod

/-! ## What is computed -/

theorem leftOffset_eq (M : ℕ) : ∀ shape idx : List ℕ, shape.length = idx.length →
    leftOffset M shape (idx.map (· % M)) = leftPos shape idx % M
  | [], [], _ => by simp [leftOffset, leftPos]
  | [e], [i], _ => by simp [leftOffset, leftPos]
  | e :: e' :: es, i :: i' :: is, h => by
    have ih := leftOffset_eq M (e' :: es) (i' :: is) (by simpa using h)
    rw [List.map_cons] at ih ⊢
    rw [List.map_cons, leftOffset, ih]
    · conv_rhs => rw [leftPos]
      conv_lhs => rw [Nat.add_mod, Nat.mul_mod, Nat.mod_mod, Nat.mod_mod]
      conv_rhs => rw [Nat.add_mod, Nat.mul_mod]
    · simp

theorem rightOffsetFrom_eq (M : ℕ) : ∀ (shape idx : List ℕ) (off : ℕ), shape.length = idx.length →
    rightOffsetFrom M (off % M) shape (idx.map (· % M)) =
      (off * shape.prod + rightPos shape idx) % M
  | [], [], off, _ => by simp [rightOffsetFrom, rightPos]
  | e :: es, i :: is, off, h => by
    have ih := rightOffsetFrom_eq M es is (off * e + i) (by simpa using h)
    rw [List.map_cons, rightOffsetFrom, rightPos, List.prod_cons]
    have : ((off % M) * e + i % M) % M = (off * e + i) % M := by simp [Nat.add_mod, Nat.mul_mod]
    rw [this, ih]
    congr 1
    ring

theorem rightOffset_eq (M : ℕ) : ∀ shape idx : List ℕ, shape.length = idx.length →
    rightOffset M shape (idx.map (· % M)) = rightPos shape idx % M
  | [], [], _ => by simp [rightOffset, rightPos]
  | e :: es, i :: is, h => by
    rw [List.map_cons, rightOffset, rightOffsetFrom_eq M es is i (by simpa using h), rightPos]

theorem productLoop_eq (M : ℕ) (l : List ℕ) : productLoop M l = l.prod % M := by
  have : ∀ (l : List ℕ) (a : ℕ), l.foldl (fun v e => v * e % M) (a % M) = (a * l.prod) % M := by
    intro l
    induction l with
    | nil => intro a; simp
    | cons x l ih =>
      intro a
      rw [List.foldl_cons]
      have : (a % M) * x % M = (a * x) % M := by simp [Nat.mul_mod]
      rw [this, ih, List.prod_cons, Nat.mul_assoc]
  simpa [productLoop] using this l 1

theorem foldr_prod_eq (M : ℕ) (l : List ℕ) :
    l.foldr (fun a b => a * b % M) (1 % M) = l.prod % M := by
  induction l with
  | nil => simp
  | cons x l ih => rw [List.foldr_cons, ih, List.prod_cons]; simp [Nat.mul_mod]

theorem strideOffset_eq (M : ℕ) : ∀ (strides idx : List ℕ),
    strideOffset M strides (idx.map (· % M)) = weigh idx strides % M := by
  intro strides idx
  unfold strideOffset weigh
  induction idx generalizing strides with
  | nil => simp
  | cons i is ih =>
    cases strides with
    | nil => simp
    | cons s ss =>
      simp only [List.map_cons, List.zipWith_cons_cons, List.foldr_cons, List.sum_cons]
      rw [ih ss]
      simp [Nat.add_mod, Nat.mul_mod]

theorem weigh_cons (i : ℕ) (is : List ℕ) (s : ℕ) (ss : List ℕ) :
    weigh (i :: is) (s :: ss) = i * s + weigh is ss := by simp [weigh]

theorem weigh_nil_left (s : List ℕ) : weigh [] s = 0 := by simp [weigh]

theorem weigh_map_mul (c : ℕ) : ∀ (idx w : List ℕ), weigh idx (w.map (c * ·)) = c * weigh idx w
  | [], w => by simp [weigh]
  | i :: is, [] => by simp [weigh]
  | i :: is, s :: ss => by
    rw [List.map_cons, weigh_cons, weigh_cons, weigh_map_mul c is ss]; ring

theorem columnStrides_cons (e : ℕ) (es : List ℕ) :
    columnStrides (e :: es) = 1 :: (columnStrides es).map (e * ·) := by
  unfold columnStrides
  rw [List.length_cons, List.range_succ_eq_map]
  simp [List.map_map, Function.comp_def]

theorem columnStrides_nil : columnStrides [] = [] := rfl

theorem rowStrides_cons (e : ℕ) (es : List ℕ) :
    rowStrides (e :: es) = es.prod :: rowStrides es := by
  unfold rowStrides
  rw [List.length_cons, List.range_succ_eq_map]
  simp [List.map_map, Function.comp_def]

theorem leftPos_weigh : ∀ (shape idx : List ℕ), shape.length = idx.length →
    leftPos shape idx = weigh idx (columnStrides shape)
  | [], [], _ => by simp [leftPos, weigh]
  | e :: es, i :: is, h => by
    rw [leftPos, columnStrides_cons, weigh_cons, weigh_map_mul,
      leftPos_weigh es is (by simpa using h)]
    ring

theorem rightPos_weigh : ∀ (shape idx : List ℕ), shape.length = idx.length →
    rightPos shape idx = weigh idx (rowStrides shape)
  | [], [], _ => by simp [rightPos, weigh]
  | e :: es, i :: is, h => by
    rw [rightPos, rowStrides_cons, weigh_cons, rightPos_weigh es is (by simpa using h)]

theorem inBounds_length {shape idx : List ℕ} (h : InBounds shape idx) :
    shape.length = idx.length := h.length_eq.symm

/-! ## Strided mappings -/

/-- The greatest position of an index of a shape without zero extents. -/
theorem weigh_le : ∀ {shape idx : List ℕ} (strides : List ℕ), InBounds shape idx →
    weigh idx strides ≤ weigh (shape.map (· - 1)) strides
  | _, _, s, .nil => by simp [weigh]
  | e :: es, i :: is, [], .cons _ _ => by simp [weigh]
  | e :: es, i :: is, s :: ss, .cons h hs => by
    rw [List.map_cons, weigh_cons, weigh_cons]
    have h1 := weigh_le ss hs
    have h2 : i * s ≤ (e - 1) * s := Nat.mul_le_mul_right _ (by omega)
    omega

theorem last_inBounds : ∀ {shape : List ℕ}, (∀ e ∈ shape, e ≠ 0) →
    InBounds shape (shape.map (· - 1))
  | [], _ => .nil
  | e :: es, h => .cons (by have := h e (by simp); show e - 1 < e; omega)
      (last_inBounds fun x hx => h x (List.mem_cons_of_mem _ hx))

theorem inBounds_ne_zero : ∀ {shape idx : List ℕ}, InBounds shape idx → ∀ e ∈ shape, e ≠ 0
  | _, _, .nil, e, he => by simp at he
  | e' :: es, i :: is, .cons h hs, e, he => by
    rcases List.mem_cons.mp he with rfl | he
    · omega
    · exact inBounds_ne_zero hs e he

theorem strideSpanFrom_zero (M : ℕ) : ∀ (shape strides : List ℕ) (acc : ℕ),
    shape.length = strides.length → 0 ∈ shape → strideSpanFrom M acc shape strides = 0
  | [], _, _, _, h => by simp at h
  | e :: es, [], _, hl, _ => by simp at hl
  | e :: es, s :: ss, acc, hl, h => by
    rw [strideSpanFrom]
    split
    · rfl
    · rename_i he
      rcases List.mem_cons.mp h with h | h
      · omega
      · exact strideSpanFrom_zero M es ss _ (by simpa using hl) h

theorem strideSpanFrom_eq (M : ℕ) : ∀ (shape strides : List ℕ) (acc : ℕ),
    shape.length = strides.length → (∀ e ∈ shape, e ≠ 0) →
    strideSpanFrom M (acc % M) shape strides = (acc + weigh (shape.map (· - 1)) strides) % M
  | [], [], acc, _, _ => by simp [strideSpanFrom, weigh]
  | e :: es, s :: ss, acc, hl, h => by
    rw [strideSpanFrom, if_neg (h e (by simp)), List.map_cons, weigh_cons]
    have : (acc % M + (e - 1) * s) % M = (acc + (e - 1) * s) % M := by simp [Nat.add_mod]
    rw [this, strideSpanFrom_eq M es ss _ (by simpa using hl)
      (fun x hx => h x (List.mem_cons_of_mem _ hx)), Nat.add_assoc]

/-- Every sum over ranks can be taken in any order. -/
theorem weigh_sum : ∀ (idx strides : List ℕ), idx.length = strides.length →
    weigh idx strides =
      ((List.range idx.length).map fun r => idx.getD r 0 * strides.getD r 0).sum
  | [], _, _ => by simp [weigh]
  | i :: is, [], h => by simp at h
  | i :: is, s :: ss, h => by
    rw [weigh_cons, weigh_sum is ss (by simpa using h), List.length_cons, List.range_succ_eq_map]
    simp [List.map_map, Function.comp_def]

/-- Sums over ranks in descending order of nested strides: bounded, and they determine the indices. -/
theorem nested_bound (s e i : ℕ → ℕ) : ∀ (k : ℕ) (l : List ℕ),
    (k :: l).IsChain (fun a b => s b * e b ≤ s a) → (∀ r ∈ k :: l, i r < e r) →
    (∀ r ∈ k :: l, 0 < s r) → ((k :: l).map fun r => i r * s r).sum < s k * e k
  | k, [], _, hi, hs => by
    have h1 := hi k (by simp)
    have h2 := hs k (by simp)
    simp only [List.map_cons, List.map_nil, List.sum_cons, List.sum_nil, Nat.add_zero]
    rw [Nat.mul_comm]
    exact Nat.mul_lt_mul_of_pos_left h1 h2
  | k, k' :: l, hc, hi, hs => by
    have hc' := List.isChain_cons_cons.mp hc
    have ih := nested_bound s e i k' l hc'.2 (fun r hr => hi r (List.mem_cons_of_mem _ hr))
      (fun r hr => hs r (List.mem_cons_of_mem _ hr))
    have h1 := hi k (by simp)
    rw [List.map_cons, List.sum_cons]
    calc i k * s k + ((k' :: l).map fun r => i r * s r).sum < i k * s k + s k := by
          have := hc'.1; omega
      _ = s k * (i k + 1) := by ring
      _ ≤ s k * e k := Nat.mul_le_mul_left _ h1

theorem nested_inj (s e i j : ℕ → ℕ) : ∀ (l : List ℕ),
    l.IsChain (fun a b => s b * e b ≤ s a) → (∀ r ∈ l, i r < e r) → (∀ r ∈ l, j r < e r) →
    (∀ r ∈ l, 0 < s r) →
    (l.map fun r => i r * s r).sum = (l.map fun r => j r * s r).sum → ∀ r ∈ l, i r = j r
  | [], _, _, _, _, _, r, hr => by simp at hr
  | k :: l, hc, hi, hj, hs, heq, r, hr => by
    have hsk := hs k (by simp)
    have hi' : ∀ r ∈ l, i r < e r := fun r hr => hi r (List.mem_cons_of_mem _ hr)
    have hj' : ∀ r ∈ l, j r < e r := fun r hr => hj r (List.mem_cons_of_mem _ hr)
    have hs' : ∀ r ∈ l, 0 < s r := fun r hr => hs r (List.mem_cons_of_mem _ hr)
    have hbound : ∀ f : ℕ → ℕ, (∀ r ∈ l, f r < e r) → (l.map fun r => f r * s r).sum < s k := by
      intro f hf
      cases l with
      | nil => simpa using hsk
      | cons k' l' =>
        have hc' := List.isChain_cons_cons.mp hc
        exact lt_of_lt_of_le (nested_bound s e f k' l' hc'.2 hf hs') hc'.1
    rw [List.map_cons, List.map_cons, List.sum_cons, List.sum_cons] at heq
    have h1 := hbound i hi'
    have h2 := hbound j hj'
    have hrest : (l.map fun r => i r * s r).sum = (l.map fun r => j r * s r).sum := by
      have := congrArg (· % s k) heq
      simpa [Nat.mul_add_mod', Nat.mod_eq_of_lt h1, Nat.mod_eq_of_lt h2] using this
    rcases List.mem_cons.mp hr with rfl | hr
    · exact Nat.eq_of_mul_eq_mul_right hsk (by omega)
    · exact nested_inj s e i j l hc.tail hi' hj' hs' hrest r hr

theorem inBounds_getD {shape idx : List ℕ} (h : InBounds shape idx) (r : ℕ)
    (hr : r < shape.length) : idx.getD r 0 < shape.getD r 0 := by
  have hlen := inBounds_length h
  have := (List.forall₂_iff_get.mp h).2 r (by omega) hr
  rw [List.getD_eq_getElem _ _ (by omega), List.getD_eq_getElem _ _ hr]
  simpa using this

theorem nested_unique (shape strides : List ℕ) (hl : shape.length = strides.length)
    (hN : Nested shape strides) : Unique shape fun idx => weigh idx strides := by
  obtain ⟨hpos, order, hperm, hchain⟩ := hN
  intro i j hi hj heq
  have hli := inBounds_length hi
  have hlj := inBounds_length hj
  simp only [] at heq
  rw [weigh_sum i strides (by omega), weigh_sum j strides (by omega), ← hli, ← hlj] at heq
  have hp' : order.reverse.Perm (List.range shape.length) := order.reverse_perm.trans hperm
  rw [← (hp'.map _).sum_eq, ← (hp'.map _).sum_eq] at heq
  have hmem : ∀ r ∈ order.reverse, r < shape.length := fun r hr => by
    simpa using hp'.mem_iff.mp hr
  have hc : order.reverse.IsChain
      fun a b => strides.getD b 0 * shape.getD b 0 ≤ strides.getD a 0 := by
    rw [List.isChain_reverse]; exact hchain
  have key := nested_inj (fun r => strides.getD r 0) (fun r => shape.getD r 0)
    (fun r => i.getD r 0) (fun r => j.getD r 0) order.reverse hc
    (fun r hr => inBounds_getD hi r (hmem r hr)) (fun r hr => inBounds_getD hj r (hmem r hr))
    (fun r hr => by
      rw [List.getD_eq_getElem _ _ (by have := hmem r hr; omega)]
      exact hpos _ (List.getElem_mem _)) heq
  apply List.ext_getElem (by omega)
  intro r h1 h2
  have := key r (hp'.mem_iff.mpr (by simp; omega))
  rwa [List.getD_eq_getElem _ _ h1, List.getD_eq_getElem _ _ h2] at this

/-- A unique mapping into as many positions as there are indices covers them, and one that covers its
positions has as many as there are indices. -/
theorem unique_onto (shape : List ℕ) (pos : List ℕ → ℕ) (n : ℕ) (hU : Unique shape pos)
    (hlt : ∀ i, InBounds shape i → pos i < n) : Onto shape pos n ↔ n = shape.prod := by
  classical
  have hsurj := leftPos_surj shape
  choose g hg using fun p : Fin shape.prod => hsurj p.1 p.2
  let f : Fin shape.prod → Fin n := fun p => ⟨pos (g p), hlt _ (hg p).1⟩
  have hf : Function.Injective f := by
    intro p q hpq
    have h1 : pos (g p) = pos (g q) := congrArg Fin.val hpq
    have h2 := hU _ _ (hg p).1 (hg q).1 h1
    have h3 : leftPos shape (g p) = leftPos shape (g q) := by rw [h2]
    rw [(hg p).2, (hg q).2] at h3
    exact Fin.ext h3
  constructor
  · intro hO
    have hfs : Function.Surjective f := by
      intro p
      obtain ⟨i, hi, hip⟩ := hO p.1 p.2
      refine ⟨⟨leftPos shape i, leftPos_lt hi⟩, ?_⟩
      apply Fin.ext
      have : g ⟨leftPos shape i, leftPos_lt hi⟩ = i :=
        leftPos_inj (hg _).1 hi (hg ⟨leftPos shape i, leftPos_lt hi⟩).2
      show pos (g ⟨leftPos shape i, leftPos_lt hi⟩) = p.1
      rw [this, hip]
    have := Fintype.card_of_bijective (f := f) ⟨hf, hfs⟩
    simpa using this.symm
  · rintro rfl
    have hfs : Function.Surjective f := Finite.injective_iff_surjective.mp hf
    intro p hp
    obtain ⟨q, hq⟩ := hfs ⟨p, hp⟩
    exact ⟨g q, (hg q).1, congrArg Fin.val hq⟩

theorem prod_pos : ∀ {l : List ℕ}, (∀ x ∈ l, x ≠ 0) → 0 < l.prod
  | [], _ => by simp
  | x :: xs, h => by
    rw [List.prod_cons]
    exact Nat.mul_pos (Nat.pos_of_ne_zero (h x (by simp)))
      (prod_pos fun y hy => h y (List.mem_cons_of_mem _ hy))

theorem prod_zero : ∀ {l : List ℕ}, 0 ∈ l → l.prod = 0
  | x :: xs, h => by
    rw [List.prod_cons]
    rcases List.mem_cons.mp h with h | h
    · rw [← h, Nat.zero_mul]
    · rw [prod_zero h, Nat.mul_zero]

theorem fillAll_length (M : ℕ) (statics : List (Option ℕ)) (vals : List ℕ) :
    (fillAll M statics vals).length = openCount statics := by
  unfold fillAll
  have : ∀ (l d : List ℕ), (l.foldl (fun dyn r =>
      if (staticGet statics r).isNone then dyn.set (openPlace statics r) (vals.getD r 0 % M)
      else dyn) d).length = d.length := by
    intro l
    induction l with
    | nil => intro d; rfl
    | cons a l ih =>
      intro d
      rw [List.foldl_cons, ih]
      split <;> simp
  rw [this]
  simp

theorem collectOpen_length (M : ℕ) (o : Ext) : ∀ (r : ℕ) (statics : List (Option ℕ)),
    (collectOpen M o r statics).length = openCount statics
  | _, [] => by simp [collectOpen, openCount, openFlags]
  | r, none :: l => by
    rw [collectOpen, List.length_cons, collectOpen_length M o (r + 1) l, openCount_cons_none]
  | r, some v :: l => by
    rw [collectOpen, collectOpen_length M o (r + 1) l, openCount_cons_some]

theorem openCount_take_lt : ∀ (l : List (Option ℕ)) (r : ℕ) (hr : r < l.length), l[r] = none →
    openCount (l.take r) < openCount l
  | [], r, hr, _ => by simp at hr
  | x :: l, 0, _, h => by
    have hx : x = none := h
    rw [hx, openCount_cons_none]
    simp [openCount, openFlags]
  | none :: l, r + 1, hr, h => by
    rw [List.take_succ_cons, openCount_cons_none, openCount_cons_none]
    have := openCount_take_lt l r (by simpa using hr) h
    omega
  | some v :: l, r + 1, hr, h => by
    rw [List.take_succ_cons, openCount_cons_some, openCount_cons_some]
    exact openCount_take_lt l r (by simpa using hr) h

/-- A unique mapping needs at least as many positions as there are indices. -/
theorem unique_card (shape : List ℕ) (pos : List ℕ → ℕ) (n : ℕ) (hU : Unique shape pos)
    (hlt : ∀ i, InBounds shape i → pos i < n) : shape.prod ≤ n := by
  classical
  have hsurj := leftPos_surj shape
  choose g hg using fun p : Fin shape.prod => hsurj p.1 p.2
  let f : Fin shape.prod → Fin n := fun p => ⟨pos (g p), hlt _ (hg p).1⟩
  have hf : Function.Injective f := by
    intro p q hpq
    have h1 : pos (g p) = pos (g q) := congrArg Fin.val hpq
    have h2 := hU _ _ (hg p).1 (hg q).1 h1
    have h3 : leftPos shape (g p) = leftPos shape (g q) := by rw [h2]
    rw [(hg p).2, (hg q).2] at h3
    exact Fin.ext h3
  simpa using Fintype.card_le_of_injective f hf

theorem weigh_zero : ∀ (n : ℕ) (w : List ℕ), weigh (List.replicate n 0) w = 0
  | 0, w => by simp [weigh]
  | n + 1, [] => by simp [weigh]
  | n + 1, s :: ss => by rw [List.replicate_succ, weigh_cons, weigh_zero n ss]; simp

theorem weigh_unit : ∀ (n : ℕ) (w : List ℕ) (r : ℕ), r < n → w.length = n →
    weigh ((List.replicate n 0).set r 1) w = w.getD r 0
  | 0, _, r, h, _ => by omega
  | n + 1, [], r, _, h => by simp at h
  | n + 1, s :: ss, 0, _, _ => by
    rw [List.replicate_succ, List.set_cons_zero, weigh_cons, weigh_zero]; simp
  | n + 1, s :: ss, r + 1, h, hl => by
    rw [List.replicate_succ, List.set_cons_succ, weigh_cons,
      weigh_unit n ss r (by omega) (by simpa using hl)]
    simp

theorem zero_inBounds : ∀ (shape : List ℕ), (∀ n ∈ shape, 2 ≤ n) →
    InBounds shape (List.replicate shape.length 0)
  | [], _ => .nil
  | n :: ns, h => by
    rw [List.length_cons, List.replicate_succ]
    exact .cons (by have := h n (by simp); omega)
      (zero_inBounds ns fun x hx => h x (List.mem_cons_of_mem _ hx))

theorem unit_inBounds : ∀ (shape : List ℕ), (∀ n ∈ shape, 2 ≤ n) → ∀ r, r < shape.length →
    InBounds shape ((List.replicate shape.length 0).set r 1)
  | [], _, r, h => by simp at h
  | n :: ns, h, 0, _ => by
    rw [List.length_cons, List.replicate_succ, List.set_cons_zero]
    exact .cons (by have := h n (by simp); omega)
      (zero_inBounds ns fun x hx => h x (List.mem_cons_of_mem _ hx))
  | n :: ns, h, r + 1, hr => by
    rw [List.length_cons, List.replicate_succ, List.set_cons_succ]
    exact .cons (by have := h n (by simp); omega)
      (unit_inBounds ns (fun x hx => h x (List.mem_cons_of_mem _ hx)) r (by simpa using hr))

/-! ## Mappings -/

/-- The strides of a mapping, over the natural numbers. -/
def Mapping.weights : Mapping → List ℕ
  | .left e => columnStrides e.shape
  | .right e => rowStrides e.shape
  | .stride _ s => s

theorem columnStrides_length (l : List ℕ) : (columnStrides l).length = l.length := by
  simp [columnStrides]

theorem rowStrides_length (l : List ℕ) : (rowStrides l).length = l.length := by
  simp [rowStrides]

/-- A strided mapping has one stride for each rank. -/
def Mapping.WellFormed : Mapping → Prop
  | .stride e s => s.length = e.rank
  | _ => True

theorem weights_length (m : Mapping) (h : m.WellFormed) : m.weights.length = m.exts.rank := by
  cases m with
  | left e => simp [Mapping.weights, Mapping.exts, columnStrides_length, shape_length]
  | right e => simp [Mapping.weights, Mapping.exts, rowStrides_length, shape_length]
  | stride e s => exact h

theorem offset_eq (M : ℕ) (m : Mapping) (idx : List ℕ) (h : idx.length = m.exts.rank) :
    m.offset M idx = weigh idx m.weights % M := by
  cases m with
  | left e =>
    have hl : e.shape.length = idx.length := by rw [shape_length, h]; rfl
    show leftOffset M e.shape (idx.map (· % M)) = _
    rw [leftOffset_eq M _ _ hl, leftPos_weigh _ _ hl]
    rfl
  | right e =>
    have hl : e.shape.length = idx.length := by rw [shape_length, h]; rfl
    show rightOffset M e.shape (idx.map (· % M)) = _
    rw [rightOffset_eq M _ _ hl, rightPos_weigh _ _ hl]
    rfl
  | stride e s =>
    show strideOffset M s (idx.map (· % M)) = _
    rw [strideOffset_eq]
    rfl

theorem columnStrides_getD (l : List ℕ) (r : ℕ) (h : r < l.length) :
    (columnStrides l).getD r 0 = (l.take r).prod := by
  rw [List.getD_eq_getElem _ _ (by rwa [columnStrides_length])]
  simp [columnStrides]

theorem rowStrides_getD (l : List ℕ) (r : ℕ) (h : r < l.length) :
    (rowStrides l).getD r 0 = (l.drop (r + 1)).prod := by
  rw [List.getD_eq_getElem _ _ (by rwa [rowStrides_length])]
  simp [rowStrides]

theorem strideOf_mod (M : ℕ) (m : Mapping) (r : ℕ) (h : r < m.exts.rank) :
    m.strideOf M r % M = m.weights.getD r 0 % M := by
  cases m with
  | left e =>
    show leftStride M e.shape r % M = (columnStrides e.shape).getD r 0 % M
    rw [columnStrides_getD _ _ (by rw [shape_length]; exact h), leftStride, productLoop_eq,
      Nat.mod_mod]
  | right e =>
    show rightStride M e.shape r % M = (rowStrides e.shape).getD r 0 % M
    rw [rowStrides_getD _ _ (by rw [shape_length]; exact h), rightStride, productLoop_eq,
      Nat.mod_mod, List.prod_reverse]
  | stride e s => rfl

theorem weigh_mod (M : ℕ) : ∀ (idx w : List ℕ), weigh idx (w.map (· % M)) % M = weigh idx w % M
  | [], w => by simp [weigh]
  | i :: is, [] => by simp [weigh]
  | i :: is, s :: ss => by
    rw [List.map_cons, weigh_cons, weigh_cons, Nat.add_mod, weigh_mod M is ss]
    conv_rhs => rw [Nat.add_mod]
    congr 2
    simp [Nat.mul_mod]

/-- Strides that are the same modulo `M` give the same positions. -/
theorem weigh_congr (M : ℕ) (idx v w : List ℕ) (h : v.map (· % M) = w.map (· % M)) :
    weigh idx v % M = weigh idx w % M := by
  rw [← weigh_mod M idx v, h, weigh_mod]

theorem list_eq_of_getD {l : List ℕ} {n : ℕ} {f : ℕ → ℕ} (hl : l.length = n)
    (h : ∀ r, r < n → f r = l.getD r 0) : (List.range n).map f = l := by
  apply List.ext_getElem
  · simp [hl]
  · intro r h1 h2
    have hr : r < n := by simpa using h1
    simp only [List.getElem_map, List.getElem_range]
    rw [h r hr, List.getD_eq_getElem _ _ h2]

theorem toStride_weights (M : ℕ) (m : Mapping) (h : m.WellFormed) :
    (m.toStride M).weights.map (· % M) = m.weights.map (· % M) := by
  show ((List.range m.exts.rank).map fun r => m.strideOf M r % M).map (· % M) = _
  rw [List.map_map]
  apply list_eq_of_getD
  · rw [List.length_map, weights_length m h]
  · intro r hr
    have h' : r < m.weights.length := by rw [weights_length m h]; exact hr
    rw [List.getD_eq_getElem _ _ (by simpa using h'), List.getElem_map, Function.comp,
      strideOf_mod M m r hr, Nat.mod_mod, List.getD_eq_getElem _ _ h']

theorem leftCheck_eq (M : ℕ) : ∀ (shape strides : List ℕ) (c : ℕ), shape.length = strides.length →
    leftCheck M (c % M) shape strides = true →
    strides.map (· % M) = ((columnStrides shape).map (c * ·)).map (· % M)
  | [], [], _, _, _ => by simp [columnStrides]
  | e :: es, s :: ss, c, hl, h => by
    rw [leftCheck] at h
    split at h
    · rename_i hc
      have he : (c % M) * e % M = (c * e) % M := by simp [Nat.mul_mod]
      rw [he] at h
      have ih := leftCheck_eq M es ss (c * e) (by simpa using hl) h
      rw [columnStrides_cons, List.map_cons, List.map_cons, List.map_cons, ih, ← hc]
      simp [List.map_map, Function.comp_def, Nat.mul_assoc]
    · simp at h

theorem leftCheck_from (M : ℕ) : ∀ (shape : List ℕ) (c : ℕ),
    leftCheck M (c % M) shape (((columnStrides shape).map (c * ·)).map (· % M)) = true
  | [], _ => by simp [leftCheck]
  | e :: es, c => by
    rw [columnStrides_cons, List.map_cons, List.map_cons, leftCheck, if_pos (by simp)]
    have he : (c % M) * e % M = (c * e) % M := by simp [Nat.mul_mod]
    rw [he]
    have := leftCheck_from M es (c * e)
    simpa [List.map_map, Function.comp_def, Nat.mul_assoc] using this

theorem leftCheck_column (M : ℕ) (shape : List ℕ) :
    leftCheck M (1 % M) shape ((columnStrides shape).map (· % M)) = true := by
  simpa using leftCheck_from M shape 1

theorem columnStrides_concat (l : List ℕ) (e : ℕ) :
    columnStrides (l ++ [e]) = columnStrides l ++ [l.prod] := by
  unfold columnStrides
  rw [List.length_append, List.length_singleton, List.range_succ, List.map_append]
  simp only [List.map_cons, List.map_nil, List.take_left]
  congr 1
  apply List.map_congr_left
  intro r hr
  have : r < l.length := by simpa using hr
  rw [List.take_append_of_le_length (by omega)]

theorem columnStrides_reverse : ∀ l : List ℕ, columnStrides l.reverse = (rowStrides l).reverse
  | [] => by simp [columnStrides, rowStrides]
  | e :: es => by
    rw [List.reverse_cons, columnStrides_concat, columnStrides_reverse es, rowStrides_cons,
      List.reverse_cons, List.prod_reverse]

/-! ## Slices -/

/-- What a slice keeps. -/
def Slice.part : Slice → Part
  | .index i => .one i
  | .full => .all
  | .range a b => .between a.val b.val
  | .strided o x s => .every o.val x.val s.val

theorem eq_of_mem_iff {a b : List ℕ} (ha : a.Pairwise (· < ·)) (hb : b.Pairwise (· < ·))
    (h : ∀ x, x ∈ a ↔ x ∈ b) : a = b := by
  have hp : a.Perm b :=
    (List.perm_ext_iff_of_nodup (ha.imp fun h => Nat.ne_of_lt h)
      (hb.imp fun h => Nat.ne_of_lt h)).mpr h
  exact hp.eq_of_pairwise (fun x y _ _ hxy hyx => absurd hxy (Nat.lt_asymm hyx)) ha hb

theorem range_sorted (n : ℕ) : (List.range n).Pairwise (· < ·) := List.pairwise_lt_range

theorem kept_between (e a b : ℕ) (h : a ≤ b) (hb : b ≤ e) :
    (Part.between a b).kept e = (List.range (b - a)).map (a + ·) := by
  apply eq_of_mem_iff
  · exact (range_sorted e).filter _
  · rw [List.pairwise_map]
    exact (range_sorted _).imp fun h => by omega
  · intro x
    simp only [Part.kept, List.mem_filter, List.mem_range, decide_eq_true_eq, List.mem_map]
    constructor
    · rintro ⟨_, h1, h2⟩
      exact ⟨x - a, by omega, by omega⟩
    · rintro ⟨y, hy, rfl⟩
      omega

/-- The number of steps in a strided slice. -/
def steps (n s : ℕ) : ℕ := if 0 < n then 1 + (n - 1) / s else 0

theorem lt_steps {n s j : ℕ} (hs : 0 < n → 0 < s) (h : j < steps n s) : j * s < n := by
  unfold steps at h
  split at h
  · rename_i hn
    have h1 : j ≤ (n - 1) / s := by omega
    have h2 : j * s ≤ n - 1 := by
      calc j * s ≤ (n - 1) / s * s := Nat.mul_le_mul_right _ h1
        _ ≤ n - 1 := Nat.div_mul_le_self _ _
    omega
  · omega

theorem kept_every (e a n s : ℕ) (h : a + n ≤ e) (hs : 0 < n → 0 < s) :
    (Part.every a n s).kept e = (List.range (steps n s)).map (fun j => a + j * s) := by
  apply eq_of_mem_iff
  · exact (range_sorted e).filter _
  · rw [List.pairwise_map]
    rcases Nat.eq_zero_or_pos n with rfl | hn
    · simp [steps]
    · exact (range_sorted _).imp fun hlt => by
        have := Nat.mul_lt_mul_of_pos_right hlt (hs hn)
        omega
  · intro x
    simp only [Part.kept, List.mem_filter, List.mem_range, decide_eq_true_eq, List.mem_map]
    constructor
    · rintro ⟨_, h1, h2, h3⟩
      have hn : 0 < n := by omega
      have hd : (x - a) / s * s = x - a := Nat.div_mul_cancel (Nat.dvd_of_mod_eq_zero h3)
      refine ⟨(x - a) / s, ?_, by omega⟩
      unfold steps
      rw [if_pos hn]
      have : (x - a) / s ≤ (n - 1) / s := Nat.div_le_div_right (by omega)
      omega
    · rintro ⟨j, hj, rfl⟩
      have := lt_steps hs hj
      refine ⟨by omega, by omega, by omega, ?_⟩
      have : a + j * s - a = j * s := by omega
      rw [this]
      exact Nat.mul_mod_left _ _

theorem getD_map_range (n j : ℕ) (f : ℕ → ℕ) (h : j < n) : ((List.range n).map f).getD j 0 = f j := by
  rw [List.getD_eq_getElem _ _ (by simpa using h)]
  simp

theorem first_index (i : ℕ) : (Slice.index i).first.val = i := rfl
theorem first_full : Slice.full.first.val = 0 := rfl
theorem first_range (a b : Num) : (Slice.range a b).first.val = a.val := rfl
theorem first_strided (o x s : Num) : (Slice.strided o x s).first.val = o.val := rfl

theorem isFull_not_index (s : Slice) (h : s.isFull = true) : s.isIndex = false := by
  cases s <;> simp_all [Slice.isFull, Slice.isIndex]

theorem isRange_not_index (s : Slice) (h : s.isRange = true) : s.isIndex = false := by
  cases s <;> simp_all [Slice.isRange, Slice.isIndex]

/-- The strides of what is kept. -/
def subWeights : List Slice → List ℕ → List ℕ
  | .index _ :: l, _ :: ws => subWeights l ws
  | s :: l, w :: ws => w * s.stride :: subWeights l ws
  | _, _ => []

/-- An index of what is kept is an index of the original, and its position is that of the first
element kept and the way from there. -/
theorem original_spec : ∀ (shape : List ℕ) (slices : List Slice) (w js : List ℕ),
    List.Forall₂ (fun e (s : Slice) => s.part.Within e) shape slices → w.length = shape.length →
    InBounds (keptShape shape (slices.map Slice.part)) js →
    InBounds shape (original shape (slices.map Slice.part) js) ∧
      weigh (original shape (slices.map Slice.part) js) w =
        weigh (slices.map fun s => s.first.val) w + weigh js (subWeights slices w)
  | _, _, w, js, .nil, _, hj => by
    simp only [List.map_nil, keptShape] at hj
    cases hj
    exact ⟨.nil, by simp [original, weigh]⟩
  | e :: es, s :: l, [], _, _, hw, _ => by simp at hw
  | e :: es, .index i :: l, x :: ws, js, .cons h hs, hw, hj => by
    simp only [List.map_cons, Slice.part, keptShape, Part.keepsRank] at hj
    have ih := original_spec es l ws js hs (by simpa using hw) (by simpa using hj)
    simp only [List.map_cons, Slice.part, original, subWeights, weigh_cons, first_index]
    exact ⟨.cons h ih.1, by rw [ih.2]; omega⟩
  | e :: es, .full :: l, x :: ws, js, .cons h hs, hw, hj => by
    simp only [List.map_cons, Slice.part, keptShape, Part.keepsRank, if_true] at hj
    obtain ⟨j, js, hj1, hj2, rfl⟩ : ∃ j js', j < (Part.all.kept e).length ∧
        InBounds (keptShape es (l.map Slice.part)) js' ∧ js = j :: js' := by
      cases hj with
      | cons h1 h2 => exact ⟨_, _, h1, h2, rfl⟩
    have ih := original_spec es l ws js hs (by simpa using hw) hj2
    have hk : j < e := by simpa [Part.kept] using hj1
    have hg : (Part.all.kept e).getD j 0 = j := by
      rw [List.getD_eq_getElem _ _ hj1]; simp [Part.kept]
    simp only [List.map_cons, Slice.part, original, subWeights, weigh_cons, first_full, hg,
      Slice.stride]
    exact ⟨.cons hk ih.1, by rw [ih.2]; ring⟩
  | e :: es, .range a b :: l, x :: ws, js, .cons h hs, hw, hj => by
    simp only [List.map_cons, Slice.part, keptShape, Part.keepsRank, if_true] at hj
    obtain ⟨h1, h2⟩ : a.val ≤ b.val ∧ b.val ≤ e := h
    rw [kept_between e _ _ h1 h2] at hj
    obtain ⟨j, js, hj1, hj2, rfl⟩ : ∃ j js', j < b.val - a.val ∧
        InBounds (keptShape es (l.map Slice.part)) js' ∧ js = j :: js' := by
      cases hj with
      | cons h1 h2 => exact ⟨_, _, by simpa using h1, h2, rfl⟩
    have ih := original_spec es l ws js hs (by simpa using hw) hj2
    simp only [List.map_cons, Slice.part, original, subWeights, weigh_cons, first_range,
      kept_between e _ _ h1 h2, getD_map_range _ _ _ hj1, Slice.stride]
    exact ⟨.cons (by omega) ih.1, by rw [ih.2]; ring⟩
  | e :: es, .strided o n st :: l, x :: ws, js, .cons h hs, hw, hj => by
    simp only [List.map_cons, Slice.part, keptShape, Part.keepsRank, if_true] at hj
    obtain ⟨h1, h2⟩ : o.val + n.val ≤ e ∧ (0 < n.val → 0 < st.val) := h
    rw [kept_every e _ _ _ h1 h2] at hj
    obtain ⟨j, js, hj1, hj2, rfl⟩ : ∃ j js', j < steps n.val st.val ∧
        InBounds (keptShape es (l.map Slice.part)) js' ∧ js = j :: js' := by
      cases hj with
      | cons h1 h2 => exact ⟨_, _, by simpa using h1, h2, rfl⟩
    have ih := original_spec es l ws js hs (by simpa using hw) hj2
    have hlt := lt_steps h2 hj1
    simp only [List.map_cons, Slice.part, original, subWeights, weigh_cons, first_strided,
      kept_every e _ _ _ h1 h2, getD_map_range _ _ _ hj1, Slice.stride]
    exact ⟨.cons (by omega) ih.1, by rw [ih.2]; ring⟩

theorem invMapRank_map (M : ℕ) (F : ℕ → ℕ) : ∀ (l : List Slice) (w : List ℕ) (k : ℕ),
    w.length = l.length →
    (∀ r, r < l.length → F (k + r) = (w.getD r 0 * (l.map Slice.stride).getD r 0) % M) →
    (invMapRank k l).map F = (subWeights l w).map (· % M)
  | [], w, k, _, _ => by simp [invMapRank, subWeights]
  | s :: l, [], k, h, _ => by simp at h
  | s :: l, x :: ws, k, h, hF => by
    have ih := invMapRank_map M F l ws (k + 1) (by simpa using h) (fun r hr => by
      have := hF (r + 1) (by simpa using hr)
      rw [List.map_cons, List.getD_cons_succ, List.getD_cons_succ] at this
      rw [← this]; congr 1; omega)
    have h0 := hF 0 (by simp)
    simp only [Nat.add_zero, List.map_cons, List.getD_cons_zero] at h0
    cases s with
    | index i => simpa [invMapRank, Slice.isIndex, subWeights] using ih
    | full => simp [invMapRank, Slice.isIndex, subWeights, ih, h0]
    | range a b => simp [invMapRank, Slice.isIndex, subWeights, ih, h0]
    | strided o n st => simp [invMapRank, Slice.isIndex, subWeights, ih, h0]

theorem subStrides_eq (M : ℕ) (m : Mapping) (slices : List Slice) (hm : m.WellFormed)
    (hl : slices.length = m.exts.rank) :
    subStrides M m slices = (subWeights slices m.weights).map (· % M) := by
  unfold subStrides
  apply invMapRank_map
  · rw [weights_length m hm, hl]
  · intro r hr
    rw [Nat.zero_add, strideOf_mod M m r (by omega)]
    simp [Nat.mul_mod]

/-! ### Layouts that are preserved -/

/-- The number of ranks that remain. -/
def keptRank (slices : List Slice) : ℕ := (slices.filter fun s => !s.isIndex).length

theorem subWeights_map (c : ℕ) : ∀ (l : List Slice) (w : List ℕ),
    subWeights l (w.map (c * ·)) = (subWeights l w).map (c * ·)
  | [], w => by simp [subWeights]
  | s :: l, [] => by cases s <;> simp [subWeights]
  | s :: l, x :: ws => by
    cases s <;> simp [subWeights, subWeights_map c l ws, Nat.mul_assoc]

theorem keptRank_zero : ∀ (shape : List ℕ) (l : List Slice) (w : List ℕ), keptRank l = 0 →
    keptShape shape (l.map Slice.part) = [] ∧ subWeights l w = []
  | shape, [], w, _ => by cases shape <;> simp [keptShape, subWeights]
  | shape, .index i :: l, w, h => by
    have h' : keptRank l = 0 := by simpa [keptRank, Slice.isIndex] using h
    constructor
    · cases shape with
      | nil => simp [keptShape]
      | cons e es =>
        simpa [keptShape, Slice.part, Part.keepsRank] using (keptRank_zero es l w h').1
    · cases w with
      | nil => simp [subWeights]
      | cons x ws => simpa [subWeights] using (keptRank_zero shape l ws h').2
  | _, .full :: l, _, h => by simp [keptRank, Slice.isIndex] at h
  | _, .range _ _ :: l, _, h => by simp [keptRank, Slice.isIndex] at h
  | _, .strided _ _ _ :: l, _, h => by simp [keptRank, Slice.isIndex] at h

theorem preserved_all {f : ℕ → Slice → Bool} {slices : List Slice}
    (h : (List.zipWith f (List.range slices.length) slices).all id = true) (r : ℕ)
    (hr : r < slices.length) : f r slices[r] = true := by
  rw [List.all_eq_true] at h
  have hmem : f r slices[r] ∈ List.zipWith f (List.range slices.length) slices := by
    have hl : r < (List.zipWith f (List.range slices.length) slices).length := by simpa using hr
    have : (List.zipWith f (List.range slices.length) slices)[r] = f r slices[r] := by simp
    rw [← this]
    exact List.getElem_mem hl
  exact h _ hmem

theorem left_weights : ∀ (shape : List ℕ) (l : List Slice), shape.length = l.length →
    0 < keptRank l →
    (∀ r (h : r < l.length), r > keptRank l - 1 ∨ l[r].isFull = true ∨
      (r = keptRank l - 1 ∧ l[r].isRange = true)) →
    subWeights l (columnStrides shape) = columnStrides (keptShape shape (l.map Slice.part))
  | [], [], _, h, _ => by simp [keptRank] at h
  | e :: es, s :: l, hl, hk, hp => by
    have hl' : es.length = l.length := by simpa using hl
    have h0 := hp 0 (by simp)
    simp only [List.getElem_cons_zero] at h0
    have hni : s.isIndex = false := by
      rcases h0 with h | h | h
      · omega
      · exact isFull_not_index _ h
      · exact isRange_not_index _ h.2
    have hkr : keptRank (s :: l) = keptRank l + 1 := by simp [keptRank, hni]
    rw [columnStrides_cons]
    by_cases hz : keptRank l = 0
    · have hw := (keptRank_zero es l ((columnStrides es).map (e * ·)) hz)
      have hfr : s.isFull = true ∨ s.isRange = true := by
        rcases h0 with h | h | h
        · omega
        · exact Or.inl h
        · exact Or.inr h.2
      cases s with
      | index i => simp [Slice.isIndex] at hni
      | full =>
        simp [subWeights, Slice.part, keptShape, Part.keepsRank, hw.1, hw.2, columnStrides_cons,
          Slice.stride, columnStrides_nil]
      | range a b =>
        simp [subWeights, Slice.part, keptShape, Part.keepsRank, hw.1, hw.2, columnStrides_cons,
          Slice.stride, columnStrides_nil]
      | strided o n st => simp [Slice.isFull, Slice.isRange] at hfr
    · have hfull : s.isFull = true := by
        rcases h0 with h | h | h
        · omega
        · exact h
        · omega
      cases s with
      | index i => simp [Slice.isFull] at hfull
      | range a b => simp [Slice.isFull] at hfull
      | strided o n st => simp [Slice.isFull] at hfull
      | full =>
        have ih := left_weights es l hl' (by omega) (fun r hr => by
          have := hp (r + 1) (by simpa using hr)
          simp only [List.getElem_cons_succ] at this
          rcases this with h | h | h
          · left; omega
          · right; left; exact h
          · right; right; exact ⟨by omega, h.2⟩)
        simp only [List.map_cons, Slice.part, keptShape, Part.keepsRank, if_true, subWeights,
          Slice.stride, Nat.mul_one, subWeights_map, ih]
        have : (Part.all.kept e).length = e := by simp [Part.kept]
        rw [this, columnStrides_cons]

theorem keptRank_ge : ∀ (l : List Slice) (t : ℕ),
    (∀ r (h : r < l.length), t ≤ r → l[r].isIndex = false) → l.length - t ≤ keptRank l
  | [], t, _ => by simp
  | s :: l, 0, h => by
    have h0 := h 0 (by simp) le_rfl
    have ih := keptRank_ge l 0 (fun r hr _ => h (r + 1) (by simpa using hr) (by omega))
    simp only [List.getElem_cons_zero] at h0
    have : keptRank (s :: l) = keptRank l + 1 := by simp [keptRank, h0]
    simp only [List.length_cons]
    omega
  | s :: l, t + 1, h => by
    have ih := keptRank_ge l t (fun r hr ht => h (r + 1) (by simpa using hr) (by omega))
    have : keptRank l ≤ keptRank (s :: l) := by
      cases hs : s.isIndex <;> simp [keptRank, hs]
    simp only [List.length_cons]
    omega

theorem keptRank_le (l : List Slice) : keptRank l ≤ l.length := List.length_filter_le _ _

theorem all_full : ∀ (shape : List ℕ) (l : List Slice) (w : List ℕ), shape.length = l.length →
    w.length = l.length → (∀ r (h : r < l.length), l[r].isFull = true) →
    keptShape shape (l.map Slice.part) = shape ∧ subWeights l w = w
  | [], [], [], _, _, _ => by simp [keptShape, subWeights]
  | e :: es, s :: l, x :: ws, h1, h2, hf => by
    have ih := all_full es l ws (by simpa using h1) (by simpa using h2)
      (fun r hr => hf (r + 1) (by simpa using hr))
    have h0 := hf 0 (by simp)
    simp only [List.getElem_cons_zero] at h0
    cases s with
    | full => simp [keptShape, Slice.part, Part.keepsRank, subWeights, Slice.stride, ih.1, ih.2,
        Part.kept]
    | index i => simp [Slice.isFull] at h0
    | range a b => simp [Slice.isFull] at h0
    | strided o n st => simp [Slice.isFull] at h0

theorem right_weights : ∀ (shape : List ℕ) (l : List Slice), shape.length = l.length →
    0 < keptRank l →
    (∀ r (h : r < l.length), r < l.length - keptRank l ∨ l[r].isFull = true ∨
      (r = l.length - keptRank l ∧ l[r].isRange = true)) →
    subWeights l (rowStrides shape) = rowStrides (keptShape shape (l.map Slice.part))
  | [], [], _, h, _ => by simp [keptRank] at h
  | e :: es, s :: l, hl, hk, hp => by
    have hl' : es.length = l.length := by simpa using hl
    have hnon : ∀ r (h : r < (s :: l).length), (s :: l).length - keptRank (s :: l) ≤ r →
        (s :: l)[r].isIndex = false := by
      intro r h hr
      rcases hp r h with h1 | h1 | h1
      · omega
      · exact isFull_not_index _ h1
      · exact isRange_not_index _ h1.2
    rw [rowStrides_cons]
    by_cases hz : (s :: l).length - keptRank (s :: l) = 0
    · have h0 := hp 0 (by simp)
      have hrest : ∀ r (h : r < l.length), l[r].isFull = true := by
        intro r h
        have := hp (r + 1) (by simpa using h)
        simp only [List.getElem_cons_succ] at this
        rcases this with h1 | h1 | h1
        · omega
        · exact h1
        · omega
      have hall := all_full es l (rowStrides es) hl' (by rw [rowStrides_length, hl']) hrest
      have hfr : s.isFull = true ∨ s.isRange = true := by
        simp only [List.getElem_cons_zero] at h0
        rcases h0 with h | h | h
        · omega
        · exact Or.inl h
        · exact Or.inr h.2
      cases s with
      | index i => simp [Slice.isFull, Slice.isRange] at hfr
      | strided o n st => simp [Slice.isFull, Slice.isRange] at hfr
      | full =>
        simp [subWeights, Slice.part, keptShape, Part.keepsRank, hall.1, hall.2, rowStrides_cons,
          Slice.stride]
      | range a b =>
        simp [subWeights, Slice.part, keptShape, Part.keepsRank, hall.1, hall.2, rowStrides_cons,
          Slice.stride]
    · have hge := keptRank_ge l ((s :: l).length - keptRank (s :: l) - 1) (fun r hr ht => by
        have := hnon (r + 1) (by simpa using hr) (by omega)
        simpa using this)
      have hle := keptRank_le (s :: l)
      simp only [List.length_cons] at hge hle hz
      have hidx : s.isIndex = true := by
        by_contra hne
        have hf : s.isIndex = false := by simpa using hne
        have : keptRank (s :: l) = keptRank l + 1 := by simp [keptRank, hf]
        omega
      cases s with
      | full => simp [Slice.isIndex] at hidx
      | range a b => simp [Slice.isIndex] at hidx
      | strided o n st => simp [Slice.isIndex] at hidx
      | index i =>
        have hkr : keptRank (Slice.index i :: l) = keptRank l := by simp [keptRank, Slice.isIndex]
        have ih := right_weights es l hl' (by omega) (fun r hr => by
          have := hp (r + 1) (by simpa using hr)
          simp only [List.getElem_cons_succ, List.length_cons] at this
          rcases this with h | h | h
          · left; omega
          · right; left; exact h
          · right; right; exact ⟨by omega, h.2⟩)
        simpa [subWeights, Slice.part, keptShape, Part.keepsRank] using ih

/-! ### Extents of slices -/

/-- The extents of a rank from `k` on are those of the rest of the shape. -/
def Follows (e : Ext) (k : ℕ) (shape : List ℕ) : Prop :=
  ∀ r, r < shape.length → e.extent (k + r) = shape.getD r 0

theorem follows_shape (e : Ext) : Follows e 0 e.shape := by
  intro r hr
  rw [Nat.zero_add, shape_getD e r (by rwa [shape_length] at hr)]

theorem Follows.tail {e : Ext} {k n : ℕ} {ns : List ℕ} (h : Follows e k (n :: ns)) :
    Follows e (k + 1) ns := by
  intro r hr
  have := h (r + 1) (by simpa using hr)
  rw [List.getD_cons_succ] at this
  rw [← this]; congr 1; omega

/-- The values handed to the constructor are right where the constructor does not drop them. -/
def Handed (M : ℕ) (statics : List (Option ℕ)) (vals shape : List ℕ) : Prop :=
  Agrees statics shape ∧ vals.length = statics.length ∧
    ∀ r (h : r < statics.length), statics[r] = none → vals.getD r 0 % M = shape.getD r 0

theorem Handed.cons {M : ℕ} {st : Option ℕ} {statics : List (Option ℕ)} {v n : ℕ}
    {vals shape : List ℕ} (h : Handed M statics vals shape) (hs : ∀ x, st = some x → n = x)
    (hv : st = none → v % M = n) : Handed M (st :: statics) (v :: vals) (n :: shape) := by
  refine ⟨.cons hs h.1, by simp [h.2.1], ?_⟩
  intro r hr hn
  cases r with
  | zero => simpa using hv (by simpa using hn)
  | succ r => simpa using h.2.2 r (by simpa using hr) (by simpa using hn)

theorem nextExtents_spec (M : ℕ) (e : Ext) : ∀ (shape : List ℕ) (l : List Slice) (k : ℕ),
    List.Forall₂ (fun e (s : Slice) => s.part.Within e) shape l →
    (∀ n ∈ shape, n < M) → (∀ o x s, Slice.strided o x s ∈ l → s.val < M) → Follows e k shape →
    Handed M (nextExtents M e k l).1 (nextExtents M e k l).2 (keptShape shape (l.map Slice.part))
  | _, _, k, .nil, _, _, _ => ⟨.nil, rfl, by simp [nextExtents]⟩
  | n :: ns, .index i :: l, k, .cons h hs, hM, hst, hf => by
    have ih := nextExtents_spec M e ns l (k + 1) hs (fun x hx => hM x (List.mem_cons_of_mem _ hx))
      (fun o x s hm => hst o x s (List.mem_cons_of_mem _ hm)) hf.tail
    simpa [nextExtents, Slice.part, keptShape, Part.keepsRank] using ih
  | n :: ns, .full :: l, k, .cons h hs, hM, hst, hf => by
    have ih := nextExtents_spec M e ns l (k + 1) hs (fun x hx => hM x (List.mem_cons_of_mem _ hx))
      (fun o x s hm => hst o x s (List.mem_cons_of_mem _ hm)) hf.tail
    have hn := hM n (by simp)
    have hk : e.extent k = n := by simpa using hf 0 (by simp)
    have hlen : (Part.all.kept n).length = n := by simp [Part.kept]
    simp only [nextExtents, List.map_cons, Slice.part, keptShape, Part.keepsRank, if_true, hlen]
    apply ih.cons
    · intro x hx
      unfold Ext.extent at hk
      simp only [Slice.last, Slice.first, staticFromRange] at hx
      cases hg : staticGet e.statics k with
      | none => simp [hg] at hx
      | some v => simp [hg] at hx hk; omega
    · intro _
      have hval : (Slice.full.last e k).val = n := by
        unfold Ext.extent at hk
        simp only [Slice.last]
        cases hg : staticGet e.statics k with
        | none => simp only [hg] at hk ⊢; unfold Ext.extent; simpa [hg] using hk
        | some v => simpa [hg] using hk
      rw [hval]
      simp only [Slice.first, Nat.zero_mod, Nat.sub_zero, Nat.mod_mod]
      rw [Nat.mod_eq_of_lt hn, Nat.add_mod_right, Nat.mod_eq_of_lt hn]
  | n :: ns, .range a b :: l, k, .cons h hs, hM, hst, hf => by
    have ih := nextExtents_spec M e ns l (k + 1) hs (fun x hx => hM x (List.mem_cons_of_mem _ hx))
      (fun o x s hm => hst o x s (List.mem_cons_of_mem _ hm)) hf.tail
    have hn := hM n (by simp)
    obtain ⟨h1, h2⟩ : a.val ≤ b.val ∧ b.val ≤ n := h
    simp only [nextExtents, List.map_cons, Slice.part, keptShape, Part.keepsRank, if_true,
      kept_between n _ _ h1 h2, List.length_map, List.length_range]
    apply ih.cons
    · intro x hx
      have hx' : staticFromRange a b = some x := hx
      unfold staticFromRange at hx'
      by_cases hc : (a.fixed && b.fixed) = true
      · rw [if_pos hc] at hx'; simpa using hx'
      · rw [if_neg hc] at hx'; simp at hx'
    · intro _
      simp only [Slice.last, Slice.first, Nat.mod_mod]
      rw [Nat.mod_eq_of_lt (by omega : b.val < M), Nat.mod_eq_of_lt (by omega : a.val < M)]
      have : b.val + M - a.val = (b.val - a.val) + M := by omega
      rw [this, Nat.add_mod_right, Nat.mod_eq_of_lt (by omega)]
  | n :: ns, .strided o x s :: l, k, .cons h hs, hM, hst, hf => by
    have ih := nextExtents_spec M e ns l (k + 1) hs (fun x hx => hM x (List.mem_cons_of_mem _ hx))
      (fun o x s hm => hst o x s (List.mem_cons_of_mem _ hm)) hf.tail
    have hn := hM n (by simp)
    have hsM := hst o x s (by simp)
    obtain ⟨h1, h2⟩ : o.val + x.val ≤ n ∧ (0 < x.val → 0 < s.val) := h
    simp only [nextExtents, List.map_cons, Slice.part, keptShape, Part.keepsRank, if_true,
      kept_every n _ _ _ h1 h2, List.length_map, List.length_range]
    apply ih.cons
    · intro y hy
      simp only [staticFromStrided] at hy
      split at hy
      · simpa [steps] using hy
      · simp at hy
    · intro hnone
      have hle : steps x.val s.val ≤ x.val := by
        unfold steps
        split
        · have := Nat.div_le_self (x.val - 1) s.val; omega
        · omega
      rw [stridedValue, hnone]
      simp only [Option.isNone_none, if_true]
      rw [Nat.mod_eq_of_lt (by omega : x.val - 1 < M), Nat.mod_eq_of_lt hsM]
      exact Nat.mod_eq_of_lt (by show steps x.val s.val < M; omega)

theorem kept_le (n : ℕ) (p : Part) (h : p.keepsRank = true) : (p.kept n).length ≤ n := by
  cases p with
  | one i => simp [Part.keepsRank] at h
  | all => simp [Part.kept]
  | between a b =>
    simpa [Part.kept] using List.length_filter_le _ (List.range n)
  | every a m s =>
    simpa [Part.kept] using List.length_filter_le _ (List.range n)

theorem keptShape_lt (M : ℕ) : ∀ (shape : List ℕ) (ps : List Part), (∀ n ∈ shape, n < M) →
    ∀ x ∈ keptShape shape ps, x < M
  | [], ps, _, x, hx => by simp [keptShape] at hx
  | n :: ns, [], _, x, hx => by simp [keptShape] at hx
  | n :: ns, p :: ps, hM, x, hx => by
    have hM' : ∀ m ∈ ns, m < M := fun m hm => hM m (List.mem_cons_of_mem _ hm)
    rw [keptShape] at hx
    split at hx
    · rename_i hk
      rcases List.mem_cons.mp hx with rfl | hx
      · exact lt_of_le_of_lt (kept_le n p hk) (hM n (by simp))
      · exact keptShape_lt M ns ps hM' x hx
    · exact keptShape_lt M ns ps hM' x hx

theorem keptShape_length : ∀ (shape : List ℕ) (l : List Slice), shape.length = l.length →
    (keptShape shape (l.map Slice.part)).length = keptRank l
  | [], [], _ => by simp [keptShape, keptRank]
  | n :: ns, s :: l, h => by
    have ih := keptShape_length ns l (by simpa using h)
    cases s <;>
      simp [keptShape, Slice.part, Part.keepsRank, keptRank, Slice.isIndex] at ih ⊢ <;> exact ih

theorem subExtents_spec (M : ℕ) (e : Ext) (l : List Slice)
    (hw : List.Forall₂ (fun n (s : Slice) => s.part.Within n) e.shape l)
    (hM : ∀ n ∈ e.shape, n < M) (hst : ∀ o x s, Slice.strided o x s ∈ l → s.val < M) :
    ∃ dst, subExtents M e l = some dst ∧ dst.shape = keptShape e.shape (l.map Slice.part) := by
  obtain ⟨h1, h2, h3⟩ := nextExtents_spec M e e.shape l 0 hw hM hst (follows_shape e)
  have hc := construct_dropped M _ _ _ h1 (keptShape_lt M _ _ hM) h2 h3
  exact ⟨_, hc, shape_of_open _ _ h1 _ rfl rfl⟩

end OpenKalman.Mdspan
