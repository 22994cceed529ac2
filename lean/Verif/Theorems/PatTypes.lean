import Verif.Proof.PatTypes

/-!
# Types of patterns: C95 (comparison), C96 (uniform patterns), C97 (the most fixed pattern)
-/

namespace OpenKalman.PatTypes

open Patterns (Axis axesOf prefixCmp)

variable {κ ν : Type} [DecidableEq ν] (K : Kinds κ ν)

/-- Descriptors for the examples: a distance, an angle, a polar coordinate, and the angle again under another type. -/
inductive Name | distance | angle | polar | angle'
  deriving DecidableEq

/-- The descriptors of the names. -/
inductive Desc | distance | angle | polar
  deriving DecidableEq

/-- Their dimensions. -/
def demo : Kinds Name Desc where
  val := fun | .distance => .distance | .angle => .angle | .polar => .polar | .angle' => .angle
  dim := fun | .distance => 1 | .angle => 1 | .polar => 2
  pos := by intro v; cases v <;> decide
  le := by intro v; cases v <;> decide

/-! ## C95 -/

/-- **C95** (partial).  If the types of two patterns are said to guarantee a comparison, then it holds for all values of the types.  Missing: `Any` holding a
Euclidean descriptor, a dimension given at run time next to another Euclidean one in the second pattern, and elements of dimension zero beside a range. -/
theorem C95_guaranteed_partial (c : Comp) {T U : PTy κ} (h : comparesWith K c .guaranteed T U = true) (hf : Fits K T U) (hs : Separate U.types)
    {l r : List (Patterns.Part ν)} (hl : T.Values (Ty.HasSpecial K) l) (hr : U.Values (Ty.HasSpecial K) r)
    (hzl : (∃ u, U = .range u) → ∀ p ∈ l, p ≠ .plain 0) (hzr : (∃ t, T = .range t) → ∀ p ∈ r, p ≠ .plain 0) :
    c.holds (prefixCmp (axesOf l) (axesOf r)) = true :=
  comparesWith_sound K c .guaranteed hl hr hf hs hzl hzr (by simp) h

/-- **C95** (partial).  If the types of two patterns are said not to permit a comparison, then it holds for no values of the types.  Missing: as above, and the
strict comparisons of types that leave something to run time. -/
theorem C95_permitted_partial (c : Comp) {T U : PTy κ} (h : comparesWith K c .permitted T U = false) (hf : Fits K T U) (hs : Separate U.types)
    {l r : List (Patterns.Part ν)} (hl : T.Values (Ty.HasSpecial K) l) (hr : U.Values (Ty.HasSpecial K) r)
    (hzl : (∃ u, U = .range u) → ∀ p ∈ l, p ≠ .plain 0) (hzr : (∃ t, T = .range t) → ∀ p ∈ r, p ≠ .plain 0)
    (hc : c = .lt ∨ c = .gt → Closed T.types ∧ Closed U.types) : c.holds (prefixCmp (axesOf l) (axesOf r)) = false :=
  comparesWith_sound K c .permitted hl hr hf hs hzl hzr (fun _ => hc) h

/-- **C95**.  For collections of fixed size of which the types tell everything, the comparison is decided, whichever is asked. -/
theorem C95_decided (c : Comp) (app : App) {ts us : List (Ty κ)} (ct : Closed ts) (cu : Closed us) (ht : total K ts < 2 ^ 64 - 1)
    (hu : total K us < 2 ^ 64 - 1) {l r : List (Patterns.Part ν)} (hl : List.Forall₂ (Ty.Has K) ts l) (hr : List.Forall₂ (Ty.Has K) us r) :
    comparesWith K c app (.fixed ts) (.fixed us) = c.holds (prefixCmp (axesOf l) (axesOf r)) := by
  have conv : ∀ {ts : List (Ty κ)} {l : List (Patterns.Part ν)}, Closed ts → List.Forall₂ (Ty.Has K) ts l → List.Forall₂ (Ty.HasSpecial K) ts l := by
    intro ts l hc h
    induction h with
    | nil => exact .nil
    | @cons t p ts l h1 h2 ih =>
      refine .cons ?_ (ih (closed_tail hc))
      rcases closed_cases hc with ⟨n, rfl⟩ | ⟨k, rfl⟩ <;> exact h1
  have sep : Separate us := by
    clear hu hr
    induction us with
    | nil => trivial
    | cons x us ih =>
      cases us with
      | nil => trivial
      | cons y us =>
        refine ⟨fun e => absurd e (cu x (by simp)).2, fun e => absurd e (cu y (by simp)).2, ih (closed_tail cu)⟩
  have hg := comparesWith_sound K c .guaranteed (T := .fixed ts) (U := .fixed us) (conv ct hl) (conv cu hr) ⟨ht, hu⟩ sep
    (by rintro ⟨_, h⟩; cases h) (by rintro ⟨_, h⟩; cases h) (by simp)
  have hp := comparesWith_sound K c .permitted (T := .fixed ts) (U := .fixed us) (conv ct hl) (conv cu hr) ⟨ht, hu⟩ sep
    (by rintro ⟨_, h⟩; cases h) (by rintro ⟨_, h⟩; cases h) (fun _ _ => ⟨ct, cu⟩)
  have e : comparesWith K c .guaranteed (.fixed ts) (.fixed us) = comparesWith K c .permitted (.fixed ts) (.fixed us) :=
    fixedFixed_closed K c ct cu ht hu
  have key : comparesWith K c .permitted (.fixed ts) (.fixed us) = c.holds (prefixCmp (axesOf l) (axesOf r)) := by
    rw [e] at hg
    cases hb : comparesWith K c .permitted (.fixed ts) (.fixed us) with
    | true => exact (hg hb).symm
    | false => exact (hp hb).symm
  cases app with
  | guaranteed => rw [e]; exact key
  | permitted => exact key

example : comparesWith demo .lt .guaranteed (.fixed [.euc (some 2), .special .angle]) (.fixed [.euc (some 1), .euc (some 1), .special .angle', .special .polar]) = true := by
  decide +kernel

example : Fits demo (.fixed [.euc none, .special .angle]) (.range (.special .angle)) ∧ comparesWith demo .eq .guaranteed (.fixed [.special .angle]) (.one (.special .angle')) = true := by
  constructor
  · constructor <;> decide +kernel
  · decide +kernel

example : comparesWith demo .eq .permitted (.fixed [.special .angle, .euc none]) (.fixed [.special .polar, .euc none]) = false := by decide +kernel

/-- **C95** fails where a dimension given at run time is next to another one in the second pattern: the sum of the two wraps around, so that types with equal
values are said to be guaranteed unequal, and not to permit equality. -/
theorem C95_bank_violated : ∃ (T U : PTy Name) (l : List (Patterns.Part Desc)),
    T.Values (Ty.HasSpecial demo) l ∧ U.Values (Ty.HasSpecial demo) l ∧
    comparesWith demo .neq .guaranteed T U = true ∧ comparesWith demo .eq .permitted T U = false := by
  refine ⟨.fixed [.euc (some 1), .euc (some 1)], .fixed [.euc (some 1), .euc none], [.plain 1, .plain 1], ?_, ?_, ?_, ?_⟩
  · exact .cons rfl (.cons rfl .nil)
  · exact .cons rfl (.cons ⟨1, rfl⟩ .nil)
  · decide +kernel
  · decide +kernel

/-- **C95** fails where `Any` holds a Euclidean descriptor: types are said to be guaranteed unequal though they have equal values, also for a single `Any` and
no dimensions. -/
theorem C95_any_violated :
    (∃ (l r : List (Patterns.Part Desc)), PTy.Values (Ty.Has demo) (.fixed [.erased, .special .distance]) l ∧
      PTy.Values (Ty.Has demo) (.fixed [.erased, .special .angle, .special .distance]) r ∧ axesOf l = axesOf r ∧
      comparesWith demo .neq .guaranteed (.fixed [.erased, .special .distance]) (.fixed [.erased, .special .angle, .special .distance]) = true) ∧
    (∃ (l r : List (Patterns.Part Desc)), PTy.Values (Ty.Has demo) (.one (.euc (some 0))) l ∧ PTy.Values (Ty.Has demo) (.one .erased) r ∧
      axesOf l = axesOf r ∧ comparesWith demo .eq .permitted (.one (.euc (some 0))) (.one .erased) = false) := by
  refine ⟨⟨[.special .angle, .special .distance], [.plain 0, .special .angle, .special .distance], ?_, ?_, rfl, ?_⟩,
    ⟨[.plain 0], [.plain 0], ⟨_, rfl, rfl⟩, ⟨_, rfl, trivial⟩, rfl, ?_⟩⟩
  · exact .cons trivial (.cons rfl .nil)
  · exact .cons trivial (.cons rfl (.cons rfl .nil))
  · decide +kernel
  · decide +kernel

/-- **C95** fails for strict comparisons: the first pattern may be less than the second, and this is said not to be permitted. -/
theorem C95_strict_violated : ∃ (T U : PTy Name) (l r : List (Patterns.Part Desc)),
    T.Values (Ty.HasSpecial demo) l ∧ U.Values (Ty.HasSpecial demo) r ∧ Fits demo T U ∧ Separate U.types ∧
    prefixCmp (axesOf l) (axesOf r) = .less ∧ comparesWith demo .lt .permitted T U = false := by
  refine ⟨.fixed [.euc none, .special .distance], .fixed [.euc (some 1), .special .distance, .special .distance],
    [.plain 1, .special .distance], [.plain 1, .special .distance, .special .distance], ?_, ?_, ?_, ?_, ?_, ?_⟩
  · exact .cons ⟨1, rfl⟩ (.cons rfl .nil)
  · exact .cons rfl (.cons rfl (.cons rfl .nil))
  · constructor <;> decide +kernel
  · refine ⟨?_, ?_, ?_, ?_, trivial⟩ <;> (intro h; cases h)
  · decide +kernel
  · decide +kernel

/-- **C95** fails where elements have no dimension beside a range: a tuple of `Dimensions<0>` and a distance is said to be guaranteed unequal to any range of
distances, and any Euclidean dimension to be guaranteed greater than a range of `Dimensions<0>`. -/
theorem C95_range_violated :
    (∃ (l r : List (Patterns.Part Desc)), PTy.Values (Ty.HasSpecial demo) (.fixed [.euc (some 0), .special .distance]) l ∧
      PTy.Values (Ty.HasSpecial demo) (.range (.special .distance)) r ∧ axesOf l = axesOf r ∧
      comparesWith demo .neq .guaranteed (.fixed [.euc (some 0), .special .distance]) (.range (.special .distance)) = true) ∧
    (∃ (l r : List (Patterns.Part Desc)), PTy.Values (Ty.HasSpecial demo) (.one (.euc none)) l ∧ PTy.Values (Ty.HasSpecial demo) (.range (.euc (some 0))) r ∧
      axesOf l = axesOf r ∧ comparesWith demo .gt .guaranteed (.one (.euc none)) (.range (.euc (some 0))) = true) := by
  refine ⟨⟨[.plain 0, .special .distance], [.special .distance], ?_, ?_, rfl, ?_⟩, ⟨[.plain 0], [], ⟨_, rfl, ⟨0, rfl⟩⟩, ?_, rfl, ?_⟩⟩
  · exact .cons rfl (.cons rfl .nil)
  · intro p hp; rw [List.mem_singleton.1 hp]; rfl
  · decide +kernel
  · intro p hp; cases hp
  · decide +kernel

/-! ## C96 -/

/-- **C96**.  If a type is said to be uniform, with a component, then every value is a repetition of that component, which has one dimension. -/
theorem C96_guaranteed [DecidableEq κ] (p : CTy κ) {t : Ty κ} (h : uniformType K p = some t) {l : List (Patterns.Part ν)}
    (hl : p.pty.Values (Ty.Has K) l) : ∃ x q, t.Has K q ∧ Patterns.Part.axes q = [x] ∧ IsUniform K x l := by
  have hspecial : ∀ k, t = .special k → t.dim K = 1 → (∀ y ∈ axesOf l, y = .special (K.val k)) → ∃ x q, t.Has K q ∧ Patterns.Part.axes q = [x] ∧ IsUniform K x l := by
    rintro k rfl hd hy
    exact ⟨.special (K.val k), .special (K.val k), rfl, rfl, hd, hy⟩
  have hone : ∀ {l : List (Patterns.Part ν)} {t : Ty κ}, ¬ t.isE = true → t.dim K = 1 → (∀ p ∈ l, t.Has K p) →
      ∃ k, t = .special k ∧ ∀ y ∈ axesOf l, y = .special (K.val k) := by
    intro l t hE hd hl
    cases t with
    | euc o => exact absurd rfl hE
    | erased => have := dynamic_pos; have e : (Ty.erased : Ty κ).dim K = dynamic := rfl; omega
    | special k =>
      refine ⟨k, rfl, ?_⟩
      rw [axesOf_special (v := K.val k) hl]
      intro y hy
      exact (List.mem_replicate.1 hy).2
  unfold uniformType at h
  by_cases hE : p.isE = true
  · rw [if_pos hE] at h
    cases h
    refine ⟨.plain, .plain 1, rfl, rfl, rfl, ?_⟩
    cases p with
    | one t =>
      obtain ⟨p, rfl, hp⟩ := hl
      exact allE_values K (ts := [t]) (by simpa [allE, CTy.isE] using hE) (.cons hp .nil)
    | tuple ts => exact allE_values K hE hl
    | array t n => exact allE_values K hE hl
    | range t =>
      refine allE_values K (ts := List.replicate l.length t) ?_ ?_
      · exact List.all_eq_true.2 fun u hu => by rw [(List.mem_replicate.1 hu).2]; exact hE
      · rw [List.forall₂_iff_get]
        refine ⟨by simp, fun i h1 h2 => ?_⟩
        simpa using hl _ (List.getElem_mem h2)
  · rw [if_neg hE] at h
    simp only [commonType, if_neg hE] at h
    cases p with
    | one s =>
      obtain ⟨p, rfl, hp⟩ := hl
      simp only at h
      split_ifs at h with hd
      cases h
      obtain ⟨k, rfl, hy⟩ := hone hE hd (l := [p]) (by intro q hq; rw [List.mem_singleton.1 hq]; exact hp)
      exact hspecial k rfl hd hy
    | tuple ts =>
      cases hc : commonIter K ts with
      | none => simp [hc] at h
      | some c =>
        simp only [hc] at h
        split_ifs at h with hd
        cases h
        have hs := commonIter_sound K ts _ hc hd
        obtain ⟨u, hu, huE⟩ : ∃ u ∈ ts, ¬ u.isE = true := by
          by_contra hcon
          push Not at hcon
          exact hE (List.all_eq_true.2 hcon)
        rcases hs u hu with h0 | rfl
        · exfalso
          have hd := dynamic_pos
          cases u with
          | euc o => exact huE rfl
          | special k => exact special_dim_pos K k h0
          | erased => have e : (Ty.erased : Ty κ).dim K = dynamic := rfl; omega
        · obtain ⟨k, rfl, -⟩ := hone (l := ([] : List (Patterns.Part ν))) huE hd (by intro p hp; cases hp)
          exact hspecial k rfl hd (uniform_elements K hs hl)
    | array s n =>
      simp only at h
      split_ifs at h with hd
      cases h
      have hall : ∀ p ∈ l, t.Has K p := by
        intro p hp
        obtain ⟨i, hi, rfl⟩ := List.getElem_of_mem hp
        have hl : List.Forall₂ (Ty.Has K) (List.replicate n t) l := hl
        have hi' : i < (List.replicate n t).length := by rw [hl.length_eq]; exact hi
        have := List.Forall₂.get hl hi' hi
        simpa using this
      have hsE : ¬ t.isE = true := fun e => hE (List.all_eq_true.2 fun u hu => by rw [(List.mem_replicate.1 hu).2]; exact e)
      obtain ⟨k, rfl, hy⟩ := hone hsE hd hall
      exact hspecial k rfl hd hy
    | range s =>
      simp only at h
      split_ifs at h with hd
      cases h
      obtain ⟨k, rfl, hy⟩ := hone hE hd hl
      exact hspecial k rfl hd hy

example : uniformType demo (.tuple [.euc (some 0), .special .angle, .euc (some 0), .special .angle]) = some (.special .angle) := by decide +kernel

/-- **C96** (partial).  If every value of a type is a repetition of an axis, then the type is said to be uniform.  Missing: two types of the same descriptor. -/
theorem C96_complete_partial [DecidableEq κ] (hinj : Function.Injective K.val) {v0 : ν} (hv : K.dim v0 ≠ 1) (p : CTy κ)
    (h : ∀ l : List (Patterns.Part ν), p.pty.Values (Ty.Has K) l → ∃ x, IsUniform K x l) : (uniformType K p).isSome = true := by
  unfold uniformType
  by_cases hE : p.isE = true
  · rw [if_pos hE]; rfl
  rw [if_neg hE]
  simp only [commonType, if_neg hE]
  cases p with
  | one t =>
    obtain ⟨k, h1, h2, h3⟩ := uniform_forced K hinj hv (ts := [t]) (by simpa [allE, CTy.isE] using hE) (by
      intro l hl
      apply h
      cases hl with | cons h h' => cases h'; exact ⟨_, rfl, h⟩)
    obtain rfl := List.mem_singleton.1 h2
    have e : (Ty.special k).dim K = 1 := h3
    simp [e]
  | tuple ts =>
    obtain ⟨k, h1, h2, h3⟩ := uniform_forced K hinj hv hE h
    have e : (Ty.special k).dim K = 1 := h3
    simp [commonIter_complete K ts k h1 h2, e]
  | array t n =>
    obtain ⟨k, h1, h2, h3⟩ := uniform_forced K hinj hv hE h
    obtain ⟨-, rfl⟩ := List.mem_replicate.1 h2
    have e : (Ty.special k).dim K = 1 := h3
    simp [e]
  | range t =>
    obtain ⟨k, h1, h2, h3⟩ := uniform_forced K hinj hv (ts := [t]) (by simpa [allE, CTy.isE] using hE) (by
      intro l hl
      apply h
      cases hl with
      | cons h h' =>
        cases h'
        intro q hq
        rw [List.mem_singleton.1 hq]; exact h)
    obtain rfl := List.mem_singleton.1 h2
    have e : (Ty.special k).dim K = 1 := h3
    simp [e]

/-- **C96** fails for two types of the same descriptor: all values are repetitions of one angle. -/
theorem C96_same_violated : (∀ l : List (Patterns.Part Desc), PTy.Values (Ty.Has demo) (.fixed [.special .angle, .special .angle']) l →
    IsUniform demo (.special .angle) l) ∧ uniformType demo (.tuple [.special .angle, .special .angle']) = none := by
  refine ⟨?_, by decide +kernel⟩
  intro l hl
  cases hl with
  | cons h1 h2 =>
    cases h2 with
    | cons h3 h4 =>
      cases h4
      rw [show _ = _ from h1, show _ = _ from h3]
      exact ⟨rfl, by decide⟩

/-- **C96** (partial).  If a value is a repetition of an axis, its type is said to permit that.  Missing: elements without dimension, empty ranges. -/
theorem C96_permitted_partial (p : CTy κ) {x : Axis ν} {l : List (Patterns.Part ν)} (hl : p.pty.Values (Ty.Has K) l) (hu : IsUniform K x l)
    (hz : ∀ q ∈ l, q ≠ .plain 0) (hne : l ≠ []) : uniformPermitted K p = true := by
  obtain ⟨hx, hy⟩ := hu
  have hfix : ∀ {ts : List (Ty κ)}, List.Forall₂ (Ty.Has K) ts l → ∀ t ∈ ts, Ok K (common1 t) x := by
    intro ts hf t ht
    obtain ⟨i, hi, rfl⟩ := List.getElem_of_mem ht
    have hi' : i < l.length := by rw [← hf.length_eq]; exact hi
    have hm : l[i] ∈ l := List.getElem_mem hi'
    exact ok_of_value K (List.Forall₂.get hf hi hi') (hz _ hm) fun y h => hy y (mem_axesOf hm h)
  have hdim : ∀ {t : Ty κ}, Ok K (common1 t) x → (common1 t).dim K = dynamic ∨ (common1 t).dim K = 1 := by
    intro t ht
    rcases ht with e | ⟨e, -⟩ | ⟨k, e, ex⟩
    · rw [e]; exact .inl rfl
    · rw [e]; exact .inr rfl
    · rw [e]; rw [ex] at hx; exact .inr hx
  have hfixed : ∀ {ts : List (Ty κ)}, (∀ t ∈ ts, Ok K (common1 t) x) → heteroFixed K ts = false := by
    intro ts h
    cases ts with
    | nil => rfl
    | cons t ts =>
      cases ts with
      | nil => rfl
      | cons u ts => exact heteroIter_false K hx (h t (by simp)) fun v hv => h v (List.mem_cons_of_mem _ hv)
  unfold uniformPermitted
  rw [Bool.not_eq_true']
  cases p with
  | one t =>
    obtain ⟨q, rfl, hq⟩ := hl
    have ht := hfix (ts := [t]) (.cons hq .nil) t (by simp)
    cases t with
    | euc o => rfl
    | special k => rcases hdim ht with e | e <;> simp [heterogeneous, show (Ty.special k).dim K = _ from e]
    | erased => simp [heterogeneous, show (Ty.erased : Ty κ).dim K = dynamic from rfl]
  | tuple ts => exact hfixed (hfix hl)
  | array t n => exact hfixed (hfix hl)
  | range t =>
    obtain ⟨q, l, rfl⟩ := List.exists_cons_of_ne_nil hne
    have hm : q ∈ q :: l := List.mem_cons_self ..
    have ht := ok_of_value K (hl q hm) (hz q hm) fun y h => hy y (mem_axesOf hm h)
    rcases hdim ht with e | e <;> simp [heterogeneous, e]

example : uniformPermitted demo (.tuple [.erased, .special .angle, .erased, .special .angle']) = true := by decide +kernel

/-- **C96** (partial).  If a type is said to permit a repetition of an axis, then it has such a value (of a range, one of any length).  Missing: a collection
whose first element has several dimensions. -/
theorem C96_possible_partial (p : CTy κ) (h : uniformPermitted K p = true) (n : ℕ)
    (hf : ∀ k ts, p.pty = .fixed (.special k :: ts) → K.dim (K.val k) = 1) :
    ∃ (l : List (Patterns.Part ν)) (x : Axis ν), p.pty.Values (Ty.Has K) l ∧ IsUniform K x l ∧ ∀ t, p.pty = .range t → l.length = n := by
  unfold uniformPermitted at h
  rw [Bool.not_eq_true'] at h
  have hd := dynamic_pos
  have hfixed : ∀ {ts : List (Ty κ)}, (∀ k us, ts = .special k :: us → K.dim (K.val k) = 1) → heteroFixed K ts = false →
      ∃ (l : List (Patterns.Part ν)) (x : Axis ν), List.Forall₂ (Ty.Has K) ts l ∧ IsUniform K x l := by
    intro ts hf h
    obtain ⟨x, hx, hok⟩ : ∃ x : Axis ν, axisDim K x = 1 ∧ ∀ t ∈ ts, Ok K (common1 t) x := by
      cases ts with
      | nil => exact ⟨.plain, rfl, by simp⟩
      | cons t ts =>
        have hdt : ¬ ((common1 t).dim K ≠ dynamic ∧ (common1 t).dim K ≠ 1) := by
          rintro ⟨e1, e2⟩
          cases t with
          | euc o => exact e2 rfl
          | special k => exact e2 (hf k ts rfl)
          | erased => exact e1 rfl
        cases ts with
        | nil =>
          obtain ⟨x, hx, hok⟩ := ok_dim (ν := ν) K (common1_cases t) hdt
          exact ⟨x, hx, by simpa using hok⟩
        | cons u ts =>
          obtain ⟨x, hx, h1, h2⟩ := heteroIter_true (ν := ν) K (common1_cases t) hdt h
          refine ⟨x, hx, fun v hv => ?_⟩
          rcases List.mem_cons.1 hv with rfl | hv
          · exact h1
          · exact h2 v hv
    obtain ⟨l, hl, hy⟩ := ok_values K hok
    exact ⟨l, x, hl, hx, hy⟩
  cases p with
  | one t =>
    have hdt : ¬ ((common1 t).dim K ≠ dynamic ∧ (common1 t).dim K ≠ 1) := by
      rintro ⟨e1, e2⟩
      cases t with
      | euc o => exact e2 rfl
      | special k => simp [heterogeneous, Ty.isE, show (Ty.special k).dim K ≠ dynamic from e1, show (Ty.special k).dim K ≠ 1 from e2] at h
      | erased => exact e1 rfl
    obtain ⟨x, hx, hok⟩ := ok_dim (ν := ν) K (common1_cases t) hdt
    obtain ⟨q, hq, hy⟩ := ok_value K hok
    refine ⟨[q], x, ⟨q, rfl, hq⟩, ⟨hx, ?_⟩, by intro t ht; cases ht⟩
    rw [Patterns.axesOf_cons]
    intro y h'
    rcases List.mem_append.1 h' with h' | h'
    · exact hy y h'
    · cases h'
  | tuple ts =>
    obtain ⟨l, x, h1, h2⟩ := hfixed (fun k us e => hf k us (by rw [← e]; rfl)) h
    exact ⟨l, x, h1, h2, by intro t ht; cases ht⟩
  | array t m =>
    obtain ⟨l, x, h1, h2⟩ := hfixed (fun k us e => hf k us (by rw [← e]; rfl)) h
    exact ⟨l, x, h1, h2, by intro t ht; cases ht⟩
  | range t =>
    have hdt : ¬ ((common1 t).dim K ≠ dynamic ∧ (common1 t).dim K ≠ 1) := by
      rintro ⟨e1, e2⟩
      simp [heterogeneous, e1, e2] at h
    obtain ⟨x, hx, hok⟩ := ok_dim (ν := ν) K (common1_cases t) hdt
    obtain ⟨q, hq, hy⟩ := ok_value K hok
    refine ⟨List.replicate n q, x, ?_, ⟨hx, ?_⟩, fun _ _ => List.length_replicate⟩
    · intro p hp
      rw [(List.mem_replicate.1 hp).2]; exact hq
    · intro y h'
      obtain ⟨a, ha, hya⟩ := List.mem_flatten.1 h'
      obtain ⟨b, hb, rfl⟩ := List.mem_map.1 ha
      rw [(List.mem_replicate.1 hb).2] at hya
      exact hy y hya

/-- **C96** fails for elements without dimension: a type that is guaranteed to be uniform is said not to permit it; and for an empty range. -/
theorem C96_zero_violated :
    (uniformType demo (.tuple [.euc (some 0), .special .angle])).isSome = true ∧ uniformPermitted demo (.tuple [.euc (some 0), .special .angle]) = false ∧
    IsUniform demo (.special .angle) [.plain 0, .special .angle] ∧
    uniformPermitted demo (.range (.special .polar)) = false ∧ PTy.Values (Ty.Has demo) (.range (.special .polar)) ([] : List (Patterns.Part Desc)) ∧
    IsUniform demo (.plain : Axis Desc) [] := by
  refine ⟨by decide +kernel, by decide +kernel, ⟨rfl, by decide⟩, by decide +kernel, ?_, ⟨rfl, by decide⟩⟩
  intro p hp; cases hp

/-- **C96** fails for a tuple whose first element has several dimensions: it is said to permit a repetition of a one-dimensional axis, though no value is; with the
elements exchanged it is refused. -/
theorem C96_first_violated :
    uniformPermitted demo (.tuple [.special .polar]) = true ∧ uniformPermitted demo (.tuple [.special .polar, .erased]) = true ∧
    uniformPermitted demo (.tuple [.erased, .special .polar]) = false ∧
    ∀ (ts : List (Ty Name)) (l : List (Patterns.Part Desc)) (x : Axis Desc), PTy.Values (Ty.Has demo) (.fixed (.special .polar :: ts)) l → ¬ IsUniform demo x l := by
  refine ⟨by decide +kernel, by decide +kernel, by decide +kernel, ?_⟩
  rintro ts l x hl ⟨h1, h2⟩
  cases hl with
  | @cons _ p _ l hp hl =>
    have e : p = .special .polar := hp
    subst e
    have := h2 (.special .polar) (List.mem_cons_self ..)
    rw [← this] at h1
    exact absurd h1 (by decide)

/-! ## C97 -/

/-- **C97**.  Of several patterns the first is chosen whose dimension is the same for all its values, or, if there is none, the last. -/
theorem C97_most_fixed (ps : List (PTy κ)) {i : ℕ} (h : mostFixed K ps = some i) (ht : ∀ p ∈ ps, total K (p.expand 1) < 2 ^ 64 - 1) :
    ∃ hi : i < ps.length, (∀ p ∈ ps.take i, ¬ Determined K p) ∧ (Determined K ps[i] ∨ i + 1 = ps.length) ∧ ((∃ p ∈ ps, Determined K p) → Determined K ps[i]) := by
  cases ps with
  | nil => cases h
  | cons p ps =>
    simp only [mostFixed] at h
    split_ifs at h with hc
    obtain ⟨h1, h2, h3⟩ := mostFixedImpl_spec K (p :: ps) (by simp)
    obtain rfl : mostFixedImpl K (p :: ps) = i := by injection h
    have h2' : ∀ q ∈ (p :: ps).take (mostFixedImpl K (p :: ps)), ¬ Determined K q := by
      intro q hq hd
      have := (determined_iff K q (ht q (List.mem_of_mem_take hq))).2 hd
      rw [h2 q hq] at this
      cases this
    have h3' : Determined K ((p :: ps)[mostFixedImpl K (p :: ps)]) ∨ mostFixedImpl K (p :: ps) + 1 = (p :: ps).length := by
      rcases h3 with h3 | h3
      · exact .inl ((determined_iff K _ (ht _ (List.getElem_mem h1))).1 h3)
      · exact .inr h3
    refine ⟨h1, h2', h3', ?_⟩
    rintro ⟨q, hq, hd⟩
    rcases h3' with h3 | h3
    · exact h3
    · obtain ⟨j, hj, rfl⟩ := List.getElem_of_mem hq
      rcases Nat.lt_or_ge j (mostFixedImpl K (p :: ps)) with hlt | hge
      · exact absurd hd (h2' _ (List.mem_take_iff_getElem.2 ⟨j, by omega, rfl⟩))
      · have e : j = mostFixedImpl K (p :: ps) := by omega
        subst e
        exact hd

/-- **C97** (partial).  The patterns are accepted if the first can be equal to each of the others.  Missing: as for C95. -/
theorem C97_accepted_partial (p : PTy κ) (ps : List (PTy κ)) (h : ∀ q ∈ ps, Fits K p q ∧ Separate q.types ∧
    ∃ l r : List (Patterns.Part ν), p.Values (Ty.HasSpecial K) l ∧ q.Values (Ty.HasSpecial K) r ∧ (∀ a ∈ l ++ r, a ≠ .plain 0) ∧ axesOf l = axesOf r) :
    (mostFixed K (p :: ps)).isSome = true := by
  have : ps.all (comparesWith K .eq .permitted p) = true := by
    refine List.all_eq_true.2 fun q hq => ?_
    obtain ⟨hf, hs, l, r, hl, hr, hz, e⟩ := h q hq
    by_contra hn
    have := C95_permitted_partial K .eq (by simpa using hn) hf hs hl hr (fun _ a ha => hz a (List.mem_append_left _ ha))
      (fun _ a ha => hz a (List.mem_append_right _ ha)) (by simp)
    rw [e] at this
    rw [show Comp.holds .eq (prefixCmp (axesOf r) (axesOf r)) = true from (isEq_iff _ _).2 rfl] at this
    cases this
  simp [mostFixed, this]

example : mostFixed demo [.fixed [.euc none, .special .angle], .fixed [.erased, .special .angle], .fixed [.euc (some 2), .special .angle'], .one .erased] = some 2 := by
  decide +kernel

/-- **C97** fails in that only the first pattern is compared with the others: patterns are accepted, and the first of the fixed ones is chosen, though two of
them have no value in common. -/
theorem C97_pairs_violated : mostFixed demo [.one (.euc none), .one (.euc (some 3)), .one (.euc (some 4))] = some 1 ∧
    ∀ l r : List (Patterns.Part Desc), PTy.Values (Ty.Has demo) (.one (.euc (some 3))) l → PTy.Values (Ty.Has demo) (.one (.euc (some 4))) r → axesOf l ≠ axesOf r := by
  refine ⟨by decide +kernel, ?_⟩
  rintro l r ⟨p, rfl, hp⟩ ⟨q, rfl, hq⟩
  rw [show p = .plain 3 from hp, show q = .plain 4 from hq]
  decide

end OpenKalman.PatTypes
