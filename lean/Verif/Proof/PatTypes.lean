import Verif.Proof.Pattern
import Verif.Model.PatTypes

/-! # Lemmas about the concepts about types of patterns -/

set_option linter.unusedSectionVars false

namespace OpenKalman.PatTypes

open Patterns (Axis axesOf prefixCmp)

variable {κ ν : Type} [DecidableEq ν] (K : Kinds κ ν)

theorem dynamic_pos : 3 < dynamic := by unfold dynamic; norm_num

theorem cmp_eq (m n : ℕ) : prefixCmp (List.replicate m (Axis.plain (κ := ν))) (List.replicate n .plain) = cmp m n := by
  rw [Patterns.prefixCmp_plain]; rfl

theorem special_dim (k : κ) : (Ty.special k).dim K ≠ dynamic := by
  have := K.le (K.val k)
  have := dynamic_pos
  show K.dim (K.val k) ≠ dynamic
  omega

theorem special_dim_pos (k : κ) : (Ty.special k).dim K ≠ 0 := by
  have := K.pos (K.val k)
  show K.dim (K.val k) ≠ 0
  omega

/-- What is known of the number of plain axes so far. -/
def Bank (m ma : ℕ) (ts : List (Ty κ)) : Prop := m = dynamic ∨ (m = ma ∧ m + total K ts < dynamic)

/-- The second list is at a place where the unchecked addition does no harm. -/
def Ready (n : ℕ) (b : List (Ty κ)) : Prop :=
  Separate b ∧ ∀ t l, b = t :: l → (t.isE = true → n ≠ dynamic) ∧ (t = .euc none → n = 0)

theorem total_cons (t : Ty κ) (ts : List (Ty κ)) : total K (t :: ts) = t.known K + total K ts := by simp [total]

/-- Adding a Euclidean element to a bank. -/
theorem bank_inc {m ma p : ℕ} {o : Option ℕ} {ts : List (Ty κ)} (h : Bank K m ma (.euc o :: ts)) (hp : (Ty.euc o).HasSpecial K (Patterns.Part.plain p)) :
    Bank K (incBank m ((Ty.euc o : Ty κ).dim K)) (ma + p) ts := by
  rcases h with h | ⟨rfl, h⟩
  · left; rw [incBank, if_pos (.inl h)]
  · cases o with
    | none => left; rw [incBank, if_pos (.inr rfl)]
    | some n =>
      have e : n = p := by
        have : Patterns.Part.plain p = Patterns.Part.plain (κ := ν) n := hp
        injection this with this; exact this.symm
      subst e
      rw [total_cons] at h
      have h1 : (Ty.euc (some n) : Ty κ).known K = n := rfl
      have h2 : (Ty.euc (some n) : Ty κ).dim K = n := rfl
      right
      have hd : dynamic < 2 ^ 64 := by unfold dynamic; norm_num
      rw [h2, incBank, if_neg (by omega), Nat.mod_eq_of_lt (by omega)]
      exact ⟨rfl, by omega⟩

/-- The same by the unchecked addition. -/
theorem bank_add {m ma p : ℕ} {o : Option ℕ} {ts : List (Ty κ)} (h : Bank K m ma (.euc o :: ts)) (hr : Ready m (.euc o :: ts))
    (hp : (Ty.euc o).HasSpecial K (Patterns.Part.plain p)) :
    (m + (Ty.euc o : Ty κ).dim K) % 2 ^ 64 = incBank m ((Ty.euc o : Ty κ).dim K) := by
  obtain ⟨h1, h2⟩ := hr.2 _ _ rfl
  have hm := h1 rfl
  have hd : dynamic < 2 ^ 64 := by unfold dynamic; norm_num
  cases o with
  | none =>
    rw [h2 rfl, incBank, if_pos (.inr rfl), Nat.zero_add]
    exact Nat.mod_eq_of_lt hd
  | some n =>
    rcases h with h | ⟨-, h⟩
    · exact absurd h hm
    · rw [total_cons] at h
      have e1 : (Ty.euc (some n) : Ty κ).known K = n := rfl
      have e2 : (Ty.euc (some n) : Ty κ).dim K = n := rfl
      rw [e2, incBank, if_neg (by omega)]

theorem ready_next {m ma p : ℕ} {o : Option ℕ} {ts : List (Ty κ)} (h : Bank K m ma (.euc o :: ts)) (hr : Ready m (.euc o :: ts))
    (hp : (Ty.euc o).HasSpecial K (Patterns.Part.plain p)) :
    Ready (incBank m ((Ty.euc o : Ty κ).dim K)) ts := by
  obtain ⟨h1, h2⟩ := hr.2 _ _ rfl
  have hm := h1 rfl
  cases ts with
  | nil => exact ⟨trivial, fun t l e => nomatch e⟩
  | cons y ts =>
    obtain ⟨s1, s2, s3⟩ := hr.1
    refine ⟨s3, ?_⟩
    intro t l e
    injection e with e1 e2
    subst e1
    constructor
    · intro hy
      obtain ⟨n, rfl⟩ : ∃ n, y = .euc n := by
        cases y with
        | euc n => exact ⟨n, rfl⟩
        | special k => cases hy
        | erased => cases hy
      cases o with
      | none => exact absurd rfl (s1 rfl n)
      | some k =>
        rcases bank_inc K h hp with hb | ⟨hb, hb'⟩
        · rcases h with h | ⟨-, h⟩
          · exact absurd h hm
          · rw [total_cons] at h
            have e1 : (Ty.euc (some k) : Ty κ).known K = k := rfl
            have e2 : (Ty.euc (some k) : Ty κ).dim K = k := rfl
            have hd : dynamic < 2 ^ 64 := by unfold dynamic; norm_num
            rw [e2, incBank, if_neg (by omega), Nat.mod_eq_of_lt (by omega)]
            omega
        · omega
    · intro hy
      exact absurd rfl (s2 hy o)

theorem ready_zero {t : Ty κ} {ts : List (Ty κ)} {n : ℕ} (h : Ready n (t :: ts)) : Ready 0 ts := by
  have hd := dynamic_pos
  refine ⟨?_, fun _ _ _ => ⟨fun _ => by omega, fun _ => rfl⟩⟩
  cases ts with
  | nil => trivial
  | cons y ts => exact h.1.2.2

theorem bank_zero {m ma : ℕ} {t : Ty κ} {ts : List (Ty κ)} (h : Bank K m ma (t :: ts)) (hm : m ≠ dynamic) : Bank K 0 0 ts := by
  rcases h with h | ⟨-, h⟩
  · exact absurd h hm
  · right
    rw [total_cons] at h
    exact ⟨rfl, by omega⟩

theorem closed_tail {t : Ty κ} {ts : List (Ty κ)} (h : Closed (t :: ts)) : Closed ts := fun u hu => h u (List.mem_cons_of_mem _ hu)

/-- A Euclidean type has a plain value. -/
theorem plain_of_isE {t : Ty κ} {p : Patterns.Part ν} (h : t.isE = true) (hp : t.HasSpecial K p) : ∃ o n, t = .euc o ∧ p = .plain n := by
  cases t with
  | euc o =>
    cases o with
    | none =>
      obtain ⟨n, rfl⟩ : ∃ n, p = .plain n := hp
      exact ⟨_, n, rfl, rfl⟩
    | some n => exact ⟨_, n, rfl, hp⟩
  | special k => cases h
  | erased => cases h

/-- Any other type has a special value. -/
theorem special_of_not_isE {t : Ty κ} {p : Patterns.Part ν} (h : ¬ t.isE = true) (hp : t.HasSpecial K p) : ∃ v, p = .special v := by
  cases t with
  | euc o => exact absurd rfl h
  | special k => exact ⟨_, hp⟩
  | erased => exact hp

/-- For a comparison with strictly less or greater, everything is to be known at compile time. -/
def Strict (c : Comp) (a b : List (Ty κ)) (m n : ℕ) : Prop := c = .lt ∨ c = .gt → Closed a ∧ Closed b ∧ m ≠ dynamic ∧ n ≠ dynamic

theorem inc_closed {m ma : ℕ} {o : Option ℕ} {ts : List (Ty κ)} (h : Bank K m ma (.euc o :: ts)) (hm : m ≠ dynamic) (hc : Closed (.euc o :: ts : List (Ty κ))) :
    incBank m ((Ty.euc o : Ty κ).dim K) ≠ dynamic := by
  cases o with
  | none => exact absurd rfl (hc _ (List.mem_cons_self ..)).2
  | some n =>
    rcases h with h | ⟨-, h⟩
    · exact absurd h hm
    · rw [total_cons] at h
      have e1 : (Ty.euc (some n) : Ty κ).known K = n := rfl
      have e2 : (Ty.euc (some n) : Ty κ).dim K = n := rfl
      have hd : dynamic < 2 ^ 64 := by unfold dynamic; norm_num
      rw [e2, incBank, if_neg (by omega), Nat.mod_eq_of_lt (by omega)]
      omega

/-- `compares_with_iter` is right. -/
theorem iter_sound (c : Comp) (app : App) (a b : List (Ty κ)) (m n : ℕ) :
    ∀ (ma nb : ℕ) (la lb : List (Patterns.Part ν)), List.Forall₂ (Ty.HasSpecial K) a la → List.Forall₂ (Ty.HasSpecial K) b lb →
      Bank K m ma a → Bank K n nb b → Ready n b → (app = .permitted → Strict c a b m n) →
      match app with
      | .guaranteed => iter K c app a b m n = true →
        c.holds (prefixCmp (List.replicate ma .plain ++ axesOf la) (List.replicate nb .plain ++ axesOf lb)) = true
      | .permitted => iter K c app a b m n = false →
        c.holds (prefixCmp (List.replicate ma .plain ++ axesOf la) (List.replicate nb .plain ++ axesOf lb)) = false := by
  fun_induction iter K c app a b m n with
  | case1 x a y b m n h ih =>
    intro ma nb la lb ha hb hm hn hr hs
    obtain ⟨hx, hy⟩ := Bool.and_eq_true_iff.1 h
    cases ha with
    | cons ha1 ha2 =>
      cases hb with
      | cons hb1 hb2 =>
        obtain ⟨o, p, rfl, rfl⟩ := plain_of_isE K hx ha1
        obtain ⟨o', p', rfl, rfl⟩ := plain_of_isE K hy hb1
        rw [bank_add K hn hr hb1] at ih ⊢
        have := ih (ma + p) (nb + p') _ _ ha2 hb2 (bank_inc K hm ha1) (bank_inc K hn hb1) (ready_next K hn hr hb1) (by
          intro e hc
          obtain ⟨c1, c2, c3, c4⟩ := hs e hc
          exact ⟨closed_tail c1, closed_tail c2, inc_closed K hm c3 c1, inc_closed K hn c4 c2⟩)
        simpa only [Patterns.axesOf_cons, Patterns.Part.axes, Patterns.replicate_shift] using this
  | case2 x a y b m n h hx ih =>
    intro ma nb la lb ha hb hm hn hr hs
    cases ha with
    | cons ha1 ha2 =>
      obtain ⟨o, p, rfl, rfl⟩ := plain_of_isE K hx ha1
      have := ih (ma + p) nb _ _ ha2 hb (bank_inc K hm ha1) hn hr (by
        intro e hc
        obtain ⟨c1, c2, c3, c4⟩ := hs e hc
        exact ⟨closed_tail c1, c2, inc_closed K hm c3 c1, c4⟩)
      simpa only [Patterns.axesOf_cons, Patterns.Part.axes, Patterns.replicate_shift] using this
  | case3 x a y b m n h hx hy ih =>
    intro ma nb la lb ha hb hm hn hr hs
    cases hb with
    | cons hb1 hb2 =>
      obtain ⟨o, p, rfl, rfl⟩ := plain_of_isE K hy hb1
      have := ih ma (nb + p) _ _ ha hb2 hm (bank_inc K hn hb1) (ready_next K hn hr hb1) (by
        intro e hc
        obtain ⟨c1, c2, c3, c4⟩ := hs e hc
        exact ⟨c1, closed_tail c2, c3, inc_closed K hn c4 c2⟩)
      simpa only [Patterns.axesOf_cons, Patterns.Part.axes, Patterns.replicate_shift] using this
  | case4 x a y b m n h hx hy hd =>
    intro ma nb la lb ha hb hm hn hr hs
    cases app with
    | guaranteed => intro h'; simp at h'
    | permitted =>
      intro h'
      have hc : c = .lt ∨ c = .gt := by cases c <;> simp [Comp.holds, POrd.isEq, POrd.isLteq, POrd.isGteq] at h' ⊢
      obtain ⟨-, -, c3, c4⟩ := hs rfl hc
      exact absurd hd (not_or.2 ⟨c3, c4⟩)
  | case5 x a y b m n h hx hy hd hmn =>
    intro ma nb la lb ha hb hm hn hr hs
    rw [not_or] at hd
    have hm' := (hm.resolve_left hd.1).1
    have hn' := (hn.resolve_left hd.2).1
    cases ha with
    | cons ha1 ha2 =>
      cases hb with
      | cons hb1 hb2 =>
        obtain ⟨v, rfl⟩ := special_of_not_isE K hx ha1
        obtain ⟨w, rfl⟩ := special_of_not_isE K hy hb1
        simp only [Patterns.axesOf_cons, Patterns.Part.axes, List.singleton_append]
        rw [Patterns.prefixCmp_special, if_neg (by omega)]
        cases app <;> exact id
  | case6 x a y b m n h hx hy hd hmn hsd ih =>
    intro ma nb la lb ha hb hm hn hr hs
    rw [not_or] at hd
    have hm' := (hm.resolve_left hd.1).1
    have hn' := (hn.resolve_left hd.2).1
    cases ha with
    | cons ha1 ha2 =>
      cases hb with
      | cons hb1 hb2 =>
        have hz := ih 0 0 _ _ ha2 hb2 (bank_zero K hm hd.1) (bank_zero K hn hd.2) (ready_zero hr) (by
          intro e hc
          obtain ⟨c1, c2, -, -⟩ := hs e hc
          have := dynamic_pos
          exact ⟨closed_tail c1, closed_tail c2, by omega, by omega⟩)
        obtain ⟨j, k, rfl, rfl, hjk⟩ : ∃ j k, x = .special j ∧ y = .special k ∧ K.val j = K.val k := by
          cases x <;> cases y <;> simp [sameDescr] at hsd
          exact ⟨_, _, rfl, rfl, hsd⟩
        have e1 : _ = Patterns.Part.special (K.val j) := ha1
        have e2 : _ = Patterns.Part.special (K.val k) := hb1
        subst e1 e2
        simp only [Patterns.axesOf_cons, Patterns.Part.axes, List.singleton_append]
        rw [Patterns.prefixCmp_special, if_pos ⟨by omega, hjk⟩]
        simpa using hz
  | case7 x a y b m n h hx hy hd hmn hsd =>
    intro ma nb la lb ha hb hm hn hr hs
    cases ha with
    | cons ha1 ha2 =>
      cases hb with
      | cons hb1 hb2 =>
        obtain ⟨j, k, rfl, rfl, hjk⟩ : ∃ j k, x = .special j ∧ y = .special k ∧ K.val j ≠ K.val k := by
          cases x <;> cases y <;> simp [sameDescr] at hsd
          exact ⟨_, _, rfl, rfl, hsd⟩
        have e1 : _ = Patterns.Part.special (K.val j) := ha1
        have e2 : _ = Patterns.Part.special (K.val k) := hb1
        subst e1 e2
        simp only [Patterns.axesOf_cons, Patterns.Part.axes, List.singleton_append]
        rw [Patterns.prefixCmp_special, if_neg (fun e => hjk e.2)]
        cases app <;> exact id
  | case8 x a y b m n h hx hy hd hmn hsd hc ih =>
    intro ma nb la lb ha hb hm hn hr hs
    rw [not_or] at hd
    cases app with
    | guaranteed => intro h'; simp at h'
    | permitted =>
      intro h'
      have h' : iter K c .permitted a b 0 0 = false := by simpa using h'
      cases ha with
      | cons ha1 ha2 =>
        cases hb with
        | cons hb1 hb2 =>
          have hz := ih 0 0 _ _ ha2 hb2 (bank_zero K hm hd.1) (bank_zero K hn hd.2) (ready_zero hr) (by
            intro e hc
            obtain ⟨c1, c2, -, -⟩ := hs e hc
            have := dynamic_pos
            exact ⟨closed_tail c1, closed_tail c2, by omega, by omega⟩) h'
          obtain ⟨v, rfl⟩ := special_of_not_isE K hx ha1
          obtain ⟨w, rfl⟩ := special_of_not_isE K hy hb1
          simp only [Patterns.axesOf_cons, Patterns.Part.axes, List.singleton_append]
          rw [Patterns.prefixCmp_special]
          split_ifs with e
          · simpa using hz
          · cases c <;> simp [Comp.holds, POrd.isEq, POrd.isLt, POrd.isGt, POrd.isLteq, POrd.isGteq] at hc ⊢
  | case9 x a y b m n h hx hy hd hmn hsd hc hu ih =>
    intro ma nb la lb ha hb hm hn hr hs
    rw [not_or] at hd
    cases app with
    | permitted => intro h'; simp at h'
    | guaranteed =>
      intro h'
      have h' : iter K c .guaranteed a b 0 0 = true := by simpa using h'
      cases ha with
      | cons ha1 ha2 =>
        cases hb with
        | cons hb1 hb2 =>
          have hz := ih 0 0 _ _ ha2 hb2 (bank_zero K hm hd.1) (bank_zero K hn hd.2) (ready_zero hr) (fun e => nomatch e) h'
          obtain ⟨v, rfl⟩ := special_of_not_isE K hx ha1
          obtain ⟨w, rfl⟩ := special_of_not_isE K hy hb1
          simp only [Patterns.axesOf_cons, Patterns.Part.axes, List.singleton_append]
          rw [Patterns.prefixCmp_special]
          split_ifs with e
          · simpa using hz
          · exact hu
  | case10 x a y b m n h hx hy hd hmn hsd hc hu hl ih =>
    intro ma nb la lb ha hb hm hn hr hs
    cases app with
    | guaranteed => intro h'; simp at h'
    | permitted =>
      have hc : c = .lt ∨ c = .gt := by cases c <;> simp [Comp.holds, POrd.isEq, POrd.isLteq, POrd.isGteq] at hc hu ⊢
      obtain ⟨c1, c2, -, -⟩ := hs rfl hc
      have h1 := (c1 x (List.mem_cons_self ..)).1
      have h2 := (c2 y (List.mem_cons_self ..)).1
      cases x <;> cases y <;> simp_all [sameDescr, Ty.isE]
  | case11 x a y b m n h hx hy hd hmn hsd hc hu hl ih =>
    intro ma nb la lb ha hb hm hn hr hs
    cases app with
    | guaranteed => intro h'; simp at h'
    | permitted =>
      have hc : c = .lt ∨ c = .gt := by cases c <;> simp [Comp.holds, POrd.isEq, POrd.isLteq, POrd.isGteq] at hc hu ⊢
      obtain ⟨c1, c2, -, -⟩ := hs rfl hc
      have h1 := (c1 x (List.mem_cons_self ..)).1
      have h2 := (c2 y (List.mem_cons_self ..)).1
      cases x <;> cases y <;> simp_all [sameDescr, Ty.isE]
  | case12 x a m n hx ih =>
    intro ma nb la lb ha hb hm hn hr hs
    cases ha with
    | cons ha1 ha2 =>
      obtain ⟨o, p, rfl, rfl⟩ := plain_of_isE K hx ha1
      have := ih (ma + p) nb _ _ ha2 hb (bank_inc K hm ha1) hn hr (by
        intro e hc
        obtain ⟨c1, c2, c3, c4⟩ := hs e hc
        exact ⟨closed_tail c1, c2, inc_closed K hm c3 c1, c4⟩)
      simpa only [Patterns.axesOf_cons, Patterns.Part.axes, Patterns.replicate_shift] using this
  | case13 x a m n hx hd =>
    intro ma nb la lb ha hb hm hn hr hs
    cases hb
    cases ha with
    | cons ha1 ha2 =>
      obtain ⟨v, rfl⟩ := special_of_not_isE K hx ha1
      have e : axesOf ([] : List (Patterns.Part ν)) = [] := rfl
      simp only [Patterns.axesOf_cons, Patterns.Part.axes, List.singleton_append, e, List.append_nil]
      rw [Patterns.prefixCmp_special_nil]
      split_ifs with hg <;> cases app <;> cases c <;>
        simp [Comp.holds, POrd.isEq, POrd.isLt, POrd.isGt, POrd.isLteq, POrd.isGteq]
  | case14 x a m n hx hd hge =>
    intro ma nb la lb ha hb hm hn hr hs
    rw [not_or] at hd
    have hm' := (hm.resolve_left hd.1).1
    have hn' := (hn.resolve_left hd.2).1
    cases hb
    cases ha with
    | cons ha1 ha2 =>
      obtain ⟨v, rfl⟩ := special_of_not_isE K hx ha1
      have e : axesOf ([] : List (Patterns.Part ν)) = [] := rfl
      simp only [Patterns.axesOf_cons, Patterns.Part.axes, List.singleton_append, e, List.append_nil]
      rw [Patterns.prefixCmp_special_nil, if_pos (by omega)]
      cases app <;> exact id
  | case15 x a m n hx hd hge hdim =>
    intro ma nb la lb ha hb hm hn hr hs
    rw [not_or] at hd
    have hm' := (hm.resolve_left hd.1).1
    have hn' := (hn.resolve_left hd.2).1
    cases hb
    cases ha with
    | cons ha1 ha2 =>
      obtain ⟨v, rfl⟩ := special_of_not_isE K hx ha1
      have e : axesOf ([] : List (Patterns.Part ν)) = [] := rfl
      simp only [Patterns.axesOf_cons, Patterns.Part.axes, List.singleton_append, e, List.append_nil]
      rw [Patterns.prefixCmp_special_nil, if_neg (by omega)]
      cases app <;> cases c <;> simp [Comp.holds, POrd.isEq, POrd.isLt, POrd.isGt, POrd.isLteq, POrd.isGteq]
  | case16 x a m n hx hd hge hdim =>
    intro ma nb la lb ha hb hm hn hr hs
    rw [not_or] at hd
    have hm' := (hm.resolve_left hd.1).1
    have hn' := (hn.resolve_left hd.2).1
    cases hb
    cases ha with
    | cons ha1 ha2 =>
      obtain ⟨v, rfl⟩ := special_of_not_isE K hx ha1
      have e : axesOf ([] : List (Patterns.Part ν)) = [] := rfl
      simp only [Patterns.axesOf_cons, Patterns.Part.axes, List.singleton_append, e, List.append_nil]
      rw [Patterns.prefixCmp_special_nil, if_neg (by omega)]
      cases app <;> exact id
  | case17 y b m n hy ih =>
    intro ma nb la lb ha hb hm hn hr hs
    cases hb with
    | cons hb1 hb2 =>
      obtain ⟨o, p, rfl, rfl⟩ := plain_of_isE K hy hb1
      have := ih ma (nb + p) _ _ ha hb2 hm (bank_inc K hn hb1) (ready_next K hn hr hb1) (by
        intro e hc
        obtain ⟨c1, c2, c3, c4⟩ := hs e hc
        exact ⟨c1, closed_tail c2, c3, inc_closed K hn c4 c2⟩)
      simpa only [Patterns.axesOf_cons, Patterns.Part.axes, Patterns.replicate_shift] using this
  | case18 y b m n hy hd =>
    intro ma nb la lb ha hb hm hn hr hs
    cases ha
    cases hb with
    | cons hb1 hb2 =>
      obtain ⟨v, rfl⟩ := special_of_not_isE K hy hb1
      have e : axesOf ([] : List (Patterns.Part ν)) = [] := rfl
      simp only [Patterns.axesOf_cons, Patterns.Part.axes, List.singleton_append, e, List.append_nil]
      rw [Patterns.prefixCmp_nil_special]
      split_ifs with hg <;> cases app <;> cases c <;>
        simp [Comp.holds, POrd.isEq, POrd.isLt, POrd.isGt, POrd.isLteq, POrd.isGteq]
  | case19 y b m n hy hd hge =>
    intro ma nb la lb ha hb hm hn hr hs
    rw [not_or] at hd
    have hm' := (hm.resolve_left hd.1).1
    have hn' := (hn.resolve_left hd.2).1
    cases ha
    cases hb with
    | cons hb1 hb2 =>
      obtain ⟨v, rfl⟩ := special_of_not_isE K hy hb1
      have e : axesOf ([] : List (Patterns.Part ν)) = [] := rfl
      simp only [Patterns.axesOf_cons, Patterns.Part.axes, List.singleton_append, e, List.append_nil]
      rw [Patterns.prefixCmp_nil_special, if_pos (by omega)]
      cases app <;> exact id
  | case20 y b m n hy hd hge hdim =>
    intro ma nb la lb ha hb hm hn hr hs
    rw [not_or] at hd
    have hm' := (hm.resolve_left hd.1).1
    have hn' := (hn.resolve_left hd.2).1
    cases ha
    cases hb with
    | cons hb1 hb2 =>
      obtain ⟨v, rfl⟩ := special_of_not_isE K hy hb1
      have e : axesOf ([] : List (Patterns.Part ν)) = [] := rfl
      simp only [Patterns.axesOf_cons, Patterns.Part.axes, List.singleton_append, e, List.append_nil]
      rw [Patterns.prefixCmp_nil_special, if_neg (by omega)]
      cases app <;> cases c <;> simp [Comp.holds, POrd.isEq, POrd.isLt, POrd.isGt, POrd.isLteq, POrd.isGteq]
  | case21 y b m n hy hd hge hdim =>
    intro ma nb la lb ha hb hm hn hr hs
    rw [not_or] at hd
    have hm' := (hm.resolve_left hd.1).1
    have hn' := (hn.resolve_left hd.2).1
    cases ha
    cases hb with
    | cons hb1 hb2 =>
      obtain ⟨v, rfl⟩ := special_of_not_isE K hy hb1
      have e : axesOf ([] : List (Patterns.Part ν)) = [] := rfl
      simp only [Patterns.axesOf_cons, Patterns.Part.axes, List.singleton_append, e, List.append_nil]
      rw [Patterns.prefixCmp_nil_special, if_neg (by omega)]
      cases app <;> exact id
  | case22 m n hd =>
    intro ma nb la lb ha hb hm hn hr hs
    have hm' := (hm.resolve_left hd.1).1
    have hn' := (hn.resolve_left hd.2).1
    cases ha
    cases hb
    have e : axesOf ([] : List (Patterns.Part ν)) = [] := rfl
    rw [e, List.append_nil, List.append_nil, cmp_eq, ← hm', ← hn']
    cases app <;> exact id
  | case23 n hd =>
    intro ma nb la lb ha hb hm hn hr hs
    have hp := dynamic_pos
    have hm' : 0 = ma := (hm.resolve_left (by omega)).1
    cases ha
    cases hb
    have e : axesOf ([] : List (Patterns.Part ν)) = [] := rfl
    rw [e, List.append_nil, List.append_nil, cmp_eq, ← hm']
    have hcmp : cmp 0 nb = .less ∨ cmp 0 nb = .equivalent := by
      rcases Nat.eq_zero_or_pos nb with rfl | h0
      · exact .inr rfl
      · exact .inl (if_pos h0)
    rcases hcmp with h0 | h0 <;> rw [h0] <;> cases app <;> cases c <;>
      simp [allOrAny, Comp.holds, POrd.isEq, POrd.isLt, POrd.isGt, POrd.isLteq, POrd.isGteq]
  | case24 m hd hm0 =>
    intro ma nb la lb ha hb hm hn hr hs
    have hp := dynamic_pos
    have hn' : 0 = nb := (hn.resolve_left (by omega)).1
    cases ha
    cases hb
    have e : axesOf ([] : List (Patterns.Part ν)) = [] := rfl
    rw [e, List.append_nil, List.append_nil, cmp_eq, ← hn']
    have hcmp : cmp ma 0 = .greater ∨ cmp ma 0 = .equivalent := by
      rcases Nat.eq_zero_or_pos ma with rfl | h0
      · exact .inr rfl
      · exact .inl (by rw [cmp, if_neg (by omega), if_neg (by omega)])
    rcases hcmp with h0 | h0 <;> rw [h0] <;> cases app <;> cases c <;>
      simp [allOrAny, Comp.holds, POrd.isEq, POrd.isLt, POrd.isGt, POrd.isLteq, POrd.isGteq]
  | case25 m n hd hm0 hn0 hdd =>
    intro ma nb la lb ha hb hm hn hr hs
    cases app <;> cases c <;> simp [Comp.holds, POrd.isEq, POrd.isLt, POrd.isGt, POrd.isLteq, POrd.isGteq]
  | case26 m n hd hm0 hn0 hdd =>
    intro ma nb la lb ha hb hm hn hr hs
    cases app <;> simp

/-! ## Collections -/

theorem axesOf_nil_of_zero {ts : List (Ty κ)} {l : List (Patterns.Part ν)} (h0 : sumDim K ts = 0) (h : List.Forall₂ (Ty.HasSpecial K) ts l) :
    axesOf l = [] := by
  induction h with
  | nil => rfl
  | @cons t p ts l h1 h2 ih =>
    have hd := dynamic_pos
    rw [sumDim] at h0
    split_ifs at h0 with hc
    · omega
    · have ht : t.dim K = 0 := by omega
      have hs : sumDim K ts = 0 := by omega
      rw [Patterns.axesOf_cons, ih hs, List.append_nil]
      cases t with
      | euc o =>
        cases o with
        | none => exact absurd (.inl rfl) hc
        | some n =>
          have e : p = .plain n := h1
          have e' : n = 0 := ht
          rw [e, e']; rfl
      | special k => exact absurd ht (special_dim_pos K k)
      | erased => exact absurd (.inl rfl) hc

theorem known_of_sumDim {ts : List (Ty κ)} (h : sumDim K ts ≠ dynamic) : ∀ t ∈ ts, t.dim K ≠ dynamic := by
  induction ts with
  | nil => intro t ht; cases ht
  | cons u ts ih =>
    rw [sumDim] at h
    split_ifs at h with hc
    · exact absurd rfl h
    · rw [not_or] at hc
      intro t ht
      rcases List.mem_cons.1 ht with rfl | ht
      · exact hc.1
      · exact ih hc.2 t ht

/-- A type with a known dimension has one value. -/
theorem value_of_dim {u : Ty κ} (h : u.dim K ≠ dynamic) :
    (∃ k, u = .special k ∧ ∀ q : Patterns.Part ν, u.HasSpecial K q ↔ q = .special (K.val k)) ∨
    ∃ n, u = .euc (some n) ∧ ∀ q : Patterns.Part ν, u.HasSpecial K q ↔ q = .plain n := by
  cases u with
  | euc o =>
    cases o with
    | none => exact absurd rfl h
    | some n => exact .inr ⟨n, rfl, fun q => Iff.rfl⟩
  | special k => exact .inl ⟨k, rfl, fun q => Iff.rfl⟩
  | erased => exact absurd rfl h

theorem axesOf_special {v : ν} {l : List (Patterns.Part ν)} (h : ∀ p ∈ l, p = .special v) : axesOf l = List.replicate l.length (.special v) := by
  induction l with
  | nil => rfl
  | cons p l ih =>
    rw [Patterns.axesOf_cons, h p (List.mem_cons_self ..), ih fun q hq => h q (List.mem_cons_of_mem _ hq)]
    rfl

theorem axesOf_plain {n : ℕ} {l : List (Patterns.Part ν)} (h : ∀ p ∈ l, p = .plain n) : axesOf l = List.replicate (l.length * n) .plain := by
  induction l with
  | nil => simp [axesOf]
  | cons p l ih =>
    rw [Patterns.axesOf_cons, h p (List.mem_cons_self ..), ih fun q hq => h q (List.mem_cons_of_mem _ hq)]
    show List.replicate n Axis.plain ++ _ = _
    rw [← List.replicate_add, List.length_cons]
    congr 1
    ring

theorem axesOf_sum {ts : List (Ty κ)} {l : List (Patterns.Part ν)} (he : allE ts = true) (hd : sumDim K ts ≠ dynamic)
    (h : List.Forall₂ (Ty.HasSpecial K) ts l) : axesOf l = List.replicate (sumDim K ts) .plain := by
  induction h with
  | nil => rfl
  | @cons t p ts l h1 h2 ih =>
    rw [sumDim] at hd ⊢
    have he' : t.isE = true ∧ allE ts = true := by simpa [allE] using he
    split_ifs at hd ⊢ with hc
    · exact absurd rfl hd
    · rw [not_or] at hc
      rw [Patterns.axesOf_cons, ih he'.2 hc.2]
      rcases value_of_dim K hc.1 with ⟨k, rfl, -⟩ | ⟨n, rfl, hv⟩
      · cases he'.1
      · rw [(hv p).1 h1]
        show List.replicate n Axis.plain ++ _ = List.replicate (n + _) _
        rw [List.replicate_add]

theorem mem_axesOf {p : Patterns.Part ν} {l : List (Patterns.Part ν)} (hp : p ∈ l) {x : Axis ν} (hx : x ∈ p.axes) : x ∈ axesOf l :=
  List.mem_flatten.2 ⟨p.axes, List.mem_map.2 ⟨p, hp, rfl⟩, hx⟩

/-- A list of descriptors that begins a repetition of one descriptor is itself such a repetition, unless all is Euclidean. -/
theorem prefix_repeat {ts : List (Ty κ)} {u : Ty κ} {l r : List (Patterns.Part ν)} {pu : Patterns.Part ν} (hu : u.dim K ≠ dynamic) (hpu : u.HasSpecial K pu)
    (hne : ¬ (allE ts = true ∧ u.isE = true)) (hl : List.Forall₂ (Ty.HasSpecial K) ts l) (hr : ∀ p ∈ r, u.HasSpecial K p)
    (hz : ∀ p ∈ l, p ≠ .plain 0) (h : axesOf l <+: axesOf r) : axesOf l = axesOf (List.replicate ts.length pu) := by
  rcases value_of_dim (ν := ν) K hu with ⟨k, rfl, hv⟩ | ⟨n, rfl, hv⟩
  · have er := axesOf_special fun p hp => (hv p).1 (hr p hp)
    have hall : ∀ p ∈ l, p = .special (K.val k) := by
      intro p hp
      cases p with
      | plain n =>
        have hn : n ≠ 0 := fun e => hz _ hp (by rw [e])
        have hm : Axis.plain ∈ axesOf l := mem_axesOf hp (by
          show Axis.plain ∈ List.replicate n Axis.plain
          exact List.mem_replicate.2 ⟨hn, rfl⟩)
        have := h.subset hm
        rw [er] at this
        exact absurd (List.mem_replicate.1 this).2 (by simp)
      | special w =>
        have hm : Axis.special w ∈ axesOf l := mem_axesOf hp (List.mem_singleton.2 rfl)
        have := h.subset hm
        rw [er] at this
        have e := (List.mem_replicate.1 this).2
        injection e with e
        rw [e]
    rw [axesOf_special hall, (hv pu).1 hpu, axesOf_special (v := K.val k) (fun p hp => (List.mem_replicate.1 hp).2), List.length_replicate, hl.length_eq]
  · have hts : ¬ allE ts = true := fun e => hne ⟨e, rfl⟩
    obtain ⟨t, ht, hE⟩ : ∃ t ∈ ts, ¬ t.isE = true := by
      by_contra hcon
      push Not at hcon
      exact hts (List.all_eq_true.2 hcon)
    obtain ⟨i, hi, rfl⟩ := List.getElem_of_mem ht
    have hi' : i < l.length := by rw [← hl.length_eq]; exact hi
    have hget := List.Forall₂.get hl hi hi'
    obtain ⟨w, hw⟩ := special_of_not_isE K hE hget
    have hm : Axis.special w ∈ axesOf l := mem_axesOf (List.getElem_mem hi') (by
      have : l[i] = .special w := hw
      rw [this]
      exact List.mem_singleton.2 rfl)
    have := h.subset hm
    rw [axesOf_plain fun p hp => (hv p).1 (hr p hp)] at this
    exact absurd (List.mem_replicate.1 this).2 (by simp)

theorem separate_replicate {u : Ty κ} (hu : u.dim K ≠ dynamic) (n : ℕ) : Separate (List.replicate n u) := by
  have hne : u ≠ .euc none := by rintro rfl; exact hu rfl
  induction n with
  | zero => trivial
  | succ n ih =>
    cases n with
    | zero => trivial
    | succ n => exact ⟨fun e => absurd e hne, fun e => absurd e hne, ih⟩

theorem forall₂_replicate {u : Ty κ} {p : Patterns.Part ν} (h : u.HasSpecial K p) (n : ℕ) :
    List.Forall₂ (Ty.HasSpecial K) (List.replicate n u) (List.replicate n p) := by
  induction n with
  | zero => exact .nil
  | succ n ih => exact .cons h ih

theorem total_replicate (u : Ty κ) (n : ℕ) : total K (List.replicate n u) = n * u.known K := by simp [total]

theorem separate_of_known {ts : List (Ty κ)} (h : ∀ t ∈ ts, t.dim K ≠ dynamic) : Separate ts := by
  induction ts with
  | nil => trivial
  | cons x ts ih =>
    cases ts with
    | nil => trivial
    | cons y ts =>
      refine ⟨?_, ?_, ih fun t ht => h t (List.mem_cons_of_mem _ ht)⟩
      · rintro rfl; exact absurd rfl (h _ (List.mem_cons_self ..))
      · rintro rfl; exact absurd rfl (h _ (List.mem_cons_of_mem _ (List.mem_cons_self ..)))

theorem ready_of_separate {b : List (Ty κ)} (h : Separate b) : Ready 0 b := by
  have := dynamic_pos
  exact ⟨h, fun _ _ _ => ⟨fun _ => by omega, fun _ => rfl⟩⟩

/-- What a statement about types claims about a comparison of values. -/
def Claim (app : App) (b truth : Bool) : Prop :=
  match app with
  | .guaranteed => b = true → truth = true
  | .permitted => b = false → truth = false

/-- `compares_with_iter` from the beginning. -/
theorem iter_sound' (c : Comp) (app : App) {a b : List (Ty κ)} {la lb : List (Patterns.Part ν)} (ha : List.Forall₂ (Ty.HasSpecial K) a la)
    (hb : List.Forall₂ (Ty.HasSpecial K) b lb) (ta : total K a < dynamic) (tb : total K b < dynamic) (hs : Separate b)
    (hc : app = .permitted → c = .lt ∨ c = .gt → Closed a ∧ Closed b) :
    Claim app (iter K c app a b 0 0) (c.holds (prefixCmp (axesOf la) (axesOf lb))) := by
  have := dynamic_pos
  have h := iter_sound K c app a b 0 0 0 0 la lb ha hb (.inr ⟨rfl, by omega⟩) (.inr ⟨rfl, by omega⟩) (ready_of_separate hs) (by
    intro e h
    exact ⟨(hc e h).1, (hc e h).2, by omega, by omega⟩)
  cases app <;> simpa [Claim] using h

theorem prefix_nil_left (r : List (Axis ν)) : prefixCmp [] r = .less ∨ prefixCmp [] r = .equivalent := by
  cases r with
  | nil => exact .inr rfl
  | cons x r => exact .inl ((Patterns.prefixCmp_spec _ _).2.1.2 ⟨List.nil_prefix, by simp⟩)

theorem prefix_nil_right (l : List (Axis ν)) : prefixCmp l [] = .greater ∨ prefixCmp l [] = .equivalent := by
  cases l with
  | nil => exact .inr rfl
  | cons x r => exact .inl ((Patterns.prefixCmp_spec _ _).2.2.1.2 ⟨List.nil_prefix, by simp⟩)

theorem axesOf_ne_nil {l : List (Patterns.Part ν)} (hl : l ≠ []) (hz : ∀ p ∈ l, p ≠ .plain 0) : axesOf l ≠ [] := by
  cases l with
  | nil => exact absurd rfl hl
  | cons p l =>
    rw [Patterns.axesOf_cons]
    cases p with
    | plain n =>
      cases n with
      | zero => exact absurd rfl (hz _ (List.mem_cons_self ..))
      | succ n => simp [Patterns.Part.axes, List.replicate_succ]
    | special v => simp [Patterns.Part.axes]

theorem claim_self (app : App) (b : Bool) : Claim app b b := by cases app <;> exact id

theorem claim_allOrAny (c : Comp) (app : App) (o o' q : POrd) (h : q = o ∨ q = o') : Claim app (allOrAny c app o o') (c.holds q) := by
  rcases h with rfl | rfl <;> cases app <;> simp [Claim, allOrAny] <;> tauto

theorem claim_permitted (app : App) (b : Bool) : Claim app (app == .permitted) b := by cases app <;> simp [Claim]

theorem axesOf_zero {u : Ty κ} {r : List (Patterns.Part ν)} (hu : u.dim K = 0) (hr : ∀ p ∈ r, u.HasSpecial K p) : axesOf r = [] := by
  classical
  have hd := dynamic_pos
  rcases value_of_dim (ν := ν) K (u := u) (by omega) with ⟨k, rfl, -⟩ | ⟨n, rfl, hv⟩
  · exact absurd hu (special_dim_pos K k)
  · have e : n = 0 := hu
    subst e
    rw [axesOf_plain fun p hp => (hv p).1 (hr p hp)]
    simp

theorem known_eq_dim {u : Ty κ} (h : u.dim K ≠ dynamic) : u.known K = u.dim K := by
  cases u with
  | euc o =>
    cases o with
    | none => exact absurd rfl h
    | some n => rfl
  | special k => rfl
  | erased => exact absurd rfl h

theorem mem_known_le {ts : List (Ty κ)} {t : Ty κ} (h : t ∈ ts) : t.known K ≤ total K ts :=
  List.single_le_sum (by simp) _ (List.mem_map.2 ⟨t, h, rfl⟩)

theorem not_le_of_not_prefix {l r : List (Axis ν)} (h : ¬ l <+: r) : (prefixCmp l r).isEq = false ∧ (prefixCmp l r).isLt = false ∧ (prefixCmp l r).isLteq = false := by
  have hs := Patterns.prefixCmp_spec l r
  cases hc : prefixCmp l r with
  | less => exact absurd (hs.2.1.1 hc).1 h
  | equivalent => exact absurd (hs.1.1 hc ▸ List.prefix_rfl) h
  | greater => exact ⟨rfl, rfl, rfl⟩
  | unordered => exact ⟨rfl, rfl, rfl⟩

theorem not_ge_of_not_prefix {l r : List (Axis ν)} (h : ¬ r <+: l) : (prefixCmp l r).isEq = false ∧ (prefixCmp l r).isGt = false ∧ (prefixCmp l r).isGteq = false := by
  have hs := Patterns.prefixCmp_spec l r
  cases hc : prefixCmp l r with
  | greater => exact absurd (hs.2.2.1.1 hc).1 h
  | equivalent => exact absurd (hs.1.1 hc ▸ List.prefix_rfl) h
  | less => exact ⟨rfl, rfl, rfl⟩
  | unordered => exact ⟨rfl, rfl, rfl⟩

theorem isEq_iff (l r : List (Axis ν)) : (prefixCmp l r).isEq = true ↔ l = r := by
  rw [← (Patterns.prefixCmp_spec l r).1]
  cases prefixCmp l r <;> simp [POrd.isEq]

theorem isEq_false {l r : List (Axis ν)} (h : l ≠ r) : (prefixCmp l r).isEq = false := by
  rw [← Bool.not_eq_true, isEq_iff]; exact h

/-- A collection of fixed size against a repetition, if not all is Euclidean. -/
theorem repeat_right {ts : List (Ty κ)} {u : Ty κ} {l r : List (Patterns.Part ν)} (hu : u.dim K ≠ dynamic) (hne : ¬ (allE ts = true ∧ u.isE = true))
    (hl : List.Forall₂ (Ty.HasSpecial K) ts l) (hr : ∀ p ∈ r, u.HasSpecial K p) (hz : ∀ p ∈ l, p ≠ .plain 0)
    (tt : total K ts < dynamic) (tu : total K (List.replicate ts.length u) < dynamic)
    (h : iter K .eq .permitted ts (List.replicate ts.length u) 0 0 = false ∨ iter K .neq .guaranteed ts (List.replicate ts.length u) 0 0 = true) :
    ¬ axesOf l <+: axesOf r := by
  intro hp
  obtain ⟨pu, hpu⟩ : ∃ pu : Patterns.Part ν, u.HasSpecial K pu := by
    rcases value_of_dim (ν := ν) K hu with ⟨k, rfl, hv⟩ | ⟨n, rfl, hv⟩
    · exact ⟨_, (hv _).2 rfl⟩
    · exact ⟨_, (hv _).2 rfl⟩
  have e := prefix_repeat K hu hpu hne hl hr hz hp
  have hf := forall₂_replicate K hpu ts.length
  rcases h with h | h
  · have := iter_sound' K .eq .permitted hl hf tt tu (separate_replicate K hu _) (by simp) h
    rw [e] at this
    have h2 : (prefixCmp (axesOf (List.replicate ts.length pu)) (axesOf (List.replicate ts.length pu))).isEq = false := this
    rw [(isEq_iff _ _).2 rfl] at h2
    cases h2
  · have := iter_sound' K .neq .guaranteed hl hf tt tu (separate_replicate K hu _) (by simp) h
    rw [e] at this
    have h2 : (!(prefixCmp (axesOf (List.replicate ts.length pu)) (axesOf (List.replicate ts.length pu))).isEq) = true := this
    rw [(isEq_iff _ _).2 rfl] at h2
    cases h2

/-- The same, the other way round. -/
theorem repeat_left {ts : List (Ty κ)} {u : Ty κ} {l r : List (Patterns.Part ν)} (hu : u.dim K ≠ dynamic) (hts : sumDim K ts ≠ dynamic)
    (hne : ¬ (allE ts = true ∧ u.isE = true))
    (hl : List.Forall₂ (Ty.HasSpecial K) ts l) (hr : ∀ p ∈ r, u.HasSpecial K p) (hz : ∀ p ∈ l, p ≠ .plain 0)
    (tt : total K ts < dynamic) (tu : total K (List.replicate ts.length u) < dynamic)
    (h : iter K .eq .permitted (List.replicate ts.length u) ts 0 0 = false ∨ iter K .neq .guaranteed (List.replicate ts.length u) ts 0 0 = true) :
    ¬ axesOf l <+: axesOf r := by
  intro hp
  obtain ⟨pu, hpu⟩ : ∃ pu : Patterns.Part ν, u.HasSpecial K pu := by
    rcases value_of_dim (ν := ν) K hu with ⟨k, rfl, hv⟩ | ⟨n, rfl, hv⟩
    · exact ⟨_, (hv _).2 rfl⟩
    · exact ⟨_, (hv _).2 rfl⟩
  have e := prefix_repeat K hu hpu hne hl hr hz hp
  have hf := forall₂_replicate K hpu ts.length
  have hs := separate_of_known K (known_of_sumDim K hts)
  rcases h with h | h
  · have := iter_sound' K .eq .permitted hf hl tu tt hs (by simp) h
    rw [e] at this
    have h2 : (prefixCmp (axesOf (List.replicate ts.length pu)) (axesOf (List.replicate ts.length pu))).isEq = false := this
    rw [(isEq_iff _ _).2 rfl] at h2
    cases h2
  · have := iter_sound' K .neq .guaranteed hf hl tu tt hs (by simp) h
    rw [e] at this
    have h2 : (!(prefixCmp (axesOf (List.replicate ts.length pu)) (axesOf (List.replicate ts.length pu))).isEq) = true := this
    rw [(isEq_iff _ _).2 rfl] at h2
    cases h2

theorem total_le_succ (u : Ty κ) (n : ℕ) : total K (List.replicate n u) ≤ total K (List.replicate (n + 1) u) := by
  rw [total_replicate, total_replicate]
  exact Nat.mul_le_mul_right _ (Nat.le_succ n)

/-- A sum of Euclidean dimensions that is not a multiple of the dimension of an element is not that of a range. -/
theorem not_multiple {ts : List (Ty κ)} {u : Ty κ} {l r : List (Patterns.Part ν)} (hu : u.dim K ≠ dynamic) (hts : sumDim K ts ≠ dynamic)
    (ht : allE ts = true) (he : u.isE = true) (hl : List.Forall₂ (Ty.HasSpecial K) ts l) (hr : ∀ p ∈ r, u.HasSpecial K p)
    (h : sumDim K ts % u.dim K ≠ 0) : axesOf l ≠ axesOf r := by
  rcases value_of_dim (ν := ν) K hu with ⟨k, rfl, -⟩ | ⟨n, rfl, hv⟩
  · cases he
  · rw [axesOf_plain fun p hp => (hv p).1 (hr p hp), axesOf_sum K ht hts hl]
    intro e
    have := congrArg List.length e
    simp only [List.length_replicate] at this
    apply h
    show _ % n = 0
    rw [this, Nat.mul_mod_left]

/-- A collection of fixed size and a range. -/
theorem fixedRange_sound (c : Comp) (app : App) {ts : List (Ty κ)} {u : Ty κ} {l r : List (Patterns.Part ν)}
    (hl : List.Forall₂ (Ty.HasSpecial K) ts l) (hr : ∀ p ∈ r, u.HasSpecial K p) (hz : ∀ p ∈ l, p ≠ .plain 0) (h0 : sumDim K ts ≠ 0)
    (hts : total K ts < dynamic) (hu : total K (List.replicate (ts.length + 1) u) < dynamic) :
    Claim app (fixedRange K c app ts u) (c.holds (prefixCmp (axesOf l) (axesOf r))) := by
  have tu := lt_of_le_of_lt (total_le_succ K u ts.length) hu
  unfold fixedRange
  by_cases h1 : u.dim K = 0
  · rw [if_pos h1, axesOf_zero K h1 hr]
    have hne : l ≠ [] := by
      rintro rfl
      cases hl
      exact h0 rfl
    have e : prefixCmp (axesOf l) [] = .greater := (Patterns.prefixCmp_spec _ _).2.2.1.2 ⟨List.nil_prefix, axesOf_ne_nil hne hz⟩
    rw [e]
    exact claim_self _ _
  rw [if_neg h1]
  by_cases h2 : sumDim K ts ≠ dynamic ∧ u.dim K ≠ dynamic
  swap
  · rw [if_neg h2]; exact claim_permitted _ _
  rw [if_pos h2]
  by_cases h3 : (allE ts && u.isE) = true
  · rw [if_pos h3]
    obtain ⟨e1, e2⟩ := Bool.and_eq_true_iff.1 h3
    have key := not_multiple K h2.2 h2.1 e1 e2 hl hr
    cases c <;> cases app <;>
      simp [Claim, Comp.holds, POrd.isEq, POrd.isLt, POrd.isGt, POrd.isLteq, POrd.isGteq]
    · intro h; exact isEq_false (key h)
    · intro h; exact isEq_false (key h)
  · rw [if_neg h3]
    have hne : ¬ (allE ts = true ∧ u.isE = true) := fun e => h3 (Bool.and_eq_true_iff.2 e)
    have key := repeat_right K h2.2 hne hl hr hz hts tu
    cases c <;> cases app <;>
      simp [Claim, Comp.holds, POrd.isEq, POrd.isLt, POrd.isGt, POrd.isLteq, POrd.isGteq]
    · intro h; exact (not_le_of_not_prefix (key (.inl h))).1
    · intro h; exact (not_le_of_not_prefix (key (.inr h))).1
    · intro h; exact (not_le_of_not_prefix (key (.inl h))).2.1
    · intro h; exact (not_le_of_not_prefix (key (.inl h))).2.2

/-- A range and a collection of fixed size. -/
theorem rangeFixed_sound (c : Comp) (app : App) {us : List (Ty κ)} {t : Ty κ} {l r : List (Patterns.Part ν)}
    (hl : ∀ p ∈ l, t.HasSpecial K p) (hr : List.Forall₂ (Ty.HasSpecial K) us r) (hz : ∀ p ∈ r, p ≠ .plain 0) (h0 : sumDim K us ≠ 0)
    (hts : total K us < dynamic) (hu : total K (List.replicate (us.length + 1) t) < dynamic) :
    Claim app (rangeFixed K c app t us) (c.holds (prefixCmp (axesOf l) (axesOf r))) := by
  have tu := lt_of_le_of_lt (total_le_succ K t us.length) hu
  unfold rangeFixed
  by_cases h1 : t.dim K = 0
  · rw [if_pos h1, axesOf_zero K h1 hl]
    have hne : r ≠ [] := by
      rintro rfl
      cases hr
      exact h0 rfl
    have e : prefixCmp [] (axesOf r) = .less := (Patterns.prefixCmp_spec _ _).2.1.2 ⟨List.nil_prefix, (axesOf_ne_nil hne hz).symm⟩
    rw [e]
    exact claim_self _ _
  rw [if_neg h1]
  by_cases h2 : t.dim K ≠ dynamic ∧ sumDim K us ≠ dynamic
  swap
  · rw [if_neg h2]; exact claim_permitted _ _
  rw [if_pos h2]
  by_cases h3 : (t.isE && allE us) = true
  · rw [if_pos h3]
    obtain ⟨e1, e2⟩ := Bool.and_eq_true_iff.1 h3
    have key := fun h e => not_multiple K h2.1 h2.2 e2 e1 hr hl h (Eq.symm e)
    cases c <;> cases app <;>
      simp [Claim, Comp.holds, POrd.isEq, POrd.isLt, POrd.isGt, POrd.isLteq, POrd.isGteq]
    · intro h; exact isEq_false (key h)
    · intro h; exact isEq_false (key h)
  · rw [if_neg h3]
    have hne : ¬ (allE us = true ∧ t.isE = true) := fun e => h3 (Bool.and_eq_true_iff.2 e.symm)
    have key := repeat_left K h2.1 h2.2 hne hr hl hz hts tu
    cases c <;> cases app <;>
      simp [Claim, Comp.holds, POrd.isEq, POrd.isLt, POrd.isGt, POrd.isLteq, POrd.isGteq]
    · intro h; exact (not_ge_of_not_prefix (key (.inl h))).1
    · intro h; exact (not_ge_of_not_prefix (key (.inr h))).1
    · intro h; exact (not_ge_of_not_prefix (key (.inl h))).2.1
    · intro h; exact (not_ge_of_not_prefix (key (.inl h))).2.2

theorem fixedFixed_sound (c : Comp) (app : App) {a b : List (Ty κ)} {la lb : List (Patterns.Part ν)} (ha : List.Forall₂ (Ty.HasSpecial K) a la)
    (hb : List.Forall₂ (Ty.HasSpecial K) b lb) (ta : total K a < dynamic) (tb : total K b < dynamic) (hs : Separate b)
    (hc : app = .permitted → c = .lt ∨ c = .gt → Closed a ∧ Closed b) :
    Claim app (comparesWith.fixedFixed K c app a b) (c.holds (prefixCmp (axesOf la) (axesOf lb))) := by
  unfold comparesWith.fixedFixed
  have hnil : prefixCmp ([] : List (Axis ν)) [] = .equivalent := (Patterns.prefixCmp_spec _ _).1.2 rfl
  split_ifs with h1 h2
  · rw [axesOf_nil_of_zero K h1.1 ha, axesOf_nil_of_zero K h1.2 hb, hnil]
    exact claim_self _ _
  · obtain rfl := List.length_eq_zero_iff.1 h2.1
    obtain rfl := List.length_eq_zero_iff.1 h2.2
    cases ha; cases hb
    show Claim app _ (c.holds (prefixCmp [] []))
    rw [hnil]
    exact claim_self _ _
  · exact iter_sound' K c app ha hb ta tb hs hc

theorem rangeDim_zero {t : Ty κ} (h : rangeDim K t = 0) : t.dim K = 0 := by
  have := dynamic_pos
  unfold rangeDim at h
  split_ifs at h with h1
  · exact h1
  · omega

theorem withRange_sound (c : Comp) (app : App) {ts : List (Ty κ)} {u : Ty κ} {l r : List (Patterns.Part ν)}
    (hl : List.Forall₂ (Ty.HasSpecial K) ts l) (hr : ∀ p ∈ r, u.HasSpecial K p) (hz : ∀ p ∈ l, p ≠ .plain 0)
    (hts : total K ts < dynamic) (hu : total K (List.replicate (ts.length + 1) u) < dynamic) :
    Claim app (comparesWith.withRange K c app ts u) (c.holds (prefixCmp (axesOf l) (axesOf r))) := by
  unfold comparesWith.withRange
  have hnil : prefixCmp ([] : List (Axis ν)) [] = .equivalent := (Patterns.prefixCmp_spec _ _).1.2 rfl
  split_ifs with h1 h2
  · rw [axesOf_nil_of_zero K h1.1 hl, axesOf_zero K (rangeDim_zero K h1.2) hr, hnil]
    exact claim_self _ _
  · rw [axesOf_nil_of_zero K h2 hl]
    exact claim_allOrAny _ _ _ _ _ (prefix_nil_left _)
  · exact fixedRange_sound K c app hl hr hz h2 hts hu

theorem rangeWith_sound (c : Comp) (app : App) {us : List (Ty κ)} {t : Ty κ} {l r : List (Patterns.Part ν)}
    (hl : ∀ p ∈ l, t.HasSpecial K p) (hr : List.Forall₂ (Ty.HasSpecial K) us r) (hz : ∀ p ∈ r, p ≠ .plain 0)
    (hts : total K us < dynamic) (hu : total K (List.replicate (us.length + 1) t) < dynamic) :
    Claim app (comparesWith.rangeWith K c app t us) (c.holds (prefixCmp (axesOf l) (axesOf r))) := by
  unfold comparesWith.rangeWith
  have hnil : prefixCmp ([] : List (Axis ν)) [] = .equivalent := (Patterns.prefixCmp_spec _ _).1.2 rfl
  split_ifs with h1 h2
  · rw [axesOf_nil_of_zero K h1.2 hr, axesOf_zero K (rangeDim_zero K h1.1) hl, hnil]
    exact claim_self _ _
  · rw [axesOf_nil_of_zero K h2 hr]
    exact claim_allOrAny _ _ _ _ _ (prefix_nil_right _)
  · exact rangeFixed_sound K c app hl hr hz h2 hts hu

theorem rangeRange_sound (c : Comp) (app : App) {t u : Ty κ} {l r : List (Patterns.Part ν)}
    (hl : ∀ p ∈ l, t.HasSpecial K p) (hr : ∀ p ∈ r, u.HasSpecial K p) :
    Claim app (comparesWith K c app (.range t) (.range u)) (c.holds (prefixCmp (axesOf l) (axesOf r))) := by
  have hnil : prefixCmp ([] : List (Axis ν)) [] = .equivalent := (Patterns.prefixCmp_spec _ _).1.2 rfl
  simp only [comparesWith]
  split_ifs with h1 h2 h3
  · rw [axesOf_zero K (rangeDim_zero K h1.1) hl, axesOf_zero K (rangeDim_zero K h1.2) hr, hnil]
    exact claim_self _ _
  · rw [axesOf_zero K (rangeDim_zero K h2) hl]
    exact claim_allOrAny _ _ _ _ _ (prefix_nil_left _)
  · rw [axesOf_zero K (rangeDim_zero K h3) hr]
    exact claim_allOrAny _ _ _ _ _ (prefix_nil_right _)
  · exact claim_permitted _ _

/-- `compares_with`. -/
theorem comparesWith_sound (c : Comp) (app : App) {T U : PTy κ} {l r : List (Patterns.Part ν)} (hl : T.Values (Ty.HasSpecial K) l)
    (hr : U.Values (Ty.HasSpecial K) r) (hf : Fits K T U) (hs : Separate U.types)
    (hzl : (∃ u, U = .range u) → ∀ p ∈ l, p ≠ .plain 0) (hzr : (∃ t, T = .range t) → ∀ p ∈ r, p ≠ .plain 0)
    (hc : app = .permitted → c = .lt ∨ c = .gt → Closed T.types ∧ Closed U.types) :
    Claim app (comparesWith K c app T U) (c.holds (prefixCmp (axesOf l) (axesOf r))) := by
  obtain ⟨f1, f2⟩ := hf
  cases T with
  | one t =>
    obtain ⟨p, rfl, hp⟩ := hl
    have hl : List.Forall₂ (Ty.HasSpecial K) [t] [p] := .cons hp .nil
    cases U with
    | one u =>
      obtain ⟨q, rfl, hq⟩ := hr
      exact fixedFixed_sound K c app hl (.cons hq .nil) f1 f2 hs hc
    | fixed us => exact fixedFixed_sound K c app hl hr f1 f2 hs hc
    | range u =>
      exact withRange_sound K c app hl hr (hzl ⟨u, rfl⟩) f1 f2
  | fixed ts =>
    cases U with
    | one u =>
      obtain ⟨q, rfl, hq⟩ := hr
      exact fixedFixed_sound K c app hl (.cons hq .nil) f1 f2 hs hc
    | fixed us => exact fixedFixed_sound K c app hl hr f1 f2 hs hc
    | range u =>
      exact withRange_sound K c app hl hr (hzl ⟨u, rfl⟩) f1 f2
  | range t =>
    cases U with
    | one u =>
      obtain ⟨q, rfl, hq⟩ := hr
      exact rangeWith_sound K c app hl (.cons hq .nil) (hzr ⟨t, rfl⟩) f2 f1
    | fixed us =>
      exact rangeWith_sound K c app hl hr (hzr ⟨t, rfl⟩) f2 f1
    | range u => exact rangeRange_sound K c app hl hr

/-! ## Types that say everything -/

theorem closed_cases {t : Ty κ} {ts : List (Ty κ)} (h : Closed (t :: ts)) : (∃ n, t = .euc (some n)) ∨ ∃ k, t = .special k := by
  obtain ⟨h1, h2⟩ := h t (List.mem_cons_self ..)
  cases t with
  | euc o =>
    cases o with
    | none => exact absurd rfl h2
    | some n => exact .inl ⟨n, rfl⟩
  | special k => exact .inr ⟨k, rfl⟩
  | erased => exact absurd rfl h1

theorem incBank_closed {m n : ℕ} {ts : List (Ty κ)} (h : m + total K (.euc (some n) :: ts) < dynamic) : incBank m n = m + n ∧ (m + n) % 2 ^ 64 = m + n := by
  rw [total_cons] at h
  have e : (Ty.euc (some n) : Ty κ).known K = n := rfl
  have e2 : (m + n) % 2 ^ 64 = m + n := Nat.mod_eq_of_lt (by unfold dynamic at h; omega)
  refine ⟨?_, e2⟩
  unfold incBank
  rw [if_neg (by omega), e2]

theorem closed_dim_euc (n : ℕ) : (Ty.euc (some n) : Ty κ).dim K = n := rfl

/-- The two applicabilities agree on types that say everything. -/
theorem iter_closed (c : Comp) (N : ℕ) : ∀ (a b : List (Ty κ)) (m n : ℕ), a.length + b.length ≤ N → Closed a → Closed b →
    m + total K a < dynamic → n + total K b < dynamic → iter K c .guaranteed a b m n = iter K c .permitted a b m n := by
  have hd := dynamic_pos
  induction N with
  | zero =>
    intro a b m n hN _ _ hm hn
    obtain rfl : a = [] := List.length_eq_zero_iff.1 (by omega)
    obtain rfl : b = [] := List.length_eq_zero_iff.1 (by omega)
    simp only [iter]
    rw [if_pos ⟨by omega, by omega⟩, if_pos ⟨by omega, by omega⟩]
  | succ N ih =>
    intro a b m n hN ca cb hm hn
    have hm' : m ≠ dynamic := by omega
    have hn' : n ≠ dynamic := by omega
    cases a with
    | nil =>
      cases b with
      | nil =>
        simp only [iter]
        rw [if_pos ⟨hm', hn'⟩, if_pos ⟨hm', hn'⟩]
      | cons y b =>
        simp only [List.length_cons, List.length_nil] at hN
        rcases closed_cases cb with ⟨q, rfl⟩ | ⟨k, rfl⟩
        · obtain ⟨i1, i2⟩ := incBank_closed K hn
          simp only [iter, Ty.isE, if_true, closed_dim_euc, i1]
          refine ih _ _ _ _ (by simp only [List.length_nil]; omega) ca (closed_tail cb) hm ?_
          rw [total_cons] at hn
          have e : (Ty.euc (some q) : Ty κ).known K = q := rfl
          omega
        · simp only [iter, Ty.isE, hm', hn', special_dim, or_self, if_false, Bool.false_eq_true]
    | cons x a =>
      simp only [List.length_cons] at hN
      rcases closed_cases ca with ⟨p, rfl⟩ | ⟨j, rfl⟩
      · obtain ⟨i1, i2⟩ := incBank_closed K hm
        have e : (Ty.euc (some p) : Ty κ).known K = p := rfl
        have hm2 := hm
        rw [total_cons] at hm2
        cases b with
        | nil =>
          simp only [iter, Ty.isE, if_true, closed_dim_euc, i1]
          exact ih _ _ _ _ (by simp only [List.length_nil] at hN ⊢; omega) (closed_tail ca) cb (by omega) hn
        | cons y b =>
          simp only [List.length_cons] at hN
          rcases closed_cases cb with ⟨q, rfl⟩ | ⟨k, rfl⟩
          · obtain ⟨j1, j2⟩ := incBank_closed K hn
            have e' : (Ty.euc (some q) : Ty κ).known K = q := rfl
            have hn2 := hn
            rw [total_cons] at hn2
            simp only [iter, Ty.isE, Bool.and_self, if_true, closed_dim_euc, i1, j2]
            exact ih _ _ _ _ (by omega) (closed_tail ca) (closed_tail cb) (by omega) (by omega)
          · simp only [iter, Ty.isE, Bool.and_false, if_true, Bool.false_eq_true, if_false, closed_dim_euc, i1]
            exact ih _ _ _ _ (by simp only [List.length_cons]; omega) (closed_tail ca) cb (by omega) hn
      · cases b with
        | nil =>
          simp only [iter, Ty.isE, hm', hn', special_dim, or_self, if_false, Bool.false_eq_true]
        | cons y b =>
          simp only [List.length_cons] at hN
          rcases closed_cases cb with ⟨q, rfl⟩ | ⟨k, rfl⟩
          · obtain ⟨j1, j2⟩ := incBank_closed K hn
            have e' : (Ty.euc (some q) : Ty κ).known K = q := rfl
            have hn2 := hn
            rw [total_cons] at hn2
            simp only [iter, Ty.isE, Bool.false_and, if_true, Bool.false_eq_true, if_false, closed_dim_euc, j1]
            exact ih _ _ _ _ (by simp only [List.length_cons]; omega) ca (closed_tail cb) hm (by omega)
          · simp only [iter, Ty.isE, hm', hn', or_self, if_false, Bool.false_eq_true, sameDescr, Bool.and_self]
            by_cases h1 : m ≠ n
            · rw [if_pos h1, if_pos h1]
            · rw [if_neg h1, if_neg h1]
              rw [total_cons] at hm hn
              by_cases hv : K.val j = K.val k
              · simp only [hv, decide_true]
                exact ih _ _ _ _ (by omega) (closed_tail ca) (closed_tail cb) (by omega) (by omega)
              · simp only [hv, decide_false]

theorem fixedFixed_closed (c : Comp) {a b : List (Ty κ)} (ca : Closed a) (cb : Closed b) (ta : total K a < dynamic) (tb : total K b < dynamic) :
    comparesWith.fixedFixed K c .guaranteed a b = comparesWith.fixedFixed K c .permitted a b := by
  unfold comparesWith.fixedFixed
  rw [iter_closed K c _ a b 0 0 le_rfl ca cb (by omega) (by omega)]

/-! ## Uniform patterns -/

theorem commonIter_sound [DecidableEq κ] (ts : List (Ty κ)) : ∀ c, commonIter K ts = some c → c.dim K = 1 → ∀ t ∈ ts, t.dim K = 0 ∨ t = c := by
  fun_induction commonIter K ts with
  | case1 => simp
  | case2 t => intro c h _ u hu; cases h; exact .inr (List.mem_singleton.1 hu)
  | case3 t u ts h ih =>
    intro c hc h1 v hv
    rcases List.mem_cons.1 hv with rfl | hv
    · exact .inl h.1
    · rcases List.mem_cons.1 hv with rfl | hv
      · exact .inl h.2
      · exact ih c hc h1 v hv
  | case4 t u ts h h' ih =>
    intro c hc h1 v hv
    rcases List.mem_cons.1 hv with rfl | hv
    · exact .inl h'
    · exact ih c hc h1 v hv
  | case5 t u ts h h' h'' ih =>
    intro c hc h1 v hv
    rcases List.mem_cons.1 hv with rfl | hv
    · exact ih c hc h1 _ (List.mem_cons_self ..)
    · rcases List.mem_cons.1 hv with rfl | hv
      · exact .inl h''
      · exact ih c hc h1 v (List.mem_cons_of_mem _ hv)
  | case6 t u ts h h' h'' ih =>
    intro c hc h1 v hv
    have hd := dynamic_pos
    have key : t = c ∧ u = c := by
      have hr := ih c hc h1 (commonRef t u) (List.mem_cons_self ..)
      have ed : (Ty.erased : Ty κ).dim K = dynamic := rfl
      have en : (Ty.euc none : Ty κ).dim K = dynamic := rfl
      cases t with
      | euc m =>
        cases u with
        | euc n =>
          simp only [commonRef] at hr
          split_ifs at hr with e
          · subst e
            rcases hr with hr | hr
            · exact absurd hr h'
            · exact ⟨hr, hr⟩
          · rcases hr with hr | hr
            · omega
            · rw [← hr] at h1; omega
        | special k => rcases hr with hr | hr <;> simp only [commonRef] at hr <;> [skip; rw [← hr] at h1] <;> omega
        | erased => rcases hr with hr | hr <;> simp only [commonRef] at hr <;> [skip; rw [← hr] at h1] <;> omega
      | special j =>
        cases u with
        | euc n => rcases hr with hr | hr <;> simp only [commonRef] at hr <;> [skip; rw [← hr] at h1] <;> omega
        | special k =>
          simp only [commonRef] at hr
          split_ifs at hr with e
          · subst e
            rcases hr with hr | hr
            · exact absurd hr h'
            · exact ⟨hr, hr⟩
          · rcases hr with hr | hr
            · omega
            · rw [← hr] at h1; omega
        | erased => rcases hr with hr | hr <;> simp only [commonRef] at hr <;> [skip; rw [← hr] at h1] <;> omega
      | erased => rcases hr with hr | hr <;> simp only [commonRef] at hr <;> [skip; rw [← hr] at h1] <;> omega
    rcases List.mem_cons.1 hv with rfl | hv
    · exact .inr key.1
    · rcases List.mem_cons.1 hv with rfl | hv
      · exact .inr key.2
      · exact ih c hc h1 v (List.mem_cons_of_mem _ hv)

theorem commonIter_complete [DecidableEq κ] (ts : List (Ty κ)) (k : κ) : (∀ t ∈ ts, t.dim K = 0 ∨ t = .special k) → .special k ∈ ts →
    commonIter K ts = some (.special k) := by
  fun_induction commonIter K ts with
  | case1 => intro _ h; cases h
  | case2 t => intro _ h; rw [List.mem_singleton.1 h]
  | case3 t u ts h ih =>
    intro ha hk
    refine ih (fun v hv => ha v (by simp [hv])) ?_
    rcases List.mem_cons.1 hk with rfl | hk
    · exact absurd h.1 (special_dim_pos K k)
    · rcases List.mem_cons.1 hk with rfl | hk
      · exact absurd h.2 (special_dim_pos K k)
      · exact hk
  | case4 t u ts h h' ih =>
    intro ha hk
    refine ih (fun v hv => ha v (List.mem_cons_of_mem _ hv)) ?_
    rcases List.mem_cons.1 hk with rfl | hk
    · exact absurd h' (special_dim_pos K k)
    · exact hk
  | case5 t u ts h h' h'' ih =>
    intro ha hk
    refine ih (fun v hv => ?_) ?_
    · rcases List.mem_cons.1 hv with rfl | hv
      · exact ha _ (List.mem_cons_self ..)
      · exact ha v (by simp [hv])
    · rcases List.mem_cons.1 hk with e | hk
      · rw [e]; exact List.mem_cons_self ..
      · rcases List.mem_cons.1 hk with rfl | hk
        · exact absurd h'' (special_dim_pos K k)
        · exact List.mem_cons_of_mem _ hk
  | case6 t u ts h h' h'' ih =>
    intro ha hk
    obtain rfl : t = .special k := (ha t (by simp)).resolve_left h'
    obtain rfl : u = .special k := (ha u (by simp)).resolve_left h''
    have e : commonRef (.special k : Ty κ) (.special k) = .special k := if_pos rfl
    rw [e] at ih ⊢
    exact ih (fun v hv => ha v (List.mem_cons_of_mem _ hv)) (List.mem_cons_self ..)

/-- A type whose values are repetitions of `x`, or can be. -/
def Ok (C : Ty κ) (x : Axis ν) : Prop := C = .erased ∨ (C = .euc (some 1) ∧ x = .plain) ∨ ∃ k, C = .special k ∧ x = .special (K.val k)

theorem compare_ok {C D : Ty κ} {x : Axis ν} (hC : Ok K C x) (hD : Ok K D x) : comparesWith K .eq .permitted (.one C) (.one D) = true := by
  have hd := dynamic_pos
  have h0 : (0 : ℕ) ≠ dynamic := by omega
  have h1 : (1 : ℕ) ≠ dynamic := by omega
  have ed : (Ty.erased : Ty κ).dim K = dynamic := rfl
  have e1 : (Ty.euc (some 1) : Ty κ).dim K = 1 := rfl
  have i1 : incBank 0 1 = 1 := by simp [incBank, h0, h1]
  show comparesWith.fixedFixed K .eq .permitted [C] [D] = true
  rcases hC with rfl | ⟨rfl, hx⟩ | ⟨j, rfl, hx⟩ <;> rcases hD with rfl | ⟨rfl, hx'⟩ | ⟨k, rfl, hx'⟩
  all_goals first | (rw [hx] at hx'; cases hx'; done) | skip
  all_goals first
    | (have hjk : K.val j = K.val k := by rw [hx] at hx'; injection hx'
       unfold comparesWith.fixedFixed
       split_ifs
       · rfl
       · simp_all
       · simp [iter, Ty.isE, h0, sameDescr, hjk, Comp.holds, cmp, POrd.isEq])
    | (unfold comparesWith.fixedFixed
       split_ifs
       · rfl
       · simp_all
       · simp [iter, Ty.isE, h0, h1, h1.symm, ed, e1, i1, sameDescr, Comp.holds, cmp, POrd.isEq])

/-- What `compares_with` finds of two one-dimensional types. -/
theorem ok_of_compare {C D : Ty κ} {x : Axis ν} (hC : Ok K C x) (hC' : C ≠ .erased) (hD : D = .erased ∨ D = .euc (some 1) ∨ ∃ k, D = .special k)
    (h : comparesWith K .eq .permitted (.one C) (.one D) = true) : Ok K D x := by
  have hd := dynamic_pos
  have h0 : (0 : ℕ) ≠ dynamic := by omega
  have h1 : (1 : ℕ) ≠ dynamic := by omega
  have e1 : (Ty.euc (some 1) : Ty κ).dim K = 1 := rfl
  have i1 : incBank 0 1 = 1 := by simp [incBank, h0, h1]
  have hsp : ∀ k, (Ty.special k).dim K ≠ 0 := special_dim_pos K
  have hsd : ∀ k, (Ty.special k).dim K ≠ dynamic := special_dim K
  have h : comparesWith.fixedFixed K .eq .permitted [C] [D] = true := h
  rcases hD with rfl | rfl | ⟨k, rfl⟩
  · exact .inl rfl
  · rcases hC with rfl | ⟨rfl, hx⟩ | ⟨j, rfl, hx⟩
    · exact absurd rfl hC'
    · exact .inr (.inl ⟨rfl, hx⟩)
    · exfalso
      simp [comparesWith.fixedFixed, sumDim, iter, Ty.isE, h0, h1, e1, i1, hsp, hsd, Comp.holds, POrd.isEq] at h
  · rcases hC with rfl | ⟨rfl, hx⟩ | ⟨j, rfl, hx⟩
    · exact absurd rfl hC'
    · exfalso
      simp [comparesWith.fixedFixed, sumDim, iter, Ty.isE, h0, h1, e1, i1, hsp, hsd, Comp.holds, POrd.isEq] at h
    · by_cases hjk : K.val j = K.val k
      · exact .inr (.inr ⟨k, rfl, by rw [hx, hjk]⟩)
      · exfalso
        simp [comparesWith.fixedFixed, sumDim, iter, Ty.isE, h0, hsp, hsd, sameDescr, hjk, Comp.holds, POrd.isEq] at h

theorem common1_cases (t : Ty κ) : common1 t = .erased ∨ common1 t = .euc (some 1) ∨ ∃ k, common1 t = .special k := by
  cases t with
  | euc o => exact .inr (.inl rfl)
  | special k => exact .inr (.inr ⟨k, rfl⟩)
  | erased => exact .inl rfl

/-- Elements that are repetitions of one axis are not found to be heterogeneous. -/
theorem heteroIter_false {C : Ty κ} {ts : List (Ty κ)} {x : Axis ν} (hx : axisDim K x = 1) (hC : Ok K C x) (hts : ∀ t ∈ ts, Ok K (common1 t) x) :
    heteroIter K C ts = false := by
  induction ts generalizing C with
  | nil => rfl
  | cons t ts ih =>
    have ht := hts t (List.mem_cons_self ..)
    have hrest := fun u hu => hts u (List.mem_cons_of_mem _ hu)
    have hdim : ¬ ((common1 t).dim K ≠ dynamic ∧ (common1 t).dim K ≠ 1) := by
      rintro ⟨e1, e2⟩
      rcases ht with e | ⟨e, -⟩ | ⟨k, e, ex⟩
      · rw [e] at e1; exact e1 rfl
      · rw [e] at e2; exact e2 rfl
      · rw [e] at e2
        rw [ex] at hx
        exact e2 hx
    rw [heteroIter, if_neg]
    · split_ifs
      · exact ih ht hrest
      · exact ih hC hrest
    · rintro (h | h)
      · exact hdim h
      · exact h (compare_ok K hC ht)

theorem ok_dim {C : Ty κ} (h : C = .erased ∨ C = .euc (some 1) ∨ ∃ k, C = .special k) (hd : ¬ (C.dim K ≠ dynamic ∧ C.dim K ≠ 1)) :
    ∃ x : Axis ν, axisDim K x = 1 ∧ Ok K C x := by
  rcases h with rfl | rfl | ⟨k, rfl⟩
  · exact ⟨.plain, rfl, .inl rfl⟩
  · exact ⟨.plain, rfl, .inr (.inl ⟨rfl, rfl⟩)⟩
  · refine ⟨.special (K.val k), ?_, .inr (.inr ⟨k, rfl, rfl⟩)⟩
    by_contra hne
    exact hd ⟨special_dim K k, hne⟩

/-- Elements that are not found to be heterogeneous can be repetitions of one axis. -/
theorem heteroIter_true {C : Ty κ} {ts : List (Ty κ)} (hC : C = .erased ∨ C = .euc (some 1) ∨ ∃ k, C = .special k)
    (hd : ¬ (C.dim K ≠ dynamic ∧ C.dim K ≠ 1)) (h : heteroIter K C ts = false) :
    ∃ x : Axis ν, axisDim K x = 1 ∧ Ok K C x ∧ ∀ t ∈ ts, Ok K (common1 t) x := by
  induction ts generalizing C with
  | nil =>
    obtain ⟨x, h1, h2⟩ := ok_dim (ν := ν) K hC hd
    exact ⟨x, h1, h2, by simp⟩
  | cons t ts ih =>
    rw [heteroIter] at h
    split_ifs at h with h1 h2
    · obtain ⟨x, hx, hx1, hx2⟩ := ih (common1_cases t) (fun e => h1 (.inl e)) h
      refine ⟨x, hx, ?_, ?_⟩
      · rcases hC with rfl | rfl | ⟨k, rfl⟩
        · exact .inl rfl
        · have hd := dynamic_pos
          have e : (Ty.euc (some 1) : Ty κ).dim K = 1 := rfl
          omega
        · exact absurd h2.2 (special_dim K k)
      · intro u hu
        rcases List.mem_cons.1 hu with rfl | hu
        · exact hx1
        · exact hx2 u hu
    · obtain ⟨x, hx, hx1, hx2⟩ := ih hC hd h
      refine ⟨x, hx, hx1, ?_⟩
      intro u hu
      rcases List.mem_cons.1 hu with rfl | hu
      · have hcmp : comparesWith K .eq .permitted (.one C) (.one (common1 u)) = true := by
          by_contra e
          exact h1 (.inr e)
        rcases common1_cases u with e | e
        · exact .inl e
        · refine ok_of_compare K hx1 ?_ (.inr e) hcmp
          rintro rfl
          apply h2
          refine ⟨?_, rfl⟩
          rcases e with e | ⟨k, e⟩
          · rw [e]
            have hd := dynamic_pos
            show 1 ≠ dynamic
            omega
          · rw [e]; exact special_dim K k
      · exact hx2 u hu

theorem allE_values {ts : List (Ty κ)} {l : List (Patterns.Part ν)} (h : allE ts = true) (hl : List.Forall₂ (Ty.Has K) ts l) :
    ∀ y ∈ axesOf l, y = .plain := by
  induction hl with
  | nil => intro y hy; cases hy
  | @cons t p ts l h1 h2 ih =>
    obtain ⟨e1, e2⟩ := Bool.and_eq_true_iff.1 (show (t.isE && allE ts) = true from h)
    rw [Patterns.axesOf_cons]
    intro y hy
    rcases List.mem_append.1 hy with hy | hy
    · cases t with
      | euc o =>
        obtain ⟨n, rfl⟩ : ∃ n, p = .plain n := by
          cases o with
          | none => exact h1
          | some n => exact ⟨n, h1⟩
        exact (List.mem_replicate.1 hy).2
      | special k => cases e1
      | erased => cases e1
    · exact ih e2 y hy

theorem zero_dim_value {t : Ty κ} {p : Patterns.Part ν} (h : t.dim K = 0) (hp : t.Has K p) : p = .plain 0 := by
  have hd := dynamic_pos
  have ed : (Ty.erased : Ty κ).dim K = dynamic := rfl
  have en : (Ty.euc none : Ty κ).dim K = dynamic := rfl
  cases t with
  | euc o =>
    cases o with
    | none => omega
    | some n =>
      have e : n = 0 := h
      rw [← e]; exact hp
  | special k => exact absurd h (special_dim_pos K k)
  | erased => omega

theorem uniform_elements {ts : List (Ty κ)} {l : List (Patterns.Part ν)} {k : κ} (h : ∀ t ∈ ts, t.dim K = 0 ∨ t = .special k)
    (hl : List.Forall₂ (Ty.Has K) ts l) : ∀ y ∈ axesOf l, y = .special (K.val k) := by
  induction hl with
  | nil => intro y hy; cases hy
  | @cons t p ts l h1 h2 ih =>
    rw [Patterns.axesOf_cons]
    intro y hy
    rcases List.mem_append.1 hy with hy | hy
    · rcases h t (List.mem_cons_self ..) with e | rfl
      · rw [zero_dim_value K e h1] at hy
        cases hy
      · have e : p = .special (K.val k) := h1
        rw [e] at hy
        exact List.mem_singleton.1 hy
    · exact ih (fun u hu => h u (List.mem_cons_of_mem _ hu)) y hy

/-- A value of a type that can be a repetition of `x`, which is. -/
theorem ok_value {t : Ty κ} {x : Axis ν} (h : Ok K (common1 t) x) : ∃ p : Patterns.Part ν, t.Has K p ∧ ∀ y ∈ p.axes, y = x := by
  cases t with
  | euc o =>
    rcases h with h | ⟨-, rfl⟩ | ⟨k, h, -⟩
    · cases h
    · cases o with
      | none => exact ⟨.plain 1, ⟨1, rfl⟩, fun y hy => (List.mem_replicate.1 hy).2⟩
      | some n => exact ⟨.plain n, rfl, fun y hy => (List.mem_replicate.1 hy).2⟩
    · cases h
  | special k =>
    rcases h with h | ⟨h, -⟩ | ⟨k', h, rfl⟩
    · cases h
    · cases h
    · have e : Ty.special k = Ty.special k' := h
      injection e with e
      subst e
      exact ⟨.special (K.val k), rfl, fun y hy => List.mem_singleton.1 hy⟩
  | erased =>
    cases x with
    | plain => exact ⟨.plain 1, trivial, fun y hy => (List.mem_replicate.1 hy).2⟩
    | special v => exact ⟨.special v, trivial, fun y hy => List.mem_singleton.1 hy⟩

theorem ok_values {ts : List (Ty κ)} {x : Axis ν} (h : ∀ t ∈ ts, Ok K (common1 t) x) :
    ∃ l : List (Patterns.Part ν), List.Forall₂ (Ty.Has K) ts l ∧ ∀ y ∈ axesOf l, y = x := by
  induction ts with
  | nil => exact ⟨[], .nil, by intro y hy; cases hy⟩
  | cons t ts ih =>
    obtain ⟨p, hp, hy⟩ := ok_value K (h t (List.mem_cons_self ..))
    obtain ⟨l, hl, hys⟩ := ih fun u hu => h u (List.mem_cons_of_mem _ hu)
    refine ⟨p :: l, .cons hp hl, ?_⟩
    rw [Patterns.axesOf_cons]
    intro y hy'
    rcases List.mem_append.1 hy' with h1 | h1
    · exact hy y h1
    · exact hys y h1

/-- The type of an element with a value that is a repetition of `x`. -/
theorem ok_of_value {t : Ty κ} {p : Patterns.Part ν} {x : Axis ν} (hp : t.Has K p) (hz : p ≠ .plain 0) (h : ∀ y ∈ p.axes, y = x) : Ok K (common1 t) x := by
  cases t with
  | euc o =>
    obtain ⟨n, rfl⟩ : ∃ n, p = .plain n := by
      cases o with
      | none => exact hp
      | some n => exact ⟨n, hp⟩
    have hn : n ≠ 0 := fun e => hz (by rw [e])
    exact .inr (.inl ⟨rfl, (h .plain (List.mem_replicate.2 ⟨hn, rfl⟩)).symm⟩)
  | special k =>
    have e : p = .special (K.val k) := hp
    subst e
    exact .inr (.inr ⟨k, rfl, (h _ (List.mem_singleton.2 rfl)).symm⟩)
  | erased => exact .inl rfl

/-- A value of each type, `Any` holding `v`. -/
def pick (v : Patterns.Part ν) (n : ℕ) : Ty κ → Patterns.Part ν
  | .euc (some n) => .plain n
  | .euc none => .plain n
  | .special k => .special (K.val k)
  | .erased => v

theorem pick_has (v : Patterns.Part ν) (n : ℕ) (t : Ty κ) : t.Has K (pick K v n t) := by
  cases t with
  | euc o => cases o with
    | none => exact ⟨n, rfl⟩
    | some n => rfl
  | special k => rfl
  | erased => trivial

theorem pick_values (v : Patterns.Part ν) (n : ℕ) (ts : List (Ty κ)) : List.Forall₂ (Ty.Has K) ts (ts.map (pick K v n)) := by
  induction ts with
  | nil => exact .nil
  | cons t ts ih => exact .cons (pick_has K v n t) ih

theorem mem_pick {v : Patterns.Part ν} {n : ℕ} {ts : List (Ty κ)} {t : Ty κ} (ht : t ∈ ts) {y : Axis ν} (hy : y ∈ (pick K v n t).axes) :
    y ∈ axesOf (ts.map (pick K v n)) := mem_axesOf (List.mem_map.2 ⟨t, ht, rfl⟩) hy

/-- If all values of some elements, not all Euclidean, are repetitions of an axis, then the elements are of one one-dimensional type or have no dimension. -/
theorem uniform_forced (hinj : Function.Injective K.val) {v0 : ν} (hv : K.dim v0 ≠ 1) {ts : List (Ty κ)} (hE : ¬ allE ts = true)
    (h : ∀ l : List (Patterns.Part ν), List.Forall₂ (Ty.Has K) ts l → ∃ x, IsUniform K x l) :
    ∃ k, (∀ t ∈ ts, t.dim K = 0 ∨ t = .special k) ∧ .special k ∈ ts ∧ K.dim (K.val k) = 1 := by
  obtain ⟨x, hx, hy⟩ := h _ (pick_values K (.special v0) 1 ts)
  have her : Ty.erased ∉ ts := by
    intro hm
    have := hy (.special v0) (mem_pick K hm (List.mem_singleton.2 rfl))
    rw [← this] at hx
    exact hv hx
  obtain ⟨t, ht, hte⟩ : ∃ t ∈ ts, ¬ t.isE = true := by
    by_contra hcon
    push Not at hcon
    exact hE (List.all_eq_true.2 hcon)
  cases t with
  | euc o => exact absurd rfl hte
  | erased => exact absurd ht her
  | special k =>
    have hxk := hy (.special (K.val k)) (mem_pick K ht (List.mem_singleton.2 rfl))
    refine ⟨k, ?_, ht, ?_⟩
    · intro u hu
      cases u with
      | erased => exact absurd hu her
      | special j =>
        have hxj := hy (.special (K.val j)) (mem_pick K hu (List.mem_singleton.2 rfl))
        rw [← hxk] at hxj
        injection hxj with e
        rw [hinj e]
        exact .inr rfl
      | euc o =>
        cases o with
        | none =>
          have := hy .plain (mem_pick K hu (List.mem_replicate.2 ⟨by omega, rfl⟩))
          rw [← hxk] at this
          cases this
        | some n =>
          by_cases hn : n = 0
          · exact .inl hn
          · have := hy .plain (mem_pick K hu (List.mem_replicate.2 ⟨hn, rfl⟩))
            rw [← hxk] at this
            cases this
    · rw [← hxk] at hx
      exact hx

/-! ## Patterns of determined dimension -/

theorem dims_fixed {ts : List (Ty κ)} {l : List (Patterns.Part ν)} (hd : ∀ t ∈ ts, t.dim K ≠ dynamic) (hl : List.Forall₂ (Ty.Has K) ts l) :
    dims K l = total K ts := by
  induction hl with
  | nil => rfl
  | @cons t p ts l h1 h2 ih =>
    have := ih fun u hu => hd u (List.mem_cons_of_mem _ hu)
    rw [total_cons, ← this]
    have e : partDim K p = t.known K := by
      have hdt := hd t (List.mem_cons_self ..)
      cases t with
      | euc o =>
        cases o with
        | none => exact absurd rfl hdt
        | some n => rw [show p = .plain n from h1]; rfl
      | special k => rw [show p = .special (K.val k) from h1]; rfl
      | erased => exact absurd rfl hdt
    simp [dims, e]

theorem open_of_dynamic {ts : List (Ty κ)} (ht : total K ts < dynamic) (h : sumDim K ts = dynamic) : .erased ∈ ts ∨ .euc none ∈ ts := by
  have hd := dynamic_pos
  induction ts with
  | nil => rw [sumDim] at h; omega
  | cons t ts ih =>
    rw [total_cons] at ht
    by_cases hc : t.dim K = dynamic
    · cases t with
      | euc o =>
        cases o with
        | none => exact .inr (List.mem_cons_self ..)
        | some n =>
          have e1 : (Ty.euc (some n) : Ty κ).dim K = n := rfl
          have e2 : (Ty.euc (some n) : Ty κ).known K = n := rfl
          omega
      | special k => exact absurd hc (special_dim K k)
      | erased => exact .inl (List.mem_cons_self ..)
    · by_cases hs : sumDim K ts = dynamic
      · rcases ih (by omega) hs with h1 | h1
        · exact .inl (List.mem_cons_of_mem _ h1)
        · exact .inr (List.mem_cons_of_mem _ h1)
      · exfalso
        rw [sumDim, if_neg (by tauto)] at h
        have e := known_eq_dim K hc
        have e2 : sumDim K ts = total K ts := by
          clear ih h ht e hc
          induction ts with
          | nil => rfl
          | cons u us ih =>
            have hall := known_of_sumDim K hs
            rw [sumDim] at hs ⊢
            split_ifs at hs ⊢ with hc
            · exact absurd rfl hs
            · rw [total_cons, ih (by tauto), known_eq_dim K (by tauto)]
        omega

theorem dims_pick_le (ts : List (Ty κ)) : dims K (ts.map (pick K (.plain 0) 0)) ≤ dims K (ts.map (pick K (.plain 1) 1)) := by
  induction ts with
  | nil => exact le_rfl
  | cons t ts ih =>
    have : partDim K (pick K (.plain 0) 0 t) ≤ partDim K (pick K (.plain 1) 1 t) := by
      cases t with
      | euc o => cases o with
        | none => exact Nat.zero_le _
        | some n => exact le_rfl
      | special k => exact le_rfl
      | erased => exact Nat.zero_le _
    simp only [dims, List.map_cons, List.sum_cons] at ih ⊢
    omega

theorem dims_pick_lt {ts : List (Ty κ)} (h : .erased ∈ ts ∨ .euc none ∈ ts) :
    dims K (ts.map (pick K (.plain 0) 0)) < dims K (ts.map (pick K (.plain 1) 1)) := by
  induction ts with
  | nil => rcases h with h | h <;> cases h
  | cons t ts ih =>
    have hle := dims_pick_le K ts
    simp only [dims, List.map_cons, List.sum_cons] at ih hle ⊢
    by_cases hm : .erased ∈ ts ∨ .euc none ∈ ts
    · have := ih hm
      have hle' := dims_pick_le K [t]
      simp only [dims, List.map_cons, List.sum_cons, List.map_nil, List.sum_nil] at hle'
      omega
    · have : t = .erased ∨ t = .euc none := by
        rcases h with h | h <;> rcases List.mem_cons.1 h with h | h
        · exact .inl h.symm
        · exact absurd (.inl h) hm
        · exact .inr h.symm
        · exact absurd (.inr h) hm
      rcases this with rfl | rfl
      · show 0 + _ < 1 + _; omega
      · show 0 + _ < 1 + _; omega

theorem determined_fixed {ts : List (Ty κ)} (ht : total K ts < dynamic) : sumDim K ts ≠ dynamic ↔ Determined K (.fixed ts) := by
  constructor
  · intro h
    exact ⟨_, fun l hl => dims_fixed K (known_of_sumDim K h) hl⟩
  · rintro ⟨n, hn⟩ h
    have h0 := hn _ (pick_values K (.plain 0) 0 ts)
    have h1 := hn _ (pick_values K (.plain 1) 1 ts)
    have := dims_pick_lt K (open_of_dynamic K ht h)
    omega

/-- `fixed_pattern` is that the dimension is determined. -/
theorem determined_iff (p : PTy κ) (ht : total K (p.expand 1) < dynamic) : p.isFixed K = true ↔ Determined K p := by
  have hd := dynamic_pos
  cases p with
  | one t =>
    have e : Determined K (.one t) ↔ Determined K (.fixed [t]) := by
      constructor
      · rintro ⟨n, hn⟩
        refine ⟨n, fun l hl => hn l ?_⟩
        cases hl with | cons h h' => cases h'; exact ⟨_, rfl, h⟩
      · rintro ⟨n, hn⟩
        refine ⟨n, fun l hl => hn l ?_⟩
        obtain ⟨p, rfl, hp⟩ := hl
        exact .cons hp .nil
    rw [e, ← determined_fixed K (ts := [t]) ht]
    simp only [PTy.isFixed, decide_eq_true_eq, sumDim]
    by_cases h : t.dim K = dynamic
    · simp [h]
    · have h0 : ¬ 0 = dynamic := by omega
      simp [h, h0]
  | fixed ts => rw [← determined_fixed K (ts := ts) ht]; simp [PTy.isFixed]
  | range t =>
    have er : (PTy.range t).isFixed K = true ↔ rangeDim K t ≠ dynamic := by simp [PTy.isFixed]
    rw [er, rangeDim]
    by_cases h : t.dim K = 0
    · rw [if_pos h]
      refine ⟨fun _ => ⟨0, fun l hl => ?_⟩, fun _ => by omega⟩
      have : ∀ p ∈ l, p = .plain 0 := fun p hp => zero_dim_value K h (hl p hp)
      rw [List.eq_replicate_of_mem this]
      simp [dims, partDim]
    · rw [if_neg h]
      refine ⟨fun h => absurd rfl h, ?_⟩
      rintro ⟨n, hn⟩
      exfalso
      have h0 := hn [] (by intro p hp; cases hp)
      have h1 := hn [pick K (.plain 1) 1 t] (by intro p hp; rw [List.mem_singleton.1 hp]; exact pick_has K _ _ t)
      have e0 : n = 0 := by rw [← h0]; rfl
      have e1 : partDim K (pick K (.plain 1) 1 t) = n := by simpa [dims] using h1
      rw [e0] at e1
      cases t with
      | euc o =>
        cases o with
        | none => cases e1
        | some m => exact h e1
      | special k => exact special_dim_pos K k e1
      | erased => cases e1

theorem mostFixedImpl_spec (ps : List (PTy κ)) (hne : ps ≠ []) : ∃ h : mostFixedImpl K ps < ps.length,
    (∀ p ∈ ps.take (mostFixedImpl K ps), p.isFixed K = false) ∧ ((ps[mostFixedImpl K ps]).isFixed K = true ∨ mostFixedImpl K ps + 1 = ps.length) := by
  induction ps with
  | nil => exact absurd rfl hne
  | cons p ps ih =>
    by_cases h1 : ps = []
    · subst h1
      simp [mostFixedImpl]
    by_cases h2 : p.isFixed K = true
    · have e : mostFixedImpl K (p :: ps) = 0 := by simp [mostFixedImpl, h2]
      simp [e, h2]
    · have e : mostFixedImpl K (p :: ps) = mostFixedImpl K ps + 1 := by simp [mostFixedImpl, h2, h1]; omega
      obtain ⟨i1, i2, i3⟩ := ih h1
      simp only [e]
      refine ⟨by simpa using i1, ?_, ?_⟩
      · intro q hq
        rw [List.take_succ_cons] at hq
        rcases List.mem_cons.1 hq with rfl | hq
        · simpa using h2
        · exact i2 q hq
      · simpa using i3

end OpenKalman.PatTypes
