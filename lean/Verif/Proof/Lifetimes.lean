import Verif.Model.Lifetimes
import Mathlib.Order.Basic
import Mathlib.Order.Defs.LinearOrder
import Mathlib.Algebra.Order.Group.Nat

/-!
# Lemmas: what views of collections hold
-/

namespace OpenKalman.Lifetimes

variable {α : Type}

/-- The objects to which a view has pointers of its own. -/
def Held.refs : Held α → List Nat
  | .ref k => [k]
  | .own _ => []
  | .slice v _ _ => v.refs
  | .replicate v _ => v.refs
  | .cat v v' => v.refs ++ v'.refs

/-- What a view holds, followed through named views, is what it should mean.  A pointer to an object that is gone may have meant anything, unless `strict`: then a container. -/
inductive Rel (strict : Prop) (σ : Store α) : Nat → Held α → Meaning α → Prop
  | dead {n k : Nat} {m : Meaning α} (h : k < n) (g : σ[k]? = some .gone) (s : strict → m = .live k) : Rel strict σ n (.ref k) m
  | cont {n k : Nat} {l : List α} (h : k < n) (g : σ[k]? = some (.cont l)) : Rel strict σ n (.ref k) (.live k)
  | view {n k : Nat} {v : Held α} {m : Meaning α} (h : k < n) (g : σ[k]? = some (.view v)) (r : Rel strict σ k v m) : Rel strict σ n (.ref k) m
  | own {n : Nat} {l : List α} : Rel strict σ n (.own l) (.fixed l)
  | slice {n : Nat} {v : Held α} {m : Meaning α} {off : Nat} {ext : Option Nat} (r : Rel strict σ n v m) : Rel strict σ n (.slice v off ext) (.slice m off ext)
  | replicate {n : Nat} {v : Held α} {m : Meaning α} {f : Nat} (r : Rel strict σ n v m) : Rel strict σ n (.replicate v f) (.replicate m f)
  | cat {n : Nat} {v v' : Held α} {m m' : Meaning α} (r : Rel strict σ n v m) (r' : Rel strict σ n v' m') : Rel strict σ n (.cat v v') (.cat m m')

theorem Rel.later {strict : Prop} {σ : Store α} {n n' : Nat} {v : Held α} {m : Meaning α} (r : Rel strict σ n v m) (h : n ≤ n') : Rel strict σ n' v m := by
  induction r with
  | dead h' g s => exact .dead (by omega) g s
  | cont h' g => exact .cont (by omega) g
  | view h' g r _ => exact .view (by omega) g r
  | own => exact .own
  | slice _ ih => exact .slice (ih h)
  | replicate _ ih => exact .replicate (ih h)
  | cat _ _ ih ih' => exact .cat (ih h) (ih' h)

/-- How a step may change an object to which there are pointers. -/
def Change (strict : Prop) (s s' : Option (Slot α (Held α))) : Prop :=
  s' = s ∨ (∃ l l', s = some (.cont l) ∧ s' = some (.cont l')) ∨ (s' = some .gone ∧ (strict → ∀ v, s ≠ some (.view v)))

theorem Rel.change {strict : Prop} {σ σ' : Store α} {named : List Nat} (hc : ∀ k ∈ named, Change strict σ[k]? σ'[k]?)
    (hr : ∀ (k : Nat) (v : Held α), σ[k]? = some (.view v) → v.refs ⊆ named) {n : Nat} {v : Held α} {m : Meaning α} (r : Rel strict σ n v m) (hv : v.refs ⊆ named) : Rel strict σ' n v m := by
  induction r with
  | @dead n k m h g s =>
    rcases hc k (hv (by simp [Held.refs])) with e | ⟨l, l', e, -⟩ | ⟨e, -⟩
    · exact .dead h (e.trans g) s
    · rw [g] at e
      simp at e
    · exact .dead h e s
  | @cont n k l h g =>
    rcases hc k (hv (by simp [Held.refs])) with e | ⟨l, l', -, e⟩ | ⟨e, -⟩
    · exact .cont h (e.trans g)
    · exact .cont h e
    · exact .dead h e fun _ => rfl
  | @view n k v m h g r ih =>
    rcases hc k (hv (by simp [Held.refs])) with e | ⟨l, l', e, -⟩ | ⟨e, es⟩
    · exact .view h (e.trans g) (ih (hr k v g))
    · rw [g] at e
      simp at e
    · exact .dead h e fun s => absurd g (es s v)
  | own => exact .own
  | slice _ ih => exact .slice (ih hv)
  | replicate _ ih => exact .replicate (ih hv)
  | cat _ _ ih ih' => exact .cat (ih fun _ h => hv (List.mem_append_left _ h)) (ih' fun _ h => hv (List.mem_append_right _ h))

/-- An object of the model and of the specification. -/
inductive Match (strict : Prop) (σ : Store α) (named : List Nat) (k : Nat) : Slot α (Held α) → Slot α (Meaning α) → Prop
  | cont (l : List α) : Match strict σ named k (.cont l) (.cont l)
  | gone : Match strict σ named k .gone .gone
  | view {v : Held α} {m : Meaning α} (r : Rel strict σ k v m) (h : v.refs ⊆ named) : Match strict σ named k (.view v) (.view m)

structure Inv (strict : Prop) (σ : Store α) (τ : World α) (kinds : List Bool) (named : List Nat) : Prop where
  len : τ.length = σ.length
  lenK : kinds.length = σ.length
  slot : ∀ (k : Nat) (s : Slot α (Held α)) (t : Slot α (Meaning α)), σ[k]? = some s → τ[k]? = some t → Match strict σ named k s t
  isView : ∀ (k : Nat) (v : Held α), σ[k]? = some (.view v) → kinds[k]? = some true
  isCont : ∀ (k : Nat) (l : List α), σ[k]? = some (.cont l) → kinds[k]? = some false
  bound : ∀ k ∈ named, k < σ.length

variable {strict : Prop} {σ : Store α} {τ : World α} {kinds : List Bool} {named : List Nat}

theorem Inv.partner (I : Inv strict σ τ kinds named) {k : Nat} {s : Slot α (Held α)} (h : σ[k]? = some s) : ∃ t, τ[k]? = some t ∧ Match strict σ named k s t := by
  have hk : k < σ.length := (List.getElem?_eq_some_iff.1 h).1
  have ht : k < τ.length := by rw [I.len]; exact hk
  exact ⟨τ[k], List.getElem?_eq_getElem ht, I.slot k s _ h (List.getElem?_eq_getElem ht)⟩

theorem Inv.absent (I : Inv strict σ τ kinds named) {k : Nat} (h : σ[k]? = none) : τ[k]? = none := by
  rw [List.getElem?_eq_none_iff] at h ⊢
  rw [I.len]
  exact h

theorem Inv.refs (I : Inv strict σ τ kinds named) {k : Nat} {v : Held α} (h : σ[k]? = some (.view v)) : v.refs ⊆ named := by
  obtain ⟨t, -, ht⟩ := I.partner h
  cases ht with
  | view _ h => exact h

/-- The view that an expression makes, and what it should mean. -/
theorem held_meaning (I : Inv strict σ τ kinds named) (n : Nat) (e : Expr α) (hn : ∀ i ∈ e.names ++ e.moves, i < n) :
    (e.held σ = none ∧ e.meaning τ = none) ∨ ∃ v m, e.held σ = some v ∧ e.meaning τ = some m ∧ Rel strict σ n v m ∧ v.refs ⊆ e.names ++ named := by
  induction e with
  | name k =>
    have hk : k < n := hn k (by simp [Expr.names])
    cases hs : σ[k]? with
    | none => left; simp [Expr.held, Expr.meaning, hs, I.absent hs]
    | some s =>
      obtain ⟨t, ht, M⟩ := I.partner hs
      cases M with
      | cont l => exact .inr ⟨.ref k, .live k, by simp [Expr.held, hs, all, collectionView, wrapper], by simp [Expr.meaning, ht], .cont hk hs, by simp [Held.refs, Expr.names]⟩
      | gone => left; simp [Expr.held, Expr.meaning, hs, ht, all, collectionView, wrapper]
      | @view v m r h => exact .inr ⟨.ref k, m, by simp [Expr.held, hs, all, collectionView, wrapper], by simp [Expr.meaning, ht], .view hk hs r, by simp [Held.refs, Expr.names]⟩
  | moved k =>
    have hk : k < n := hn k (by simp [Expr.moves])
    cases hs : σ[k]? with
    | none => left; simp [Expr.held, Expr.meaning, hs, I.absent hs]
    | some s =>
      obtain ⟨t, ht, M⟩ := I.partner hs
      cases M with
      | cont l => exact .inr ⟨.own l, .fixed l, by simp [Expr.held, hs, all, collectionView, wrapper, Slot.object], by simp [Expr.meaning, ht], .own, by simp [Held.refs]⟩
      | gone => left; simp [Expr.held, Expr.meaning, hs, ht, all, collectionView, wrapper, Slot.object]
      | @view v m r h =>
        exact .inr ⟨v, m, by simp [Expr.held, hs, all, collectionView, Slot.object], by simp [Expr.meaning, ht], r.later (Nat.le_of_lt hk), fun _ hx => List.mem_append_right _ (h hx)⟩
  | temp l => exact .inr ⟨.own l, .fixed l, by simp [Expr.held, all, collectionView, wrapper, Slot.object], rfl, .own, by simp [Held.refs]⟩
  | slice e off ext ih =>
    rcases ih hn with ⟨h, h'⟩ | ⟨v, m, h, h', r, hv⟩
    · left; simp [Expr.held, Expr.meaning, h, h']
    · exact .inr ⟨.slice v off ext, .slice m off ext, by simp [Expr.held, h], by simp [Expr.meaning, h'], .slice r, hv⟩
  | replicate e f ih =>
    rcases ih hn with ⟨h, h'⟩ | ⟨v, m, h, h', r, hv⟩
    · left; simp [Expr.held, Expr.meaning, h, h']
    · exact .inr ⟨.replicate v f, .replicate m f, by simp [Expr.held, h], by simp [Expr.meaning, h'], .replicate r, hv⟩
  | cat e e' ih ih' =>
    rcases ih fun i hi => hn i (by simp only [Expr.names, Expr.moves, List.mem_append] at hi ⊢; tauto) with ⟨h, h'⟩ | ⟨v, m, h, h', r, hv⟩
    · left; simp [Expr.held, Expr.meaning, h, h']
    rcases ih' fun i hi => hn i (by simp only [Expr.names, Expr.moves, List.mem_append] at hi ⊢; tauto) with ⟨k, k'⟩ | ⟨w, m', k, k', r', hw⟩
    · left; simp [Expr.held, Expr.meaning, h, h', k, k']
    · refine .inr ⟨.cat v w, .cat m m', by simp [Expr.held, h, k], by simp [Expr.meaning, h', k'], .cat r r', fun x hx => ?_⟩
      simp only [Held.refs, Expr.names, List.mem_append] at hx ⊢
      rcases hx with hx | hx
      · have := hv hx; simp only [List.mem_append] at this; tauto
      · have := hw hx; simp only [List.mem_append] at this; tauto

/-- Objects that an expression uses have been declared. -/
theorem held_bound (e : Expr α) {v : Held α} (h : e.held σ = some v) : ∀ i ∈ e.names ++ e.moves, i < σ.length := by
  induction e generalizing v with
  | name k =>
    intro i hi
    simp only [Expr.names, Expr.moves, List.append_nil, List.mem_singleton] at hi
    subst hi
    by_contra hc
    simp [Expr.held, List.getElem?_eq_none_iff.2 (not_lt.1 hc)] at h
  | moved k =>
    intro i hi
    simp only [Expr.names, Expr.moves, List.nil_append, List.mem_singleton] at hi
    subst hi
    by_contra hc
    simp [Expr.held, List.getElem?_eq_none_iff.2 (not_lt.1 hc)] at h
  | temp l => simp [Expr.names, Expr.moves]
  | slice e off ext ih =>
    simp only [Expr.held, Option.map_eq_some_iff] at h
    obtain ⟨w, hw, -⟩ := h
    exact ih hw
  | replicate e f ih =>
    simp only [Expr.held, Option.map_eq_some_iff] at h
    obtain ⟨w, hw, -⟩ := h
    exact ih hw
  | cat e e' ih ih' =>
    simp only [Expr.held] at h
    split at h
    · rename_i w w' hw hw'
      intro i hi
      simp only [Expr.names, Expr.moves, List.mem_append] at hi
      have a := ih hw i
      have b := ih' hw' i
      simp only [List.mem_append] at a b
      tauto
    · cases h

theorem meaning_bound (e : Expr α) {m : Meaning α} (h : e.meaning τ = some m) : ∀ i ∈ e.names ++ e.moves, i < τ.length := by
  induction e generalizing m with
  | name k =>
    intro i hi
    simp only [Expr.names, Expr.moves, List.append_nil, List.mem_singleton] at hi
    subst hi
    by_contra hc
    simp [Expr.meaning, List.getElem?_eq_none_iff.2 (not_lt.1 hc)] at h
  | moved k =>
    intro i hi
    simp only [Expr.names, Expr.moves, List.nil_append, List.mem_singleton] at hi
    subst hi
    by_contra hc
    simp [Expr.meaning, List.getElem?_eq_none_iff.2 (not_lt.1 hc)] at h
  | temp l => simp [Expr.names, Expr.moves]
  | slice e off ext ih =>
    simp only [Expr.meaning, Option.map_eq_some_iff] at h
    obtain ⟨w, hw, -⟩ := h
    exact ih hw
  | replicate e f ih =>
    simp only [Expr.meaning, Option.map_eq_some_iff] at h
    obtain ⟨w, hw, -⟩ := h
    exact ih hw
  | cat e e' ih ih' =>
    simp only [Expr.meaning] at h
    split at h
    · rename_i w w' hw hw'
      intro i hi
      simp only [Expr.names, Expr.moves, List.mem_append] at hi
      have a := ih hw i
      have b := ih' hw' i
      simp only [List.mem_append] at a b
      tauto
    · cases h

theorem getElem?_kill {ν : Type} (ks : List Nat) (σ : List (Slot α ν)) (k : Nat) : (kill ks σ)[k]? = if k ∈ ks then σ[k]?.map fun _ => .gone else σ[k]? := by
  unfold kill
  rw [List.getElem?_mapIdx]
  split_ifs with h <;> cases σ[k]? <;> simp

theorem length_kill {ν : Type} (ks : List Nat) (σ : List (Slot α ν)) : (kill ks σ).length = σ.length := by simp [kill]

theorem change_kill (ks : List Nat) (hs : strict → ∀ k ∈ ks, k ∈ named → ∀ v, σ[k]? ≠ some (.view v)) (hd : ∀ k ∈ ks, k < σ.length) :
    ∀ k ∈ named, Change strict σ[k]? (kill ks σ)[k]? := by
  intro k hk
  rw [getElem?_kill]
  split_ifs with h
  · refine .inr (.inr ⟨?_, fun s => hs s k h hk⟩)
    rw [List.getElem?_eq_getElem (hd k h)]
    rfl
  · exact .inl rfl

/-- Carrying the invariant over changes of objects. -/
theorem Inv.change (I : Inv strict σ τ kinds named) {σ' : Store α} {τ' : World α} (hl : σ'.length = σ.length) (hl' : τ'.length = τ.length)
    (hc : ∀ k ∈ named, Change strict σ[k]? σ'[k]?)
    (hs : ∀ (k : Nat) (s : Slot α (Held α)) (t : Slot α (Meaning α)), σ'[k]? = some s → τ'[k]? = some t →
      (σ[k]? = some s ∧ τ[k]? = some t) ∨ (s = .gone ∧ t = .gone) ∨ (∃ l l', s = .cont l ∧ t = .cont l ∧ σ[k]? = some (.cont l'))) :
    Inv strict σ' τ' kinds named where
  len := by rw [hl, hl', I.len]
  lenK := by rw [hl, I.lenK]
  slot k s t h h' := by
    rcases hs k s t h h' with ⟨e, e'⟩ | ⟨rfl, rfl⟩ | ⟨l, l', rfl, rfl, -⟩
    · have M := I.slot k s t e e'
      cases M with
      | cont l => exact .cont l
      | gone => exact .gone
      | view r hr => exact .view (r.change hc (fun _ _ => I.refs) hr) hr
    · exact .gone
    · exact .cont l
  isView k v h := by
    have ht : k < τ'.length := by rw [hl', I.len, ← hl]; exact (List.getElem?_eq_some_iff.1 h).1
    rcases hs k _ _ h (List.getElem?_eq_getElem ht) with ⟨e, -⟩ | ⟨e, -⟩ | ⟨l, l', e, -⟩
    · exact I.isView k v e
    · cases e
    · cases e
  isCont k l h := by
    have ht : k < τ'.length := by rw [hl', I.len, ← hl]; exact (List.getElem?_eq_some_iff.1 h).1
    rcases hs k _ _ h (List.getElem?_eq_getElem ht) with ⟨e, -⟩ | ⟨e, -⟩ | ⟨l, l', e, -, e'⟩
    · exact I.isCont k l e
    · cases e
    · exact I.isCont k l' e'
  bound k h := by rw [hl]; exact I.bound k h

theorem Inv.kill (I : Inv strict σ τ kinds named) (ks : List Nat) (hs : strict → ∀ k ∈ ks, k ∈ named → ∀ v, σ[k]? ≠ some (.view v)) (hd : ∀ k ∈ ks, k < σ.length) :
    Inv strict (kill ks σ) (Lifetimes.kill ks τ) kinds named := by
  refine I.change (length_kill _ _) (length_kill _ _) (change_kill ks hs hd) fun k s t h h' => ?_
  rw [getElem?_kill] at h h'
  split_ifs at h h' with hk
  · simp only [Option.map_eq_some_iff] at h h'
    obtain ⟨_, -, rfl⟩ := h
    obtain ⟨_, -, rfl⟩ := h'
    exact .inr (.inl ⟨rfl, rfl⟩)
  · exact .inl ⟨h, h'⟩

theorem Inv.more (I : Inv strict σ τ kinds named) (more : List Nat) (hm : ∀ k ∈ more, k < σ.length) : Inv strict σ τ kinds (more ++ named) where
  len := I.len
  lenK := I.lenK
  slot k s t h h' := by
    have M := I.slot k s t h h'
    cases M with
    | cont l => exact .cont l
    | gone => exact .gone
    | view r hr => exact .view r fun _ hx => List.mem_append_right _ (hr hx)
  isView := I.isView
  isCont := I.isCont
  bound k h := (List.mem_append.1 h).elim (hm k) (I.bound k)

/-- Declaring an object. -/
theorem Inv.push (I : Inv strict σ τ kinds named) {s : Slot α (Held α)} {t : Slot α (Meaning α)} (M : Match strict σ named σ.length s t) {b : Bool}
    (hv : ∀ v, s = .view v → b = true) (hc : ∀ l, s = .cont l → b = false) : Inv strict (σ ++ [s]) (τ ++ [t]) (kinds ++ [b]) named where
  len := by simp [I.len]
  lenK := by simp [I.lenK]
  slot k s' t' h h' := by
    have C : ∀ k ∈ named, Change strict σ[k]? (σ ++ [s])[k]? := fun k hk => .inl (List.getElem?_append_left (I.bound k hk))
    have keep : ∀ {k s' t'}, Match strict σ named k s' t' → Match strict (σ ++ [s]) named k s' t' := by
      intro k s' t' M
      cases M with
      | cont l => exact .cont l
      | gone => exact .gone
      | view r h => exact .view (r.change C (fun _ _ => I.refs) h) h
    rcases Nat.lt_trichotomy k σ.length with hk | hk | hk
    · rw [List.getElem?_append_left hk] at h
      rw [List.getElem?_append_left (by rw [I.len]; exact hk)] at h'
      exact keep (I.slot k s' t' h h')
    · subst hk
      rw [List.getElem?_append_right (Nat.le_refl _)] at h
      rw [List.getElem?_append_right (by rw [I.len])] at h'
      simp [I.len] at h h'
      subst h h'
      exact keep M
    · rw [List.getElem?_eq_none_iff.2 (by simp; omega)] at h
      cases h
  isView k v h := by
    rcases Nat.lt_trichotomy k σ.length with hk | hk | hk
    · rw [List.getElem?_append_left hk] at h
      rw [List.getElem?_append_left (by rw [I.lenK]; exact hk)]
      exact I.isView k v h
    · subst hk
      simp at h
      rw [← I.lenK]
      simp [hv v h]
    · rw [List.getElem?_eq_none_iff.2 (by simp; omega)] at h
      cases h
  isCont k l h := by
    rcases Nat.lt_trichotomy k σ.length with hk | hk | hk
    · rw [List.getElem?_append_left hk] at h
      rw [List.getElem?_append_left (by rw [I.lenK]; exact hk)]
      exact I.isCont k l h
    · subst hk
      simp at h
      rw [← I.lenK]
      simp [hc l h]
    · rw [List.getElem?_eq_none_iff.2 (by simp; omega)] at h
      cases h
  bound k h := by simp; exact Nat.lt_succ_of_lt (I.bound k h)

/-- Assigning to a view to which there are no pointers. -/
theorem Inv.put (I : Inv strict σ τ kinds named) {k : Nat} (hk : k ∉ named) {v₀ v : Held α} {m : Meaning α} (h₀ : σ[k]? = some (.view v₀)) (r : Rel strict σ k v m)
    (hv : v.refs ⊆ named) : Inv strict (σ.set k (.view v)) (τ.set k (.view m)) kinds named := by
  have C : ∀ j ∈ named, Change strict σ[j]? (σ.set k (.view v))[j]? := fun j hj => .inl (List.getElem?_set_ne fun (e : k = j) => hk (e ▸ hj))
  have hl : k < σ.length := (List.getElem?_eq_some_iff.1 h₀).1
  refine ⟨by simp [I.len], by simp [I.lenK], fun j s t h h' => ?_, fun j w h => ?_, fun j l h => ?_, fun j hj => by simpa using I.bound j hj⟩
  · by_cases e : k = j
    · subst e
      rw [List.getElem?_set_self hl] at h
      rw [List.getElem?_set_self (by rw [I.len]; exact hl)] at h'
      cases h
      cases h'
      exact .view (r.change C (fun _ _ => I.refs) hv) hv
    · rw [List.getElem?_set_ne e] at h h'
      have M := I.slot j s t h h'
      cases M with
      | cont l => exact .cont l
      | gone => exact .gone
      | view r hr => exact .view (r.change C (fun _ _ => I.refs) hr) hr
  · by_cases e : k = j
    · subst e
      exact I.isView k v₀ h₀
    · rw [List.getElem?_set_ne e] at h
      exact I.isView j w h
  · by_cases e : k = j
    · subst e
      rw [List.getElem?_set_self hl] at h
      cases h
    · rw [List.getElem?_set_ne e] at h
      exact I.isCont j l h

/-- What a program must keep to in one step. -/
def Op.Keep (strict : Prop) (kinds : List Bool) (named : List Nat) : Op α → Prop
  | .auto e => strict → ∀ k ∈ e.moves, kinds[k]? = some true → k ∉ named
  | .assign k e => k ∉ named ∧ (strict → ∀ k ∈ e.moves, kinds[k]? = some true → k ∉ named)
  | .destroy k => strict → kinds[k]? = some true → k ∉ named
  | _ => True

theorem keeps_cons (op : Op α) (ops : List (Op α)) (h : Keeps strict kinds named (op :: ops)) : op.Keep strict kinds named ∧ Keeps strict (op.kinds kinds) (op.uses ++ named) ops := by
  cases op <;> exact h

theorem Inv.moving (I : Inv strict σ τ kinds named) (e : Expr α) (ho : e.Once) (hb : ∀ i ∈ e.names ++ e.moves, i < σ.length)
    (hk : strict → ∀ k ∈ e.moves, kinds[k]? = some true → k ∉ named) {n : Nat} {v : Held α} {m : Meaning α} (r : Rel strict σ n v m) (hv : v.refs ⊆ e.names ++ named) :
    Inv strict (Lifetimes.kill e.moves σ) (Lifetimes.kill e.moves τ) kinds (e.names ++ named) ∧ Rel strict (Lifetimes.kill e.moves σ) n v m := by
  have I1 := I.more e.names fun k h => hb k (List.mem_append_left _ h)
  have hd : ∀ k ∈ e.moves, k < σ.length := fun k h => hb k (List.mem_append_right _ h)
  have hs : strict → ∀ k ∈ e.moves, k ∈ e.names ++ named → ∀ v, σ[k]? ≠ some (.view v) := by
    intro s k hm hn w hw
    rcases List.mem_append.1 hn with hn | hn
    · exact ho.2 k hn hm
    · exact hk s k hm (I.isView k w hw) hn
  exact ⟨I1.kill e.moves hs hd, r.change (change_kill e.moves hs hd) (fun _ _ => I1.refs) hv⟩

/-- One step of a program. -/
theorem Inv.step (I : Inv strict σ τ kinds named) (op : Op α) (hk : op.Keep strict kinds named) :
    (σ.step op = none ∧ τ.step op = none) ∨ ∃ σ' τ', σ.step op = some σ' ∧ τ.step op = some τ' ∧ Inv strict σ' τ' (op.kinds kinds) (op.uses ++ named) := by
  cases op with
  | container l =>
    exact .inr ⟨_, _, rfl, rfl, I.push (b := false) (.cont l) (fun _ h => by cases h) fun _ _ => rfl⟩
  | auto e =>
    by_cases ho : e.Once
    swap
    · left; simp [Store.step, World.step, ho]
    by_cases hb : ∀ i ∈ e.names ++ e.moves, i < σ.length
    swap
    · left
      have h1 : e.held σ = none := by
        by_contra hc
        obtain ⟨v, hv⟩ := Option.ne_none_iff_exists'.1 hc
        exact hb (held_bound e hv)
      have h2 : e.meaning τ = none := by
        by_contra hc
        obtain ⟨m, hm⟩ := Option.ne_none_iff_exists'.1 hc
        exact hb fun i hi => by rw [← I.len]; exact meaning_bound e hm i hi
      simp [Store.step, World.step, h1, h2]
    rcases held_meaning I σ.length e hb with ⟨h, h'⟩ | ⟨v, m, h, h', r, hv⟩
    · left; simp [Store.step, World.step, h, h']
    · obtain ⟨I2, r2⟩ := I.moving e ho hb hk r hv
      refine .inr ⟨Lifetimes.kill e.moves σ ++ [.view v], Lifetimes.kill e.moves τ ++ [.view m], by simp [Store.step, ho, h], by simp [World.step, ho, h'], ?_⟩
      exact I2.push (b := true) (by rw [length_kill]; exact .view r2 hv) (fun _ _ => rfl) fun _ h => by cases h
  | copy k =>
    cases hs : σ[k]? with
    | none => left; simp [Store.step, World.step, hs, I.absent hs]
    | some s =>
      have hl : k < σ.length := (List.getElem?_eq_some_iff.1 hs).1
      obtain ⟨t, ht, M⟩ := I.partner hs
      cases M with
      | cont l =>
        refine .inr ⟨σ ++ [.cont l], τ ++ [.cont l], by simp [Store.step, hs], by simp [World.step, ht], ?_⟩
        exact I.push (.cont l) (fun _ h => by cases h) fun _ _ => by simp [List.getD_eq_getElem?_getD, I.isCont k l hs]
      | gone => left; simp [Store.step, World.step, hs, ht]
      | @view v m r h =>
        refine .inr ⟨σ ++ [.view v], τ ++ [.view m], by simp [Store.step, hs], by simp [World.step, ht], ?_⟩
        exact I.push (.view (r.later (Nat.le_of_lt hl)) h) (fun _ _ => by simp [List.getD_eq_getElem?_getD, I.isView k v hs]) fun _ h => by cases h
  | set k l =>
    cases hs : σ[k]? with
    | none => left; simp [Store.step, World.step, hs, I.absent hs]
    | some s =>
      have hl : k < σ.length := (List.getElem?_eq_some_iff.1 hs).1
      obtain ⟨t, ht, M⟩ := I.partner hs
      cases M with
      | cont l₀ =>
        refine .inr ⟨σ.set k (.cont l), τ.set k (.cont l), by simp [Store.step, hs], by simp [World.step, ht], ?_⟩
        refine I.change (by simp) (by simp) (fun j _ => ?_) fun j s t h h' => ?_
        · by_cases e : k = j
          · subst e
            exact .inr (.inl ⟨l₀, l, hs, List.getElem?_set_self hl⟩)
          · exact .inl (List.getElem?_set_ne e)
        · by_cases e : k = j
          · subst e
            rw [List.getElem?_set_self hl] at h
            rw [List.getElem?_set_self (by rw [I.len]; exact hl)] at h'
            cases h
            cases h'
            exact .inr (.inr ⟨l, l₀, rfl, rfl, hs⟩)
          · rw [List.getElem?_set_ne e] at h h'
            exact .inl ⟨h, h'⟩
      | gone => left; simp [Store.step, World.step, hs, ht]
      | view r h => left; simp [Store.step, World.step, hs, ht]
  | assign k e =>
    cases hs : σ[k]? with
    | none => left; simp [Store.step, World.step, hs, I.absent hs]
    | some s =>
      have hl : k < σ.length := (List.getElem?_eq_some_iff.1 hs).1
      obtain ⟨t, ht, M⟩ := I.partner hs
      cases M with
      | cont l₀ => left; simp [Store.step, World.step, hs, ht]
      | gone => left; simp [Store.step, World.step, hs, ht]
      | @view v₀ m₀ r₀ h₀ =>
        by_cases ho : e.Once ∧ ∀ i ∈ e.names ++ e.moves, i < k
        swap
        · left; simp only [Store.step, World.step, hs, ht, if_neg ho, and_self]
        rcases held_meaning I k e ho.2 with ⟨h, h'⟩ | ⟨v, m, h, h', r, hv⟩
        · left; simp [Store.step, World.step, hs, ht, h, h']
        · obtain ⟨I2, r2⟩ := I.moving e ho.1 (fun i hi => Nat.lt_trans (ho.2 i hi) hl) hk.2 r hv
          refine .inr ⟨(Lifetimes.kill e.moves σ).set k (.view v), (Lifetimes.kill e.moves τ).set k (.view m), by simp only [Store.step, hs, if_pos ho, h, Option.map_some],
            by simp only [World.step, ht, if_pos ho, h', Option.map_some], ?_⟩
          have hn : k ∉ e.names ++ named := by
            intro hc
            rcases List.mem_append.1 hc with hc | hc
            · exact absurd (ho.2 k (List.mem_append_left _ hc)) (Nat.lt_irrefl k)
            · exact hk.1 hc
          have hm : k ∉ e.moves := fun hc => absurd (ho.2 k (List.mem_append_right _ hc)) (Nat.lt_irrefl k)
          exact I2.put hn (v₀ := v₀) (by rw [getElem?_kill, if_neg hm]; exact hs) r2 hv
  | destroy k =>
    cases hs : σ[k]? with
    | none => left; simp [Store.step, World.step, hs, I.absent hs]
    | some s =>
      have hl : k < σ.length := (List.getElem?_eq_some_iff.1 hs).1
      obtain ⟨t, ht, M⟩ := I.partner hs
      have key : Inv strict (σ.set k .gone) (τ.set k .gone) kinds named := by
        refine I.change (by simp) (by simp) (fun j hj => ?_) fun j s t h h' => ?_
        · by_cases e : k = j
          · subst e
            exact .inr (.inr ⟨List.getElem?_set_self hl, fun s v hv => hk s (I.isView k v hv) hj⟩)
          · exact .inl (List.getElem?_set_ne e)
        · by_cases e : k = j
          · subst e
            rw [List.getElem?_set_self hl] at h
            rw [List.getElem?_set_self (by rw [I.len]; exact hl)] at h'
            cases h
            cases h'
            exact .inr (.inl ⟨rfl, rfl⟩)
          · rw [List.getElem?_set_ne e] at h h'
            exact .inl ⟨h, h'⟩
      cases M with
      | cont l₀ => exact .inr ⟨σ.set k .gone, τ.set k .gone, by simp [Store.step, hs], by simp [World.step, ht], key⟩
      | gone => left; simp [Store.step, World.step, hs, ht]
      | view r h => exact .inr ⟨σ.set k .gone, τ.set k .gone, by simp [Store.step, hs], by simp [World.step, ht], key⟩

theorem Inv.run (ops : List (Op α)) : ∀ {σ : Store α} {τ : World α} {kinds : List Bool} {named : List Nat}, Inv strict σ τ kinds named → Keeps strict kinds named ops →
    (σ.run ops = none ∧ τ.run ops = none) ∨ ∃ σ' τ' kinds' named', σ.run ops = some σ' ∧ τ.run ops = some τ' ∧ Inv strict σ' τ' kinds' named' := by
  induction ops with
  | nil => exact fun I _ => .inr ⟨_, _, _, _, rfl, rfl, I⟩
  | cons op ops ih =>
    intro σ τ kinds named I hk
    obtain ⟨h1, h2⟩ := keeps_cons op ops hk
    rcases I.step op h1 with ⟨h, h'⟩ | ⟨σ', τ', h, h', I'⟩
    · left; simp [Store.run, World.run, h, h']
    · simp only [Store.run, World.run, h, h', Option.bind_some]
      exact ih I' h2

theorem Inv.start : Inv strict ([] : Store α) [] [] [] := ⟨rfl, rfl, fun k s t h => by simp at h, fun k v h => by simp at h, fun k v h => by simp at h, fun k h => by simp at h⟩

/-! ## Reading -/

/-- What is read is what is meant, unless something is gone. -/
theorem Rel.read (I : Inv strict σ τ kinds named) {n : Nat} {v : Held α} {m : Meaning α} (r : Rel strict σ n v m) :
    (¬ strict ∧ v.read σ n = none) ∨ v.read σ n = m.read τ := by
  induction r with
  | @dead n k m h g s =>
    have e : Held.read σ n (.ref k) = none := by rw [Held.read, if_pos h, g]
    by_cases hs : strict
    · right
      obtain ⟨t, ht, M⟩ := I.partner g
      cases M
      rw [e, s hs, Meaning.read, ht]
    · exact .inl ⟨hs, e⟩
  | @cont n k l h g =>
    obtain ⟨t, ht, M⟩ := I.partner g
    cases M
    right
    rw [Held.read, if_pos h, g, Meaning.read, ht]
  | @view n k v m h g r ih =>
    have e : Held.read σ n (.ref k) = v.read σ k := by rw [Held.read, if_pos h, g]
    rw [e]
    exact ih
  | own => right; rw [Held.read, Meaning.read]
  | slice _ ih =>
    rw [Held.read, Meaning.read]
    rcases ih with ⟨hs, h⟩ | h
    · exact .inl ⟨hs, by rw [h]; rfl⟩
    · right; rw [h]
  | replicate _ ih =>
    rw [Held.read, Meaning.read]
    rcases ih with ⟨hs, h⟩ | h
    · exact .inl ⟨hs, by rw [h]; rfl⟩
    · right; rw [h]
  | @cat n v v' m m' _ _ ih ih' =>
    rw [Held.read, Meaning.read]
    rcases ih with ⟨hs, h⟩ | h
    · exact .inl ⟨hs, by rw [h]⟩
    rcases ih' with ⟨hs, h'⟩ | h'
    · refine .inl ⟨hs, ?_⟩
      rw [h']
      split
      · rename_i h2; cases h2
      · rfl
    · right
      rw [h, h']
      cases m.read τ <;> cases m'.read τ <;> rfl

theorem Inv.read (I : Inv strict σ τ kinds named) (k : Nat) : (¬ strict ∧ σ.read k = none) ∨ σ.read k = τ.read k := by
  unfold Store.read World.read
  cases hs : σ[k]? with
  | none => right; rw [I.absent hs]
  | some s =>
    obtain ⟨t, ht, M⟩ := I.partner hs
    rw [ht]
    cases M with
    | cont l => exact .inr rfl
    | gone => exact .inr rfl
    | view r _ => exact r.read I

end OpenKalman.Lifetimes
