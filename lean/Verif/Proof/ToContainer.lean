import Verif.Model.ToContainer

/-!
# Lemmas: `stdex::ranges::to`
-/

namespace OpenKalman.ToContainer

theorem toable_iff (t e : Ty) : toable t e = true ↔ Convertible t e := by
  cases t <;> cases e <;> simp [toable, Convertible]

/-- A value is the same as itself. -/
theorem same_self : ∀ (t : Ty) (v : Val), HasTy t v → Same t v v := by
  intro t
  induction t with
  | scalar n => intro v h; cases v <;> simp_all [HasTy, Same]
  | cont k e ih =>
    intro v h
    cases v with
    | num z => simp [HasTy] at h
    | seq xs =>
      simp only [HasTy] at h
      simp only [Same, Holds]
      split
      · rename_i hu
        exact ⟨h.2 hu, fun x hx => ⟨x, hx, ih x (h.1 x hx)⟩, fun x hx => ⟨x, hx, ih x (h.1 x hx)⟩⟩
      · rw [List.forall₂_same]
        exact fun x hx => ih x (h.1 x hx)

/-- Values of a type that converts are values of the other type. -/
theorem HasTy.convert {t e : Ty} (h : Convertible t e) {v : Val} (hv : HasTy t v) : HasTy e v := by
  rcases h with rfl | ⟨a, b, rfl, rfl⟩
  · exact hv
  · cases v <;> simp_all [HasTy]

theorem mem_insertValue (k : Kind) (acc : List Val) (x y : Val) :
    y ∈ insertValue k acc x ↔ y ∈ acc ∨ y = x := by
  unfold insertValue
  split
  · rename_i h
    constructor
    · exact Or.inl
    · rintro (h' | rfl)
      · exact h'
      · exact h.2
  · simp

theorem nodup_insertValue (k : Kind) (hk : k.unique = true) (acc : List Val) (x : Val)
    (h : acc.Nodup) : (insertValue k acc x).Nodup := by
  unfold insertValue
  split
  · exact h
  · rename_i h'
    rw [List.nodup_append]
    refine ⟨h, by simp, ?_⟩
    intro a ha b hb
    simp only [List.mem_singleton] at hb
    subst hb
    rintro rfl
    exact h' ⟨hk, ha⟩

theorem mem_construct (k : Kind) : ∀ (xs acc : List Val) (y : Val),
    y ∈ construct k acc xs ↔ y ∈ acc ∨ y ∈ xs := by
  intro xs
  induction xs with
  | nil => intro acc y; simp [construct]
  | cons x xs ih =>
    intro acc y
    rw [construct, ih, mem_insertValue, List.mem_cons]
    tauto

theorem nodup_construct (k : Kind) (hk : k.unique = true) : ∀ (xs acc : List Val),
    acc.Nodup → (construct k acc xs).Nodup := by
  intro xs
  induction xs with
  | nil => intro acc h; exact h
  | cons x xs ih => intro acc h; exact ih _ (nodup_insertValue k hk acc x h)

theorem construct_sequence (k : Kind) (hk : k.unique = false) : ∀ (xs acc : List Val),
    construct k acc xs = acc ++ xs := by
  intro xs
  induction xs with
  | nil => intro acc; simp [construct]
  | cons x xs ih => intro acc; rw [construct, ih]; simp [insertValue, hk]

/-- A step of the loop succeeds exactly for kinds that can be appended to. -/
theorem append_ok (k : Kind) (h : Appendable k) (acc : List Val) (x : Val) :
    append k acc x = .ok (insertValue k acc x) := by
  unfold append
  rcases h with h | h | h | ⟨h, h'⟩
  · simp [h]
  · simp [h]
  · simp [h]
  · simp [h, h']

theorem append_error (k : Kind) (h : ¬ Appendable k) (acc : List Val) (x : Val) :
    ∃ r, append k acc x = .error r := by
  simp only [Appendable, not_or, not_and] at h
  obtain ⟨h1, h2, h3, h4⟩ := h
  unfold append
  simp only [Bool.not_eq_true] at h1 h2
  simp only [h1, h2]
  cases hk : k.emplace with
  | absent => have := h4 hk; simp_all
  | position => exact absurd hk h3
  | arguments => exact ⟨_, rfl⟩

theorem body_ok (k : Kind) (h : Appendable k) : body k = .ok () := by
  simp [body, append_ok k h]

theorem appendable_of_body (k : Kind) {u : Unit} (h : body k = .ok u) : Appendable k := by
  by_contra hn
  obtain ⟨r, hr⟩ := append_error k hn [] (.num 0)
  simp [body, hr] at h

theorem fill_ok (k : Kind) (h : Appendable k) : ∀ (xs acc : List Val),
    fill k acc xs = .ok (construct k acc xs) := by
  intro xs
  induction xs with
  | nil => intro acc; rfl
  | cons x xs ih => intro acc; rw [fill, append_ok k h]; exact ih _

/-- Whichever branch is taken, the container is made of the elements. -/
theorem build_ok {k : Kind} {e : Ty} {s : Source} {xs ys : List Val} (h : build k e s xs = .ok ys) :
    ys = construct k [] xs ∧ StdBuilds k e s := by
  unfold build at h
  split at h
  · rename_i hc
    simp only [constructibleFrom, Bool.or_eq_true, decide_eq_true_eq] at hc
    injection h with h
    refine ⟨h.symm, ?_⟩
    rcases hc with hc | hc
    · exact Or.inl hc
    · exact Or.inr (Or.inl hc)
  · split at h
    · rename_i hc
      simp only [Bool.and_eq_true] at hc
      injection h with h
      exact ⟨h.symm, Or.inr (Or.inr (Or.inl ⟨hc.1.2, hc.2⟩))⟩
    · split at h
      · rename_i hn
        split at h
        · rename_i hb
          have ha := appendable_of_body k hb
          rw [fill_ok k ha] at h
          injection h with h
          exact ⟨h.symm, Or.inr (Or.inr (Or.inr ⟨hn, ha⟩))⟩
        · exact absurd h (by simp)
      · exact absurd h (by simp)

theorem build_plain (k : Kind) (e : Ty) (s : Source) (xs : List Val)
    (hn : k.fromNothing = true) (ha : Appendable k) : build k e s xs = .ok (construct k [] xs) := by
  unfold build
  split
  · rfl
  · split
    · rfl
    · rw [body_ok k ha]
      exact fill_ok k ha xs []

/-- What is constructed holds the elements. -/
theorem holds_construct (k : Kind) (same : Val → Val → Prop) (xs ys : List Val)
    (h : List.Forall₂ same xs ys) : Holds k same xs (construct k [] ys) := by
  unfold Holds
  split
  · rename_i hu
    refine ⟨nodup_construct k hu _ _ (by simp), ?_, ?_⟩
    · intro x hx
      obtain ⟨y, hy, hxy⟩ : ∃ y ∈ ys, same x y := by
        clear hu
        induction h with
        | nil => simp at hx
        | cons hab _ ih =>
          rcases List.mem_cons.1 hx with rfl | hx
          · exact ⟨_, List.mem_cons_self, hab⟩
          · obtain ⟨y, hy, hxy⟩ := ih hx
            exact ⟨y, List.mem_cons_of_mem _ hy, hxy⟩
      exact ⟨y, (mem_construct k _ _ _).2 (Or.inr hy), hxy⟩
    · intro y hy'
      have hy : y ∈ ys := by simpa using (mem_construct k _ _ _).1 hy'
      clear hu hy'
      induction h with
      | nil => simp at hy
      | cons hab _ ih =>
        rcases List.mem_cons.1 hy with rfl | hy
        · exact ⟨_, List.mem_cons_self, hab⟩
        · obtain ⟨x, hx, hxy⟩ := ih hy
          exact ⟨x, List.mem_cons_of_mem _ hx, hxy⟩
  · rename_i hu
    rw [construct_sequence k (by simpa using hu)]
    simpa using h

theorem mapAll_ok (f : Val → Except Refusal Val) : ∀ (xs ys : List Val), mapAll f xs = .ok ys →
    List.Forall₂ (fun x y => f x = .ok y) xs ys := by
  intro xs
  induction xs with
  | nil => intro ys h; simp only [mapAll, Except.ok.injEq] at h; subst h; exact .nil
  | cons x xs ih =>
    intro ys h
    unfold mapAll at h
    split at h
    · rename_i y ys' hy hys
      injection h with h
      subst h
      exact .cons hy (ih _ hys)
    · exact absurd h (by simp)
    · exact absurd h (by simp)

theorem mapAll_total (f : Val → Except Refusal Val) (h : ∀ x, ∃ y, f x = .ok y) :
    ∀ xs : List Val, ∃ ys, mapAll f xs = .ok ys := by
  intro xs
  induction xs with
  | nil => exact ⟨[], rfl⟩
  | cons x xs ih =>
    obtain ⟨y, hy⟩ := h x
    obtain ⟨ys, hys⟩ := ih
    exact ⟨y :: ys, by simp [mapAll, hy, hys]⟩

/-- Types in a result. -/
theorem hasTy_construct (k : Kind) (e : Ty) (ys : List Val) (h : ∀ y ∈ ys, HasTy e y) :
    HasTy (.cont k e) (.seq (construct k [] ys)) := by
  simp only [HasTy]
  refine ⟨?_, fun hu => nodup_construct k hu _ _ (by simp)⟩
  intro y hy
  exact h y (by simpa using (mem_construct k _ _ _).1 hy)

/-- Whatever the call returns holds what the range holds. -/
theorem toCont_right : ∀ (t : Ty) (s : Source) (xs ys : List Val), (∀ x ∈ xs, HasTy s.elem x) →
    toCont t s xs = .ok ys →
    Same t (.seq xs) (.seq ys) ∧ HasTy t (.seq ys) ∧ StdAccepts t s := by
  intro t
  induction t with
  | scalar n => intro s xs ys _ h; simp [toCont] at h
  | cont k e ih =>
    intro s xs ys hx h
    unfold toCont at h
    split at h
    · rename_i hc
      have hc := (toable_iff _ _).1 hc
      obtain ⟨rfl, hb⟩ := build_ok h
      have hx' : ∀ x ∈ xs, HasTy e x := fun x h' => (hx x h').convert hc
      refine ⟨?_, hasTy_construct k e xs hx', Or.inl ⟨hc, hb⟩⟩
      exact holds_construct k _ xs xs (List.forall₂_same.2 fun x h' => same_self e x (hx' x h'))
    · rename_i hc
      rw [toable_iff] at hc
      split at h
      · exact absurd h (by simp)
      · rename_i k' t' hs
        split at h
        · exact absurd h (by simp)
        · rename_i zs hz
          split at h
          · exact absurd h (by simp)
          · rename_i ws hw
            obtain ⟨rfl, hb⟩ := build_ok h
            have hz' := ih (.ofCont k' t') [] zs (by simp) hz
            have hm := mapAll_ok _ _ _ hw
            have hboth : List.Forall₂ (fun x y => Same e x y ∧ HasTy e y) xs ws := by
              clear hw h hb
              induction hm with
              | nil => exact .nil
              | @cons a b _ _ hab _ ihm =>
                refine .cons ?_ (ihm fun x h' => hx x (List.mem_cons_of_mem _ h'))
                have hax := hx a List.mem_cons_self
                rw [hs] at hax
                cases a with
                | num z => simp [HasTy] at hax
                | seq as =>
                  simp only [HasTy] at hax
                  cases hr : toCont e (.ofCont k' t') as with
                  | error r => simp [Val.items, hr, wrap] at hab
                  | ok bs =>
                    simp only [Val.items, hr, wrap, Except.ok.injEq] at hab
                    subst hab
                    have := ih (.ofCont k' t') as bs hax.1 hr
                    exact ⟨this.1, this.2.1⟩
            refine ⟨?_, ?_, Or.inr ⟨hc, hb, k', t', hs, hz'.2.2⟩⟩
            · exact holds_construct k _ xs ws (hboth.imp fun _ _ h' => h'.1)
            · refine hasTy_construct k e ws ?_
              clear hw h hb hm hx
              induction hboth with
              | nil => simp
              | cons hab _ ihm =>
                intro y hy
                rcases List.mem_cons.1 hy with rfl | hy
                · exact hab.2
                · exact ihm y hy

/-- Containers that can be filled one by one are filled from any range of the same depth. -/
theorem toCont_plain : ∀ (t : Ty) (s : Source) (xs : List Val), Plain t →
    depth t = depth s.elem + 1 → ∃ ys, toCont t s xs = .ok ys := by
  intro t
  induction t with
  | scalar n => intro s xs _ h; simp [depth] at h
  | cont k e ih =>
    intro s xs hp hd
    obtain ⟨hn, ha, hp⟩ := hp
    simp only [depth, Nat.add_right_cancel_iff] at hd
    unfold toCont
    split
    · exact ⟨_, build_plain k e s xs hn ha⟩
    · rename_i hc
      split
      · rename_i a hs
        exfalso
        rw [hs] at hd hc
        cases e with
        | scalar b => simp [toable] at hc
        | cont k2 e2 => simp [depth] at hd
      · rename_i k' t' hs
        rw [hs] at hd
        have hd' : depth e = depth (Source.ofCont k' t').elem + 1 := hd
        obtain ⟨zs, hz⟩ := ih (.ofCont k' t') [] hp hd'
        rw [hz]
        obtain ⟨ws, hw⟩ := mapAll_total (fun x => wrap (toCont e (.ofCont k' t') x.items))
          (fun x => by
            obtain ⟨ys, hy⟩ := ih (.ofCont k' t') x.items hp hd'
            exact ⟨.seq ys, by simp [hy, wrap]⟩) xs
        simp only [hw]
        exact ⟨_, build_plain k e _ ws hn ha⟩

/-- Calls by name leave the closure alone. -/
theorem calls_lvalue (k : Kind) (init : List Val) : ∀ (xss : List (List Val)),
    Closure.calls k ⟨some init⟩ (xss.map fun xs => (.lvalue, xs)) =
      some (xss.map fun xs => toFrom k init xs) := by
  intro xss
  induction xss with
  | nil => rfl
  | cons xs xss ih => simp [Closure.calls, Closure.call, ih]

end OpenKalman.ToContainer
