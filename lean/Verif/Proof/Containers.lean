import Verif.Model.Containers
import Verif.Theorems.Mdspan

/-!
# Lemmas for C153 and C154
-/

namespace OpenKalman.Containers

open OpenKalman.Mdspan

variable {α : Type}

/-- A span shows a list: it lies within the memory, whose size is below that of the numbers. -/
structure Shows (M : ℕ) (mem : List α) (s : Span) (l : List α) : Prop where
  size : s.size M = l.length
  inside : s.base + l.length ≤ mem.length
  eq : l = (mem.drop s.base).take l.length
  small : mem.length < dyn M

theorem minus_eq {M a b : ℕ} (h : b ≤ a) (ha : a < M) : minus M a b = a - b := by
  unfold minus
  have : M + a - b = a - b + M := by omega
  rw [this, Nat.add_mod_right, Nat.mod_eq_of_lt (by omega)]

theorem Shows.lt {M : ℕ} {mem : List α} {s : Span} {l : List α} (h : Shows M mem s l) : l.length < dyn M ∧ dyn M < M := by
  have := h.small
  have := h.inside
  unfold dyn at *
  omega

/-- A part of what is shown is shown by a span made for it. -/
theorem Shows.sub {M : ℕ} {mem : List α} {s : Span} {l : List α} (h : Shows M mem s l) {off n ext : ℕ} (hn : off + n ≤ l.length)
    (he : ext = dyn M ∨ ext = n) : Shows M mem ⟨s.base + off, ext, n⟩ ((l.drop off).take n) := by
  have hlt := h.lt
  have hl : ((l.drop off).take n).length = n := by simp; omega
  have hi := h.inside
  refine ⟨?_, ?_, ?_, h.small⟩
  · rw [hl]
    unfold Span.size
    rcases he with rfl | rfl
    · simp
    · simp
  · rw [hl]; show s.base + off + n ≤ _; omega
  · rw [hl]
    show _ = (mem.drop (s.base + off)).take n
    conv_lhs => rw [h.eq]
    rw [← List.drop_drop, List.drop_take, List.take_take, Nat.min_eq_left (by omega)]

theorem Shows.get {M : ℕ} {mem : List α} {s : Span} {l : List α} (h : Shows M mem s l) (i : ℕ) (hi : i < l.length) : mem[s.base + i]? = l[i]? := by
  conv_rhs => rw [h.eq]
  rw [List.getElem?_take_of_lt hi, List.getElem?_drop]

/-- The step that a function stands for. -/
def Op.step (M : ℕ) : Op → Step
  | .firstFixed n => .first n
  | .lastFixed n => .last n
  | .subFixed off n => if n = dyn M then .rest off else .part off n
  | .first n => .first n
  | .last n => .last n
  | .sub off n => if n = dyn M then .rest off else .part off n
  | .convert ext => if ext = dyn M then .whole else .exactly ext

/-- The arguments are of the type `std::size_t`; a static extent that is given is right, and the end of a part is not beyond all numbers. -/
def Op.Tame (M : ℕ) (l : List α) : Op → Prop
  | .firstFixed n => n < M
  | .lastFixed n => n < M
  | .subFixed off n => off < M ∧ (n = dyn M ∨ off + n < M)
  | .first n => n < M
  | .last n => n < M
  | .sub off n => off < M ∧ (n = dyn M ∨ off + n < M)
  | .convert ext => ext = dyn M ∨ ext = l.length

theorem expect_true {β : Type} (check : Bool) {c : Bool} (hc : c = true) (b : Out β) : expect check c b = b := by
  simp [expect, hc]

theorem expect_false {β : Type} {c : Bool} (hc : c = false) (b : Out β) : expect true c b = .violation := by
  simp [expect, hc]

theorem make_eq (M : ℕ) (check : Bool) (base ext count : ℕ) (h : ext = dyn M ∨ ext = count) : Span.make M check base ext count = .ok ⟨base, ext, count⟩ := by
  unfold Span.make
  rw [expect_true]
  rcases h with h | h <;> simp [h]

theorem op_ok {M : ℕ} {mem : List α} {s : Span} {l l' : List α} (h : Shows M mem s l) (check : Bool) (o : Op) (ht : o.Tame M l) (hl : (o.step M).on l = some l') :
    ∃ s', o.run M check s = .ok s' ∧ Shows M mem s' l' := by
  have hlt := h.lt
  have hfirst : ∀ n ext, (ext = dyn M ∨ ext = n) → Step.on l (.first n) = some l' →
      ∃ s', expect check (decide (n ≤ s.size M)) (Span.make M check s.base ext n) = .ok s' ∧ Shows M mem s' l' := by
    intro n ext he hl
    simp only [Step.on] at hl
    split at hl
    · rename_i hn
      obtain rfl := Option.some.inj hl
      refine ⟨⟨s.base, ext, n⟩, ?_, ?_⟩
      · rw [expect_true _ (by rw [h.size]; exact decide_eq_true hn), make_eq _ _ _ _ _ he]
      · have := h.sub (off := 0) (n := n) (ext := ext) (by omega) he
        simpa using this
    · cases hl
  have hlast : ∀ n ext, (ext = dyn M ∨ ext = n) → Step.on l (.last n) = some l' →
      ∃ s', expect check (decide (n ≤ s.size M)) (Span.make M check (s.base + minus M (s.size M) n) ext n) = .ok s' ∧ Shows M mem s' l' := by
    intro n ext he hl
    simp only [Step.on] at hl
    split at hl
    · rename_i hn
      obtain rfl := Option.some.inj hl
      refine ⟨⟨s.base + (l.length - n), ext, n⟩, ?_, ?_⟩
      · rw [expect_true _ (by rw [h.size]; exact decide_eq_true hn), make_eq _ _ _ _ _ he, h.size, minus_eq hn (by omega)]
      · have := h.sub (off := l.length - n) (n := n) (ext := ext) (by omega) he
        rwa [List.take_of_length_le (by simp; omega)] at this
    · cases hl
  have hsub : ∀ off n ext, n ≠ dyn M → off + n < M → (ext = dyn M ∨ ext = n) → Step.on l (.part off n) = some l' →
      ∃ s', expect check (decide (off ≤ s.size M) && (n == dyn M || decide ((off + n) % M ≤ s.size M))) (Span.make M check (s.base + off) ext n) = .ok s' ∧
        Shows M mem s' l' := by
    intro off n ext hne hM he hl
    simp only [Step.on] at hl
    split at hl
    · rename_i hn
      obtain rfl := Option.some.inj hl
      refine ⟨⟨s.base + off, ext, n⟩, ?_, h.sub hn he⟩
      rw [expect_true, make_eq _ _ _ _ _ he]
      rw [h.size, Nat.mod_eq_of_lt hM]
      simp
      omega
    · cases hl
  have hrest : ∀ off ext, (ext = dyn M ∨ ext = l.length - off) → Step.on l (.rest off) = some l' →
      ∃ s', expect check (decide (off ≤ s.size M) && (dyn M == dyn M || decide ((off + dyn M) % M ≤ s.size M)))
        (Span.make M check (s.base + off) ext (l.length - off)) = .ok s' ∧ Shows M mem s' l' := by
    intro off ext he hl
    simp only [Step.on] at hl
    split at hl
    · rename_i hn
      obtain rfl := Option.some.inj hl
      refine ⟨⟨s.base + off, ext, l.length - off⟩, ?_, ?_⟩
      · rw [expect_true, make_eq _ _ _ _ _ he]
        rw [h.size]
        simpa using hn
      · have := h.sub (off := off) (n := l.length - off) (ext := ext) (by omega) he
        rwa [List.take_of_length_le (by simp)] at this
    · cases hl
  cases o with
  | firstFixed n => exact hfirst n n (Or.inr rfl) hl
  | lastFixed n => exact hlast n n (Or.inr rfl) hl
  | first n => exact hfirst n _ (Or.inl rfl) hl
  | last n => exact hlast n _ (Or.inl rfl) hl
  | sub off n =>
    by_cases hn : n = dyn M
    · subst hn
      simp only [Op.step, if_true] at hl
      have ho : off ≤ l.length := by
        by_contra hc
        simp [Step.on, hc] at hl
      simp only [Op.run, if_true, h.size, minus_eq ho (by omega : l.length < M)]
      have := hrest off _ (Or.inl rfl) hl
      rwa [h.size] at this
    · simp only [Op.step, if_neg hn] at hl
      simp only [Op.run, if_neg hn]
      exact hsub off n _ hn (ht.2.resolve_left hn) (Or.inl rfl) hl
  | subFixed off n =>
    by_cases hn : n = dyn M
    · subst hn
      simp only [Op.step, if_true] at hl
      have ho : off ≤ l.length := by
        by_contra hc
        simp [Step.on, hc] at hl
      have hext : (if s.ext ≠ dyn M then minus M s.ext off else dyn M) = dyn M ∨ (if s.ext ≠ dyn M then minus M s.ext off else dyn M) = l.length - off := by
        by_cases he : s.ext = dyn M
        · left; simp [he]
        · right
          have : s.ext = l.length := by rw [← h.size]; simp [Span.size, he]
          rw [if_pos he, this, minus_eq ho (by omega)]
      simp only [Op.run, ne_eq, not_true_eq_false, if_false, h.size, minus_eq ho (by omega : l.length < M)]
      have := hrest off _ hext hl
      rwa [h.size] at this
    · simp only [Op.step, if_neg hn] at hl
      simp only [Op.run, ne_eq, if_pos (show ¬ n = dyn M from hn)]
      exact hsub off n _ hn (ht.2.resolve_left hn) (Or.inr rfl) hl
  | convert ext =>
    have hcase : ext = dyn M ∨ s.ext = dyn M ∨ ext = s.ext := by
      rcases ht with h1 | h1
      · exact Or.inl h1
      · by_cases he : s.ext = dyn M
        · exact Or.inr (Or.inl he)
        · right; right
          rw [h1, ← h.size]; simp [Span.size, he]
    have hl' : l' = l := by
      simp only [Op.step] at hl
      split at hl
      · exact (Option.some.inj hl).symm
      · simp only [Step.on] at hl
        split at hl
        · exact (Option.some.inj hl).symm
        · cases hl
    subst hl'
    refine ⟨⟨s.base, ext, s.size M⟩, by simp only [Op.run, if_pos hcase], ?_, h.inside, h.eq, h.small⟩
    unfold Span.size
    rcases ht with h1 | h1
    · rw [if_pos h1]; exact h.size
    · rw [if_neg (by show ¬ ext = _; omega)]; exact h1

theorem op_violation {M : ℕ} {mem : List α} {s : Span} {l : List α} (h : Shows M mem s l) (o : Op) (ht : o.Tame M l) (hl : (o.step M).on l = none) :
    o.run M true s = .violation := by
  have hle : ∀ n (b : Out Span), ¬ n ≤ l.length → expect true (decide (n ≤ s.size M)) b = .violation := fun n b hn => by
    rw [expect_false]; rw [h.size]; exact decide_eq_false hn
  have hp : ∀ off n (b : Out Span), n ≠ dyn M → off + n < M → ¬ off + n ≤ l.length →
      expect true (decide (off ≤ s.size M) && (n == dyn M || decide ((off + n) % M ≤ s.size M))) b = .violation := fun off n b h1 h2 h3 => by
    rw [expect_false]; rw [h.size, Nat.mod_eq_of_lt h2]; simp [h1]; omega
  have hr : ∀ off (b : Out Span), ¬ off ≤ l.length →
      expect true (decide (off ≤ s.size M) && (dyn M == dyn M || decide ((off + dyn M) % M ≤ s.size M))) b = .violation := fun off b h3 => by
    rw [expect_false]; rw [h.size]; simp; omega
  cases o with
  | firstFixed n => exact hle n _ fun hn => by simp [Op.step, Step.on, hn] at hl
  | lastFixed n => exact hle n _ fun hn => by simp [Op.step, Step.on, hn] at hl
  | first n => exact hle n _ fun hn => by simp [Op.step, Step.on, hn] at hl
  | last n => exact hle n _ fun hn => by simp [Op.step, Step.on, hn] at hl
  | sub off n =>
    by_cases hn : n = dyn M
    · subst hn
      exact hr off _ fun h1 => by simp [Op.step, Step.on, h1] at hl
    · exact hp off n _ hn (ht.2.resolve_left hn) fun h1 => by simp [Op.step, Step.on, hn, h1] at hl
  | subFixed off n =>
    by_cases hn : n = dyn M
    · subst hn
      exact hr off _ fun h1 => by simp [Op.step, Step.on, h1] at hl
    · exact hp off n _ hn (ht.2.resolve_left hn) fun h1 => by simp [Op.step, Step.on, hn, h1] at hl
  | convert ext =>
    exfalso
    simp only [Op.step] at hl
    split at hl
    · cases hl
    · rename_i hne
      rcases ht with h1 | h1
      · exact hne h1
      · simp [Step.on, h1] at hl

/-- The functions of a chain are tame, each for what it is called on. -/
def TameAll (M : ℕ) : List Op → List α → Prop
  | [], _ => True
  | o :: os, l => o.Tame M l ∧ ∀ l', (o.step M).on l = some l' → TameAll M os l'

theorem loads_eq (mem : List α) : ∀ (n p : ℕ), p + n ≤ mem.length → loads mem p n = .ok ((mem.drop p).take n)
  | 0, _, _ => by simp [loads]
  | n + 1, p, h => by
    have hp : p < mem.length := by omega
    rw [loads, load, List.getElem?_eq_getElem hp]
    simp only [Out.bind]
    rw [loads_eq mem n (p + 1) (by omega)]
    simp only [Out.ok.injEq]
    rw [List.drop_eq_getElem_cons hp, List.take_succ_cons]

theorem loadsDown_eq (mem : List α) : ∀ (n p : ℕ), p + n ≤ mem.length → loadsDown mem (p + n) n = .ok ((mem.drop p).take n).reverse
  | 0, _, _ => by simp [loadsDown]
  | n + 1, p, h => by
    have hp : p + n < mem.length := by omega
    have e : p + (n + 1) - 1 = p + n := by omega
    rw [loadsDown, e, load, List.getElem?_eq_getElem hp]
    simp only [Out.bind]
    rw [loadsDown_eq mem n p (by omega)]
    simp only [Out.ok.injEq]
    rw [List.take_succ, List.getElem?_drop, List.getElem?_eq_getElem hp]
    simp

/-! ## Arrays -/

/-- An array has a value: no index leads outside the container, or to the place of another, and the elements are those of the value. -/
structure Holds (M : ℕ) (a : MdArray α) (v : Value α) : Prop where
  shape : a.map.exts.shape = v.shape
  unique : Unique v.shape (a.map.offset M)
  get : ∀ idx, InBounds v.shape idx → a.get M idx = some (v.at_ idx)

/-- Some arrays have the values given. -/
def HoldsAll (M : ℕ) (st : List (MdArray α)) (σ : List (Option (Value α))) : Prop :=
  List.Forall₂ (fun a o => ∀ v, o = some v → Holds M a v) st σ

theorem forall₂_set {β γ : Type} {R : β → γ → Prop} : ∀ {l : List β} {m : List γ} (_ : List.Forall₂ R l m) (i : ℕ) (b : β) (c : γ), R b c →
    List.Forall₂ R (l.set i b) (m.set i c)
  | _, _, .nil, _, _, _, _ => by simp
  | _, _, .cons h t, 0, b, c, hb => by simpa using ⟨hb, t⟩
  | _, _, .cons h t, i + 1, b, c, hb => by
    simp only [List.set_cons_succ]
    exact .cons h (forall₂_set t i b c hb)

theorem forall₂_get {β γ : Type} {R : β → γ → Prop} : ∀ {l : List β} {m : List γ} (_ : List.Forall₂ R l m) (i : ℕ) (c : γ), m[i]? = some c →
    ∃ b, l[i]? = some b ∧ R b c
  | _, _, .nil, _, _, h => by simp at h
  | _, _, .cons (a := a) h t, 0, c, hc => by
    simp only [List.getElem?_cons_zero, Option.some.injEq] at hc
    subst hc
    exact ⟨a, by simp, h⟩
  | _, _, .cons h t, i + 1, c, hc => by
    simp only [List.getElem?_cons_succ] at hc ⊢
    exact forall₂_get t i c hc

theorem Holds.write {M : ℕ} {a : MdArray α} {v : Value α} (h : Holds M a v) (idx : List ℕ) (hi : InBounds v.shape idx) (x : α) :
    ∃ a', a.set M idx x = some a' ∧ Holds M a' ⟨v.shape, fun j => if j = idx then x else v.at_ j⟩ := by
  have h1 := h.get idx hi
  have hlt : a.map.offset M idx < a.ctr.length := by
    by_contra hc
    unfold MdArray.get at h1
    rw [List.getElem?_eq_none (by omega)] at h1
    cases h1
  refine ⟨⟨a.map, a.ctr.set (a.map.offset M idx) x⟩, by simp only [MdArray.set, if_pos hlt], h.shape, h.unique, fun j hj => ?_⟩
  show (a.ctr.set (a.map.offset M idx) x)[a.map.offset M j]? = _
  dsimp only
  by_cases hji : j = idx
  · subst hji
    rw [List.getElem?_set_self hlt, if_pos rfl]
  · rw [List.getElem?_set_ne fun e => hji (h.unique idx j hi hj e).symm, if_neg hji]
    exact h.get j hj

theorem act_holds {M : ℕ} (k : Kind) {st : List (MdArray α)} {σ σ' : List (Option (Value α))} (h : HoldsAll M st σ) (a : Act α) (ha : a.on σ = some σ') :
    ∃ st', act M k st a = some st' ∧ HoldsAll M st' σ' := by
  have hlen : st.length = σ.length := List.Forall₂.length_eq h
  cases a with
  | write v idx x =>
    simp only [Act.on] at ha
    split at ha
    · rename_i val hv
      split at ha
      · rename_i hi
        obtain rfl := Option.some.inj ha
        obtain ⟨arr, h1, h2⟩ := forall₂_get h v _ hv
        obtain ⟨arr', h3, h4⟩ := (h2 val rfl).write idx hi x
        refine ⟨st.set v arr', by simp only [act, h1, Option.bind_some, h3, Option.map_some], forall₂_set h v _ _ fun v' hv' => ?_⟩
        obtain rfl := Option.some.inj hv'
        exact h4
      · cases ha
    · cases ha
  | copy v w =>
    simp only [Act.on] at ha
    split at ha
    · rename_i val hv
      split at ha
      · rename_i hlt
        obtain rfl := Option.some.inj ha
        obtain ⟨arr, h1, h2⟩ := forall₂_get h w _ hv
        exact ⟨st.set v arr, by simp only [act, h1, Option.bind_some, if_pos (hlen ▸ hlt)], forall₂_set h v _ _ h2⟩
      · cases ha
    · cases ha
  | move v w =>
    simp only [Act.on] at ha
    split at ha
    · rename_i val hv
      split at ha
      · rename_i hlt
        obtain rfl := Option.some.inj ha
        obtain ⟨arr, h1, h2⟩ := forall₂_get h w _ hv
        exact ⟨(st.set v arr).set w (arr.movedFrom k), by simp only [act, h1, Option.bind_some, if_pos (hlen ▸ hlt)],
          forall₂_set (forall₂_set h v _ _ h2) w _ _ fun _ hn => by cases hn⟩
      · cases ha
    · cases ha

/-- The positions of a mapping are those of the layout, within the size it reports, and different for different indices. -/
structure Sound (M : ℕ) (m : Mapping) : Prop where
  needed : NeededSize m.exts.shape (m.offset M) (m.span M)
  unique : Unique m.exts.shape (m.offset M)

theorem sound_dense (M : ℕ) (e : Ext) (hM : e.shape.prod < M) : Sound M (.left e) ∧ Sound M (.right e) := by
  obtain ⟨-, h1, h2, -⟩ := C111_bijection M (.left e) e (Or.inl rfl) hM
  obtain ⟨-, h3, h4, -⟩ := C111_bijection M (.right e) e (Or.inr rfl) hM
  exact ⟨⟨h1, h2⟩, ⟨h3, h4⟩⟩

theorem sound_stride (M : ℕ) (e : Ext) (s : List ℕ) (hl : s.length = e.rank) (hM : ∀ i, InBounds e.shape i → weigh i s + 1 < M) (hN : Nested e.shape s) :
    Sound M (.stride e s) :=
  ⟨C112_span M e s hl hM, (C112_unique_partial M e s hl (fun i hi => by have := hM i hi; omega) hN).2⟩

end OpenKalman.Containers
