import Mathlib.Tactic.Ring
import Mathlib.Data.List.Nodup
import Mathlib.Algebra.Order.BigOperators.Group.List
import Verif.Model.NAry

/-! # Lemmas for C88–C91 -/

namespace OpenKalman.NAry

variable {α : Type}

/-! ## Loops -/

/-- A loop over distinct values whose bodies have disjoint footprints. -/
theorem loop_spec {S : Type} {X : Type} (read : S → X → α) (D : X → Prop) (foot : ℕ → X → Prop) (f : ℕ → X → α → α)
    (body : ℕ → S → Res S) :
    ∀ (is : List ℕ), is.Nodup → (∀ i ∈ is, ∀ i' ∈ is, ∀ x, foot i x → foot i' x → i = i') →
    (∀ i ∈ is, ∀ s, ∃ s', body i s = .ok s' ∧ ∀ x, D x → (foot i x → read s' x = f i x (read s x)) ∧ (¬ foot i x → read s' x = read s x)) →
    ∀ s, ∃ s', loop body is s = .ok s' ∧ ∀ x, D x → (∀ i ∈ is, foot i x → read s' x = f i x (read s x)) ∧
      ((∀ i ∈ is, ¬ foot i x) → read s' x = read s x)
  | [], _, _, _, s => ⟨s, rfl, fun x _ => ⟨fun i hi => absurd hi (List.not_mem_nil), fun _ => rfl⟩⟩
  | i :: is, hn, hd, hb, s => by
    obtain ⟨s₁, h₁, r₁⟩ := hb i (List.mem_cons_self ..) s
    obtain ⟨s₂, h₂, r₂⟩ := loop_spec read D foot f body is (List.nodup_cons.1 hn).2
      (fun a ha b hb x => hd a (List.mem_cons_of_mem _ ha) b (List.mem_cons_of_mem _ hb) x)
      (fun a ha => hb a (List.mem_cons_of_mem _ ha)) s₁
    refine ⟨s₂, by rw [loop, h₁]; exact h₂, fun x hx => ⟨?_, ?_⟩⟩
    · intro k hk hf
      rcases List.mem_cons.1 hk with rfl | hk
      · rw [(r₂ x hx).2, (r₁ x hx).1 hf]
        intro b hb hfb
        have := hd k (List.mem_cons_self ..) b (List.mem_cons_of_mem _ hb) x hf hfb
        exact (List.nodup_cons.1 hn).1 (this ▸ hb)
      · rw [(r₂ x hx).1 k hk hf, (r₁ x hx).2]
        intro hfi
        have := hd i (List.mem_cons_self ..) k (List.mem_cons_of_mem _ hk) x hfi hf
        exact (List.nodup_cons.1 hn).1 (this ▸ hk)
    · intro hno
      rw [(r₂ x hx).2 fun b hb => hno b (List.mem_cons_of_mem _ hb), (r₁ x hx).2 (hno i (List.mem_cons_self ..))]

/-- Nested loops visit each position once. -/
theorem loops_spec {S : Type} (read : S → List ℕ → α) (D : List ℕ → Prop) (f : List ℕ → α → α) (body : List ℕ → S → Res S)
    (hb : ∀ j s, D j → ∃ s', body j s = .ok s' ∧ read s' j = f j (read s j) ∧ ∀ x, D x → x ≠ j → read s' x = read s x) :
    ∀ (es j : List ℕ), (∀ l, InBounds es l → D (j ++ l)) → ∀ s, ∃ s', loops body es j s = .ok s' ∧
      ∀ x, D x → ((∃ l, InBounds es l ∧ x = j ++ l) → read s' x = f x (read s x)) ∧
        (¬ (∃ l, InBounds es l ∧ x = j ++ l) → read s' x = read s x)
  | [], j, hD, s => by
    obtain ⟨s', h, r, u⟩ := hb j s (by simpa using hD [] .nil)
    refine ⟨s', h, fun x hx => ⟨?_, ?_⟩⟩
    · rintro ⟨l, hl, rfl⟩
      cases hl
      rw [List.append_nil] at hx ⊢
      exact r
    · intro hno
      exact u x hx fun e => hno ⟨[], .nil, by simpa using e⟩
  | e :: es, j, hD, s => by
    obtain ⟨s', h, r⟩ := loop_spec read D (fun i x => ∃ l, InBounds es l ∧ x = (j ++ [i]) ++ l) (fun _ x => f x)
      (fun i s => loops body es (j ++ [i]) s) (List.range e) List.nodup_range
      (by
        rintro i _ i' _ x ⟨l, _, rfl⟩ ⟨l', _, h'⟩
        simp only [List.append_assoc, List.append_cancel_left_eq, List.singleton_append, List.cons.injEq] at h'
        exact h'.1)
      (by
        intro i hi s
        refine loops_spec read D f body hb es (j ++ [i]) (fun l hl => ?_) s
        rw [List.append_assoc]
        exact hD (i :: l) (.cons (List.mem_range.1 hi) hl)) s
    refine ⟨s', h, fun x hx => ⟨?_, ?_⟩⟩
    · rintro ⟨l, hl, rfl⟩
      cases hl with
      | cons h1 h2 =>
        rename_i i l
        exact (r _ hx).1 i (List.mem_range.2 h1) ⟨l, h2, by simp⟩
    · intro hno
      refine (r x hx).2 ?_
      rintro i hi ⟨l, hl, rfl⟩
      exact hno ⟨i :: l, .cons (List.mem_range.1 hi) hl, by simp⟩

/-! ## Operations with arguments -/

theorem Res.all_map_ok {β γ : Type} (g : β → Res γ) (h : β → γ) : ∀ (l : List β), (∀ b ∈ l, g b = .ok (h b)) → Res.all (l.map g) = .ok (l.map h)
  | [], _ => rfl
  | b :: l, hl => by
    rw [List.map_cons, Res.all, hl b (List.mem_cons_self ..)]
    show (Res.all (l.map g)).bind _ = _
    rw [Res.all_map_ok g h l fun b hb => hl b (List.mem_cons_of_mem _ hb)]
    rfl

/-- Extents of an argument. -/
def Arg.extents (a : Arg α) : List ℕ := a.dims.map Dim.val

theorem zip_eq : ∀ (ds : List Dim) (es j : List ℕ), Stretches (ds.map Dim.val) es → InBounds es j →
    List.zipWith (fun d i => if i < d.val then i else 0) ds j = List.zipWith (fun e i => if e = 1 then 0 else i) (ds.map Dim.val) j
  | [], _, _, _, _ => by simp
  | _ :: _, [], _, h, _ => h.elim
  | d :: ds, e :: es, _, h, .cons (a := i) (l₁ := j) hi hj => by
    rw [List.map_cons, List.zipWith_cons_cons, List.zipWith_cons_cons, zip_eq ds es j h.2 hj]
    congr 1
    rcases h.1 with h1 | h1
    · rw [h1, if_pos rfl]; split_ifs <;> omega
    · rw [h1, if_pos hi]
      split_ifs
      · omega
      · rfl

theorem Stretches.length : ∀ {xs es : List ℕ}, Stretches xs es → xs.length ≤ es.length
  | [], _, _ => Nat.zero_le _
  | _ :: _, [], h => h.elim
  | _ :: _, _ :: _, h => Nat.succ_le_succ (Stretches.length h.2)

theorem component_eq {a : Arg α} {es j : List ℕ} (h : Stretches a.extents es) (hj : InBounds es j) :
    component a j = .ok (stretched a.extents a.get j) := by
  have hl := h.length
  unfold Arg.extents at hl
  rw [List.length_map] at hl
  have hj' := List.Forall₂.length_eq hj
  rw [component, if_pos (by omega), stretched, Arg.extents, zip_eq a.dims es j h hj]

/-- The value of an operation: with indices if it takes them. -/
def Op.value (op : Op α) (vs : List α) (j : List ℕ) : Option α :=
  match op.indexed with
  | some f => some (f vs j)
  | none => op.plain.map fun f => f vs

theorem applyOp_eq {op : Op α} {args : List (Arg α)} {es j : List ℕ} (h : ∀ a ∈ args, Stretches a.extents es) (hj : InBounds es j) {v : α}
    (hv : op.value (args.map fun a => stretched a.extents a.get j) j = some v) : applyOp op args j = .ok v := by
  rw [applyOp, Res.all_map_ok _ (fun a => stretched a.extents a.get j) args fun a ha => component_eq (h a ha) hj]
  show (match op.indexed with | some f => _ | none => _) = _
  unfold Op.value at hv
  cases hi : op.indexed with
  | some f => rw [hi] at hv; simp only [Option.some.injEq] at hv ⊢; rw [← hv]
  | none =>
    rw [hi] at hv
    cases hp : op.plain with
    | some f => rw [hp] at hv; simp only [Option.map_some, Option.some.injEq] at hv ⊢; rw [← hv]
    | none => rw [hp] at hv; cases hv

theorem iterate_spec {op : Op α} {args : List (Arg α)} {es : List ℕ} (h : ∀ a ∈ args, Stretches a.extents es)
    (hop : op.plain.isSome ∨ op.indexed.isSome) (init : List ℕ → α) :
    ∃ m, iterate op args es init = .ok m ∧ ∀ j, InBounds es j → op.value (args.map fun a => stretched a.extents a.get j) j = some (m j) := by
  have hv : ∀ j, ∃ v, op.value (args.map fun a => stretched a.extents a.get j) j = some v := by
    intro j
    unfold Op.value
    cases hi : op.indexed with
    | some f => exact ⟨_, rfl⟩
    | none =>
      cases hp : op.plain with
      | some f => exact ⟨_, rfl⟩
      | none => rw [hi, hp] at hop; simp at hop
  choose v hv using hv
  obtain ⟨m, hm, hr⟩ := loops_spec (fun (m : List ℕ → α) x => m x) (InBounds es) (fun j _ => v j)
    (fun j m => (applyOp op args j).bind fun v => .ok (setComponent m v j))
    (by
      intro j s hj
      refine ⟨setComponent s (v j) j, by rw [applyOp_eq h hj (hv j)]; rfl, if_pos rfl, fun x _ hx => if_neg hx⟩)
    es [] (fun l hl => by simpa using hl) init
  refine ⟨m, hm, fun j hj => ?_⟩
  rw [hv j, (hr j hj).1 ⟨j, hj, by simp⟩]

/-! ## Extents of the result -/

theorem common_unique {es : List ℕ} {n m : ℕ} (h : Common es n) (h' : Common es m) : n = m := by
  rcases h.2.2 m h'.1 with h1 | h1 <;> rcases h'.2.2 n h.1 with h2 | h2 <;> omega

/-- Taking one more extent. -/
theorem common_cons {a n : ℕ} {es : List ℕ} (h : Common es n) (ha : 0 < a) :
    (a = n ∨ a = 1 → Common (a :: es) n) ∧ (n = 1 → Common (a :: es) a) ∧
      (a ≠ n → a ≠ 1 → n ≠ 1 → ¬ ∃ m, Common (a :: es) m) := by
  refine ⟨?_, ?_, ?_⟩
  · intro hc
    refine ⟨List.mem_cons_of_mem _ h.1, ?_, ?_⟩
    · intro e he; rcases List.mem_cons.1 he with rfl | he; exacts [ha, h.2.1 e he]
    · intro e he; rcases List.mem_cons.1 he with rfl | he; exacts [hc.symm, h.2.2 e he]
  · intro hn
    refine ⟨List.mem_cons_self .., ?_, ?_⟩
    · intro e he; rcases List.mem_cons.1 he with rfl | he; exacts [ha, h.2.1 e he]
    · intro e he; rcases List.mem_cons.1 he with rfl | he; exacts [.inr rfl, .inl (by have := h.2.2 e he; omega)]
  · rintro h1 h2 h3 ⟨m, hm⟩
    have hm1 := hm.2.2 a (List.mem_cons_self ..)
    have hm2 := hm.2.2 n (List.mem_cons_of_mem _ h.1)
    omega

theorem common_tail {a m : ℕ} {es : List ℕ} (h : Common (a :: es) m) (hne : es ≠ []) : ∃ n, Common es n := by
  by_cases hm : m ∈ es
  · exact ⟨m, hm, fun e he => h.2.1 e (List.mem_cons_of_mem _ he), fun e he => h.2.2 e (List.mem_cons_of_mem _ he)⟩
  · refine ⟨1, ?_, fun e he => h.2.1 e (List.mem_cons_of_mem _ he), fun e he => ?_⟩
    · obtain ⟨e, es', rfl⟩ := List.exists_cons_of_ne_nil hne
      rcases h.2.2 e (by simp) with rfl | rfl
      · simp
      · exact absurd (by simp) hm
    · rcases h.2.2 e (List.mem_cons_of_mem _ he) with h1 | rfl
      · exact .inl h1
      · exact absurd he hm

theorem not_common_zero {es : List ℕ} (h : 0 ∈ es) : ¬ ∃ m, Common es m := fun ⟨_, hm⟩ => absurd (hm.2.1 0 h) (lt_irrefl 0)

theorem findMaxDim_cons (a b : Dim) (rest : List Dim) : findMaxDim (a :: b :: rest) = (findMaxDim (b :: rest)).bind fun m => join a m := by
  cases a <;> rfl

/-- Fixed dimensions agree, except for ones before others. -/
def Uncontested (ds : List Dim) : Prop := ds.Pairwise fun a b => ∀ x y, a = .fixed x → b = .fixed y → x = 1 ∨ x = y

theorem findMaxDim_spec : ∀ (ds : List Dim), ds ≠ [] → (∀ d ∈ ds, 0 < d.val) → Uncontested ds →
    (∀ n, Common (ds.map Dim.val) n → ∃ d, findMaxDim ds = .ok d ∧ d.val = n ∧ d ∈ ds) ∧
    ((¬ ∃ n, Common (ds.map Dim.val) n) → findMaxDim ds = .throws)
  | [], h, _, _ => absurd rfl h
  | [d], _, hp, _ => by
    have hd := hp d (by simp)
    have hc : Common ([d].map Dim.val) d.val := ⟨by simp, by simpa using hd, by simp⟩
    have ho : findMaxDim [d] = .ok d := by
      cases d with
      | fixed n => exact if_neg (Nat.pos_iff_ne_zero.1 hd)
      | dyn n => exact if_neg (Nat.pos_iff_ne_zero.1 hd)
    exact ⟨fun n hn => ⟨d, ho, common_unique hc hn, by simp⟩, fun hno => absurd ⟨_, hc⟩ hno⟩
  | a :: b :: rest, _, hp, hu => by
    obtain ⟨ih1, ih2⟩ := findMaxDim_spec (b :: rest) (by simp) (fun d hd => hp d (List.mem_cons_of_mem _ hd)) (List.pairwise_cons.1 hu).2
    have ha := hp a (List.mem_cons_self ..)
    rw [findMaxDim_cons]
    by_cases hc : ∃ n, Common ((b :: rest).map Dim.val) n
    · obtain ⟨n, hn⟩ := hc
      obtain ⟨d, hd, hdn, hm⟩ := ih1 n hn
      rw [hd]
      show (∀ k, _ → ∃ d', join a d = .ok d' ∧ _) ∧ (_ → join a d = .throws)
      rw [List.map_cons]
      have hcc := common_cons hn ha
      have hpair := (List.pairwise_cons.1 hu).1 d hm
      have hdpos := hp d (List.mem_cons_of_mem _ hm)
      -- Three cases.
      have case1 : a.val = n ∨ a.val = 1 → ∀ k, Common (a.val :: (b :: rest).map Dim.val) k → k = n :=
        fun h k hk => common_unique hk (hcc.1 h)
      have case2 : n = 1 → ∀ k, Common (a.val :: (b :: rest).map Dim.val) k → k = a.val :=
        fun h k hk => common_unique hk (hcc.2.1 h)
      have some1 : a.val = n ∨ a.val = 1 → ∃ k, Common (a.val :: (b :: rest).map Dim.val) k := fun h => ⟨_, hcc.1 h⟩
      have some2 : n = 1 → ∃ k, Common (a.val :: (b :: rest).map Dim.val) k := fun h => ⟨_, hcc.2.1 h⟩
      have none3 := hcc.2.2
      have hmem : d ∈ a :: b :: rest := List.mem_cons_of_mem _ hm
      have hmem' : a ∈ a :: b :: rest := List.mem_cons_self ..
      have good : ∀ d', join a d = .ok d' → d' ∈ a :: b :: rest → (d'.val = n ∧ (a.val = n ∨ a.val = 1) ∨ d'.val = a.val ∧ n = 1) →
          (∀ k, Common (a.val :: (b :: rest).map Dim.val) k → ∃ d', join a d = .ok d' ∧ d'.val = k ∧ d' ∈ a :: b :: rest) ∧
          ((¬ ∃ k, Common (a.val :: (b :: rest).map Dim.val) k) → join a d = .throws) := by
        intro d' h1 h2 h3
        rcases h3 with ⟨h4, h5⟩ | ⟨h4, h5⟩
        · exact ⟨fun k hk => ⟨d', h1, by rw [h4, case1 h5 k hk], h2⟩, fun hno => absurd (some1 h5) hno⟩
        · exact ⟨fun k hk => ⟨d', h1, by rw [h4, case2 h5 k hk], h2⟩, fun hno => absurd (some2 h5) hno⟩
      have bad : join a d = .throws → a.val ≠ n → a.val ≠ 1 → n ≠ 1 →
          (∀ k, Common (a.val :: (b :: rest).map Dim.val) k → ∃ d', join a d = .ok d' ∧ d'.val = k ∧ d' ∈ a :: b :: rest) ∧
          ((¬ ∃ k, Common (a.val :: (b :: rest).map Dim.val) k) → join a d = .throws) := by
        intro h1 h2 h3 h4
        exact ⟨fun k hk => absurd ⟨k, hk⟩ (none3 h2 h3 h4), fun _ => h1⟩
      clear hcc case1 case2 some1 some2 none3
      cases a with
      | fixed x =>
        cases d with
        | fixed y =>
          have hxy : x = y ∨ x = 1 := (hpair x y rfl rfl).symm
          subst hdn
          exact good _ (by simp [join, hxy]) hmem (.inl ⟨rfl, hxy⟩)
        | dyn y =>
          subst hdn
          simp only [Dim.val] at *
          by_cases h1 : ¬ x = y ∧ ¬ x = 1 ∧ ¬ y = 1
          · exact bad (by simp [join, h1]) h1.1 h1.2.1 h1.2.2
          · by_cases h2 : x = 1
            · exact good (.dyn y) (by simp [join, h2]) hmem (.inl ⟨rfl, .inr h2⟩)
            · refine good (.fixed x) (by simp only [join, if_neg h1, if_neg h2]) hmem' ?_
              show x = y ∧ _ ∨ x = x ∧ _
              omega
      | dyn x =>
        cases d with
        | fixed y =>
          subst hdn
          simp only [Dim.val] at *
          by_cases h1 : ¬ x = y ∧ ¬ x = 1 ∧ ¬ y = 1
          · exact bad (by simp [join, h1]) h1.1 h1.2.1 h1.2.2
          · by_cases h2 : y = 1
            · refine good (.dyn x) (by simp only [join, if_neg h1, if_pos h2]) hmem' (.inr ⟨rfl, h2⟩)
            · refine good (.fixed y) (by simp only [join, if_neg h1, if_neg h2]) hmem (.inl ⟨rfl, by omega⟩)
        | dyn y =>
          subst hdn
          simp only [Dim.val] at *
          by_cases h1 : x = y ∨ x = 1
          · exact good (.dyn y) (by simp only [join, if_pos h1]) hmem (.inl ⟨rfl, h1⟩)
          · by_cases h2 : y = 1 ∧ y ≤ x
            · exact good (.dyn x) (by simp only [join, if_neg h1, if_pos h2]) hmem' (.inr ⟨rfl, h2.1⟩)
            · exact bad (by simp only [join, if_neg h1, if_neg h2]) (by omega) (by omega) (by omega)
    · rw [ih2 hc]
      refine ⟨fun k hk => absurd (common_tail hk (by simp)) hc, fun _ => rfl⟩

/-- Extents that are known at run time only. -/
theorem findMaxDim_dyn : ∀ (es : List ℕ), es ≠ [] →
    (∀ n, Common es n → findMaxDim (es.map .dyn) = .ok (.dyn n)) ∧ ((¬ ∃ n, Common es n) → findMaxDim (es.map .dyn) = .throws)
  | [], h => absurd rfl h
  | [e], _ => by
    by_cases he : e = 0
    · subst he
      exact ⟨fun n hn => absurd ⟨n, hn⟩ (not_common_zero (by simp)), fun _ => rfl⟩
    · have hc : Common [e] e := ⟨by simp, by simpa using Nat.pos_of_ne_zero he, by simp⟩
      have ho : findMaxDim ([e].map .dyn) = .ok (.dyn e) := if_neg he
      exact ⟨fun n hn => by rw [ho, common_unique hc hn], fun hno => absurd ⟨_, hc⟩ hno⟩
  | a :: b :: rest, _ => by
    obtain ⟨ih1, ih2⟩ := findMaxDim_dyn (b :: rest) (by simp)
    rw [List.map_cons, List.map_cons, findMaxDim_cons, ← List.map_cons]
    by_cases hc : ∃ n, Common (b :: rest) n
    · obtain ⟨n, hn⟩ := hc
      rw [ih1 n hn]
      show (∀ k, _ → (if a = n ∨ a = 1 then Res.ok (Dim.dyn n) else if n = 1 ∧ n ≤ a then .ok (.dyn a) else .throws) = _) ∧
        (_ → (if a = n ∨ a = 1 then Res.ok (Dim.dyn n) else if n = 1 ∧ n ≤ a then .ok (.dyn a) else .throws) = _)
      by_cases ha : a = 0
      · subst ha
        have hn0 := hn.2.1 n hn.1
        rw [if_neg (by omega), if_neg (by omega)]
        exact ⟨fun k hk => absurd ⟨k, hk⟩ (not_common_zero (by simp)), fun _ => rfl⟩
      · have hcc := common_cons hn (Nat.pos_of_ne_zero ha)
        by_cases h1 : a = n ∨ a = 1
        · rw [if_pos h1]
          exact ⟨fun k hk => by rw [common_unique hk (hcc.1 h1)], fun hno => absurd ⟨_, hcc.1 h1⟩ hno⟩
        · rw [if_neg h1]
          by_cases h2 : n = 1 ∧ n ≤ a
          · rw [if_pos h2]
            exact ⟨fun k hk => by rw [common_unique hk (hcc.2.1 h2.1)], fun hno => absurd ⟨_, hcc.2.1 h2.1⟩ hno⟩
          · rw [if_neg h2]
            exact ⟨fun k hk => absurd ⟨k, hk⟩ (hcc.2.2 (by omega) (by omega) (by omega)), fun _ => rfl⟩
    · rw [ih2 hc]
      exact ⟨fun k hk => absurd (common_tail hk (by simp)) hc, fun _ => rfl⟩

/-! ## The implementation -/

/-- A `constant_object` is constant. -/
def Arg.Lawful (a : Arg α) : Prop := ∀ c, a.const = some c → ∀ j, a.get j = c

theorem constants_eq : ∀ {args : List (Arg α)} {cs : List α}, constants args = some cs → (∀ a ∈ args, a.Lawful) → ∀ j,
    (args.map fun a => stretched a.extents a.get j) = cs
  | [], _, h, _, _ => by cases h; rfl
  | a :: as, cs, h, hl, j => by
    rw [constants] at h
    cases hc : a.const with
    | none => rw [hc] at h; cases h
    | some c =>
      cases hcs : constants as with
      | none => rw [hc, hcs] at h; cases h
      | some cs' =>
        rw [hc, hcs] at h
        cases h
        rw [List.map_cons, constants_eq hcs (fun a ha => hl a (List.mem_cons_of_mem _ ha)) j]
        congr 1
        exact hl a (List.mem_cons_self ..) c hc _

theorem zip_ones : ∀ (xs es j : List ℕ), Stretches xs es → (∀ e ∈ es, e = 1) → InBounds es j →
    List.zipWith (fun e i => if e = 1 then 0 else i) xs j = List.replicate xs.length 0
  | [], _, _, _, _, _ => by simp
  | _ :: _, [], _, h, _, _ => h.elim
  | x :: xs, e :: es, _, h, h1, .cons (a := i) (l₁ := j) hi hj => by
    rw [List.zipWith_cons_cons, zip_ones xs es j h.2 (fun e he => h1 e (List.mem_cons_of_mem _ he)) hj, List.length_cons, List.replicate_succ]
    have he := h1 e (List.mem_cons_self ..)
    rw [if_pos (by rcases h.1 with h2 | h2 <;> omega)]

theorem impl_spec {hook : Bool} {ds : List Dim} {op : Op α} {args : List (Arg α)} (hop : op.plain.isSome ∨ op.indexed.isSome)
    (hl : ∀ a ∈ args, a.Lawful) (hs : ∀ a ∈ args, Stretches a.extents (ds.map Dim.val))
    (hh : hook = true → op.indexed = none ∨ args = []) (h1 : op.indexed = none ∨ hook = true ∨ ∃ d ∈ ds, d ≠ .fixed 1) (init : List ℕ → α) :
    ∃ m, impl hook ds op args init = .ok m ∧
      ∀ j, InBounds (ds.map Dim.val) j → op.value (args.map fun a => stretched a.extents a.get j) j = some (m j) := by
  unfold impl
  cases hc : (if args.isEmpty || op.indexed.isSome then none else constants args) with
  | some cs =>
    have hcond : (args.isEmpty || op.indexed.isSome) = false := by
      cases h : (args.isEmpty || op.indexed.isSome) with
      | false => rfl
      | true => rw [h] at hc; cases hc
    rw [hcond] at hc
    have hi : op.indexed = none := by
      have := (Bool.or_eq_false_iff.1 hcond).2
      cases h : op.indexed with
      | none => rfl
      | some f => rw [h] at this; cases this
    cases hp : op.plain with
    | none => rw [hp, hi] at hop; simp at hop
    | some f =>
      refine ⟨fun _ => f cs, rfl, fun j _ => ?_⟩
      unfold Op.value
      rw [hi, hp, constants_eq hc hl j]
      rfl
  | none =>
    simp only []
    cases hk : (if hook then op.indexed else none) with
    | some f =>
      have hook' : hook = true := by cases hook with | true => rfl | false => cases hk
      rw [hook', if_pos rfl] at hk
      rcases hh hook' with h | h
      · rw [h] at hk; cases hk
      · subst h
        refine ⟨fun j => f [] j, rfl, fun j _ => ?_⟩
        unfold Op.value
        rw [hk]
        rfl
    | none =>
      simp only []
      by_cases hall : ds.all (· == .fixed 1) = true
      · rw [if_pos hall]
        have hones : ∀ d ∈ ds, d = .fixed 1 := fun d hd => by simpa using List.all_eq_true.1 hall d hd
        have hi : op.indexed = none := by
          rcases h1 with h | h | ⟨d, hd, hne⟩
          · exact h
          · rw [h, if_pos rfl] at hk; exact hk
          · exact absurd (hones d hd) hne
        cases hp : op.plain with
        | none => rw [hp, hi] at hop; simp at hop
        | some f =>
          refine ⟨_, rfl, fun j hj => ?_⟩
          unfold Op.value
          rw [hi, hp]
          show some (f _) = some (f _)
          congr 2
          refine List.map_congr_left fun a ha => ?_
          unfold stretched
          rw [zip_ones _ _ _ (hs a ha) ?_ hj]
          · unfold Arg.extents; rw [List.length_map]
          · intro e he
            obtain ⟨d, hd, rfl⟩ := List.mem_map.1 he
            rw [hones d hd]; rfl
      · rw [if_neg hall]
        exact iterate_spec hs hop init

/-! ## Operations without arguments -/

theorem chosen_not_mem : ∀ {indices ks : List ℕ} {k : ℕ}, k ∉ indices → chosen indices ks k = 0
  | [], _, _, _ => by simp [chosen]
  | _ :: _, [], _, _ => by simp [chosen]
  | i :: is, y :: ys, k, h => by
    have h1 : k ≠ i := fun e => h (e ▸ List.mem_cons_self ..)
    have h2 : k ∉ is := fun e => h (List.mem_cons_of_mem _ e)
    have := chosen_not_mem (ks := ys) h2
    unfold chosen at this ⊢
    rw [List.zipWith_cons_cons, List.sum_cons, this, if_neg h1]

theorem chosen_iff (g : ℕ → ℕ) : ∀ {indices ks : List ℕ}, indices.Nodup → ks.length = indices.length →
    ((∀ k ∈ indices, g k = chosen indices ks k) ↔ indices.map g = ks)
  | [], [], _, _ => by simp
  | i :: is, y :: ys, hn, hl => by
    have hi : i ∉ is := (List.nodup_cons.1 hn).1
    have ih := chosen_iff g (List.nodup_cons.1 hn).2 (Nat.succ.inj hl)
    have e1 : chosen (i :: is) (y :: ys) i = y := by
      have := chosen_not_mem (ks := ys) hi
      unfold chosen at this ⊢
      rw [List.zipWith_cons_cons, List.sum_cons, this, if_pos rfl, Nat.add_zero]
    have e2 : ∀ k ∈ is, chosen (i :: is) (y :: ys) k = chosen is ys k := by
      intro k hk
      have : k ≠ i := fun e => hi (e ▸ hk)
      unfold chosen
      rw [List.zipWith_cons_cons, List.sum_cons, if_neg this, Nat.zero_add]
    rw [List.map_cons, List.cons.injEq, ← ih]
    constructor
    · intro h
      exact ⟨by rw [h i (List.mem_cons_self ..), e1], fun k hk => by rw [h k (List.mem_cons_of_mem _ hk), e2 k hk]⟩
    · rintro ⟨h1, h2⟩ k hk
      rcases List.mem_cons.1 hk with rfl | hk
      · rw [h1, e1]
      · rw [h2 k hk, e2 k hk]

/-- The positions that `nullarySet` writes. -/
def Foot (indices ks : List ℕ) : (k : ℕ) → (es l : List ℕ) → Prop
  | _, [], [] => True
  | k, e :: es, i :: l => (if k ∈ indices then i = chosen indices ks k else i < e) ∧ Foot indices ks (k + 1) es l
  | _, _, _ => False

theorem foot_iff {indices ks : List ℕ} : ∀ {k : ℕ} {es l : List ℕ}, Foot indices ks k es l ↔ l.length = es.length ∧ ∀ t < es.length,
    (k + t ∈ indices → l.getD t 0 = chosen indices ks (k + t)) ∧ (k + t ∉ indices → l.getD t 0 < es.getD t 0)
  | _, [], [] => by simp [Foot]
  | _, [], _ :: _ => by simp [Foot]
  | _, _ :: _, [] => by simp [Foot]
  | k, e :: es, i :: l => by
    rw [Foot, foot_iff (k := k + 1)]
    constructor
    · rintro ⟨h1, h2, h3⟩
      refine ⟨by simp [h2], ?_⟩
      intro t ht
      cases t with
      | zero =>
        constructor
        · intro hk; rw [Nat.add_zero] at hk; rw [if_pos hk] at h1; exact h1
        · intro hk; rw [Nat.add_zero] at hk; rw [if_neg hk] at h1; exact h1
      | succ t =>
        have := h3 t (by simpa using ht)
        rw [show k + 1 + t = k + (t + 1) by omega] at this
        exact this
    · rintro ⟨h1, h2⟩
      refine ⟨?_, by simpa using h1, fun t ht => ?_⟩
      · have := h2 0 (by simp)
        split_ifs with hk
        · exact this.1 hk
        · exact this.2 hk
      · have := h2 (t + 1) (by simpa using ht)
        rw [show k + (t + 1) = k + 1 + t by omega] at this
        exact this

theorem inBounds_iff : ∀ {es l : List ℕ}, InBounds es l ↔ l.length = es.length ∧ ∀ t < es.length, l.getD t 0 < es.getD t 0
  | [], [] => ⟨fun _ => by simp, fun _ => .nil⟩
  | [], _ :: _ => ⟨fun h => (nomatch h), fun h => absurd h.1 (by simp)⟩
  | _ :: _, [] => ⟨fun h => (nomatch h), fun h => absurd h.1 (by simp)⟩
  | e :: es, i :: l => by
    constructor
    · intro h
      cases h with
      | cons h1 h2 =>
        obtain ⟨h3, h4⟩ := inBounds_iff.1 h2
        refine ⟨by simp [h3], fun t ht => ?_⟩
        cases t with
        | zero => exact h1
        | succ t => exact h4 t (by simpa using ht)
    · rintro ⟨h1, h2⟩
      exact .cons (h2 0 (by simp)) (inBounds_iff.2 ⟨by simpa using h1, fun t ht => h2 (t + 1) (by simpa using ht)⟩)

theorem foot_iff_map {es x indices ks : List ℕ} (hx : InBounds es x) (hn : indices.Nodup) (hl : ks.length = indices.length)
    (hi : ∀ i ∈ indices, i < es.length) : Foot indices ks 0 es x ↔ indices.map (fun i => x.getD i 0) = ks := by
  rw [← chosen_iff (fun i => x.getD i 0) hn hl, foot_iff]
  obtain ⟨h1, h2⟩ := inBounds_iff.1 hx
  constructor
  · rintro ⟨_, h3⟩ k hk
    have := (h3 k (hi k hk)).1
    rw [Nat.zero_add] at this
    exact this hk
  · intro h
    refine ⟨h1, fun t ht => ?_⟩
    rw [Nat.zero_add]
    exact ⟨fun hk => h t hk, fun _ => h2 t ht⟩

theorem setNullary_spec {op : Op α} (hop : op.plain.isSome ∨ op.indexed.isSome) (j : List ℕ) (m : List ℕ → α) :
    ∃ m', setNullary op j m = .ok m' ∧ ∀ x, (x = j → op.value [] x = some (m' x)) ∧ (x ≠ j → m' x = m x) := by
  unfold setNullary Op.value
  cases hi : op.indexed with
  | some f =>
    refine ⟨_, rfl, fun x => ⟨?_, fun h => if_neg h⟩⟩
    rintro rfl
    show some (f [] x) = some (if x = x then f [] x else m x)
    rw [if_pos rfl]
  | none =>
    cases hp : op.plain with
    | some f =>
      refine ⟨_, rfl, fun x => ⟨?_, fun h => if_neg h⟩⟩
      rintro rfl
      show some (f []) = some (if x = x then f [] else m x)
      rw [if_pos rfl]
    | none => rw [hi, hp] at hop; simp at hop

theorem nullarySet_spec {op : Op α} (hop : op.plain.isSome ∨ op.indexed.isSome) (indices ks : List ℕ) :
    ∀ (es : List ℕ) (k : ℕ) (is : List ℕ) (m : List ℕ → α), ∃ m', nullarySet op indices ks k es is m = .ok m' ∧
      ∀ x, ((∃ l, Foot indices ks k es l ∧ x = is ++ l) → op.value [] x = some (m' x)) ∧
        (¬ (∃ l, Foot indices ks k es l ∧ x = is ++ l) → m' x = m x)
  | [], k, is, m => by
    obtain ⟨m', h, r⟩ := setNullary_spec hop is m
    refine ⟨m', h, fun x => ⟨?_, ?_⟩⟩
    · rintro ⟨l, hl, rfl⟩
      cases l with
      | nil => rw [List.append_nil]; exact (r is).1 rfl
      | cons => exact hl.elim
    · intro hno
      refine (r x).2 fun e => hno ⟨[], trivial, by simpa using e⟩
  | e :: es, k, is, m => by
    rw [nullarySet]
    by_cases hk : k ∈ indices
    · rw [if_pos hk]
      obtain ⟨m', h, r⟩ := nullarySet_spec hop indices ks es (k + 1) (is ++ [chosen indices ks k]) m
      refine ⟨m', h, fun x => ⟨?_, ?_⟩⟩
      · rintro ⟨l, hl, rfl⟩
        cases l with
        | nil => exact hl.elim
        | cons i l =>
          have hi : i = chosen indices ks k := by have := hl.1; rwa [if_pos hk] at this
          exact (r _).1 ⟨l, hl.2, by rw [hi, List.append_assoc]; rfl⟩
      · intro hno
        refine (r x).2 ?_
        rintro ⟨l, hl, rfl⟩
        exact hno ⟨chosen indices ks k :: l, ⟨by rw [if_pos hk], hl⟩, by rw [List.append_assoc]; rfl⟩
    · rw [if_neg hk]
      have hv : ∀ x, ∃ v, op.value [] x = some v := by
        intro x
        obtain ⟨m', _, r⟩ := setNullary_spec hop x m
        exact ⟨_, (r x).1 rfl⟩
      choose v hv using hv
      obtain ⟨m', h, r⟩ := loop_spec (fun (m : List ℕ → α) x => m x) (fun _ => True)
        (fun i x => ∃ l, Foot indices ks (k + 1) es l ∧ x = (is ++ [i]) ++ l) (fun _ x _ => v x)
        (fun i m => nullarySet op indices ks (k + 1) es (is ++ [i]) m) (List.range e) List.nodup_range
        (by
          rintro i _ i' _ x ⟨l, _, rfl⟩ ⟨l', _, h'⟩
          simp only [List.append_assoc, List.append_cancel_left_eq, List.singleton_append, List.cons.injEq] at h'
          exact h'.1)
        (by
          intro i _ s
          obtain ⟨m', h, r⟩ := nullarySet_spec hop indices ks es (k + 1) (is ++ [i]) s
          refine ⟨m', h, fun x _ => ⟨fun hf => ?_, (r x).2⟩⟩
          have := (r x).1 hf
          rw [hv] at this
          exact (Option.some.inj this).symm) m
      refine ⟨m', h, fun x => ⟨?_, ?_⟩⟩
      · rintro ⟨l, hl, rfl⟩
        cases l with
        | nil => exact hl.elim
        | cons i l =>
          have hi : i < e := by have := hl.1; rwa [if_neg hk] at this
          rw [hv, (r _ trivial).1 i (List.mem_range.2 hi) ⟨l, hl.2, by rw [List.append_assoc]; rfl⟩]
      · intro hno
        refine (r x trivial).2 ?_
        rintro i hi ⟨l, hl, rfl⟩
        exact hno ⟨i :: l, ⟨by rw [if_neg hk]; exact List.mem_range.1 hi, hl⟩, by rw [List.append_assoc]; rfl⟩

theorem rowMajor_lt : ∀ {es j : List ℕ}, InBounds es j → rowMajor es j < es.prod
  | [], _, .nil => by simp [rowMajor]
  | e :: es, _, .cons (a := i) (l₁ := j) hi hj => by
    have := rowMajor_lt hj
    rw [rowMajor, List.prod_cons]
    calc i * es.prod + rowMajor es j < i * es.prod + es.prod := by omega
      _ = (i + 1) * es.prod := by ring
      _ ≤ e * es.prod := Nat.mul_le_mul_right _ hi

theorem inBounds_at {es x : List ℕ} (hx : InBounds es x) : ∀ {is : List ℕ}, (∀ i ∈ is, i < es.length) → InBounds (dimsAt es is) (posAt x is)
  | [], _ => .nil
  | i :: is, h => by
    refine .cons ?_ (inBounds_at hx fun i hi => h i (List.mem_cons_of_mem _ hi))
    have hi := h i (List.mem_cons_self ..)
    have := (inBounds_iff.1 hx).2 i hi
    show x.getD i 0 < es.getD i 1
    rw [List.getD_eq_getElem?_getD (l := es), List.getElem?_eq_getElem hi] at this ⊢
    exact this

theorem nullaryIterate_spec {ops : List (Op α)} {es indices : List ℕ} (hops : ∀ op ∈ ops, op.plain.isSome ∨ op.indexed.isSome)
    (hn : indices.Nodup) (hi : ∀ i ∈ indices, i < es.length) :
    ∀ (todo done : List ℕ) (cur : ℕ) (ks : List ℕ), indices = done ++ todo → ks.length = done.length →
      cur + (dimsAt es todo).prod ≤ ops.length → (∀ e ∈ dimsAt es todo, 0 < e) → ∀ m,
      ∃ m', nullaryIterate ops es indices todo cur (dimsAt es todo).prod ks m = .ok m' ∧ ∀ x, InBounds es x →
        (posAt x done = ks → ∃ op, ops[cur + rowMajor (dimsAt es todo) (posAt x todo)]? = some op ∧ op.value [] x = some (m' x)) ∧
        (posAt x done ≠ ks → m' x = m x)
  | [], done, cur, ks, hd, hk, hc, _, m => by
    rw [List.append_nil] at hd
    subst hd
    have hlt : cur < ops.length := by
      have : (dimsAt es []).prod = 1 := rfl
      omega
    obtain ⟨m', h, r⟩ := nullarySet_spec (hops _ (List.getElem_mem hlt)) indices ks es 0 [] m
    refine ⟨m', by rw [nullaryIterate, List.getElem?_eq_getElem hlt]; exact h, fun x hx => ⟨?_, ?_⟩⟩
    · intro he
      refine ⟨ops[cur], by simp [dimsAt, posAt, rowMajor, hlt], (r x).1 ⟨x, (foot_iff_map hx hn hk hi).2 he, rfl⟩⟩
    · intro he
      refine (r x).2 ?_
      rintro ⟨l, hl, e⟩
      rw [List.nil_append] at e
      subst e
      exact he ((foot_iff_map hx hn hk hi).1 hl)
  | i :: todo, done, cur, ks, hd, hk, hc, hpos, m => by
    have hdims : dimsAt es (i :: todo) = es.getD i 1 :: dimsAt es todo := rfl
    have hn0 : 0 < es.getD i 1 := hpos _ (by rw [hdims]; exact List.mem_cons_self ..)
    have hfac : (dimsAt es (i :: todo)).prod / es.getD i 1 = (dimsAt es todo).prod := by
      rw [hdims, List.prod_cons, Nat.mul_div_cancel_left _ hn0]
    rw [nullaryIterate, hfac]
    -- The value at each position.
    have hidx : ∀ x, InBounds es x → rowMajor (dimsAt es (i :: todo)) (posAt x (i :: todo))
        = x.getD i 0 * (dimsAt es todo).prod + rowMajor (dimsAt es todo) (posAt x todo) := fun x _ => rfl
    have hib : ∀ x, InBounds es x → x.getD i 0 < es.getD i 1 := by
      intro x hx
      have := inBounds_at hx (is := [i]) (by
        intro a ha; rw [List.mem_singleton] at ha; subst ha
        exact hi a (by rw [hd]; simp))
      cases this with
      | cons h _ => exact h
    obtain ⟨v, hv⟩ : ∃ v : List ℕ → α, ∀ x, InBounds es x → posAt x done = ks →
        ∃ op, ops[cur + rowMajor (dimsAt es (i :: todo)) (posAt x (i :: todo))]? = some op ∧ op.value [] x = some (v x) := by
      have : ∀ x, ∃ v, InBounds es x → posAt x done = ks →
          ∃ op, ops[cur + rowMajor (dimsAt es (i :: todo)) (posAt x (i :: todo))]? = some op ∧ op.value [] x = some v := by
        intro x
        by_cases hx : InBounds es x
        · have hlt : cur + rowMajor (dimsAt es (i :: todo)) (posAt x (i :: todo)) < ops.length := by
            have := rowMajor_lt (inBounds_at hx (is := i :: todo) fun a ha => hi a (by rw [hd]; exact List.mem_append_right _ ha))
            omega
          obtain ⟨m', _, r⟩ := setNullary_spec (hops _ (List.getElem_mem hlt)) x m
          exact ⟨m' x, fun _ _ => ⟨_, List.getElem?_eq_getElem hlt, (r x).1 rfl⟩⟩
        · exact ⟨m x, fun h => absurd h hx⟩
      choose v hv using this
      exact ⟨v, hv⟩
    have hpos' : ∀ (x : List ℕ) (a : ℕ), posAt x (done ++ [i]) = ks ++ [a] ↔ posAt x done = ks ∧ x.getD i 0 = a := by
      intro x a
      unfold posAt
      rw [List.map_append, List.map_singleton]
      constructor
      · intro h
        have := List.append_inj h (by rw [List.length_map, hk])
        exact ⟨this.1, by simpa using this.2⟩
      · rintro ⟨h1, h2⟩
        rw [h1, h2]
    obtain ⟨m', h, r⟩ := loop_spec (fun (m : List ℕ → α) x => m x) (InBounds es)
      (fun a x => posAt x done = ks ∧ x.getD i 0 = a) (fun _ x _ => v x)
      (fun a m => nullaryIterate ops es indices todo (cur + (dimsAt es todo).prod * a) (dimsAt es todo).prod (ks ++ [a]) m)
      (List.range (es.getD i 1)) List.nodup_range
      (by rintro a _ b _ x ⟨_, h1⟩ ⟨_, h2⟩; omega)
      (by
        intro a ha s
        have ha' := List.mem_range.1 ha
        obtain ⟨m', h, r⟩ := nullaryIterate_spec hops hn hi todo (done ++ [i]) (cur + (dimsAt es todo).prod * a) (ks ++ [a])
          (by rw [hd, List.append_assoc]; rfl) (by simp [hk])
          (by
            have h1 : (dimsAt es todo).prod * a + (dimsAt es todo).prod ≤ (dimsAt es (i :: todo)).prod := by
              rw [hdims, List.prod_cons]
              calc (dimsAt es todo).prod * a + (dimsAt es todo).prod = (a + 1) * (dimsAt es todo).prod := by ring
                _ ≤ _ := Nat.mul_le_mul_right _ ha'
            omega)
          (fun e he => hpos e (by rw [hdims]; exact List.mem_cons_of_mem _ he)) s
        refine ⟨m', h, fun x hx => ⟨?_, ?_⟩⟩
        · rintro ⟨h1, h2⟩
          obtain ⟨op, ho, hval⟩ := (r x hx).1 ((hpos' x a).2 ⟨h1, h2⟩)
          obtain ⟨op', ho', hval'⟩ := hv x hx h1
          have e : cur + rowMajor (dimsAt es (i :: todo)) (posAt x (i :: todo))
              = cur + (dimsAt es todo).prod * a + rowMajor (dimsAt es todo) (posAt x todo) := by
            rw [hidx x hx, h2]; ring
          rw [e, ho] at ho'
          cases ho'
          rw [hval] at hval'
          exact Option.some.inj hval'
        · intro hno
          exact (r x hx).2 fun e => hno ((hpos' x a).1 e)) m
    refine ⟨m', h, fun x hx => ⟨?_, ?_⟩⟩
    · intro he
      obtain ⟨op, ho, hval⟩ := hv x hx he
      refine ⟨op, ho, ?_⟩
      rw [hval, (r x hx).1 (x.getD i 0) (List.mem_range.2 (hib x hx)) ⟨he, rfl⟩]
    · intro hne
      exact (r x hx).2 fun a _ hf => hne hf.1

theorem plainValues_eq : ∀ {ops : List (Op α)}, (∀ op ∈ ops, op.plain.isSome) → ∃ vs, plainValues ops = .ok vs ∧ vs.length = ops.length ∧
    ∀ (k : ℕ) (op : Op α), ops[k]? = some op → vs[k]? = op.plain.map fun f => f []
  | [], _ => ⟨[], rfl, rfl, fun k op h => by simp at h⟩
  | op :: ops, h => by
    obtain ⟨vs, h1, h2, h3⟩ := plainValues_eq fun o ho => h o (List.mem_cons_of_mem _ ho)
    obtain ⟨f, hf⟩ := Option.isSome_iff_exists.1 (h op (List.mem_cons_self ..))
    refine ⟨f [] :: vs, by rw [plainValues, hf]; simp only []; rw [h1]; rfl, by simp [h2], fun k o ho => ?_⟩
    cases k with
    | zero => simp only [List.getElem?_cons_zero, Option.some.injEq] at ho; subst ho; rw [hf]; rfl
    | succ k => exact h3 k o ho

theorem at_range : ∀ (es x : List ℕ), x.length = es.length → dimsAt es (List.range es.length) = es ∧ posAt x (List.range es.length) = x := by
  intro es x hl
  constructor
  · refine List.ext_getElem (by simp [dimsAt]) fun k h1 h2 => ?_
    simp [dimsAt, h2]
  · refine List.ext_getElem (by simp [posAt, hl]) fun k h1 h2 => ?_
    simp [posAt, h2]

end OpenKalman.NAry
