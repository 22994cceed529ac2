import Verif.Proof.NAry

/-! # C88: extents of component-wise operations.  C89: their elements.  C90: operations without arguments.  C91: operations in place. -/

namespace OpenKalman.NAry

variable {α : Type}

/-! ## C88 -/

/-- For arguments with positive extents along an index, the extent of the result is the one to which all can be stretched, and if there is none the call
throws.  Missing: types that fix an extent other than 1 where a later argument fixes another one, and extents of 0; see `C88_fixed_violated` and
`C88_zero_violated`. -/
theorem C88_extents_partial (ds : List Dim) (hne : ds ≠ []) (hp : ∀ d ∈ ds, 0 < d.val)
    (hu : ds.Pairwise fun a b => ∀ x y, a = .fixed x → b = .fixed y → x = 1 ∨ x = y) :
    (∀ n, Common (ds.map Dim.val) n → ∃ d, findMaxDim ds = .ok d ∧ d.val = n) ∧
    ((¬ ∃ n, Common (ds.map Dim.val) n) → findMaxDim ds = .throws) := by
  obtain ⟨h1, h2⟩ := findMaxDim_spec ds hne hp hu
  exact ⟨fun n hn => by obtain ⟨d, h, e, _⟩ := h1 n hn; exact ⟨d, h, e⟩, h2⟩

example : findMaxDim [.fixed 1, .dyn 1, .fixed 3] = .ok (.fixed 3) := rfl

/-- For extents known only at run time, this includes extents of 0. -/
theorem C88_runtime (es : List ℕ) (hne : es ≠ []) :
    (∀ n, Common es n → findMaxDim (es.map .dyn) = .ok (.dyn n)) ∧ ((¬ ∃ n, Common es n) → findMaxDim (es.map .dyn) = .throws) :=
  findMaxDim_dyn es hne

example : findMaxDim ([1, 3, 1].map .dyn) = .ok (.dyn 3) ∧ findMaxDim ([2, 3].map .dyn) = .throws ∧ findMaxDim ([0, 1].map .dyn) = .throws :=
  ⟨rfl, rfl, rfl⟩

theorem stretches_iff : ∀ {xs es : List ℕ}, Stretches xs es ↔ xs.length ≤ es.length ∧ ∀ k < xs.length, xs.getD k 1 = 1 ∨ xs.getD k 1 = es.getD k 1
  | [], _ => by simp [Stretches]
  | _ :: _, [] => by simp [Stretches]
  | x :: xs, e :: es => by
    rw [Stretches, stretches_iff]
    constructor
    · rintro ⟨h1, h2, h3⟩
      refine ⟨by simpa using h2, fun k hk => ?_⟩
      cases k with
      | zero => exact h1
      | succ k => exact h3 k (by simpa using hk)
    · rintro ⟨h1, h2⟩
      exact ⟨h2 0 (by simp), by simpa using h1, fun k hk => h2 (k + 1) (by simpa using hk)⟩

theorem maxRank_eq {args : List (Arg α)} {n : ℕ} (h1 : ∀ a ∈ args, a.dims.length ≤ n) (h2 : ∃ a ∈ args, a.dims.length = n) : maxRank args = n := by
  have up : ∀ (l : List (Arg α)), (∀ a ∈ l, a.dims.length ≤ n) → maxRank l ≤ n := by
    intro l
    induction l with
    | nil => intro _; exact Nat.zero_le _
    | cons a l ih =>
      intro h
      exact max_le (h a (List.mem_cons_self ..)) (ih fun b hb => h b (List.mem_cons_of_mem _ hb))
  have lo : ∀ (l : List (Arg α)) (a : Arg α), a ∈ l → a.dims.length ≤ maxRank l := by
    intro l
    induction l with
    | nil => intro a h; cases h
    | cons b l ih =>
      intro a h
      rcases List.mem_cons.1 h with rfl | h
      · exact le_max_left _ _
      · exact le_trans (ih a h) (le_max_right _ _)
  obtain ⟨a, ha, e⟩ := h2
  exact le_antisymm (up args h1) (e ▸ lo args a ha)

theorem dim_val (a : Arg α) (k : ℕ) : (a.dim k).val = a.extents.getD k 1 := by
  unfold Arg.dim Arg.extents
  rw [List.getD_eq_getElem?_getD, List.getD_eq_getElem?_getD, List.getElem?_map]
  cases a.dims[k]? <;> rfl

/-- The extents of the result are those to which all arguments can be stretched, and each element is the operation on the elements of the stretched
arguments.  Missing: as in `C88_extents_partial`; operations that take indices if the library has a hook, or if all extents of the result are 1, see
`C89_hook_violated` and `C89_one_by_one_violated`. -/
theorem C88_result_partial (hook : Bool) (op : Op α) (args : List (Arg α)) (init : List ℕ → α) (es : List ℕ)
    (hop : op.plain.isSome ∨ op.indexed.isSome) (hl : ∀ a ∈ args, a.Lawful)
    (hr : ∀ a ∈ args, a.dims.length ≤ es.length) (hr' : ∃ a ∈ args, a.dims.length = es.length)
    (hc : ∀ k < es.length, Common (args.map fun a => a.extents.getD k 1) (es.getD k 1))
    (hu : ∀ k < es.length, (args.map fun a => a.dim k).Pairwise fun a b => ∀ x y, a = .fixed x → b = .fixed y → x = 1 ∨ x = y)
    (hh : hook = true → op.indexed = none) (h1 : op.indexed = none ∨ ∃ e ∈ es, e ≠ 1) :
    ∃ ds m, withoutPatterns hook op args init = .ok (ds, m) ∧ ds.map Dim.val = es ∧
      ∀ j, InBounds es j → op.value (args.map fun a => stretched a.extents a.get j) j = some (m j) := by
  have hne : args ≠ [] := by
    rintro rfl
    obtain ⟨a, ha, _⟩ := hr'
    cases ha
  have hdim : ∀ k < es.length, ∃ d, findMaxDim (args.map fun a => a.dim k) = .ok d ∧ d.val = es.getD k 1 := by
    intro k hk
    have e : (args.map fun a => a.dim k).map Dim.val = args.map fun a => a.extents.getD k 1 := by
      rw [List.map_map]
      exact List.map_congr_left fun a _ => dim_val a k
    refine (C88_extents_partial _ (by simpa using hne) ?_ (hu k hk)).1 _ (by rw [e]; exact hc k hk)
    intro d hd
    refine (hc k hk).2.1 d.val ?_
    rw [← e]
    exact List.mem_map_of_mem hd
  have hdim' : ∀ k, ∃ d, k < es.length → findMaxDim (args.map fun a => a.dim k) = .ok d ∧ d.val = es.getD k 1 := by
    intro k
    by_cases hk : k < es.length
    · obtain ⟨d, hd⟩ := hdim k hk; exact ⟨d, fun _ => hd⟩
    · exact ⟨.fixed 0, fun h => absurd h hk⟩
  choose D hD using hdim'
  have hds : findMaxDims (maxRank args) args = .ok ((List.range es.length).map D) := by
    rw [maxRank_eq hr hr', findMaxDims]
    exact Res.all_map_ok _ _ _ fun k hk => (hD k (List.mem_range.1 hk)).1
  have hval : ((List.range es.length).map D).map Dim.val = es := by
    refine List.ext_getElem (by simp) fun k hk1 hk2 => ?_
    simp only [List.getElem_map, List.getElem_range]
    rw [(hD k hk2).2, List.getD_eq_getElem?_getD, List.getElem?_eq_getElem hk2]
    rfl
  obtain ⟨m, hm, hv⟩ := impl_spec (hook := hook) (ds := (List.range es.length).map D) hop hl
    (by
      intro a ha
      rw [hval, stretches_iff]
      refine ⟨by unfold Arg.extents; rw [List.length_map]; exact hr a ha, fun k hk => ?_⟩
      have hk' : k < es.length := lt_of_lt_of_le (by unfold Arg.extents at hk; rwa [List.length_map] at hk) (hr a ha)
      exact (hc k hk').2.2 _ (List.mem_map.2 ⟨a, ha, rfl⟩))
    (fun h => .inl (hh h))
    (by
      rcases h1 with h | ⟨e, he, hne⟩
      · exact .inl h
      · rw [← hval] at he
        obtain ⟨d, hd, rfl⟩ := List.mem_map.1 he
        exact .inr (.inr ⟨d, hd, fun e => hne (by rw [e]; rfl)⟩)) init
  refine ⟨(List.range es.length).map D, m, ?_, hval, by rw [hval] at hv; exact hv⟩
  unfold withoutPatterns
  rw [if_neg, hds]
  · show (impl hook _ op args init).bind _ = _
    rw [hm]
    rfl
  · intro h
    rcases Bool.or_eq_true_iff.1 h with h | h
    · exact hne (by simpa using h)
    · rw [Bool.and_eq_true] at h
      rcases hop with h' | h'
      · rw [Option.isNone_iff_eq_none] at h; rw [h.1] at h'; cases h'
      · rw [Option.isNone_iff_eq_none, Option.isNone_iff_eq_none] at h; rw [h.2] at h'; cases h'

/-- Addition of two elements. -/
private def plus : Op ℤ := ⟨some fun vs => vs.sum, none⟩
/-- A 3-by-1 and a 3-by-2 matrix with the row number, and the row number times the column number. -/
private def col : Arg ℤ := ⟨[.dyn 3, .dyn 1], fun j => (j.getD 0 0 : ℤ), none⟩
private def mat : Arg ℤ := ⟨[.dyn 3, .dyn 2], fun j => (10 * j.getD 0 0 + j.getD 1 0 : ℤ), none⟩

example : ∃ ds m, withoutPatterns false plus [col, mat] (fun _ => 0) = .ok (ds, m) ∧ ds.map Dim.val = [3, 2] ∧ m [2, 1] = 23 ∧ m [1, 0] = 11 :=
  ⟨_, _, rfl, rfl, rfl, rfl⟩

/-- Wrong: if the types fix the extents, 3 and 1 are refused although the second can be stretched, and 3 and 2 are accepted although they cannot be
matched; the result then has 3 rows, the third of which takes the first element of the smaller argument. -/
theorem C88_fixed_violated :
    (Common [3, 1] 3 ∧ findMaxDim [.fixed 3, .fixed 1] = .refused) ∧
    ((¬ ∃ n, Common [3, 2] n) ∧ findMaxDim [.fixed 3, .fixed 2] = .ok (.fixed 3)) ∧
    ∃ m, withoutPatterns false plus [⟨[.fixed 3], fun j => (j.getD 0 0 : ℤ), none⟩, ⟨[.fixed 2], fun j => (10 * (j.getD 0 0 : ℤ) + 10), none⟩] (fun _ => 0)
      = .ok ([.fixed 3], m) ∧ m [2] = 12 := by
  refine ⟨⟨⟨by simp, by simp, by simp⟩, rfl⟩, ⟨?_, rfl⟩, _, rfl, rfl⟩
  rintro ⟨n, _, _, h⟩
  have h1 := h 3 (by simp)
  have h2 := h 2 (by simp)
  omega

/-- Wrong: an extent of 0 is accepted before an extent of 1, if one of the two is fixed and the other is not. -/
theorem C88_zero_violated :
    (¬ ∃ n, Common [0, 1] n) ∧ findMaxDim [.fixed 0, .dyn 1] = .ok (.fixed 0) ∧ findMaxDim [.dyn 0, .fixed 1] = .ok (.dyn 0) :=
  ⟨not_common_zero (by simp), rfl, rfl⟩

/-! ## C89 -/

/-- With given patterns, each element is the operation on the elements of the stretched arguments, with the indices if the operation takes them.
Missing: operations that take indices if the library has a hook, or if the types say that all extents are 1; see `C89_hook_violated` and
`C89_one_by_one_violated`. -/
theorem C89_elements_partial (hook : Bool) (ds : List Dim) (op : Op α) (args : List (Arg α)) (init : List ℕ → α) (hne : args ≠ [])
    (hop : op.plain.isSome ∨ op.indexed.isSome) (hl : ∀ a ∈ args, a.Lawful) (hz : ∀ d ∈ ds, d ≠ .fixed 0)
    (hs : ∀ a ∈ args, Stretches a.extents (ds.map Dim.val)) (hh : hook = true → op.indexed = none)
    (h1 : op.indexed = none ∨ ∃ d ∈ ds, d ≠ .fixed 1) :
    ∃ m, withPatterns hook ds op args init = .ok m ∧
      ∀ j, InBounds (ds.map Dim.val) j → op.value (args.map fun a => stretched a.extents a.get j) j = some (m j) := by
  obtain ⟨m, hm, hv⟩ := impl_spec hop hl hs (fun h => .inl (hh h)) (by rcases h1 with h | h; exacts [.inl h, .inr (.inr h)]) init
  refine ⟨m, ?_, hv⟩
  have hcheck : ∀ k < ds.length, ∀ a ∈ args, checkDim (ds.getD k (.fixed 1)) (a.dim k) = .ok () := by
    intro k hk a ha
    have hx : (a.dim k).val = 1 ∨ (a.dim k).val = (ds.getD k (.fixed 1)).val := by
      by_cases hka : k < a.extents.length
      · have := (stretches_iff.1 (hs a ha)).2 k hka
        rw [dim_val]
        have e : (ds.getD k (.fixed 1)).val = (ds.map Dim.val).getD k 1 := by
          rw [List.getD_eq_getElem?_getD, List.getD_eq_getElem?_getD, List.getElem?_map]
          cases ds[k]? <;> rfl
        rw [e]
        exact this
      · left
        rw [dim_val, List.getD_eq_getElem?_getD, List.getElem?_eq_none (by omega)]
        rfl
    generalize a.dim k = x at hx
    generalize ds.getD k (.fixed 1) = d at hx
    cases x with
    | fixed n =>
      cases d with
      | fixed m => exact if_pos (by simp only [Dim.val] at hx; omega)
      | dyn m => exact if_neg (by simp only [Dim.val] at *; omega)
    | dyn n =>
      cases d with
      | fixed m => exact if_neg (by simp only [Dim.val] at *; omega)
      | dyn m => exact if_neg (by simp only [Dim.val] at *; omega)
  have hchecks : checks ds args = .ok () := by
    have hall : ∀ c ∈ (List.range ds.length).flatMap fun k => args.map fun a => checkDim (ds.getD k (.fixed 1)) (a.dim k), c = .ok () := by
      intro c hc
      obtain ⟨k, hk, hc⟩ := List.mem_flatMap.1 hc
      obtain ⟨a, ha, rfl⟩ := List.mem_map.1 hc
      exact hcheck k (List.mem_range.1 hk) a ha
    unfold checks
    simp only []
    rw [if_neg, if_neg]
    · intro h
      obtain ⟨c, hc, h⟩ := List.any_eq_true.1 h
      rw [hall c hc] at h
      cases h
    · intro h
      obtain ⟨c, hc, h⟩ := List.any_eq_true.1 h
      rw [hall c hc] at h
      cases h
  unfold withPatterns
  rw [if_neg, hchecks]
  · exact hm
  · intro h
    rcases Bool.or_eq_true_iff.1 h with h | h
    · rcases Bool.or_eq_true_iff.1 h with h | h
      · exact hne (by simpa using h)
      · obtain ⟨d, hd, h⟩ := List.any_eq_true.1 h
        exact hz d hd (by simpa using h)
    · rw [Bool.and_eq_true, Option.isNone_iff_eq_none, Option.isNone_iff_eq_none] at h
      rcases hop with h' | h'
      · rw [h.1] at h'; cases h'
      · rw [h.2] at h'; cases h'

example : ∃ m, withPatterns true [.fixed 3, .dyn 2] plus [col, mat] (fun _ => 0) = .ok m ∧ m [2, 1] = 23 ∧ m [1, 0] = 11 := ⟨_, rfl, rfl, rfl⟩

example : ∃ m, withPatterns false [.fixed 3, .dyn 2] ⟨none, some fun vs j => vs.sum + (j.sum : ℤ)⟩ [col, mat] (fun _ => 0) = .ok m ∧ m [2, 1] = 26 :=
  ⟨_, rfl, rfl⟩

/-- An argument that cannot be stretched to the patterns is refused. -/
theorem C89_refused (hook : Bool) (ds : List Dim) (op : Op α) (args : List (Arg α)) (init : List ℕ → α) (a : Arg α) (ha : a ∈ args) (k : ℕ) (d : Dim)
    (hk : ds[k]? = some d) (h1 : a.extents.getD k 1 ≠ 1) (h2 : a.extents.getD k 1 ≠ d.val) :
    withPatterns hook ds op args init = .refused ∨ withPatterns hook ds op args init = .throws := by
  have hk' : k < ds.length := (List.getElem?_eq_some_iff.1 hk).1
  have hc : checkDim d (a.dim k) = .refused ∨ checkDim d (a.dim k) = .throws := by
    rw [← dim_val] at h1 h2
    generalize a.dim k = x at h1 h2
    cases x with
    | fixed n =>
      cases d with
      | fixed m => exact .inl (if_neg (by simp only [Dim.val] at *; omega))
      | dyn m => exact .inr (if_pos ⟨h2, h1⟩)
    | dyn n =>
      cases d with
      | fixed m => exact .inr (if_pos ⟨h2, h1⟩)
      | dyn m => exact .inr (if_pos ⟨h2, h1⟩)
  have hmem : checkDim d (a.dim k) ∈ (List.range ds.length).flatMap fun k => args.map fun a => checkDim (ds.getD k (.fixed 1)) (a.dim k) := by
    refine List.mem_flatMap.2 ⟨k, List.mem_range.2 hk', List.mem_map.2 ⟨a, ha, ?_⟩⟩
    rw [List.getD_eq_getElem?_getD, hk]
    rfl
  have hchecks : checks ds args = .refused ∨ checks ds args = .throws := by
    unfold checks
    simp only []
    split_ifs with h3 h4
    · exact .inl rfl
    · exact .inr rfl
    · exfalso
      rcases hc with hc | hc
      · exact h3 (List.any_eq_true.2 ⟨_, hmem, by rw [hc]⟩)
      · exact h4 (List.any_eq_true.2 ⟨_, hmem, by rw [hc]⟩)
  unfold withPatterns
  split_ifs
  · exact .inl rfl
  · rcases hchecks with h | h
    · rw [h]; exact .inl rfl
    · rw [h]; exact .inr rfl

example : withPatterns false [.dyn 2, .dyn 2] plus [col, mat] (fun _ => 0) = .throws := rfl

/-- Wrong: if the operation takes indices and the library has a hook, the program does not compile, because `replicate_arg` does not return the
stretched argument. -/
theorem C89_hook_violated (ds : List Dim) (op : Op α) (hop : op.indexed.isSome) (args : List (Arg α)) (hne : args ≠ []) (init : List ℕ → α) :
    impl true ds op args init = .refused := by
  obtain ⟨f, hf⟩ := Option.isSome_iff_exists.1 hop
  have hn : args.isEmpty = false := by
    cases args with
    | nil => exact absurd rfl hne
    | cons => rfl
  unfold impl
  rw [hf, hn]
  rfl

example : impl true [.fixed 3, .dyn 2] ⟨none, some fun vs j => vs.sum + (j.sum : ℤ)⟩ [col, mat] (fun _ => 0) = .refused :=
  C89_hook_violated _ _ rfl _ (by simp) _

/-- Wrong: if the types say that all extents are 1, an operation that takes indices is called without them, which does not compile. -/
theorem C89_one_by_one_violated :
    withPatterns (α := ℤ) false [.fixed 1, .fixed 1] ⟨none, some fun vs j => vs.sum + j.sum⟩ [⟨[.fixed 1, .fixed 1], fun _ => 5, none⟩] (fun _ => 0) = .refused :=
  rfl

/-! ## C90 -/

/-- With one operation for each position along some of the indices, numbered in row-major order of those indices, each element comes from the operation
of its position.  Missing: one operation for each element, none of which takes indices, unless the layout is row-major and the indices are in order, see
`C90_layout_violated`; a single operation that takes indices for a single element, see `C90_single_violated`. -/
theorem C90_nullary_partial (hook : Bool) (l : Layout) (ds : List Dim) (indices : List ℕ) (ops : List (Op α)) (init : List ℕ → α)
    (hops : ∀ op ∈ ops, op.plain.isSome ∨ op.indexed.isSome) (hn : indices.Nodup) (hi : ∀ i ∈ indices, ∃ n, ds[i]? = some (.fixed n) ∧ 0 < n)
    (hlen : ops.length = (dimsAt (ds.map Dim.val) indices).prod)
    (hb : (∃ op ∈ ops, op.indexed.isSome) ∨ (∃ n, .dyn n ∈ ds) ∨ ops.length ≠ (ds.map Dim.val).prod ∨ (l = .right ∧ indices = List.range ds.length))
    (h1 : ops.length = 1 → (∀ op ∈ ops, op.indexed = none) ∨ ∃ d ∈ ds, d ≠ .fixed 1) :
    ∃ m, nullary hook l ds indices ops init = .ok m ∧ ∀ j, InBounds (ds.map Dim.val) j →
      ∃ op, ops[rowMajor (dimsAt (ds.map Dim.val) indices) (posAt j indices)]? = some op ∧ op.value [] j = some (m j) := by
  have hi' : ∀ i ∈ indices, i < (ds.map Dim.val).length := by
    intro i h
    obtain ⟨n, hn, _⟩ := hi i h
    rw [List.length_map]
    exact (List.getElem?_eq_some_iff.1 hn).1
  have hpos : ∀ e ∈ dimsAt (ds.map Dim.val) indices, 0 < e := by
    intro e he
    obtain ⟨i, h, rfl⟩ := List.mem_map.1 he
    obtain ⟨n, hn, h0⟩ := hi i h
    show 0 < (ds.map Dim.val).getD i 1
    rw [List.getD_eq_getElem?_getD, List.getElem?_map, hn]
    exact h0
  have hcond : ((indices.any fun i => !fixedAt ds i) ||
      ops.length != (indices.map fun i => (ds.map Dim.val).getD i 1).prod || (ops.any fun op => op.plain.isNone && op.indexed.isNone)) = false := by
    rw [Bool.or_eq_false_iff, Bool.or_eq_false_iff]
    refine ⟨⟨?_, ?_⟩, ?_⟩
    · rw [List.any_eq_false]
      intro i h
      obtain ⟨n, hn, _⟩ := hi i h
      unfold fixedAt
      rw [hn]
      exact Bool.false_ne_true
    · show (ops.length != (dimsAt (ds.map Dim.val) indices).prod) = false
      rw [hlen, bne_self_eq_false]
    · rw [List.any_eq_false]
      intro op h
      rcases hops op h with h | h
      · rw [Option.isSome_iff_exists] at h; obtain ⟨f, h⟩ := h; rw [h]; exact Bool.false_ne_true
      · rw [Option.isSome_iff_exists] at h; obtain ⟨f, h⟩ := h; rw [h, Option.isNone_some, Bool.and_false]; exact Bool.false_ne_true
  unfold nullary
  simp only []
  rw [hcond, if_neg Bool.false_ne_true]
  split
  · -- One operation.
    rename_i op
    obtain ⟨m, hm, hv⟩ := impl_spec (hook := hook) (ds := ds) (op := op) (args := []) (hops op (by simp)) (by simp) (by simp) (fun _ => .inr rfl)
      (by
        rcases h1 rfl with h | h
        · exact .inl (h op (by simp))
        · exact .inr (.inr h)) init
    refine ⟨m, hm, fun j hj => ⟨op, ?_, hv j hj⟩⟩
    have := rowMajor_lt (inBounds_at hj hi')
    rw [← hlen] at this
    rw [show rowMajor (dimsAt (ds.map Dim.val) indices) (posAt j indices) = 0 by simpa using this]
    rfl
  · split_ifs with hd
    · -- One for each element.
      rw [Bool.and_eq_true, Bool.and_eq_true] at hd
      obtain ⟨⟨hd1, hd2⟩, hd3⟩ := hd
      have hfix : ∀ n, .dyn n ∉ ds := by
        intro n h
        have := List.all_eq_true.1 hd1 _ h
        cases this
      have hplain : ∀ op ∈ ops, op.indexed = none := fun op h => by
        have := List.all_eq_true.1 hd3 op h
        rwa [Option.isNone_iff_eq_none] at this
      obtain ⟨rfl, hr⟩ : l = .right ∧ indices = List.range ds.length := by
        rcases hb with ⟨op, h, h'⟩ | ⟨n, h⟩ | h | h
        · rw [hplain op h] at h'; cases h'
        · exact absurd h (hfix n)
        · exact absurd (by simpa using hd2) h
        · exact h
      have hps : ∀ op ∈ ops, op.plain.isSome := fun op h => by
        rcases hops op h with h' | h'
        · exact h'
        · rw [hplain op h] at h'; cases h'
      obtain ⟨vs, hvs, hvl, hvk⟩ := plainValues_eq hps
      rw [hvs]
      refine ⟨_, rfl, fun j hj => ?_⟩
      have hlt := rowMajor_lt (inBounds_at hj hi')
      rw [← hlen] at hlt
      refine ⟨_, List.getElem?_eq_getElem hlt, ?_⟩
      obtain ⟨e1, e2⟩ := at_range (ds.map Dim.val) j (inBounds_iff.1 hj).1
      have er : indices = List.range (ds.map Dim.val).length := by rw [hr, List.length_map]
      have hk := hvk _ _ (List.getElem?_eq_getElem hlt)
      have hpl := hplain _ (List.getElem_mem hlt)
      unfold Op.value
      rw [hpl]
      show _ = some (vs.getD (rowMajor (ds.map Dim.val) j) (init j))
      have e3 : rowMajor (dimsAt (ds.map Dim.val) indices) (posAt j indices) = rowMajor (ds.map Dim.val) j := by rw [er, e1, e2]
      rw [← hk, ← e3, List.getD_eq_getElem?_getD, List.getElem?_eq_getElem (by rw [hvl]; exact hlt)]
      rfl
    · obtain ⟨m, hm, hv⟩ := nullaryIterate_spec (es := ds.map Dim.val) hops hn hi' indices [] 0 [] rfl rfl (by rw [Nat.zero_add, hlen]) hpos init
      rw [← hlen] at hm
      refine ⟨m, hm, fun j hj => ?_⟩
      have := (hv j hj).1 rfl
      rwa [Nat.zero_add] at this

/-- One operation for each column, as in the documentation: 5 7 9 over 6 8 10. -/
example : ∃ m, nullary (α := ℤ) false .left [.dyn 2, .fixed 3] [1]
      ((List.range 3).map fun k => ⟨none, some fun _ j => ((5 + k + j.sum : ℕ) : ℤ)⟩) (fun _ => 0) = .ok m ∧
    [m [0, 0], m [0, 1], m [0, 2], m [1, 0], m [1, 1], m [1, 2]] = [5, 7, 9, 6, 8, 10] := ⟨_, rfl, rfl⟩

/-- One operation for each element of a 2-by-3 matrix. -/
private def sixOps : List (Op ℤ) := [4, 5, 6, 7, 8, 9].map fun c => ⟨some fun _ => c, none⟩

example : ∃ m, nullary false .right [.fixed 2, .fixed 3] [0, 1] sixOps (fun _ => 0) = .ok m ∧ [m [0, 0], m [0, 1], m [0, 2], m [1, 0]] = [4, 5, 6, 7] :=
  ⟨_, rfl, rfl⟩

/-- Wrong: in the example of the documentation, with a column-major matrix, the rows are 4 6 8 and 5 7 9 instead of 4 5 6 and 7 8 9; and the order of
the indices is ignored, although it matters once an operation takes indices. -/
theorem C90_layout_violated :
    (∃ m, nullary false .left [.fixed 2, .fixed 3] [0, 1] sixOps (fun _ => 0) = .ok m ∧
      [m [0, 0], m [0, 1], m [0, 2], m [1, 0], m [1, 1], m [1, 2]] = [4, 6, 8, 5, 7, 9]) ∧
    ∃ m m', nullary false .right [.fixed 2, .fixed 3] [1, 0] sixOps (fun _ => 0) = .ok m ∧
      nullary false .right [.fixed 2, .fixed 3] [1, 0] (sixOps.map fun op => ⟨none, op.plain.map fun f vs _ => f vs⟩) (fun _ => 0) = .ok m' ∧
      m [0, 1] = 5 ∧ m' [0, 1] = 6 :=
  ⟨⟨_, rfl, rfl⟩, _, _, rfl, rfl, rfl, rfl⟩

/-- Wrong: a single operation with indices for a single element does not compile without a hook. -/
theorem C90_single_violated (l : Layout) :
    nullary (α := ℤ) false l [.fixed 1, .fixed 1] [] [⟨none, some fun _ j => (j.sum : ℤ)⟩] (fun _ => 0) = .refused := by cases l <;> rfl

/-! ## C91 -/

/-- An operation in place is done once to each element, if the elements of the object can be written independently. -/
theorem C91_in_place_partial {S : Type} (p : Place S α) (f : α → List ℕ → α) (es : List ℕ)
    (hrw : ∀ s j v, InBounds es j → p.read (p.write s j v) j = v)
    (hind : ∀ s j v x, InBounds es j → InBounds es x → x ≠ j → p.read (p.write s j v) x = p.read s x) (s : S) :
    ∃ s', inPlace p f es s = .ok s' ∧ ∀ x, InBounds es x → p.read s' x = f (p.read s x) x := by
  obtain ⟨s', h, r⟩ := loops_spec p.read (InBounds es) (fun j v => f v j) (fun j s => .ok (p.write s j (f (p.read s j) j)))
    (fun j s hj => ⟨_, rfl, hrw _ _ _ hj, fun x hx hne => hind _ _ _ _ hj hx hne⟩) es [] (fun l hl => by simpa using hl) s
  exact ⟨s', h, fun x hx => (r x hx).1 ⟨x, hx, by simp⟩⟩

/-- A dense object. -/
private def dense : Place (List ℕ → ℤ) ℤ := ⟨fun m j => m j, fun m j v x => if x = j then v else m x⟩

example : ∃ s', inPlace dense (fun v j => 2 * v + j.sum) [2, 2] (fun j => 10 * j.getD 0 0) = .ok s' ∧ s' [1, 1] = 22 := ⟨_, rfl, rfl⟩

/-- A symmetric matrix of which the lower triangle is kept. -/
private def symmetric : Place (List ℕ → ℤ) ℤ :=
  let at' (j : List ℕ) : List ℕ := if j.getD 0 0 < j.getD 1 0 then j.reverse else j
  ⟨fun m j => m (at' j), fun m j v x => if x = at' j then v else m x⟩

/-- Wrong: if two elements are kept in one place, as in a Hermitian adapter, the operation is done twice to them. -/
theorem C91_symmetric_violated :
    ∃ s', inPlace symmetric (fun v _ => 2 * v) [2, 2] (fun _ => 1) = .ok s' ∧
      symmetric.read s' [1, 0] = 4 ∧ symmetric.read s' [0, 1] = 4 ∧ symmetric.read s' [0, 0] = 2 :=
  ⟨_, rfl, rfl, rfl, rfl⟩

end OpenKalman.NAry
