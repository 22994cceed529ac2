import Verif.Proof.Randomize
import Mathlib.Probability.Independence.InfinitePi
import Mathlib.MeasureTheory.Constructions.BorelSpace.Real

/-! # Theorems for C129, C130 -/

namespace OpenKalman.Randomize
open OpenKalman.NAry

variable {σ α : Type}

/-! ## C129 -/

/-- Each element of the object is drawn exactly once, from the distribution of its position, whatever the state of the generator is; the positions are
visited in an order that does not depend on that state.  Missing: one distribution for each element unless the layout is row-major and the indices are in
order, see `C129_layout_violated`; numbers passed as lvalues, see `C129_lvalue_violated`. -/
theorem C129_filled_partial (l : Layout) (dims : List Dim) (indices : List ℕ) (ds : List (Given σ α)) (evaluated : List ℕ) (init : List ℕ → α)
    (hc : ∀ d ∈ ds, ∀ v, d.source = .number v → d.lvalue = false) (hn : indices.Nodup) (hi : ∀ i ∈ indices, ∃ n, dims[i]? = some (.fixed n) ∧ 0 < n)
    (hlen : ds.length = (dimsAt (dims.map Dim.val) indices).prod) (hev : evaluated.Perm (List.range ds.length))
    (hb : ds.length = 1 ∨ (∃ n, .dyn n ∈ dims) ∨ ds.length ≠ (dims.map Dim.val).prod ∨ (l = .right ∧ indices = List.range dims.length)) :
    ∃ order, Covers (dims.map Dim.val) order ∧ ∀ s, ∃ m s', randomize l dims indices ds evaluated init s = .ok (s', m) ∧
      Draws (ds.map Given.source) s (order.map fun j => (sourceOf (dims.map Dim.val) indices j, m j)) s' := by
  have hi' : ∀ i ∈ indices, i < (dims.map Dim.val).length := by
    intro i h
    obtain ⟨n, hn, _⟩ := hi i h
    rw [List.length_map]
    exact (List.getElem?_eq_some_iff.1 hn).1
  have hpos : ∀ e ∈ dimsAt (dims.map Dim.val) indices, 0 < e := by
    intro e he
    obtain ⟨i, h, rfl⟩ := List.mem_map.1 he
    obtain ⟨n, hn, h0⟩ := hi i h
    show 0 < (dims.map Dim.val).getD i 1
    rw [List.getD_eq_getElem?_getD, List.getElem?_map, hn]
    exact h0
  have hcond : ((indices.any fun i => !fixedAt dims i) || ds.length != (indices.map fun i => (dims.map Dim.val).getD i 1).prod) = false := by
    rw [Bool.or_eq_false_iff]
    refine ⟨?_, ?_⟩
    · rw [List.any_eq_false]
      intro i h
      obtain ⟨n, hn, _⟩ := hi i h
      simp [fixedAt, hn]
    · simpa [dimsAt] using hlen
  have hsrc : ∀ j, InBounds (dims.map Dim.val) j → sourceOf (dims.map Dim.val) indices j < ds.length := by
    intro j hj
    rw [hlen]
    exact rowMajor_lt (inBounds_at hj hi')
  by_cases h1 : ds.length = 1
  · unfold randomize
    simp only [hcond, Bool.false_eq_true, if_false]
    obtain ⟨d, rfl⟩ := List.length_eq_one_iff.1 h1
    have hz : ∀ j, InBounds (dims.map Dim.val) j → sourceOf (dims.map Dim.val) indices j = 0 := by
      intro j hj
      have := hsrc j hj
      simpa using this
    simp only []
    by_cases ho : dims.all (· == .fixed 1) = true
    · simp only [ho, if_true]
      refine ⟨[List.replicate dims.length 0], ⟨List.nodup_singleton _, fun j => ?_⟩, fun s => ?_⟩
      · rw [ones_iff ho, List.mem_singleton]
      · refine ⟨fun _ => (d.source.next s).1, (d.source.next s).2, ?_, ?_⟩
        · rw [call_eq hc (List.mem_singleton_self d)]; rfl
        · simp only [List.map_cons, List.map_nil, hz _ ((ones_iff ho _).2 rfl)]
          exact .cons (d := d.source) rfl rfl (.nil _)
    · simp only [ho, if_false, Bool.false_eq_true]
      refine ⟨setList [] [] 0 (dims.map Dim.val) [], ⟨nodup_setList, fun j => ?_⟩, fun s => ?_⟩
      · rw [mem_setList]
        constructor
        · rintro ⟨l, hl, rfl⟩; exact foot_nil.1 hl
        · intro h; exact ⟨j, foot_nil.2 h, rfl⟩
      · have hmem : ∀ j ∈ setList [] [] 0 (dims.map Dim.val) [], InBounds (dims.map Dim.val) j := by
          intro j hj
          obtain ⟨l, hl, rfl⟩ := mem_setList.1 hj
          exact foot_nil.1 hl
        obtain ⟨s', m', e1, e2, _⟩ := run_spec hc ((setList [] [] 0 (dims.map Dim.val) []).map fun j => (0, j))
          (by simpa using nodup_setList) (by intro p hp; obtain ⟨j, _, rfl⟩ := List.mem_map.1 hp; simp) s init
        refine ⟨m', s', ?_, ?_⟩
        · rw [loops_run _ _ 0, ← e1, run_map]
          congr 1
        · rw [List.map_map] at e2
          have : (setList [] [] 0 (dims.map Dim.val) []).map (fun j => (sourceOf (dims.map Dim.val) indices j, m' j))
              = (setList [] [] 0 (dims.map Dim.val) []).map ((fun p : ℕ × List ℕ => (p.1, m' p.2)) ∘ fun j => (0, j)) := by
            refine List.map_congr_left fun j hj => ?_
            rw [hz j (hmem j hj)]
            rfl
          rw [this]
          exact e2
  · simp only [randomize_many hcond h1, drawMany]
    by_cases hx : (allFixed dims && ds.length == (dims.map Dim.val).prod) = true
    · simp only [hx, if_true]
      have hprod : ds.length = (dims.map Dim.val).prod := by
        have := (Bool.and_eq_true_iff.1 hx).2
        simpa using this
      obtain ⟨rfl, rfl⟩ : l = .right ∧ indices = List.range dims.length := by
        rcases hb with h | ⟨n, h⟩ | h | h
        · exact absurd h h1
        · have := List.all_eq_true.1 (Bool.and_eq_true_iff.1 hx).1 _ h
          simp at this
        · exact absurd hprod h
        · exact h
      have hnd : evaluated.Nodup := hev.nodup_iff.2 List.nodup_range
      have hmem : ∀ k, k ∈ evaluated ↔ k < ds.length := fun k => by rw [hev.mem_iff, List.mem_range]
      refine ⟨evaluated.map (unrank (dims.map Dim.val)), ⟨?_, fun j => ?_⟩, fun s => ?_⟩
      · refine hnd.map_on ?_
        intro a ha b hb' e
        have h2 := (unrank_spec (dims.map Dim.val) a (by rw [← hprod]; exact (hmem a).1 ha)).2
        rw [e, (unrank_spec (dims.map Dim.val) b (by rw [← hprod]; exact (hmem b).1 hb')).2] at h2
        exact h2.symm
      · rw [List.mem_map]
        constructor
        · rintro ⟨k, hk, rfl⟩
          exact (unrank_spec _ _ (by rw [← hprod]; exact (hmem k).1 hk)).1
        · intro hj
          exact ⟨rowMajor _ j, (hmem _).2 (by rw [hprod]; exact rowMajor_lt hj), unrank_rowMajor hj⟩
      · obtain ⟨s', vs', e1, e2, _⟩ := callAll_spec hc evaluated hnd (fun k hk => (hmem k).1 hk) s (fun _ => init [])
        refine ⟨_, s', by rw [e1]; rfl, ?_⟩
        rw [List.map_map]
        have : evaluated.map (fun k => (k, vs' k)) = evaluated.map ((fun j => (sourceOf (dims.map Dim.val) (List.range dims.length) j,
            denseFrom .right (dims.map Dim.val) ((List.range ds.length).map vs') init j)) ∘ unrank (dims.map Dim.val)) := by
          refine List.map_congr_left fun k hk => ?_
          have hk' := (hmem k).1 hk
          obtain ⟨h2, h3⟩ := unrank_spec (dims.map Dim.val) k (by rw [← hprod]; exact hk')
          have h4 := at_range (dims.map Dim.val) (unrank (dims.map Dim.val) k) (inBounds_iff.1 h2).1
          rw [List.length_map] at h4
          show (k, vs' k) = (sourceOf _ _ _, denseFrom .right _ _ _ _)
          unfold sourceOf denseFrom
          simp only []
          rw [h4.1, h4.2, h3]
          simp [hk']
        rw [← this]
        exact e2
    · simp only [hx, if_false, Bool.false_eq_true]
      obtain ⟨g1, g2⟩ := iterList_spec hn hi' indices [] 0 [] rfl .nil hpos
      refine ⟨(iterList (dims.map Dim.val) indices indices 0 (dimsAt (dims.map Dim.val) indices).prod []).map Prod.snd, ⟨g1, fun j => ?_⟩, fun s => ?_⟩
      · rw [List.mem_map]
        constructor
        · rintro ⟨⟨c, x⟩, hp, rfl⟩
          exact ((g2 c x).1 hp).1
        · intro hj
          exact ⟨(_, j), (g2 _ j).2 ⟨hj, rfl, rfl⟩, rfl⟩
      · obtain ⟨s', m', e1, e2, _⟩ := run_spec hc (iterList (dims.map Dim.val) indices indices 0 (dimsAt (dims.map Dim.val) indices).prod []) g1
          (by
            rintro ⟨c, x⟩ hp
            obtain ⟨h2, _, h3⟩ := (g2 c x).1 hp
            have := hsrc x h2
            rw [Nat.zero_add] at h3
            show c < _
            rw [h3]
            exact this) s init
        refine ⟨m', s', ?_, ?_⟩
        · have := iterateDraws_run ds (dims.map Dim.val) indices indices 0 [] (s, init) (by rw [hlen]; omega) hpos
          rw [← hlen] at this e1
          rw [this]
          exact e1
        · rw [List.map_map]
          have : (iterList (dims.map Dim.val) indices indices 0 (dimsAt (dims.map Dim.val) indices).prod []).map
              ((fun j => (sourceOf (dims.map Dim.val) indices j, m' j)) ∘ Prod.snd)
              = (iterList (dims.map Dim.val) indices indices 0 (dimsAt (dims.map Dim.val) indices).prod []).map fun p => (p.1, m' p.2) := by
            refine List.map_congr_left fun p hp => ?_
            obtain ⟨c, x⟩ := p
            have h3 := ((g2 c x).1 hp).2.2
            rw [Nat.zero_add] at h3
            show (_, _) = (_, _)
            rw [h3]
            rfl
          rw [this]
          exact e2

/-- A generator that counts, and a distribution that gives `b` more than the count. -/
private def counter (b : ℤ) : Given ℕ ℤ := ⟨.sampled fun s => (b + s, s + 1), false⟩

/-- One distribution for each row of a matrix with three columns, the number of which is only known at run time. -/
example : ∃ m, randomize .left [.fixed 2, .dyn 3] [0] [counter 100, ⟨.number 7, false⟩] [1, 0] (fun _ => 0) 0 = .ok (3, m) ∧
    [m [0, 0], m [0, 1], m [0, 2]] = [100, 101, 102] ∧ [m [1, 0], m [1, 1], m [1, 2]] = [7, 7, 7] := ⟨_, rfl, rfl, rfl⟩

/-- Wrong: in the example of the documentation, with the column-major layout that Eigen's matrices have by default, the number 3 that is the third source in row-major order
becomes element (0, 1) instead of element (1, 0). -/
theorem C129_layout_violated : ∃ m s', randomize .left [.fixed 2, .fixed 2] [0, 1] [counter 100, counter 200, ⟨.number 3, false⟩, counter 400] [0, 1, 2, 3]
      (fun _ => 0) 0 = .ok (s', m) ∧ sourceOf [2, 2] [0, 1] [1, 0] = 2 ∧ m [1, 0] ≠ 3 ∧ m [0, 1] = 3 := ⟨_, _, rfl, rfl, by decide, rfl⟩

/-- Wrong: a number that is passed as an lvalue is accepted by the constraints but the function does not compile. -/
theorem C129_lvalue_violated (l : Layout) : randomize (σ := ℕ) (α := ℤ) l [.fixed 2, .fixed 2] [] [⟨.number 3, true⟩] [0] (fun _ => 0) 0 = .refused := by
  cases l <;> rfl

/-! ## C130 -/

open MeasureTheory ProbabilityTheory

/-- If the distributions read a stream of independent items with the same law `ν`, one item for each value, then the elements are independent of each other, and
each has the law of the distribution of its position.  Missing: as in `C129_filled_partial`. -/
theorem C130_independent_partial {Ω α : Type} [MeasurableSpace Ω] [MeasurableSpace α] (P : Measure (ℕ → Ω)) [IsProbabilityMeasure P] (ν : Measure Ω)
    (hind : iIndepFun (fun (n : ℕ) (ω : ℕ → Ω) => ω n) P) (hlaw : ∀ n, P.map (fun ω => ω n) = ν)
    (l : Layout) (dims : List Dim) (indices : List ℕ) (ds : List (Given (ℕ → Ω) α)) (srcs : List (α ⊕ (Ω → α))) (evaluated : List ℕ) (init : List ℕ → α)
    (hs : ds.map Given.source = srcs.map Source.ofStream) (hg : ∀ g, Sum.inr g ∈ srcs → Measurable g)
    (hc : ∀ d ∈ ds, ∀ v, d.source = .number v → d.lvalue = false) (hn : indices.Nodup) (hi : ∀ i ∈ indices, ∃ n, dims[i]? = some (.fixed n) ∧ 0 < n)
    (hlen : ds.length = (dimsAt (dims.map Dim.val) indices).prod) (hev : evaluated.Perm (List.range ds.length))
    (hb : ds.length = 1 ∨ (∃ n, .dyn n ∈ dims) ∨ ds.length ≠ (dims.map Dim.val).prod ∨ (l = .right ∧ indices = List.range dims.length)) :
    ∃ M : List ℕ → (ℕ → Ω) → α, (∀ ω, ∃ ω', randomize l dims indices ds evaluated init ω = .ok (ω', fun j => M j ω)) ∧
      iIndepFun (fun (j : {j // InBounds (dims.map Dim.val) j}) => M j) P ∧
      ∀ j, InBounds (dims.map Dim.val) j → ∃ x, srcs[sourceOf (dims.map Dim.val) indices j]? = some x ∧
        (∀ v, x = .inl v → P.map (M j) = Measure.dirac v) ∧ ∀ g, x = .inr g → P.map (M j) = ν.map g := by
  obtain ⟨order, ⟨hnd, hmem⟩, hd⟩ := C129_filled_partial l dims indices ds evaluated init hc hn hi hlen hev hb
  choose m s' hr hdraw using hd
  rw [hs] at hdraw
  generalize hes : dims.map Dim.val = es at *
  have hidx : ∀ j, InBounds es j → order.idxOf j < order.length := fun j hj => List.idxOf_lt_length_iff.2 ((hmem j).2 hj)
  -- the value at a position
  have hval : ∀ j, InBounds es j → ∃ x, srcs[sourceOf es indices j]? = some x ∧
      ∀ ω, m ω j = val x (ω (item (fun j => takes srcs (sourceOf es indices j)) order (order.idxOf j) j)) := by
    intro j hj
    have ht := hidx j hj
    have hj' : order[order.idxOf j] = j := List.getElem_idxOf ht
    have hall : ∀ ω, ∃ x, srcs[sourceOf es indices j]? = some x ∧
        m ω j = val x (ω ((order.take (order.idxOf j)).countP fun j => takes srcs (sourceOf es indices j))) := by
      intro ω
      obtain ⟨x, hx, e⟩ := draws_stream srcs _ _ _ (hdraw ω) (order.idxOf j) (by rw [List.length_map]; exact ht)
      simp only [List.getElem_map, hj'] at hx e
      refine ⟨x, hx, ?_⟩
      rw [e, ← List.map_take, List.countP_map]
      rfl
    have hne : ∃ x, srcs[sourceOf es indices j]? = some x := by
      by_contra hno
      have hω : IsEmpty (ℕ → Ω) := ⟨fun ω => by obtain ⟨x, hx, _⟩ := hall ω; exact hno ⟨x, hx⟩⟩
      have h0 : P Set.univ = 1 := measure_univ
      rw [Set.univ_eq_empty_iff.2 hω, measure_empty] at h0
      exact zero_ne_one h0
    obtain ⟨x, hx⟩ := hne
    refine ⟨x, hx, fun ω => ?_⟩
    obtain ⟨y, hy, e⟩ := hall ω
    rw [hx] at hy
    cases hy
    rw [e]
    cases x with
    | inl v => rfl
    | inr g =>
      have : takes srcs (sourceOf es indices j) = true := by simp [takes, hx]
      simp only [item, this, if_true]
  have : Nonempty (α ⊕ (Ω → α)) := ⟨.inl (init [])⟩
  choose! x hx hm using hval
  have hmeas : ∀ j, InBounds es j → Measurable (val (x j)) := by
    intro j hj
    cases h : x j with
    | inl v => exact measurable_const
    | inr g => exact hg g (by rw [← h]; exact List.mem_of_getElem? (hx j hj))
  have hcoord : ∀ n, Measurable fun ω : ℕ → Ω => ω n := fun n => measurable_pi_apply n
  have heq : ∀ j, InBounds es j → (fun ω => m ω j) = val (x j) ∘ fun ω => ω (item (fun j => takes srcs (sourceOf es indices j)) order (order.idxOf j) j) :=
    fun j hj => funext fun ω => hm j hj ω
  refine ⟨fun j ω => m ω j, fun ω => ⟨s' ω, hr ω⟩, ?_, fun j hj => ⟨x j, hx j hj, ?_, ?_⟩⟩
  · have hinj : Function.Injective fun j : {j // InBounds es j} => item (fun j => takes srcs (sourceOf es indices j)) order (order.idxOf j.1) j.1 := by
      intro a b h
      have ha := hidx a.1 a.2
      have hb' := hidx b.1 b.2
      have := item_injective (fun j => takes srcs (sourceOf es indices j)) order ha hb' (by
        rw [List.getElem_idxOf ha, List.getElem_idxOf hb']; exact h)
      apply Subtype.ext
      rw [← List.getElem_idxOf ha, ← List.getElem_idxOf hb']
      simp only [this]
    have := (hind.precomp hinj).comp (fun j => val (x j.1)) fun j => hmeas j.1 j.2
    convert this using 1
    funext j
    exact heq j.1 j.2
  · intro v hv
    show P.map (fun ω => m ω j) = _
    rw [heq j hj, hv]
    show P.map (fun _ => v) = _
    rw [Measure.map_const, measure_univ, one_smul]
  · intro g hg'
    show P.map (fun ω => m ω j) = _
    rw [heq j hj, ← Measure.map_map (hmeas j hj) (hcoord _), hlaw, hg']
    rfl

/-- The hypotheses about the stream hold for independent items; here a 2 by 3 matrix with a distribution for each column. -/
example (ν : Measure ℝ) [IsProbabilityMeasure ν] : ∃ M : List ℕ → (ℕ → ℝ) → ℝ,
    (∀ ω, ∃ ω', randomize .left [.fixed 2, .fixed 3] [1] [⟨Source.ofStream (.inr fun w => 1 + 2 * w), true⟩, ⟨.number 5, false⟩, ⟨Source.ofStream (.inr fun w => w ^ 2), false⟩]
      [0, 1, 2] (fun _ => 0) ω = .ok (ω', fun j => M j ω)) ∧
    iIndepFun (fun (j : {j // InBounds [2, 3] j}) => M j) (Measure.infinitePi fun _ : ℕ => ν) := by
  obtain ⟨M, h1, h2, _⟩ := C130_independent_partial (Measure.infinitePi fun _ : ℕ => ν) ν (iIndepFun_infinitePi (X := fun _ => id) fun _ => measurable_id)
    (fun n => Measure.infinitePi_map_eval _ n)
    .left [.fixed 2, .fixed 3] [1] [⟨Source.ofStream (.inr fun w => 1 + 2 * w), true⟩, ⟨.number 5, false⟩, ⟨Source.ofStream (.inr fun w => w ^ 2), false⟩]
    [.inr fun w => 1 + 2 * w, .inl 5, .inr fun w => w ^ 2] [0, 1, 2] (fun _ => 0) rfl
    (by
      intro g hg
      simp only [List.mem_cons, Sum.inr.injEq, reduceCtorEq, List.not_mem_nil, or_false, false_or] at hg
      rcases hg with rfl | rfl
      · fun_prop
      · fun_prop)
    (by
      intro d hd v hv
      simp only [List.mem_cons, List.not_mem_nil, or_false] at hd
      rcases hd with rfl | rfl | rfl
      · exact absurd hv (by simp [Source.ofStream])
      · rfl
      · rfl)
    (by decide) (by intro i hi; rw [List.mem_singleton] at hi; subst hi; exact ⟨3, rfl, by decide⟩) (by decide) (by decide)
    (Or.inr (Or.inr (Or.inl (by decide))))
  exact ⟨M, h1, h2⟩

end OpenKalman.Randomize
