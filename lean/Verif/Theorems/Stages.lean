import Verif.Model.Stages

/-!
# C157: stages of a series of sample-point transforms and their noise terms
-/

namespace OpenKalman.Stages
open Obj

/-- The number of noise terms of all stages. -/
def total (ss : List Stage) : ℕ := (ss.map fun s => s.noise.length).sum

theorem total_cons (s : Stage) (ss : List Stage) : total (s :: ss) = s.noise.length + total ss := rfl

theorem total_append (a b : List Stage) : total (a ++ b) = total a + total b := by
  induction a with
  | nil => rw [List.nil_append]; exact (Nat.zero_add _).symm
  | cons s a ih => rw [List.cons_append, total_cons, total_cons, ih, Nat.add_assoc]

theorem numbers_flatten (ss : List Stage) (i : ℕ) : (numbers ss i).flatten = (List.range (total ss)).map (i + ·) := by
  induction ss generalizing i with
  | nil => rfl
  | cons s ss ih =>
    rw [numbers, List.flatten_cons, ih, total_cons, List.range_add, List.map_append, List.map_map]
    congr 1
    refine List.map_congr_left fun j _ => ?_
    show i + s.noise.length + j = i + (s.noise.length + j)
    omega

theorem numbers_length (ss : List Stage) (i : ℕ) : (numbers ss i).length = ss.length := by
  induction ss generalizing i with
  | nil => rfl
  | cons s ss ih => rw [numbers, List.length_cons, ih, List.length_cons]

theorem mapM_some {α β : Type} {f : α → Option β} {g : α → β} (l : List α) (h : ∀ a ∈ l, f a = some (g a)) : l.mapM f = some (l.map g) := by
  induction l with
  | nil => rfl
  | cons a l ih => rw [List.mapM_cons, h a List.mem_cons_self, ih fun b hb => h b (List.mem_cons_of_mem _ hb)]; rfl

theorem cat_tuples (L : List (List Obj)) : cat (L.map tuple) = some (tuple L.flatten) := by
  have : (L.map tuple).mapM elements = some L := by
    induction L with
    | nil => rfl
    | cons l L ih => rw [List.map_cons, List.mapM_cons, ih]; rfl
  rw [cat, this]
  rfl

theorem slices_eq (ss : List Stage) (k i : ℕ) :
    (arguments k i ss).mapM noiseTerms = some ((numbers ss i).map fun l => tuple (l.map dist)) := by
  induction ss generalizing k i with
  | nil => rfl
  | cons s ss ih =>
    rw [arguments, List.mapM_cons, ih]
    simp [noiseTerms, argument, elements, slice, numbers, Function.comp_def]
    rw [List.take_of_length_le (by simp)]

theorem flattened_eq (ss : List Stage) (k i : ℕ) : flattenedDs (arguments k i ss) = some (tuple ((List.range (total ss)).map fun j => dist (i + j))) := by
  rw [flattenedDs, slices_eq]
  show cat _ = _
  have : (numbers ss i).map (fun l => tuple (l.map dist)) = ((numbers ss i).map fun l => l.map dist).map tuple := by rw [List.map_map]; rfl
  rw [this, cat_tuples, ← List.map_flatten, numbers_flatten, List.map_map]
  rfl

theorem functions_eq (ss : List Stage) (k i : ℕ) : (arguments k i ss).mapM (get 0) = some ((List.range ss.length).map fun j => func (k + j)) := by
  induction ss generalizing k i with
  | nil => rfl
  | cons s ss ih =>
    rw [arguments, List.mapM_cons, ih, List.length_cons, List.range_succ_eq_map, List.map_cons, List.map_map]
    simp only [argument, Obj.get, elements, Option.bind_some, List.getElem?_cons_zero, Option.pure_def, Option.bind_eq_bind, Nat.add_zero, Option.some.injEq, List.cons.injEq, true_and]
    refine List.map_congr_left fun j _ => ?_
    show func (k + 1 + j) = func (k + (j + 1))
    congr 1
    omega

/-- The points of all noise terms, in order. -/
def flatPoints (N : ℕ) : Obj := tuple ((List.range N).map points)

theorem samplePoints_eq (N : ℕ) : samplePoints (tuple (input :: (List.range N).map dist)) = some (tuple (inputPoints :: (List.range N).map points)) := by
  have h : ∀ l : List ℕ, (l.map dist).mapM pointsFor = some (l.map points) := by
    intro l
    induction l with
    | nil => rfl
    | cons a l ih => rw [List.map_cons, List.mapM_cons, ih]; rfl
  rw [samplePoints, elements]
  show ((input :: (List.range N).map dist).mapM pointsFor).bind _ = _
  rw [List.mapM_cons, h]
  rfl

/-- **C157** (the slices): from the points of all noise terms `construct_ps` takes, for each stage in turn, the points of that stage's noise terms, and nothing is left over.  Missing:
it does not keep them apart, so that its result is the tuple it was given. -/
theorem C157_slices_partial (ss : List Stage) :
    (∀ (k : ℕ) (h : k < ss.length), (flatPoints (total ss)).slice (total (ss.take k)) (total (ss.take k) + ss[k].noise.length) =
      some (tuple (((numbers ss 0)[k]'(by rw [numbers_length]; exact h)).map points))) ∧
    constructPs (flatPoints (total ss)) 0 ss = some (flatPoints (total ss)) := by
  have hsl : ∀ a c, a + c ≤ total ss → (flatPoints (total ss)).slice a (a + c) = some (tuple (((List.range c).map (a + ·)).map points)) := by
    intro a c h
    rw [flatPoints, slice, elements, Option.bind_some, List.length_map, List.length_range, if_pos ⟨Nat.le_add_right _ _, h⟩]
    congr 2
    rw [← List.map_take, ← List.map_drop]
    congr 1
    rw [List.take_range, Nat.min_eq_left h]
    apply List.ext_getElem
    · simp
    · intro j h1 h2
      simp
  have htot : ∀ (k : ℕ) (hk : k < ss.length), total (ss.take k) + ss[k].noise.length ≤ total ss := by
    intro k hk
    have : total ss = total (ss.take k) + (ss[k].noise.length + total (ss.drop (k + 1))) := by
      conv_lhs => rw [← List.take_append_drop k ss, List.drop_eq_getElem_cons hk]
      rw [total_append, total_cons]
    omega
  refine ⟨fun k h => ?_, ?_⟩
  · rw [hsl _ _ (htot k h)]
    congr 3
    have : ∀ (ss : List Stage) (i k : ℕ) (h : k < ss.length) (h' : k < (numbers ss i).length),
        (numbers ss i)[k] = (List.range ss[k].noise.length).map (i + total (ss.take k) + ·) := by
      intro ss
      induction ss with
      | nil => intro i k h; simp at h
      | cons s ss ih =>
        intro i k h h'
        cases k with
        | zero => simp [numbers, total]
        | succ k =>
          simp only [numbers, List.getElem_cons_succ, List.take_succ_cons]
          rw [ih (i + s.noise.length) k (by simpa using h)]
          refine List.map_congr_left fun j _ => ?_
          simp only [total, List.map_cons, List.sum_cons]
          omega
    rw [this ss 0 k h, Nat.zero_add]
  · have : ∀ (rest : List Stage) (pos : ℕ), pos + total rest = total ss →
        constructPs (flatPoints (total ss)) pos rest = some (tuple (((List.range (total rest)).map (pos + ·)).map points)) := by
      intro rest
      induction rest with
      | nil =>
        intro pos h
        have h0 : pos = total ss := by simpa [total] using h
        rw [constructPs, flatPoints, elements, Option.bind_some, List.length_map, List.length_range, if_pos h0]
        rfl
      | cons s rest ih =>
        intro pos h
        have h1 : total (s :: rest) = s.noise.length + total rest := by simp [total]
        rw [h1] at h
        rw [constructPs, hsl pos _ (by omega), ih (pos + s.noise.length) (by omega)]
        show cat [tuple _, tuple _] = _
        refine (cat_tuples [_, _]).trans ?_
        rw [h1, List.range_add, List.map_append, List.map_append, List.map_map, List.map_map, List.map_map, List.map_map]
        simp only [List.flatten_cons, List.flatten_nil, List.append_nil]
        congr 3
        refine List.map_congr_left fun j _ => ?_
        show points (pos + s.noise.length + j) = points (pos + (s.noise.length + j))
        rw [Nat.add_assoc]
    rw [this ss 0 (Nat.zero_add _)]
    simp [flatPoints]

/-- **C157** (given groups): from a tuple of one tuple of noise terms and one tuple of points for each stage, each function would be called with the input and its own noise terms.
Missing: that `transform` makes such tuples. -/
theorem C157_grouped_partial (ss : List Stage) :
    transformImpl (tuple ((List.range ss.length).map func)) (tuple ((numbers ss 0).map fun l => tuple (l.map dist))) (tuple ((numbers ss 0).map fun l => tuple (l.map points))) =
      some ((numbers ss 0).map fun l => (input :: l.map dist, inputPoints :: l.map points)) := by
  have hlen := numbers_length ss 0
  simp only [transformImpl, elements, Option.bind_eq_bind, Option.bind_some, List.length_map, List.length_range]
  rw [if_pos ⟨hlen.symm, hlen.symm⟩]
  have h : ∀ i ∈ List.range ss.length, stageCall i (tuple ((numbers ss 0).map fun l => tuple (l.map dist))) (tuple ((numbers ss 0).map fun l => tuple (l.map points))) input inputPoints =
      some ((fun l : List ℕ => (input :: l.map dist, inputPoints :: l.map points)) ((numbers ss 0)[i]?.getD [])) := by
    intro i hi
    have hi' : i < (numbers ss 0).length := by rw [hlen]; exact List.mem_range.1 hi
    simp [stageCall, Obj.get, elements, List.getElem?_eq_getElem hi', cat]
  rw [mapM_some _ h]
  congr 1
  apply List.ext_getElem
  · simp [hlen]
  · intro i h1 h2
    have hi' : i < (numbers ss 0).length := by simpa using h2
    simp [List.getElem?_eq_getElem hi']

/-- **C157** is violated by every call: `construct_ps` concatenates the groups (SamplePointsTransform.hpp:74-76), so that its result has as many elements as there are noise terms, and
none of them is a tuple.  If there are as many noise terms as stages, `std::tuple_cat` is called with a matrix; otherwise the constraint of `transform_impl` is not met. -/
theorem C157_grouping_violated (ss : List Stage) : transform ss = none := by
  rw [transform]
  split_ifs with h
  · rfl
  · have hps := (C157_slices_partial ss).2
    have h1 : flattenedDs (arguments 0 0 ss) = some (tuple ((List.range (total ss)).map dist)) := by
      rw [flattened_eq]
      simp
    have h2 : cat [tuple [input], tuple ((List.range (total ss)).map dist)] = some (tuple (input :: (List.range (total ss)).map dist)) := by
      refine (cat_tuples [_, _]).trans ?_
      simp
    have h3 : noiseTerms (tuple (inputPoints :: (List.range (total ss)).map points)) = some (flatPoints (total ss)) := by
      simp only [noiseTerms, elements, Option.bind_some, slice, List.length_cons, List.length_map, List.length_range, flatPoints]
      rw [if_pos ⟨by omega, Nat.le_refl _⟩, List.take_of_length_le (by simp)]
      rfl
    simp only [h1, Option.bind_eq_bind, Option.bind_some, h2, samplePoints_eq, h3, hps, functions_eq, slices_eq]
    unfold transformImpl
    simp only [flatPoints, elements, Option.bind_eq_bind, Option.bind_some, List.length_map, List.length_range]
    cases hd : (deduced ((numbers ss 0).map fun l => tuple (l.map dist))) with
    | tuple dl =>
      simp only [Option.bind_some]
      split_ifs with hl
      · obtain ⟨n, hn⟩ : ∃ n, ss.length = n + 1 := Nat.exists_eq_succ_of_ne_zero fun h0 => h (List.length_eq_zero_iff.1 h0)
        have ht : total ss = n + 1 := by rw [← hl.2, hn]
        rw [hn, List.range_succ_eq_map, List.mapM_cons]
        have : stageCall 0 (tuple dl) (tuple ((List.range (total ss)).map points)) input inputPoints = none := by
          rw [stageCall, ht, List.range_succ_eq_map]
          cases hg : get 0 (tuple dl) with
          | none => rfl
          | some di =>
            simp only [Option.bind_eq_bind, Option.bind_some, Obj.get, elements, List.map_cons, List.getElem?_cons_zero]
            cases cat [tuple [input], di] with
            | none => rfl
            | some x => simp [cat, elements]
        rw [this]
        rfl
      · rfl
    | _ => rfl

/-- **C157** is violated by every call with a single stage even if `construct_ps` kept groups apart: the tuple of the one tuple of noise terms is deduced to be that tuple itself
(SamplePointsTransform.hpp:207). -/
theorem C157_single_violated (l : List ℕ) :
    transformImpl (tuple [func 0]) (deduced [tuple (l.map dist)]) (tuple [tuple (l.map points)]) = none := by
  rw [deduced]
  unfold transformImpl
  simp only [elements, Option.bind_eq_bind, Option.bind_some, List.length_map, List.length_cons, List.length_nil]
  split_ifs with hl
  · match l, hl.1 with
    | [a], _ => simp [stageCall, Obj.get, elements, cat]
  · rfl

/-- Two noise terms of one stage: two distributions for one function. -/
example : transformImpl (tuple [func 0]) (deduced [tuple [dist 0, dist 1]]) (tuple [tuple [points 0, points 1]]) = none := C157_single_violated [0, 1]

/-- With several stages the tuple is one of tuples. -/
theorem C157_several (ss : List Stage) (h : 2 ≤ ss.length) : deduced ((numbers ss 0).map fun l => tuple (l.map dist)) = tuple ((numbers ss 0).map fun l => tuple (l.map dist)) := by
  match ss, h with
  | a :: b :: ss, _ => rfl

/-- No function is called with noise terms of one number and points of another. -/
theorem C157_matched (gs ds ps : Obj) (calls : List (List Obj × List Obj)) (h : transformImpl gs ds ps = some calls) : ∀ c ∈ calls, c.1.length = c.2.length := by
  have hs : ∀ (l : List ℕ) (calls : List (List Obj × List Obj)), l.mapM (fun i => stageCall i ds ps input inputPoints) = some calls → ∀ c ∈ calls, c.1.length = c.2.length := by
    intro l
    induction l with
    | nil => intro calls h; cases h; simp
    | cons i l ih =>
      intro calls h
      rw [List.mapM_cons] at h
      cases hc : stageCall i ds ps input inputPoints with
      | none => simp [hc] at h
      | some c0 =>
        cases hr : l.mapM (fun i => stageCall i ds ps input inputPoints) with
        | none => simp [hc, hr] at h
        | some cs =>
          simp only [hc, hr, Option.bind_eq_bind, Option.bind_some, Option.pure_def, Option.some.injEq] at h
          subst h
          intro c hcm
          rcases List.mem_cons.1 hcm with rfl | hcm
          · simp only [stageCall, Option.bind_eq_bind, Option.bind_eq_some_iff] at hc
            obtain ⟨_, _, _, _, _, _, _, _, dl, _, pl, _, he⟩ := hc
            split_ifs at he with hl
            cases he
            exact hl
          · exact ih cs hr c hcm
  simp only [transformImpl, Option.bind_eq_bind, Option.bind_eq_some_iff] at h
  obtain ⟨g, _, d, _, p, _, he⟩ := h
  split_ifs at he with hl
  exact hs _ _ he

/-- Two noise terms with points of one only. -/
example : transformImpl (tuple [func 0]) (tuple [tuple [dist 0, dist 1]]) (tuple [tuple [points 0]]) = none := rfl

/-- A call with one stage and no noise, the simplest there is, is refused: there is one function, and no group. -/
example : transform [⟨[]⟩] = none := C157_grouping_violated _

example : transformImpl (tuple [func 0, func 1]) (tuple [tuple [dist 0, dist 1], tuple [dist 2]]) (tuple [tuple [points 0, points 1], tuple [points 2]]) =
    some [([input, dist 0, dist 1], [inputPoints, points 0, points 1]), ([input, dist 2], [inputPoints, points 2])] :=
  C157_grouped_partial [⟨[3, 1]⟩, ⟨[2]⟩]

end OpenKalman.Stages
