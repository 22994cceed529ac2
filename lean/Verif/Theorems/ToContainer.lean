import Verif.Proof.ToContainer

/-!
# C158: copying a range into a container
-/

namespace OpenKalman.ToContainer

/-- **C158** Whatever `to<Cont>(r)` returns holds what the range holds: the same values in the same order
(the same set of values for a set), to any depth of containers in containers.  The result is a
container of the type asked for, and nothing is accepted that the standard's function refuses. -/
theorem C158_right (t : Ty) (s : Source) (xs ys : List Val) (hx : ∀ x ∈ xs, HasTy s.elem x)
    (h : toCont t s xs = .ok ys) :
    Same t (.seq xs) (.seq ys) ∧ HasTy t (.seq ys) ∧ StdAccepts t s :=
  toCont_right t s xs ys hx h

/-- **C158, partial** A container whose levels can all be filled element by element is filled from every
range of the same depth.  Missing: containers that can only be made from a pair of iterators, see
`C158_standard_violated`. -/
theorem C158_accepts_partial (t : Ty) (s : Source) (xs : List Val) (hp : Plain t)
    (hd : depth t = depth s.elem + 1) (hx : ∀ x ∈ xs, HasTy s.elem x) :
    ∃ ys, toCont t s xs = .ok ys ∧ Same t (.seq xs) (.seq ys) := by
  obtain ⟨ys, h⟩ := toCont_plain t s xs hp hd
  exact ⟨ys, h, (toCont_right t s xs ys hx h).1⟩

/-- `std::vector`. -/
def vectorKind : Kind :=
  { unique := false, fromRange := false, fromIterators := true, fromNothing := true,
    emplaceBack := true, pushBack := true, emplace := .position, insert := true }

/-- `std::set`. -/
def setKind : Kind :=
  { unique := true, fromRange := false, fromIterators := true, fromNothing := true,
    emplaceBack := false, pushBack := false, emplace := .arguments, insert := true }

/-- `std::forward_list`: no way to add at the end, made from iterators. -/
def forwardListKind : Kind :=
  { unique := false, fromRange := false, fromIterators := true, fromNothing := true,
    emplaceBack := false, pushBack := false, emplace := .absent, insert := false }

/-- **C158** Every container whose `emplace` passes all arguments to the constructor is refused, for each
range that is not already one, and even if the range is empty. -/
theorem C158_sets_refused (k : Kind) (e : Ty) (s : Source) (xs : List Val)
    (hr : k.fromRange = false) (hb : k.emplaceBack = false) (hp : k.pushBack = false)
    (hm : k.emplace = .arguments) (hs : s.self ≠ some (.cont k e)) (hi : s.isIterator = false) :
    ∃ r, toCont (.cont k e) s xs = .error r := by
  have hbuild : ∀ (s' : Source) (zs : List Val), s'.self ≠ some (.cont k e) → s'.isIterator = false →
      ∃ r, build k e s' zs = .error r := by
    intro s' zs hs' hi'
    unfold build
    rw [if_neg (by simp [constructibleFrom, hr, hs']), if_neg (by simp [hi'])]
    split
    · exact ⟨.badEmplace, by simp [body, append, hb, hp, hm]⟩
    · exact ⟨_, rfl⟩
  unfold toCont
  split
  · exact hbuild s xs hs hi
  · split
    · exact ⟨_, rfl⟩
    · split
      · exact ⟨_, rfl⟩
      · split
        · exact ⟨_, rfl⟩
        · exact hbuild _ _ (by simp [Source.converted]) rfl

/-- **C158, violated** The branch for a pair of iterators asks whether the range, instead of its iterator,
is an iterator.  Hence a set of integers cannot be made from a vector of integers, nor a
`std::forward_list`, both of which the standard's function makes. -/
theorem C158_standard_violated :
    (∀ k ∈ [setKind, forwardListKind],
      StdAccepts (.cont k (.scalar 0)) (.ofCont vectorKind (.scalar 0)) ∧
      ∀ xs, ∃ r, toCont (.cont k (.scalar 0)) (.ofCont vectorKind (.scalar 0)) xs = .error r) := by
  intro k hk
  simp only [List.mem_cons, List.not_mem_nil, or_false] at hk
  rcases hk with rfl | rfl
  · refine ⟨Or.inl ⟨Or.inl rfl, Or.inr (Or.inr (Or.inl ⟨rfl, rfl⟩))⟩, fun xs => ?_⟩
    exact C158_sets_refused _ _ _ _ rfl rfl rfl rfl (by decide) rfl
  · refine ⟨Or.inl ⟨Or.inl rfl, Or.inr (Or.inr (Or.inl ⟨rfl, rfl⟩))⟩, fun xs => ⟨.noInsert, ?_⟩⟩
    rfl

/-- **C158** With further arguments, from which the container is constructed first, the elements of the
range come after those that are already there. -/
theorem C158_initial (k : Kind) (ha : Appendable k) (hu : k.unique = false) (init xs : List Val) :
    toFrom k init xs = .ok (init ++ xs) := by
  simp [toFrom, body_ok k ha, fill_ok k ha, construct_sequence k hu]

/-- **C158** A closure that is called by name can be called any number of times, each time as if the
function had been called with the range and the arguments.  After a call in which it is moved from it
cannot be relied on. -/
theorem C158_closure (k : Kind) (init : List Val) (xss : List (List Val)) (ys zs : List Val)
    (rest : List (Category × List Val)) :
    Closure.calls k ⟨some init⟩ (xss.map fun xs => (.lvalue, xs)) =
      some (xss.map fun xs => toFrom k init xs) ∧
    Closure.calls k ⟨some init⟩ [(.rvalue, ys)] = some [toFrom k init ys] ∧
    Closure.calls k ⟨some init⟩ ((.rvalue, ys) :: (.lvalue, zs) :: rest) = none ∧
    Closure.calls k ⟨some init⟩ ((.constRvalue, ys) :: rest) = none :=
  ⟨calls_lvalue k init xss, rfl, rfl, rfl⟩

/-! ## Cases -/

/-- A vector of vectors from a list of lists. -/
def listKind : Kind := { vectorKind with insert := false }

theorem case_nested :
    ∃ ys, toCont (.cont vectorKind (.cont vectorKind (.scalar 0)))
        (.ofCont listKind (.cont listKind (.scalar 1)))
        [.seq [.num 1, .num 2], .seq [], .seq [.num 3]] = .ok ys ∧
      ys = [.seq [.num 1, .num 2], .seq [], .seq [.num 3]] := by
  refine ⟨_, ?_, rfl⟩
  have hv : Appendable vectorKind := Or.inl rfl
  have hb : ∀ e s xs, build vectorKind e s xs = .ok xs := by
    intro e s xs
    rw [build_plain _ _ _ _ rfl hv, construct_sequence _ rfl]; rfl
  have ht : toable (.cont listKind (.scalar 1)) (.cont vectorKind (.scalar 0)) = false := by decide
  have ht' : toable (.scalar 1) (.scalar 0) = true := rfl
  simp [toCont, ht, ht', Source.ofCont, hb, mapAll, wrap, Val.items]

/-- Hypotheses of `C158_right` and `C158_accepts_partial` are met by it. -/
example : Plain (.cont vectorKind (.cont vectorKind (.scalar 0))) ∧
    depth (.cont vectorKind (.cont vectorKind (.scalar 0))) =
      depth (Source.ofCont listKind (.cont listKind (.scalar 1))).elem + 1 ∧
    ∀ x ∈ [Val.seq [.num 1, .num 2], .seq [], .seq [.num 3]],
      HasTy (Source.ofCont listKind (.cont listKind (.scalar 1))).elem x := by
  refine ⟨⟨rfl, Or.inl rfl, rfl, Or.inl rfl, trivial⟩, rfl, ?_⟩
  intro x hx
  simp only [List.mem_cons, List.not_mem_nil, or_false] at hx
  rcases hx with rfl | rfl | rfl <;> simp [Source.ofCont, HasTy, listKind, vectorKind]

/-- A set that has `insert` but no `emplace` is filled, and drops repetitions. -/
def oldSetKind : Kind := { setKind with emplace := .absent }

example : ∃ ys, toCont (.cont oldSetKind (.scalar 0)) (.ofCont vectorKind (.scalar 0))
      [.num 2, .num 1, .num 2] = .ok ys ∧ ys = [.num 2, .num 1] := by
  refine ⟨_, rfl, ?_⟩
  simp [construct, insertValue, oldSetKind, setKind]

example : ∃ r, toCont (.cont setKind (.scalar 0)) (.ofCont vectorKind (.scalar 0)) [.num 1] = .error r :=
  C158_sets_refused _ _ _ _ rfl rfl rfl rfl (by decide) rfl

example : toFrom vectorKind [.num 7, .num 7] [.num 1] = .ok [.num 7, .num 7, .num 1] :=
  C158_initial vectorKind (Or.inl rfl) rfl _ _

end OpenKalman.ToContainer
