import Verif.Spec.Stages

/-!
# Model of how the sample-point transform deals out noise terms to stages (C157)

Source: transforms/SamplePointsTransform.hpp:68-87, 113-170, 182-214.

Objects that are passed are either tuples or not (distributions, matrices of points and functions are not: there is no `std::tuple_size` for them).  A function template that
rejects its arguments, by a constraint, a static assertion or a use of `std::get` or `std::tuple_cat` on something else than a tuple, is given as `none`.

Simplification: `tuple_slice` is no longer defined anywhere in the repository; it is taken to be the tuple of the elements between two positions.
-/

namespace OpenKalman.Stages

/-- Objects: the distribution of noise term `i`, the matrix of points for it, the function of stage `i`, and tuples. -/
inductive Obj
  | dist (i : ℕ)
  | points (i : ℕ)
  | func (i : ℕ)
  | input
  | inputPoints
  | tuple (l : List Obj)

namespace Obj

/-- The elements of a tuple. -/
def elements : Obj → Option (List Obj)
  | tuple l => some l
  | _ => none

/-- `std::tuple_cat`. -/
def cat (xs : List Obj) : Option Obj := (xs.mapM elements).map fun ls => tuple ls.flatten

/-- `std::get<i>`. -/
def get (i : ℕ) (x : Obj) : Option Obj := x.elements.bind fun l => l[i]?

/-- `tuple_slice<a, b>`. -/
def slice (a b : ℕ) (x : Obj) : Option Obj := x.elements.bind fun l => if a ≤ b ∧ b ≤ l.length then some (tuple ((l.take b).drop a)) else none

/-- `std::tuple {xs...}` with deduced arguments: from a single tuple the copy is deduced. -/
def deduced : List Obj → Obj
  | [tuple l] => tuple l
  | xs => tuple xs

end Obj

open Obj

/-- The argument for a stage: a tuple of its function and its noise terms. -/
def argument (k i : ℕ) (s : Stage) : Obj := tuple (func k :: (List.range s.noise.length).map fun j => dist (i + j))

/-- The arguments of a call. -/
def arguments : ℕ → ℕ → List Stage → List Obj
  | _, _, [] => []
  | k, i, s :: ss => argument k i s :: arguments (k + 1) (i + s.noise.length) ss

/-- `tuple_slice<1, size_of_v<T>>(t)`, SamplePointsTransform.hpp:187, 198 and 207. -/
def noiseTerms (t : Obj) : Option Obj := t.elements.bind fun l => t.slice 1 l.length

/-- SamplePointsTransform.hpp:187 `flattened_ds`. -/
def flattenedDs (ts : List Obj) : Option Obj := do
  let slices ← ts.mapM noiseTerms
  cat slices

/-- SamplePointsTransform.hpp:68-78 and 81-87 `construct_ps`. -/
def constructPs (flat : Obj) : ℕ → List Stage → Option Obj
  | pos, [] => flat.elements.bind fun l => if pos = l.length then some (tuple []) else none
  | pos, s :: ss => do
    let group ← flat.slice pos (pos + s.noise.length)
    let rest ← constructPs flat (pos + s.noise.length) ss
    cat [group, rest]

/-- The points for a distribution. -/
def pointsFor : Obj → Option Obj
  | dist i => some (points i)
  | input => some inputPoints
  | _ => none

/-- SamplePointsTransform.hpp:190-195: `sample_points` gives one matrix of points for each distribution, in order, as a tuple. -/
def samplePoints (x : Obj) : Option Obj := do
  let l ← x.elements
  let ps ← l.mapM pointsFor
  some (tuple ps)

/-- SamplePointsTransform.hpp:126-135: what stage `i` is called with. -/
def stageCall (i : ℕ) (ds ps : Obj) (d p : Obj) : Option (List Obj × List Obj) := do
  let di ← ds.get i
  let pi ← ps.get i
  let xdists ← cat [tuple [d], di]
  let xpoints ← cat [tuple [p], pi]
  let dl ← xdists.elements
  let pl ← xpoints.elements
  if dl.length = pl.length then some (dl, pl) else none

/-- SamplePointsTransform.hpp:113-170 `transform_impl`: the calls of the functions of all stages.  The input and its points stand for those of every later stage. -/
def transformImpl (gs ds ps : Obj) : Option (List (List Obj × List Obj)) := do
  let g ← gs.elements
  let d ← ds.elements
  let p ← ps.elements
  if g.length = d.length ∧ g.length = p.length then (List.range g.length).mapM fun i => stageCall i ds ps input inputPoints else none

/-- SamplePointsTransform.hpp:182-214 `transform`. -/
def transform (ss : List Stage) : Option (List (List Obj × List Obj)) :=
  if ss = [] then none
  else do
    let ts := arguments 0 0 ss
    let flatDs ← flattenedDs ts
    let all ← cat [tuple [input], flatDs]
    let pointsTuple ← samplePoints all
    let flatPs ← noiseTerms pointsTuple
    let ps ← constructPs flatPs 0 ss
    let gs ← ts.mapM (get 0)
    let slices ← ts.mapM noiseTerms
    transformImpl (tuple gs) (deduced slices) ps

end OpenKalman.Stages
