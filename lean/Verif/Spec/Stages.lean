import Mathlib.Data.List.Basic

/-!
# Specification vocabulary for series of sample-point transforms (C157)
-/

namespace OpenKalman.Stages

/-- One stage of a series: its function, and the dimensions of its noise terms. -/
structure Stage where
  noise : List ℕ

/-- What the function of a stage is to be called with, besides its input: noise term `j` of the stage, which is number `i` of all noise terms in the order of the call. -/
def numbers : List Stage → ℕ → List (List ℕ)
  | [], _ => []
  | s :: ss, i => (List.range s.noise.length).map (i + ·) :: numbers ss (i + s.noise.length)

end OpenKalman.Stages
