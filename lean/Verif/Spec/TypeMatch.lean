import Verif.Spec.Shape

/-!
# Specification vocabulary for what types say about the agreement of shapes (C166)
-/

namespace OpenKalman.TypeMatch

open Shape

/-- Two shapes agree at every index, where missing extents are 1. -/
def Agree (v w : List ℕ) : Prop := ∀ i, extentOf v i = extentOf w i

/-- One shape for each of some types. -/
abbrev Shapes (ts : List (List (Option ℕ))) (vs : List (List ℕ)) : Prop := List.Forall₂ Instance ts vs

/-- All shapes agree with each other. -/
def AllAgree (vs : List (List ℕ)) : Prop := vs.Pairwise Agree

/-- Whatever shapes objects of these types have, they agree. -/
def MustAgree (ts : List (List (Option ℕ))) : Prop := ∀ vs, Shapes ts vs → AllAgree vs

/-- Objects of these types can have shapes that agree. -/
def CanAgree (ts : List (List (Option ℕ))) : Prop := ∃ vs, Shapes ts vs ∧ AllAgree vs

end OpenKalman.TypeMatch
