import Mathlib.Data.List.Basic

/-!
# Model of `patterns_match_with` and `patterns_may_match_with`

The pattern collection of a type is a list of Euclidean patterns: `some n` of fixed dimension, `none` of a dimension known at run time (`Dimensions<>`).  Collections of a number of
patterns known at run time only (collection_compares_with.hpp:105-111) and patterns that are not Euclidean (see C95) are left out.
-/

namespace OpenKalman.TypeMatch

/-- `compares_with<Dimensions<a>, Dimensions<b>, &is_eq, applicability>`, patterns/concepts/compares_with.hpp (modelled in full for C95): equality is guaranteed of fixed dimensions that
are equal, and permitted unless both are fixed and differ. -/
def comparesWith (guaranteed : Bool) : Option ℕ → Option ℕ → Bool
  | some a, some b => a == b
  | _, _ => !guaranteed

/-- `collection_compares_with_iter_T`, patterns/concepts/collection_compares_with.hpp:28-43, with `PU = Dimensions<1>`. -/
def iterT (g : Bool) : List (Option ℕ) → Bool
  | [] => true
  | t :: ts => if comparesWith g t (some 1) then iterT g ts else false

/-- `collection_compares_with_iter_U`, collection_compares_with.hpp:46-61, with `PT = Dimensions<1>`. -/
def iterU (g : Bool) : List (Option ℕ) → Bool
  | [] => true
  | u :: us => if comparesWith g (some 1) u then iterU g us else false

/-- `collection_compares_with_iter`, collection_compares_with.hpp:64-92. -/
def iter (g : Bool) : List (Option ℕ) → List (Option ℕ) → Bool
  | t :: ts, u :: us => if comparesWith g t u then iter g ts us else false
  | t :: ts, [] => iterT g (t :: ts)
  | [], u :: us => iterU g (u :: us)
  | [], [] => true

/-- `patterns_match_with_impl`, linear-algebra/concepts/patterns_match_with.hpp:28-33, and (`g = false`) `patterns_may_match_with_impl`, patterns_may_match_with.hpp:28-33: the first
collection is compared with each of the others. -/
def matchImpl (g : Bool) : List (List (Option ℕ)) → Bool
  | [] => true
  | p :: ps => ps.all fun q => iter g p q

/-- `patterns_match_with<Ts...>`, patterns_match_with.hpp:54-61. -/
def matchWith (ts : List (List (Option ℕ))) : Bool := matchImpl true ts

/-- `patterns_may_match_with<Ts...>`, patterns_may_match_with.hpp:54-61. -/
def mayMatchWith (ts : List (List (Option ℕ))) : Bool := matchImpl false ts

end OpenKalman.TypeMatch
