import Verif.Spec.LinalgViews
import Verif.Model.Mdspan
import Mathlib.Algebra.Star.Basic

/-!
# The bundled linear algebra library, part 6: transposed, conjugated and scaled views

/repo/OpenKalman/basics/compatibility/std-lib-reference/linalg-reference-implementation/include/experimental/__p1673_bits/transposed.hpp, conjugated.hpp, scaled.hpp and
conjugate_transposed.hpp.  `M` is the modulus of the index type.  The packed layout is only declared there and the padded ones are behind a macro that is not defined; they are not modelled.
-/

namespace OpenKalman.LinalgViews
open OpenKalman.Mdspan

/-- The layouts of two-dimensional views: the three standard ones, one of the user's own with its offsets and strides, and `layout_transpose` of a layout. -/
inductive Layout2
  | std (m : Mapping)
  | own (exts : Ext) (offset : ℕ → ℕ → ℕ) (stride : ℕ → ℕ)
  | transposedOf (nested : Layout2) (exts : Ext)

/-- transposed.hpp:44-73 `impl::transpose_extents`: the extents are constructed from those values that are not static. -/
def transposeExtents (M : ℕ) (e : Ext) : Option Ext :=
  let ext0 := staticGet e.statics 0
  let ext1 := staticGet e.statics 1
  let vals :=
    if ext0 = none then if ext1 = none then [e.extent 1, e.extent 0] else [e.extent 0]
    else if ext1 = none then [e.extent 1] else []
  construct M [ext1, ext0] vals

/-- `extents()`; transposed.hpp:97-100. -/
def Layout2.exts : Layout2 → Ext
  | .std m => m.exts
  | .own e _ _ => e
  | .transposedOf _ e => e

/-- `operator()(i, j)`; transposed.hpp:118-121 for `layout_transpose`. -/
def Layout2.offset (M : ℕ) : Layout2 → ℕ → ℕ → ℕ
  | .std m, i, j => m.offset M [i, j]
  | .own _ o _, i, j => o i j
  | .transposedOf n _, i, j => n.offset M j i

/-- `stride(r)`; transposed.hpp:151-156 for `layout_transpose`. -/
def Layout2.stride (M : ℕ) : Layout2 → ℕ → ℕ
  | .std m, r => m.strideOf M r
  | .own _ _ s, r => s r
  | .transposedOf n _, r => n.stride M (if r = 0 then 1 else 0)

/-- `impl::transposed_layout<Layout>::mapping`: transposed.hpp:192-202 in general, 204-215 for `layout_left`, 217-228 for `layout_right`, 230-254 for `layout_stride`.
For `layout_transpose` (327-330) there is no such function; `none`: the program is not well-formed. -/
def transposedMapping (M : ℕ) : Layout2 → Option Layout2
  | .std (.left e) => (transposeExtents M e).map fun e' => .std (.right e')
  | .std (.right e) => (transposeExtents M e).map fun e' => .std (.left e')
  | .std (.stride e s) => (transposeExtents M e).map fun e' => .std (.stride e' [s.getD 1 0, s.getD 0 0])
  | .own e o s => (transposeExtents M e).map fun e' => .transposedOf (.own e o s) e'
  | .transposedOf _ _ => none

/-- The accessors: `default_accessor`, `conjugated_accessor`, `scaled_accessor`. -/
inductive Acc (𝕜 : Type*)
  | base
  | conjugated (nested : Acc 𝕜)
  | scaled (s : 𝕜) (nested : Acc 𝕜)

/-- `access(p, i)`: conjugated.hpp:55-59 and scaled.hpp:62-64. -/
def Acc.access {𝕜 : Type*} [Mul 𝕜] [Star 𝕜] : Acc 𝕜 → (ℕ → 𝕜) → ℕ → 𝕜
  | .base, p, i => p i
  | .conjugated n, p, i => star (n.access p i)
  | .scaled s n, p, i => s * n.access p i

/-- A two-dimensional `mdspan`. -/
structure View (𝕜 : Type*) where
  data : ℕ → 𝕜
  mapping : Layout2
  acc : Acc 𝕜

/-- What is read through an `mdspan`: `accessor().access(data_handle(), mapping()(i, j))`, `__p0009_bits/mdspan.hpp`, lines 222-231 and 280-291, which cast the indices first. -/
def View.shown {𝕜 : Type*} [Mul 𝕜] [Star 𝕜] (M : ℕ) (v : View 𝕜) : Shown 𝕜 :=
  ⟨v.mapping.exts.extent 0, v.mapping.exts.extent 1, fun i j => v.acc.access v.data (v.mapping.offset M (i % M) (j % M))⟩

/-- `is_always_exhaustive()`; for `layout_transpose` (transposed.hpp:131-133) it calls `is_always_contiguous`, which no mapping has.  `none`: the program is not well-formed.
A layout of the user's own is taken to be exhaustive. -/
def Layout2.alwaysExhaustive : Layout2 → Option Bool
  | .std (.left _) => some true
  | .std (.right _) => some true
  | .std (.stride _ _) => some false
  | .own _ _ _ => some true
  | .transposedOf _ _ => none

/-- transposed.hpp:333-343 `transposed(a)`. -/
def transposed {𝕜 : Type*} (M : ℕ) (a : View 𝕜) : Option (View 𝕜) := (transposedMapping M a.mapping).map fun m => { a with mapping := m }

/-- conjugated.hpp:73-103 and 106-115 `conjugated(a)`: conjugation of a conjugated view removes the accessor. -/
def conjugated {𝕜 : Type*} (a : View 𝕜) : View 𝕜 :=
  match a.acc with
  | .conjugated n => { a with acc := n }
  | acc => { a with acc := .conjugated acc }

/-- scaled.hpp:93-107 `scaled(s, x)`. -/
def scaled {𝕜 : Type*} (s : 𝕜) (x : View 𝕜) : View 𝕜 := { x with acc := .scaled s x.acc }

/-- conjugate_transposed.hpp:29-33 `conjugate_transposed(a)`. -/
def conjugateTransposed {𝕜 : Type*} (M : ℕ) (a : View 𝕜) : Option (View 𝕜) := (transposed M a).map conjugated

end OpenKalman.LinalgViews
