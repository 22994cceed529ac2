import Verif.Model.Loops
import Mathlib.Analysis.Complex.Basic
import Mathlib.Analysis.SpecialFunctions.Sqrt

/-!
# The bundled linear algebra library, part 5: plane rotations

/repo/OpenKalman/basics/compatibility/std-lib-reference/linalg-reference-implementation/include/experimental/__p1673_bits/blas1_givens.hpp.  Numbers are exact and finite
(with an infinity the scaling loops of the code do not end).  `safmin` and `safmn2` are the constants of the code; for `double` they are `2^-1022` and `2^-485`, for
`float` `2^-126` and `2^-51`.  `fuel` bounds the number of rounds of a `do … while` loop, `none` means that it was not enough.
-/

namespace OpenKalman.Givens
open OpenKalman.Blas

/-- `do { s = step(s); ++count; } while (again(s))` -/
def doWhile {S : Type*} (step : S → S) (again : S → Prop) [DecidablePred again] : ℕ → S → ℕ → Option (S × ℕ)
  | 0, _, _ => none
  | fuel + 1, s, count => if again (step s) then doWhile step again fuel (step s) (count + 1) else some (step s, count + 1)

/-- What `setup_givens_rotation` returns through its last three arguments. -/
structure Rot (𝕜 : Type*) where
  cs : ℝ
  sn : 𝕜
  r : 𝕜

/-- `r = sqrt(f1*f1 + g1*g1); cs = f1 / r; sn = g1 / r; for (int i = 1; i <= count; ++i) r = r * back;` -/
noncomputable def plain (f1 g1 : ℝ) (count : ℕ) (back : ℝ) : Rot ℝ :=
  let r := Real.sqrt (f1 * f1 + g1 * g1)
  { cs := f1 / r, sn := g1 / r, r := loop 0 count (fun _ r => r * back) r }

/-- blas1_givens.hpp:183-188 the signs are changed if `abs(f) > abs(g) && cs < 0`. -/
noncomputable def fixSigns (f g : ℝ) (o : Rot ℝ) : Rot ℝ := if |f| > |g| ∧ o.cs < 0 then { cs := -o.cs, sn := -o.sn, r := -o.r } else o

/-- blas1_givens.hpp:88-190 `setup_givens_rotation(f, g, cs, sn, r)` for real numbers. -/
noncomputable def setupReal (safmn2 : ℝ) (fuel : ℕ) (f g : ℝ) : Option (Rot ℝ) :=
  let safmx2 := 1 / safmn2
  if g = 0 then some { cs := 1, sn := 0, r := f }
  else if f = 0 then some { cs := 0, sn := 1, r := g }
  else
    let scale := max |f| |g|
    if scale ≥ safmx2 then
      (doWhile (fun s : ℝ × ℝ => (s.1 * safmn2, s.2 * safmn2)) (fun s => max |s.1| |s.2| ≥ safmx2) fuel (f, g) 0).map
        fun s => fixSigns f g (plain s.1.1 s.1.2 s.2 safmx2)
    else if scale ≤ safmn2 then
      (doWhile (fun s : ℝ × ℝ => (s.1 * safmx2, s.2 * safmx2)) (fun s => max |s.1| |s.2| ≤ safmn2) fuel (f, g) 0).map
        fun s => fixSigns f g (plain s.1.1 s.1.2 s.2 safmn2)
    else some (fixSigns f g (plain f g 0 1))

/-- blas1_givens.hpp:193-201 `impl::abs1`. -/
noncomputable def abs1 (z : ℂ) : ℝ := max |z.re| |z.im|

/-- blas1_givens.hpp:203-209 `impl::abssq`. -/
def abssq (z : ℂ) : ℝ := z.re * z.re + z.im * z.im

/-- `hypot(real(z), imag(z))` -/
noncomputable def hypot (a b : ℝ) : ℝ := Real.sqrt (a ^ 2 + b ^ 2)

/-- `for (int i = hi; i >= lo; --i) body` -/
def forDown {S : Type*} (hi lo : ℤ) (body : S → S) (s : S) : S := loop 0 (hi - lo + 1).toNat (fun _ s => body s) s

/-- blas1_givens.hpp:334-345 the scaling is undone: for a negative count by the loop `for (int i = 1; i >= -count; --i)`. -/
noncomputable def undo (safmn2 : ℝ) (count : ℤ) (r : ℂ) : ℂ :=
  if count ≠ 0 then
    if count > 0 then loop 0 count.toNat (fun _ r => r * ((1 / safmn2 : ℝ) : ℂ)) r
    else forDown 1 (-count) (fun r => r * (safmn2 : ℂ)) r
  else r

/-- blas1_givens.hpp:301-315 a number of modulus one with the direction of `f`. -/
noncomputable def direction (safmn2 : ℝ) (f : ℂ) : ℂ :=
  if abs1 f > 1 then
    let d := hypot f.re f.im
    ⟨f.re / d, f.im / d⟩
  else
    let dr := 1 / safmn2 * f.re
    let di := 1 / safmn2 * f.im
    let d := hypot dr di
    ⟨dr / d, di / d⟩

/-- blas1_givens.hpp:272-346, what follows the scaling. -/
noncomputable def afterScaling (safmin safmn2 : ℝ) (f g fs gs : ℂ) (count : ℤ) : Rot ℂ :=
  let f2 := abssq fs
  let g2 := abssq gs
  if f2 ≤ max g2 1 * safmin then
    if f = 0 then
      let d := hypot gs.re gs.im
      { cs := 0, sn := ⟨gs.re / d, -gs.im / d⟩, r := (hypot g.re g.im : ℝ) }
    else
      let f2s := hypot fs.re fs.im
      let g2s := Real.sqrt g2
      let cs := f2s / g2s
      let sn := direction safmn2 f * ⟨gs.re / g2s, -gs.im / g2s⟩
      { cs := cs, sn := sn, r := (cs : ℂ) * f + sn * g }
  else
    let f2s := Real.sqrt (1 + g2 / f2)
    let r : ℂ := ⟨f2s * fs.re, f2s * fs.im⟩
    let d := f2 + g2
    let sn : ℂ := ⟨r.re / d, r.im / d⟩
    { cs := 1 / f2s, sn := sn * (starRingEnd ℂ) gs, r := undo safmn2 count r }

/-- blas1_givens.hpp:213-347 `setup_givens_rotation(f, g, cs, sn, r)` for complex numbers. -/
noncomputable def setupComplex (safmin safmn2 : ℝ) (fuel : ℕ) (f g : ℂ) : Option (Rot ℂ) :=
  let safmx2 := 1 / safmn2
  let scale := max (abs1 f) (abs1 g)
  if scale ≥ safmx2 then
    (doWhile (fun s : ℂ × ℂ × ℝ => (s.1 * (safmn2 : ℂ), s.2.1 * (safmn2 : ℂ), s.2.2 * safmn2)) (fun s => s.2.2 ≥ safmx2) fuel (f, g, scale) 0).map
      fun s => afterScaling safmin safmn2 f g s.1.1 s.1.2.1 (s.2 : ℤ)
  else if scale ≤ safmn2 then
    if g = 0 then some { cs := 1, sn := 0, r := f }
    else
      (doWhile (fun s : ℂ × ℂ × ℝ => (s.1 * ((1 / safmn2 : ℝ) : ℂ), s.2.1 * ((1 / safmn2 : ℝ) : ℂ), s.2.2 * safmx2)) (fun s => s.2.2 ≤ safmn2) fuel (f, g, scale) 0).map
        fun s => afterScaling safmin safmn2 f g s.1.1 s.1.2.1 (-(s.2 : ℤ))
  else some (afterScaling safmin safmn2 f g f g 0)

/-- blas1_givens.hpp:363-381 `apply_givens_rotation(x, y, c, s)` with a real `s`, on vectors with `n` components. -/
def applyReal (n : ℕ) (c s : ℝ) (xy : (ℕ → ℝ) × (ℕ → ℝ)) : (ℕ → ℝ) × (ℕ → ℝ) :=
  loop 0 n (fun i xy =>
    let dtemp := c * xy.1 i + s * xy.2 i
    let y := Function.update xy.2 i (c * xy.2 i - s * xy.1 i)
    (Function.update xy.1 i dtemp, y)) xy

/-- blas1_givens.hpp:458-477 `apply_givens_rotation(x, y, c, s)` with a complex `s`. -/
def applyComplex (n : ℕ) (c : ℝ) (s : ℂ) (xy : (ℕ → ℂ) × (ℕ → ℂ)) : (ℕ → ℂ) × (ℕ → ℂ) :=
  loop 0 n (fun i xy =>
    let dtemp := (c : ℂ) * xy.1 i + s * xy.2 i
    let y := Function.update xy.2 i ((c : ℂ) * xy.2 i - (starRingEnd ℂ) s * xy.1 i)
    (Function.update xy.1 i dtemp, y)) xy

end OpenKalman.Givens
