import Mathlib.Analysis.SpecialFunctions.Complex.Arg

/-!
# Model of `OpenKalman/patterns/descriptors`: Angle, Inclination, Distance, Polar, Spherical

Real-valued data in exact arithmetic (complex-valued data, for which only the real part is adjusted, and rounding are not modelled).
`std::fmod`, `std::atan2`, `std::acos`, `std::hypot`, `std::signbit`, `std::copysign` are their exact mathematical functions; there is no negative
zero, so `signbit x` is `x < 0` and `copysign s y` is `s` for `y = 0`.

The compile-time test "limits are exactly `[-π, π)` in the data's number type" (Angle.hpp:173, 211 etc.) is a flag of the limits: it can only be
set when the limits are `±π`, but need not be (with `long double` limits and `double` data the test fails).
-/

namespace OpenKalman.Patterns
open Real

/-- Truncation toward zero. -/
noncomputable def truncZ (x : ℝ) : ℤ := if 0 ≤ x then ⌊x⌋ else ⌈x⌉

/-- values/math/fmod.hpp:46-66, `std::fmod`: remainder with the sign of the dividend. -/
noncomputable def fmod (x y : ℝ) : ℝ := x - truncZ (x / y) * y

/-- `std::signbit` without negative zero. -/
noncomputable def signbit (x : ℝ) : Bool := decide (x < 0)

/-- `std::atan2` (values/math/atan2.hpp:30-54). -/
noncomputable def atan2 (y x : ℝ) : ℝ := Complex.arg ⟨x, y⟩

/-- `std::hypot`. -/
noncomputable def hypot (x y : ℝ) : ℝ := √(x * x + y * y)

/-- `std::copysign` without negative zero. -/
noncomputable def copysign (a b : ℝ) : ℝ := if b < 0 then -|a| else |a|

/-! ## Angle.hpp -/

/-- Template parameters of `Angle` (Angle.hpp:36-44) and the outcome of the unscaled test. -/
structure AngleLim where
  min : ℝ
  max : ℝ
  min_nonpos : min ≤ 0
  max_pos : 0 < max
  unscaled : Bool
  unscaled_spec : unscaled = true → min = -π ∧ max = π

namespace AngleLim
variable (L : AngleLim)

/-- `period` (Angle.hpp:179, 192). -/
def period : ℝ := L.max - L.min

/-- Angle.hpp:168-184 `to_stat_space`. -/
noncomputable def toStat (a : ℝ) : ℝ × ℝ :=
  if L.unscaled then (cos a, sin a)
  else
    let phi := a * (2 * π / L.period)
    (cos phi, sin phi)

/-- Angle.hpp:188-198 `wrap_phi`. -/
noncomputable def wrapPhi (phi : ℝ) : ℝ :=
  if phi < L.min then phi + L.period
  else if phi ≥ L.max then phi - L.period
  else phi

/-- Angle.hpp:206-224 `from_stat_space`. -/
noncomputable def fromStat (x y : ℝ) : ℝ :=
  if L.unscaled then atan2 y x
  else L.wrapPhi (atan2 y x * (L.period / (2 * π)))

/-- Angle.hpp:228-239 `wrap_phi_mod`. -/
noncomputable def wrapPhiMod (phi : ℝ) : ℝ :=
  if phi ≥ L.min ∧ phi < L.max then phi
  else
    let m := fmod (phi - L.min) L.period
    if m < 0 then L.min + m + L.period else L.min + m

/-- Angle.hpp:246-252 `wrap`. -/
noncomputable def wrap (phi : ℝ) : ℝ := L.wrapPhiMod phi

end AngleLim

/-! ## Inclination.hpp -/

/-- Template parameter of `Inclination` (Inclination.hpp:33-38) and the outcome of the unscaled test. -/
structure InclLim where
  down : ℝ
  down_pos : 0 < down
  unscaled : Bool
  unscaled_spec : unscaled = true → down = π

namespace InclLim
variable (I : InclLim)

/-- Scaling to radians (Inclination.hpp:149-160). -/
noncomputable def theta (i : ℝ) : ℝ := if I.unscaled then i else i * (π / I.down)

/-- Inclination.hpp:144-164 `to_stat_space`. -/
noncomputable def toStat (i : ℝ) : ℝ × ℝ := (cos (I.theta i), |sin (I.theta i)|)

/-- Inclination.hpp:172-188 `from_stat_space`. -/
noncomputable def fromStat (z w : ℝ) : ℝ := if I.unscaled then atan2 |w| z else atan2 |w| z * (I.down / π)

/-- Inclination.hpp:192-203 `wrap_theta`, 210-216 `wrap`. -/
noncomputable def wrap (theta : ℝ) : ℝ :=
  if theta ≥ 0 ∧ theta ≤ I.down then theta
  else
    let down2 := I.down * 2
    let am := fmod |theta| down2
    if am > I.down then down2 - am else am

end InclLim

/-! ## Distance.hpp -/

namespace Distance

/-- Distance.hpp:79-85 `to_stat_space`. -/
def toStat (d : ℝ) : ℝ := |d|

/-- Distance.hpp:92-96 `from_stat_space`. -/
def fromStat (d : ℝ) : ℝ := d

/-- Distance.hpp:102-103 `wrap`. -/
def wrap (d : ℝ) : ℝ := toStat d

end Distance

/-! ## Polar.hpp (the coordinate order is handled in `Model/Pattern.lean`) -/

namespace AngleLim
variable (L : AngleLim)

/-- Polar.hpp:97-101 `flip_axis`. -/
def flipAxis (flip : Bool) (a : ℝ) : ℝ := if flip then -a else a

/-- Polar.hpp:125-156 `to_stat_space`: `(d, x, y)`. -/
noncomputable def polarToStat (d a : ℝ) : ℝ × ℝ × ℝ :=
  let phi := if L.unscaled then a else a * (2 * π / L.period)
  let flip := signbit d
  (|d|, flipAxis flip (cos phi), flipAxis flip (sin phi))

/-- Polar.hpp:160-170 `wrap_phi`, 190-209 `from_stat_space`: `(d, a)`. -/
noncomputable def polarFromStat (d x y : ℝ) : ℝ × ℝ :=
  if L.unscaled then (d, atan2 y x)
  else (d, L.wrapPhi (atan2 y x * (L.period / (2 * π))))

/-- Polar.hpp:213-225 `wrap_phi_mod`. -/
noncomputable def polarWrapPhiMod (d phi : ℝ) : ℝ :=
  let phiFlip := if signbit d then phi + L.period * (1 / 2) else phi
  if phiFlip ≥ L.min ∧ phiFlip < L.max then phiFlip
  else
    let m := fmod (phiFlip - L.min) L.period
    if m < 0 then L.min + m + L.period else L.min + m

/-- Polar.hpp:233-245 `wrap`: `(d, a)`. -/
noncomputable def polarWrap (d a : ℝ) : ℝ × ℝ := (|d|, L.polarWrapPhiMod d a)

end AngleLim

/-! ## Spherical.hpp (the coordinate order is handled in `Model/Pattern.lean`) -/

/-- Template parameters of `Spherical`. -/
structure SphLim where
  ang : AngleLim
  inc : InclLim

namespace SphLim
variable (S : SphLim)

/-- Spherical.hpp:118-128 `flip`, 152-199 `to_stat_space`: `(d, x, y, z)`. -/
noncomputable def toStat (d i a : ℝ) : ℝ × ℝ × ℝ × ℝ :=
  let theta := if S.inc.unscaled then i else i * (π / S.inc.down)
  let phi := if S.ang.unscaled then a else a * (2 * π / S.ang.period)
  let f := signbit d
  (AngleLim.flipAxis f d, AngleLim.flipAxis f (sin theta * cos phi), AngleLim.flipAxis f (sin theta * sin phi), AngleLim.flipAxis f (cos theta))

/-- Spherical.hpp:203-210 `calc_theta`. -/
noncomputable def calcTheta (h z : ℝ) : ℝ := (S.inc.down / π) * (if h = 0 then h else arccos (z / h))

/-- Spherical.hpp:213-220 `calc_phi`. -/
noncomputable def calcPhi (_S : SphLim) (hxy x signedScale : ℝ) : ℝ := signedScale * (if hxy = 0 then hxy else arccos (x / hxy))

/-- Spherical.hpp:260-288 `from_stat_space` (with `wrap_phi`, 223-233): `(d, i, a)`. -/
noncomputable def fromStat (d x y z : ℝ) : ℝ × ℝ × ℝ :=
  let scale := S.ang.period / (2 * π)
  let signedScale := copysign scale y
  let hxy := hypot x y
  let h := √(hxy * hxy + z * z)
  let theta := S.calcTheta h z
  let phi := S.calcPhi hxy x signedScale
  (d, theta, S.ang.wrapPhi phi)

/-- Spherical.hpp:292-301 `wrap_theta`. -/
noncomputable def wrapTheta (flipD : Bool) (iA : ℝ) : ℝ :=
  if iA > S.inc.down then (if flipD then iA - S.inc.down else S.inc.down * 2 - iA)
  else if flipD then S.inc.down - iA else iA

/-- Spherical.hpp:304-314 `wrap_phi_mod`. -/
noncomputable def wrapPhiMod (flipA : Bool) (aR : ℝ) : ℝ :=
  let aReal := if flipA then aR + S.ang.period * (1 / 2) else aR
  let ar := fmod (aReal - S.ang.min) S.ang.period
  (if ar < 0 then ar + S.ang.period else ar) + S.ang.min

/-- Spherical.hpp:322-348 `wrap`: `(d, i, a)`. -/
noncomputable def wrap (d i a : ℝ) : ℝ × ℝ × ℝ :=
  let flipD := signbit d
  let im := fmod i (S.inc.down * 2)
  let iabs := |im|
  let highI := decide (iabs > S.inc.down)
  let flipI := signbit im != highI
  let flipA := flipI != flipD
  (|d|, S.wrapTheta flipD iabs, S.wrapPhiMod flipA a)

end SphLim
end OpenKalman.Patterns
