import Verif.Spec.LinSys

/-!
# Specification: all the numbers measured in a system, as one random vector (C163)
-/

namespace OpenKalman.LinSys
open Matrix

variable {Ω : Type}

/-- How many numbers are measured. -/
def System.count : {n l : ℕ} → System Ω n l → ℕ
  | _, _, .done => 0
  | _, _, .move _ _ s => s.count
  | _, _, .measure m _ _ s => m + s.count

/-- The numbers measured, in their order. -/
def System.readings : {n l : ℕ} → (s : System Ω n l) → (Ω → Fin n → ℝ) → Ω → Fin s.count → ℝ
  | _, _, .done, _, _ => Fin.elim0
  | _, _, .move A ns s, x, ω => s.readings (moved A ns x) ω
  | _, _, .measure _ C ns s, x, ω => Fin.append (moved C ns x ω) (s.readings x ω)

end OpenKalman.LinSys
