import Verif.Spec.Algebra
import Mathlib.Analysis.SpecialFunctions.Trigonometric.Basic

/-! # Specification: standard gates

The matrices PennyLane documents for `Hadamard`, `CNOT`, `RX`, `RY`, `RZ` and `PauliRot`. -/

namespace Oranssi.Spec
open scoped Matrix

/-- The Hadamard gate. -/
noncomputable def hadamard : QMat 1 := ((1 / Real.sqrt 2 : ℝ) : ℂ) • (!![1, 1; 1, -1] : Matrix (Fin 2) (Fin 2) ℂ)

/-- The controlled NOT gate; the first qubit controls. -/
def cnot : QMat 2 := (!![1, 0, 0, 0; 0, 1, 0, 0; 0, 0, 0, 1; 0, 0, 1, 0] : Matrix (Fin 4) (Fin 4) ℂ)

/-- Rotation `exp(-i θ/2 P)` about the Pauli word with letters `w`: `cos(θ/2) - i sin(θ/2) P`. -/
noncomputable def pauliRot (θ : ℝ) (w : List Letter) : QMat w.length :=
  (Real.cos (θ / 2) : ℂ) • (1 : QMat w.length) - (Complex.I * Real.sin (θ / 2)) • pauliWord (placed w.length w (List.range w.length))

/-- The letters of a string over X, Y, Z (other characters are read as I). -/
def lettersOfStr (s : String) : List Letter :=
  s.toList.map (fun c => if c = 'X' then .X else if c = 'Y' then .Y else if c = 'Z' then .Z else .I)

end Oranssi.Spec
