import Mathlib.LinearAlgebra.Matrix.Notation
import Mathlib.LinearAlgebra.Matrix.Determinant.Basic
import Mathlib.LinearAlgebra.Matrix.ConjTranspose
import Verif.Spec.Cost

/-! # Specification: SU(2), the 3-sphere and the level sets of a cost on it -/

namespace Oranssi.Spec
open scoped Matrix

/-- A matrix of SU(2). -/
structure IsSU2 (U : Matrix (Fin 2) (Fin 2) ℂ) : Prop where
  unitary : U * Uᴴ = 1
  det : U.det = 1

/-- The Hamiltonian `X + Y` of one qubit. -/
def hXY : QMat 1 := (!![0, 1; 1, 0] + !![0, -Complex.I; Complex.I, 0] : Matrix (Fin 2) (Fin 2) ℂ)

/-- `P` as an operator of the one-qubit register. -/
def asOne (P : Matrix (Fin 2) (Fin 2) ℂ) : QMat 1 := P

/-- A circuit of SU(2) whose first column is `(r1 + i r2, r3 + i r4)` and which has the cost `c` for the Hamiltonian `X + Y`. -/
def OnLevel (c r1 r2 r3 r4 : ℝ) : Prop :=
  ∃ U : Matrix (Fin 2) (Fin 2) ℂ, IsSU2 U ∧ U 0 0 = ⟨r1, r2⟩ ∧ U 1 0 = ⟨r3, r4⟩ ∧ cost hXY (asOne U) = c

end Oranssi.Spec
