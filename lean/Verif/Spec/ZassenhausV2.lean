import Verif.Spec.Adapt
import Verif.Spec.Cost
import Verif.Spec.Gates

/-! # Specification: the circuit of `ZassenhausLayerV2` -/

namespace Oranssi.Spec

/-- The generator `-i a P`, where `P` is the Pauli word `w` on the qubits `q`. -/
noncomputable def generator (n : ℕ) (a : ℝ) (w : List Letter) (q : List ℕ) : QMat n := (-Complex.I * (a : ℂ)) • pauliWord (placed n w q)

/-- The three generators of the layer with the parameters `x`. -/
noncomputable def genA (n : ℕ) (x : Fin 3 → ℝ) : QMat n := generator n (x 0) [.X] [0]
noncomputable def genB (n : ℕ) (x : Fin 3 → ℝ) : QMat n := generator n (x 1) [.X] [1]
noncomputable def genC (n : ℕ) (x : Fin 3 → ℝ) : QMat n := generator n (x 2) [.Z, .Z] [0, 1]

/-- The exponent of `exp A * exp B * exp C` up to second order. -/
noncomputable def bchVector (n : ℕ) (x : Fin 3 → ℝ) : QMat n :=
  genA n x + genB n x + genC n x +
    (1 / 2 : ℂ) • ((genA n x * genB n x - genB n x * genA n x) + (genA n x * genC n x - genC n x * genA n x) + (genB n x * genC n x - genC n x * genB n x))

/-- What the layer minimises: the mean square distance of the five coefficients from `eta` times the gradients. -/
noncomputable def fitness (n : ℕ) (H U : QMat n) (eta : ℝ) (x : Fin 3 → ℝ) : ℝ :=
  ((x 0 + eta * grad H U (pauliWord (placed n [.X] [0]))) ^ 2 + (x 1 + eta * grad H U (pauliWord (placed n [.X] [1]))) ^ 2 +
    (x 2 + eta * grad H U (pauliWord (placed n [.Z, .Z] [0, 1]))) ^ 2 + (x 0 * x 2 - eta * grad H U (pauliWord (placed n [.Y, .Z] [0, 1]))) ^ 2 +
    (x 1 * x 2 - eta * grad H U (pauliWord (placed n [.Z, .Y] [0, 1]))) ^ 2) / 5

/-- Hadamard gates on the qubits 0 and 1. -/
noncomputable def hadamardPair (n : ℕ) : QMat n := full n [1] hadamard * full n [0] hadamard

end Oranssi.Spec
