import Verif.Spec.Adapt
import Mathlib.Analysis.Normed.Algebra.MatrixExponential

/-! # Alternating evolution under the two parts of the Ising ring -/

namespace Oranssi.Spec

/-- The couplings of the ring: `Z` on neighbours, the last qubit being a neighbour of the first. -/
noncomputable def ringZZ (n : ℕ) : QMat n := ∑ i ∈ Finset.range (n - 1), pauliWord (placed n [.Z, .Z] [i, i + 1]) + pauliWord (placed n [.Z, .Z] [n - 1, 0])

/-- The transverse field. -/
noncomputable def fieldX (n : ℕ) : QMat n := ∑ i ∈ Finset.range n, pauliWord (placed n [.X] [i])

/-- Evolution under the couplings for the angle `a`, then under the field for the angle `b`. -/
noncomputable def qaoaLayer (n : ℕ) (a b : ℝ) : QMat n :=
  NormedSpace.exp ((-Complex.I * ((b / 2 : ℝ) : ℂ)) • fieldX n) * NormedSpace.exp ((-Complex.I * ((a / 2 : ℝ) : ℂ)) • ringZZ n)

/-- `m` layers with the angles `p 0, p 1, …` after Hadamard gates on all qubits. -/
noncomputable def qaoa (n : ℕ) (p : ℕ → ℝ) : ℕ → QMat n
  | 0 => hadamardAll n
  | m + 1 => qaoaLayer n (p (2 * m)) (p (2 * m + 1)) * qaoa n p m

end Oranssi.Spec
