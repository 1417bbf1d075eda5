import Mathlib.Analysis.Normed.Algebra.MatrixExponential
import Mathlib.Analysis.Complex.Basic
import Verif.Spec.Pauli

/-! # Model of the comparisons in experiments_paper/BCH.py (`closeness_1` lines 59-73 and `closeness_2` lines 88-116)

`scipy.sparse.linalg.expm` is the exact exponential.  The symbolic part of `closeness_1` (lines 25-58) only prints, its results are not used below; the
printed commutators of `PauliMonomial`s in `closeness_2` (lines 99-104) are left out, they are the subject of the model in `Pauli.lean`. -/

namespace Oranssi
open Oranssi.Spec

/-- BCH.py:59 and 89 `X`. -/
def bchX : QMat 1 := (!![0, 1; 1, 0] : Matrix (Fin 2) (Fin 2) ℂ)
/-- BCH.py:60 and 90 `Y`. -/
def bchY : QMat 1 := (!![0, -Complex.I; Complex.I, 0] : Matrix (Fin 2) (Fin 2) ℂ)
/-- BCH.py:61 and 91 `Z`. -/
def bchZ : QMat 1 := (!![1, 0; 0, -1] : Matrix (Fin 2) (Fin 2) ℂ)
/-- BCH.py:95 `I`, and `np.eye(2)` of lines 66-69. -/
def bchI : QMat 1 := 1

/-- BCH.py:62 and 92 `ZZ`. -/
def bchZZ : QMat 2 := kron bchZ bchZ
/-- BCH.py:63 and 93 `ZY`. -/
def bchZY : QMat 2 := kron bchZ bchY
/-- BCH.py:64 and 94 `YZ`. -/
def bchYZ : QMat 2 := kron bchY bchZ

/-- BCH.py:65-67 `circuit_unitary(x0, x1, z12)`. -/
noncomputable def bchCircuit (x0 x1 z12 : ℝ) : QMat 2 :=
  NormedSpace.exp ((-Complex.I) • ((z12 : ℂ) • bchZZ)) * NormedSpace.exp ((-Complex.I) • ((x1 : ℂ) • (kron bchI bchX : QMat 2))) *
    NormedSpace.exp ((-Complex.I) • ((x0 : ℂ) • (kron bchX bchI : QMat 2)))

/-- BCH.py:68-71 `polynomial_unitary(x0, x1, z12)`. -/
noncomputable def bchPolynomial (x0 x1 z12 : ℝ) : QMat 2 :=
  NormedSpace.exp ((-Complex.I * z12) • bchZZ - (Complex.I * x0) • (kron bchX bchI : QMat 2) + (Complex.I * x1) • (kron bchI bchX : QMat 2) +
    (Complex.I * x1 * z12) • bchZY + (Complex.I * x0 * z12) • bchYZ)

open Classical in
/-- `np.allclose(A, B)` with the default tolerances. -/
noncomputable def allCloseQ {n : ℕ} (A B : QMat n) : Bool := decide (∀ i j, ‖A i j - B i j‖ ≤ 1e-8 + 1e-5 * ‖B i j‖)

/-- BCH.py:105 `A`. -/
noncomputable def bchA : QMat 3 := Complex.I • (kron bchX (kron bchZ bchI) : QMat 3)
/-- BCH.py:106 `B`. -/
noncomputable def bchB : QMat 3 := Complex.I • (kron bchI (kron bchX bchZ) : QMat 3)
/-- BCH.py:107 `A_comm_B`. -/
noncomputable def bchAB : QMat 3 := bchA * bchB - bchB * bchA

/-- The four booleans that `closeness_2` prints, BCH.py:98, 109, 110 and 116. -/
noncomputable def closeness2 : List Bool :=
  [allCloseQ (NormedSpace.exp ((-Complex.I) • (kron bchX bchI : QMat 2) - Complex.I • (kron bchI bchX : QMat 2)))
      (NormedSpace.exp ((-Complex.I) • (kron bchX bchI : QMat 2)) * NormedSpace.exp ((-Complex.I) • (kron bchI bchX : QMat 2))),
    allCloseQ 0 (bchA * bchAB - bchAB * bchA),
    allCloseQ 0 (bchB * bchAB - bchAB * bchB),
    allCloseQ (NormedSpace.exp (bchA + bchB + (0.5 : ℂ) • bchAB)) (NormedSpace.exp bchA * NormedSpace.exp bchB)]

end Oranssi
