import Mathlib.Analysis.Real.Sqrt
import Verif.Model.CircuitTools
import Verif.Model.Algebra

/-! # Model of experiments_paper/fixed_points.py and experiments_paper/3_sphere_level_curves.py (the computations, not the drawing)

A number that may be `nan` is an `Option ℝ`, an array with a `nan` in it an `Option` of a matrix.  Arithmetic is exact. -/

namespace Oranssi
open scoped Matrix

/-- `np.sqrt(x)`: `nan` for negative numbers. -/
noncomputable def npSqrt (x : ℝ) : Option ℝ := if 0 ≤ x then some (Real.sqrt x) else none

/-- `np.linalg.norm(r)` of a real vector. -/
noncomputable def npNorm (r : Fin 3 → ℝ) : ℝ := Real.sqrt (∑ i, r i ^ 2)

open Classical in
/-- `np.allclose(A, B)` for arrays of shape (2, 2), with the default tolerances. -/
noncomputable def allClose (A B : Matrix (Fin 2) (Fin 2) ℂ) : Bool := decide (∀ i j, ‖A i j - B i j‖ ≤ 1e-8 + 1e-5 * ‖B i j‖)

/-- fixed_points.py:13-14: the array `U` for the coordinates `r[0], r[1], r[2], r3`. -/
noncomputable def sphereMatrix (r : Fin 3 → ℝ) (r3 : ℝ) : Matrix (Fin 2) (Fin 2) ℂ :=
  !![(r 0 : ℂ) + Complex.I * (r 1 : ℂ), -(r 2 : ℂ) + Complex.I * (r3 : ℂ); (r 2 : ℂ) + Complex.I * (r3 : ℂ), (r 0 : ℂ) - Complex.I * (r 1 : ℂ)]

/-- fixed_points.py:10-15 `unitary(r)`.  A comparison with `nan` is false. -/
noncomputable def fpUnitary (r : Fin 3 → ℝ) : Option (Matrix (Fin 2) (Fin 2) ℂ) × Bool :=
  match npSqrt (1 - npNorm r ^ 2) with
  | none => (none, false)
  | some r3 => (some (sphereMatrix r r3), allClose (sphereMatrix r r3 * (sphereMatrix r r3)ᴴ) 1)

/-- fixed_points.py:6-7 `observables = [qml.PauliX(0), qml.PauliY(0)]`. -/
def fpObservables : List Obs := [⟨npX, [0]⟩, ⟨npY, [0]⟩]

/-- fixed_points.py:30-31 `rho_0 = np.zeros((2, 2)); rho_0[1, 0] = 1.0`. -/
def fpRho : Matrix (Fin 2) (Fin 2) ℂ := !![0, 0; 1, 0]

/-- fixed_points.py:33-43: the row of `gradients` and the entry of `costs` for the grid point `r`. -/
noncomputable def fixedPointsRow (r : Fin 3 → ℝ) : Py ((Fin 3 → ℝ) × ℝ) := do
  let hamiltonian ← getHamiltonianMatrix 1 fpObservables none
  match fpUnitary r with
  | (some U, true) => do
    let directions ← getAllSuNDirections (n := 1) U fpObservables
    let gx ← dictGet directions "X"
    let gy ← dictGet directions "Y"
    let gz ← dictGet directions "Z"
    .ok (![gx, gy, gz], (U * fpRho * Uᴴ * (hamiltonian : Matrix (Fin 2) (Fin 2) ℂ)).trace.re)
  | _ => .ok (![0, 0, 0], 0)

/-- 3_sphere_level_curves.py:6-9 `level_surface(r3, r4, const)`; for `r3 = r4 = 0` it is `0 / 0`, which is `nan`. -/
noncomputable def levelSurface (r3 r4 const : ℝ) : Option ℝ :=
  match npSqrt (-(r3 + r4) ^ 2 * (const ^ 2 + 8 * r3 ^ 4 - 8 * r4 ^ 2 + 8 * r4 ^ 4 + 8 * r3 ^ 2 * (-1 + 2 * r4 ^ 2))) with
  | none => none
  | some s => if 4 * (r3 ^ 2 + r4 ^ 2) = 0 then none else some ((-const * r3 + const * r4 - s) / (4 * (r3 ^ 2 + r4 ^ 2)))

end Oranssi
