import Mathlib.Analysis.SpecialFunctions.Complex.Arg
import Mathlib.Analysis.SpecialFunctions.Trigonometric.Inverse
import Verif.Model.Optimizers

/-! # Model of oranssi/plot_utils.py (the computations, not the drawing)

The functions that only draw (`plot_bloch_sphere_2d`, `change_label_fontsize`) and the drawing in the other functions are left out.
`plot_su16_directions_separate` passes four arguments to the three-argument function `get_all_su_n_directions` (line 99) and always raises; it is in Model/Scripts.lean. -/

namespace Oranssi
open scoped Matrix

/-- plot_utils.py:13-26 `spherical_to_state(phi, theta)`. -/
noncomputable def sphericalToState (phi theta : ℝ) : Matrix (Fin 2) (Fin 2) ℂ :=
  let psi : Fin 2 → ℂ := ![(Real.cos (theta / 2) : ℂ), Complex.exp (Complex.I * (phi : ℂ)) * (Real.sin (theta / 2) : ℂ)]
  Matrix.vecMulVec psi (star psi)

/-- Python's `x % m` for floats and `m > 0`, in exact arithmetic: the representative in `[0, m)`. -/
noncomputable def pyMod (x m : ℝ) : ℝ := x - m * (⌊x / m⌋ : ℝ)

open Classical in
/-- plot_utils.py:51-73 `state_to_spherical(rho)`.  `np.isclose` has `atol=1e-8` and `rtol=1e-5` in the assertion.  `np.arccos` gives `nan` outside
`[-1, 1]`, which the model reports as `nonFinite`; `np.arctan2(y, x)` is the argument of `x + iy`. -/
noncomputable def stateToSpherical (rho : Matrix (Fin 2) (Fin 2) ℂ) : Py (ℝ × ℝ) := do
  pyAssert (‖rho.trace - 1‖ ≤ 1e-8 + 1e-5 * ‖(1 : ℂ)‖)
  let c := fun P : Matrix (Fin 2) (Fin 2) ℂ => (rho * P).trace.re
  let x := c !![0, 1; 1, 0]
  let y := c !![0, -Complex.I; Complex.I, 0]
  let z := c !![1, 0; 0, -1]
  let theta ← (if -1 ≤ z ∧ z ≤ 1 then .ok (Real.arccos z) else .error .nonFinite : Py ℝ)
  let phi := pyMod (Complex.arg ⟨x, y⟩) (2 * Real.pi)
  let theta := pyMod theta (2 * Real.pi)
  let phi := if isCloseTo phi (2 * Real.pi) 1e-3 then 0 else phi
  let theta := if isCloseTo theta (2 * Real.pi) 1e-3 then 0 else theta
  .ok (phi, theta)

/-- `[om[k] for om in omegas]`. -/
def plotLookups (omegas : List (List (String × ℝ))) (k : String) : Py (List ℝ) := omegas.mapM (fun om => dictGet om k)

/-- `if k.count('I') == b: omegas_length_m[b] += np.abs([om[k] for om in omegas])`. -/
noncomputable def plotBucket (omegas : List (List (String × ℝ))) (k : String) (curves : ℕ → List ℝ) (b : ℕ) : Py (ℕ → List ℝ) :=
  if k.toList.count 'I' = b then do
    let v ← plotLookups omegas k
    .ok (Function.update curves b (List.zipWith (· + ·) (curves b) (v.map (fun x => |x|))))
  else .ok curves

/-- plot_utils.py:148-160, 184-195, 222-233: the dictionary `omegas_length_m`.  `probe` is the word whose values are counted for the number of steps,
`buckets` are the numbers of letters `I` that are tested, in order. -/
noncomputable def plotCurves (probe : String) (buckets : List ℕ) (omegas : List (List (String × ℝ))) : Py (ℕ → List ℝ) := do
  let steps ← plotLookups omegas probe
  let om0 ← pyGetItem omegas 0
  (om0.map Prod.fst).foldlM (fun curves k => buckets.foldlM (plotBucket omegas k) curves) (fun _ => List.replicate steps.length 0)

/-- plot_utils.py:140-160 `plot_su16_directions(nqubits, unitaries, observables, device)`: the curve `i` of the plot is the value at `i < 4`. -/
noncomputable def plotSu16Directions {n : ℕ} (unitaries : List (Matrix (Fin (2 ^ n)) (Fin (2 ^ n)) ℂ)) (observables : List Obs) : Py (ℕ → List ℝ) := do
  let omegas ← unitaries.mapM (fun U => getAllSuNDirections U observables)
  plotCurves "XXXX" [3, 2, 1, 0] omegas

/-- plot_utils.py:176-195, 214-233 `plot_su8_directions_individually`, `plot_su8_directions`: the curve `i` of the plot is the value at `i < 2`. -/
noncomputable def plotSu8Directions {n : ℕ} (unitaries : List (Matrix (Fin (2 ^ n)) (Fin (2 ^ n)) ℂ)) (observables : List Obs) : Py (ℕ → List ℝ) := do
  let omegas ← unitaries.mapM (fun U => getAllSuNDirections U observables)
  plotCurves "XX" [1, 0] omegas

end Oranssi
