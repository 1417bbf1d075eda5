import Verif.Model.SingleQubit
import Verif.Model.Plot

/-! # Model of the parameter-shift part of experiments_paper/red_blue_comparison.py

The circuit of lines 17-19 is `plotDifferenceCircuit` (the same two gates).  Of the drawing only the numbers that are passed to matplotlib are modelled. -/

namespace Oranssi

/-- red_blue_comparison.py:42-43: `params = np.array(params) % (2 * np.pi)` and the columns `params[:, 0]`, `params[:, 1]`, which lines 154-167 draw.
Simplification: a row that is too short is an error when its column is read, not when `np.array` is called. -/
noncomputable def redBlueDrawn (params : List (List ℝ)) : Py (List ℝ × List ℝ) := do
  let alphas ← params.mapM (fun row => do .ok (pyMod (← pyGetItem row 0) (2 * Real.pi)))
  let betas ← params.mapM (fun row => do .ok (pyMod (← pyGetItem row 1) (2 * Real.pi)))
  .ok (alphas, betas)

end Oranssi
