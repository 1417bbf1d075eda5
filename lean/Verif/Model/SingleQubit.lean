import Verif.Model.Greedy

/-! # Model of the circuits of experiments/single_qubit_ps_comparison.py

The gates that PennyLane records for the circuit functions, as `NpMat × List ℤ` (see `rotGate`).  The drawing is not modelled. -/

namespace Oranssi

/-- single_qubit_ps_comparison.py:17-18, 46-48 (`plot_equal`): `qml.RY(params[0], wires=0)`. -/
noncomputable def plotEqualCircuit (params : List ℝ) : Py (List (NpMat × List ℤ)) := do
  let a ← pyGetItem params 0
  .ok [rotGate a "Y" [0]]

/-- single_qubit_ps_comparison.py:167-169, 197-200 (`plot_difference`): `qml.RY(params[0], wires=0); qml.RZ(params[1], wires=0)`. -/
noncomputable def plotDifferenceCircuit (params : List ℝ) : Py (List (NpMat × List ℤ)) := do
  let a ← pyGetItem params 0
  let b ← pyGetItem params 1
  .ok [rotGate a "Y" [0], rotGate b "Z" [0]]

end Oranssi
