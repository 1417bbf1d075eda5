import Verif.Model.Greedy
import Verif.Model.Optimizers

/-! # Model of the circuit of experiments_paper/toy_example.py

The gates that PennyLane records for the circuit function, as `NpMat × List ℤ` (see `rotGate`).  The drawing is not modelled. -/

namespace Oranssi

/-- toy_example.py:15-21 and 32-38: two Hadamard gates, `RZ(a)` on both qubits, CNOT, `RZ(b)` on both qubits. -/
noncomputable def toyGates (a b : ℝ) : List (NpMat × List ℤ) :=
  [(⟨2, 2, (Spec.hadamard : Matrix (Fin (2 ^ 1)) (Fin (2 ^ 1)) ℂ)⟩, [0]), (⟨2, 2, (Spec.hadamard : Matrix (Fin (2 ^ 1)) (Fin (2 ^ 1)) ℂ)⟩, [1]),
    rotGate a "Z" [0], rotGate a "Z" [1], (⟨2 ^ 2, 2 ^ 2, Spec.cnot⟩, [0, 1]), rotGate b "Z" [0], rotGate b "Z" [1]]

/-- toy_example.py:14-21 and 31-39 `circuit(params)`, with the angles `params[0]` and `params[1]`. -/
noncomputable def toyCircuit (params : List ℝ) : Py (List (NpMat × List ℤ)) := do
  let a ← pyGetItem params 0
  let b ← pyGetItem params 1
  .ok (toyGates a b)

end Oranssi
