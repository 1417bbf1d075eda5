import Verif.Model.Optimizers
import Verif.Spec.Gates

/-! # Model of the inputs of experiments_paper/eigenstate_perturbation.py

The circuit, the observables, the matrix `H` and the two calls of the optimizer; the drawing is not modelled. -/

namespace Oranssi

/-- `A + B` for arrays of the same shape (broadcasting of other shapes is not modelled). -/
def npAdd (A B : NpMat) : Py NpMat :=
  if h : B.rows = A.rows ∧ B.cols = A.cols then
    .ok ⟨A.rows, A.cols, fun i j => A.val i j + B.val ⟨i, by rw [h.1]; exact i.2⟩ ⟨j, by rw [h.2]; exact j.2⟩⟩
  else .error .value

/-- eigenstate_perturbation.py:18-21: `qml.Hadamard(wires=0); qml.Hadamard(wires=1)`. -/
noncomputable def perturbationCircuit : List (NpMat × List ℤ) :=
  [(⟨2, 2, (Spec.hadamard : Matrix (Fin (2 ^ 1)) (Fin (2 ^ 1)) ℂ)⟩, [0]), (⟨2, 2, (Spec.hadamard : Matrix (Fin (2 ^ 1)) (Fin (2 ^ 1)) ℂ)⟩, [1])]

/-- eigenstate_perturbation.py:33 `observables = [qml.PauliX(1), qml.PauliX(0), qml.PauliY(0)]`. -/
def perturbationObservables : List Obs := [⟨npX, [1]⟩, ⟨npX, [0]⟩, ⟨npY, [0]⟩]

/-- eigenstate_perturbation.py:34-35:
`H = np.kron(paulis[1], paulis[0]) + np.kron(paulis[2], paulis[0]) + np.kron(paulis[0], paulis[1])`. -/
def perturbationH : Py NpMat := do
  let paulis := (getSu2Operators true).1
  let p0 ← pyGetItem paulis 0
  let p1 ← pyGetItem paulis 1
  let p2 ← pyGetItem paulis 2
  let h ← npAdd (npKron p1 p0) (npKron p2 p0)
  npAdd h (npKron p0 p1)

/-- eigenstate_perturbation.py:41-44 and, with `perturbation`, 46-51: the call of `exact_lie_optimizer`. -/
noncomputable def perturbationRun (eigh : EighFn 2) (rnd : ℕ → Matrix (Fin (2 ^ 2)) (Fin (2 ^ 2)) ℝ) (perturbation : Bool) : Py (OptOut (ExactItem 2)) :=
  exactLieOptimizer eigh rnd .state perturbationCircuit perturbationObservables
    { eta := .float 0.2, returnUnitary := .bool true, nsteps := .int 100, perturbation := .bool perturbation, returnPerturbations := .bool perturbation }

end Oranssi
