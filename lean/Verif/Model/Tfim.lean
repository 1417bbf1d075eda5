import Verif.Model.CircuitTools
import Verif.Spec.Gates

/-! # Model of the inputs of the transverse-field Ising scripts

experiments_paper/tfim_su4_linesearch.py, tfim_su8_linesearch.py, tfim_su4_adapt_vqe.py and `tfim_zassenhaus` in zassenhaus.py share the circuit and the
observables, for `nqubits` 4, 6, 4 and any number. -/

namespace Oranssi

/-- tfim_su4_linesearch.py:44-48, tfim_su8_linesearch.py:19-29, tfim_su4_adapt_vqe.py:20-26, zassenhaus.py:123-128: `for n in range(nqubits): qml.Hadamard(wires=n)`. -/
noncomputable def tfimCircuit (n : ℕ) : List (NpMat × List ℤ) :=
  (List.range n).map (fun i : ℕ => (⟨2, 2, (Spec.hadamard : Matrix (Fin (2 ^ 1)) (Fin (2 ^ 1)) ℂ)⟩, [(i : ℤ)]))

/-- `qml.PauliZ(i) @ qml.PauliZ(j)`: the matrix is the Kronecker product. -/
def zzObs (i j : ℤ) : Obs := ⟨npKron npZ npZ, [i, j]⟩

/-- tfim_su4_linesearch.py:36-38, tfim_su8_linesearch.py:32-34, tfim_su4_adapt_vqe.py:28-30, zassenhaus.py:130-132:
`[PauliX(i) for i in range(nqubits)] + [PauliZ(i) @ PauliZ(i + 1) for i in range(nqubits - 1)] + [PauliZ(nqubits - 1) @ PauliZ(0)]`. -/
def tfimObservables (n : ℕ) : List Obs :=
  (List.range n).map (fun i : ℕ => ⟨npX, [(i : ℤ)]⟩) ++ (List.range (n - 1)).map (fun i : ℕ => zzObs (i : ℤ) ((i : ℤ) + 1)) ++ [zzObs ((n : ℤ) - 1) 0]

end Oranssi
