import Mathlib.LinearAlgebra.Matrix.ConjTranspose
import Mathlib.Analysis.SpecialFunctions.Trigonometric.Basic
import Verif.Model.FullOperator
import Verif.Model.Utils

/-! # Model of the rest of oranssi/circuit_tools.py (except `get_commuting_set`) -/

namespace Oranssi
open scoped Matrix

/-- What the code uses of a PennyLane observable (or gate): its `.matrix` and its `.wires`. -/
structure Obs where
  matrix : NpMat
  wires : List ℤ

/-- State vectors of `n` qubits. -/
abbrev Ket (n : ℕ) := Fin (2 ^ n) → ℂ

/-- circuit_tools.py:10-22 `param_shift_comm(rho, gate)`. -/
noncomputable def paramShiftComm {ι : Type} [Fintype ι] (rho : Matrix ι ι ℂ) (gate : ℝ → Matrix ι ι ℂ) : Matrix ι ι ℂ :=
  gate (Real.pi / 2) * (rho * (gate (Real.pi / 2))ᴴ) - gate (-Real.pi / 2) * (rho * (gate (-Real.pi / 2))ᴴ)

/-- circuit_tools.py:82-100 `circuit_state_from_unitary` run on a simulator device that starts in `|0…0⟩` (contract for
`qml.QubitUnitary(unitary, wires=range(n)); qml.state()`): the first column of the unitary. -/
def stateFromUnitary {n : ℕ} (U : Matrix (Fin (2 ^ n)) (Fin (2 ^ n)) ℂ) : Ket n := fun i => U i 0

/-- circuit_tools.py:59-79 `circuit_observable_from_unitary` on the same device (contract for `qml.expval`): the real
part of `⟨φ|O|φ⟩` with `O` the observable on its wires. -/
noncomputable def expvalFromUnitary {n : ℕ} (U : Matrix (Fin (2 ^ n)) (Fin (2 ^ n)) ℂ) (o : Obs) : Py ℝ := do
  let O ← getFullOperator o.matrix o.wires n
  .ok (star (stateFromUnitary U) ⬝ᵥ (O *ᵥ stateFromUnitary U)).re

/-- optimizers.py:163-164 and 303-304: `for op, wires in zip(ops, wires): U = get_full_operator(op, wires, n) @ U`. -/
def compileLoop (n : ℕ) : List (NpMat × List ℤ) → Matrix (Fin (2 ^ n)) (Fin (2 ^ n)) ℂ →
    Py (Matrix (Fin (2 ^ n)) (Fin (2 ^ n)) ℂ)
  | [], U => .ok U
  | (op, ws) :: rest, U => do
    let F ← getFullOperator op ws n
    compileLoop n rest (F * U)

/-- The compiled circuit, optimizers.py:162-164, 302-304. -/
def compileCircuit (n : ℕ) (ops : List NpMat) (wires : List (List ℤ)) : Py (Matrix (Fin (2 ^ n)) (Fin (2 ^ n)) ℂ) :=
  compileLoop n (ops.zip wires) 1

/-- circuit_tools.py:142-143, the loop of `get_hamiltonian_matrix` from index `i` on; `coeffs[i]` raises `IndexError`
when there are too few coefficients. -/
def hamLoop (n : ℕ) (coeffs : List ℂ) : ℕ → List Obs → Matrix (Fin (2 ^ n)) (Fin (2 ^ n)) ℂ →
    Py (Matrix (Fin (2 ^ n)) (Fin (2 ^ n)) ℂ)
  | _, [], H => .ok H
  | i, o :: rest, H => do
    let c ← pyGetItem coeffs (i : ℤ)
    let F ← getFullOperator o.matrix o.wires n
    hamLoop n coeffs (i + 1) rest (H + c • F)

/-- circuit_tools.py:126-144 `get_hamiltonian_matrix(nqubits, observables, coeffs=None)`. -/
def getHamiltonianMatrix (n : ℕ) (observables : List Obs) (coeffs : Option (List ℂ)) :
    Py (Matrix (Fin (2 ^ n)) (Fin (2 ^ n)) ℂ) :=
  hamLoop n (coeffs.getD (List.replicate observables.length 1)) 0 observables 0

/-- circuit_tools.py:161-162 (and opt_tools.py passim): promote every observable. -/
def promoteAll (n : ℕ) : List Obs → Py (List (Matrix (Fin (2 ^ n)) (Fin (2 ^ n)) ℂ))
  | [] => .ok []
  | o :: rest => do
    let F ← getFullOperator o.matrix o.wires n
    let Fs ← promoteAll n rest
    .ok (F :: Fs)

/-- circuit_tools.py:170 `float((phi† @ (p @ obs - obs @ p) @ phi).imag) / 2**nqubits`. -/
noncomputable def omega {n : ℕ} (phi : Ket n) (p obs : Matrix (Fin (2 ^ n)) (Fin (2 ^ n)) ℂ) : ℝ :=
  (star phi ⬝ᵥ ((p * obs - obs * p) *ᵥ phi)).im / 2 ^ n

/-- View a numpy array of the right shape as a register matrix (used for the Pauli tables, whose shape is always
right; numpy's `@` would raise `ValueError` otherwise). -/
def NpMat.toQ (m : NpMat) (n : ℕ) : Py (Matrix (Fin (2 ^ n)) (Fin (2 ^ n)) ℂ) :=
  if h : m.rows = 2 ^ n ∧ m.cols = 2 ^ n then
    .ok (fun i j => m.val (Fin.cast h.1.symm i) (Fin.cast h.2.symm j))
  else .error .value

/-- circuit_tools.py:167-170: the loop over `zip(paulis, names)`.  The dictionary is an association list in insertion
order; the names are distinct (C09), so no key is overwritten. -/
noncomputable def directionsLoop {n : ℕ} (phi : Ket n) (obsFull : List (Matrix (Fin (2 ^ n)) (Fin (2 ^ n)) ℂ)) :
    List (NpMat × String) → Py (List (String × ℝ))
  | [] => .ok []
  | (p, name) :: rest => do
    let P ← p.toQ n
    let v := (obsFull.map (fun O => omega phi P O)).foldl (· + ·) 0
    let tail ← directionsLoop phi obsFull rest
    .ok ((name, v) :: tail)

/-- circuit_tools.py:147-171 `get_all_su_n_directions(unitary, observables, device)` with `n = len(device.wires)`. -/
noncomputable def getAllSuNDirections {n : ℕ} (U : Matrix (Fin (2 ^ n)) (Fin (2 ^ n)) ℂ) (observables : List Obs) :
    Py (List (String × ℝ)) := do
  let obsFull ← promoteAll n observables
  let (paulis, names) ← getSuNOperators (2 ^ n) true
  directionsLoop (stateFromUnitary U) obsFull (paulis.zip names)

end Oranssi
