import Mathlib.LinearAlgebra.Matrix.Notation
import Mathlib.LinearAlgebra.Matrix.Trace
import Mathlib.LinearAlgebra.Matrix.ConjTranspose
import Mathlib.Analysis.SpecialFunctions.Pow.Complex
import Verif.Model.Numpy

/-! # Model of oranssi/utils.py -/

namespace Oranssi
open scoped Matrix

/-- utils.py:20 etc. `np.eye(2, 2)` -/
def npI : NpMat := ⟨2, 2, 1⟩
/-- utils.py:21 `np.array([[0, 1], [1, 0]])` -/
def npX : NpMat := ⟨2, 2, !![0, 1; 1, 0]⟩
/-- utils.py:22 `np.array([[0, -1j], [1j, 0]])` -/
def npY : NpMat := ⟨2, 2, !![0, -Complex.I; Complex.I, 0]⟩
/-- utils.py:23 `np.array([[1., 0], [0j, -1.]])` -/
def npZ : NpMat := ⟨2, 2, !![1, 0; 0, -1]⟩

/-- `itertools.product(l, repeat=k)`: the last position varies fastest. -/
def pyProduct {α : Type} (l : List α) : ℕ → List (List α)
  | 0 => [[]]
  | k + 1 => l.flatMap (fun a => (pyProduct l k).map (a :: ·))

/-- utils.py:24-33, 52-55, 84-87: the local list `paulis`. -/
def pauliList (identity : Bool) : List NpMat := if identity then [npI, npX, npY, npZ] else [npX, npY, npZ]

/-- utils.py:6-7 `pauli_int_to_str_id`, `pauli_int_to_str`, indexed by the flag. Keys outside raise in Python, they
never occur (the keys come from `range(len(paulis))`). -/
def pauliIntToStr (identity : Bool) (i : ℕ) : Char :=
  (if identity then ['I', 'X', 'Y', 'Z'] else ['X', 'Y', 'Z']).getD i '?'

/-- utils.py:10-35 `get_su_2_operators(identity, return_names=True)`; with `return_names=False` only the first
component is returned. -/
def getSu2Operators (identity : Bool) : List NpMat × List String :=
  if identity then ([npI, npX, npY, npZ], ["I", "X", "Y", "Z"]) else ([npX, npY, npZ], ["X", "Y", "Z"])

/-- utils.py:38-68 `get_su_4_operators(identity, return_names=True)`. -/
def getSu4Operators (identity : Bool) : List NpMat × List String :=
  let paulis := pauliList identity
  let combs := pyProduct (List.range paulis.length) 2
  (combs.map (fun comb => npKron (paulis.getD (comb.getD 0 0) npI) (paulis.getD (comb.getD 1 0) npI)),
   combs.map (fun comb => String.ofList (comb.map (pauliIntToStr identity))))

/-- utils.py:70-103 `get_su_n_operators(N, identity, return_names=True)`.  `op = 1` (line 94) is the 1×1 array; the
only difference in Python is that for `N = 1` the list `[1]` holds an int instead of an array. -/
def getSuNOperators (N : ℕ) (identity : Bool) : Py (List NpMat × List String) := do
  let paulis := pauliList identity
  let k ← intLog2 N
  let combs := pyProduct (List.range paulis.length) k
  .ok (combs.map (fun comb => comb.foldl (fun op i => npKron op (paulis.getD i npI)) ⟨1, 1, 1⟩),
   combs.map (fun comb => String.ofList (comb.map (pauliIntToStr identity))))

/-- utils.py:105-115 `operator_2_norm(R) = np.sqrt(np.trace(R.conj().T @ R)).real`, with numpy's principal complex
square root. -/
noncomputable def operator2Norm {m n : ℕ} (R : Matrix (Fin m) (Fin n) ℂ) : ℝ := (((Rᴴ * R).trace) ^ (1 / 2 : ℂ)).re

end Oranssi
