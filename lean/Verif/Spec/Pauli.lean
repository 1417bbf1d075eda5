import Mathlib.LinearAlgebra.Matrix.Notation
import Mathlib.Data.Fintype.BigOperators
import Mathlib.Data.List.OfFn
import Verif.Spec.Qubits

/-! # Specification: Pauli letters, tensor products of single-qubit matrices -/

namespace Oranssi.Spec
open scoped Matrix

/-- The four Pauli letters, in alphabetical order. -/
inductive Letter where
  | I | X | Y | Z
  deriving DecidableEq, Repr

instance : Fintype Letter := ⟨{.I, .X, .Y, .Z}, by intro x; cases x <;> decide⟩

/-- 2×2 matrices. -/
abbrev Mat2 := Matrix (Fin 2) (Fin 2) ℂ

/-- The Pauli matrix of a letter. -/
def Letter.mat : Letter → Mat2
  | .I => 1
  | .X => !![0, 1; 1, 0]
  | .Y => !![0, -Complex.I; Complex.I, 0]
  | .Z => !![1, 0; 0, -1]

/-- The tensor product over all qubits: entry `(r,c)` is the product of the single-qubit entries. -/
def tensor {n : ℕ} (L : Fin n → Mat2) : QMat n := fun r c =>
  ∏ q : Fin n, L q ⟨bit n r q, Nat.mod_lt _ (by decide)⟩ ⟨bit n c q, Nat.mod_lt _ (by decide)⟩

/-- The Pauli word `w 0 ⊗ w 1 ⊗ …`. -/
def pauliWord {n : ℕ} (w : Fin n → Letter) : QMat n := tensor (fun q => (w q).mat)

/-- The character of a letter. -/
def Letter.char : Letter → Char
  | .I => 'I' | .X => 'X' | .Y => 'Y' | .Z => 'Z'

/-- The string of a word. -/
def wordStr {k : ℕ} (w : Fin k → Letter) : String := String.ofList ((List.ofFn w).map Letter.char)

end Oranssi.Spec
