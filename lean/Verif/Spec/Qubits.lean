import Mathlib.Data.Complex.Basic
import Mathlib.Data.Matrix.Mul
import Mathlib.LinearAlgebra.Matrix.ConjTranspose
import Mathlib.Algebra.BigOperators.Group.Finset.Basic
import Mathlib.Data.Complex.BigOperators

/-!
# Specification: qubit registers

Written independently of the code.  Qubit `0` is the most significant one.
-/

namespace Oranssi.Spec

/-- The value of qubit `q` in the computational basis state number `i` of an `n`-qubit register
(qubit 0 is the most significant bit). -/
def bit (n i q : ℕ) : ℕ := i / 2 ^ (n - 1 - q) % 2

/-- The number whose binary digits (most significant first) are the values of the listed qubits in state `i`. -/
def sub (n i : ℕ) (ws : List ℕ) : ℕ := ws.foldl (fun acc w => 2 * acc + bit n i w) 0

/-- Square matrices of an `n` qubit register, indexed by basis-state numbers. -/
abbrev QMat (n : ℕ) := Matrix (Fin (2 ^ n)) (Fin (2 ^ n)) ℂ

/-- Entry of a register matrix at arbitrary natural numbers (0 outside the range). -/
def ent {k : ℕ} (A : QMat k) (i j : ℕ) : ℂ :=
  if h : i < 2 ^ k ∧ j < 2 ^ k then A ⟨i, h.1⟩ ⟨j, h.2⟩ else 0

/-- The operator that acts as `A` on the listed qubits (in the listed order) and as the identity on the others. -/
def full (n : ℕ) {k : ℕ} (ws : List ℕ) (A : QMat k) : QMat n := fun r c =>
  if ∀ q < n, q ∉ ws → bit n r q = bit n c q then ent A (sub n r ws) (sub n c ws) else 0

/-- Tensor product of an operator on `a` qubits with an operator on `b` further qubits (the first factor holds the
more significant qubits). -/
def kron {a b : ℕ} (A : QMat a) (B : QMat b) : QMat (a + b) := fun i j =>
  ent A (i / 2 ^ b) (j / 2 ^ b) * ent B (i % 2 ^ b) (j % 2 ^ b)

/-- A list of qubits of an `n`-qubit register: distinct and in range. -/
abbrev ValidWires (n : ℕ) (ws : List ℕ) : Prop := ws.Nodup ∧ ∀ w ∈ ws, w < n

end Oranssi.Spec
