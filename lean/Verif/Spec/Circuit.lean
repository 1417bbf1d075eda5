import Mathlib.LinearAlgebra.Matrix.ConjTranspose
import Verif.Spec.Qubits

/-! # Specification: gates acting on state vectors -/

namespace Oranssi.Spec
open scoped Matrix

/-- The basis state obtained from `r` by overwriting the listed qubits with the bits of `x` (first listed qubit gets the
most significant bit of `x`). -/
def put (n : ℕ) (ws : List ℕ) (r x : ℕ) : ℕ :=
  ∑ q ∈ Finset.range n, (if q ∈ ws then bit ws.length x (ws.idxOf q) else bit n r q) * 2 ^ (n - 1 - q)

/-- A gate: a matrix together with distinct qubits it acts on. -/
structure Gate (n : ℕ) where
  ws : List ℕ
  A : QMat ws.length
  ne : ws ≠ []
  valid : ValidWires n ws

/-- The amplitudes of a state vector as a function on numbers. -/
def amp {n : ℕ} (v : Fin (2 ^ n) → ℂ) (i : ℕ) : ℂ := if h : i < 2 ^ n then v ⟨i, h⟩ else 0

/-- Textbook action of a gate on a state vector: the amplitude of `r` becomes `Σ_x A[r on ws, x] ψ[r with ws := x]`. -/
def Gate.apply {n : ℕ} (g : Gate n) (ψ : Fin (2 ^ n) → ℂ) (r : Fin (2 ^ n)) : ℂ :=
  ∑ x ∈ Finset.range (2 ^ g.ws.length), ent g.A (sub n r g.ws) x * amp ψ (put n g.ws r x)

end Oranssi.Spec
