import Verif.Spec.Pauli
import Mathlib.Data.Nat.Choose.Basic
import Mathlib.LinearAlgebra.Matrix.Trace

/-! # Specification: Pauli words on some qubits of a register -/

namespace Oranssi.Spec
open scoped Matrix

/-- The letters `w` placed on the qubits `qs` (in this order), the identity elsewhere. -/
def placed (n : ℕ) (w : List Letter) (qs : List ℕ) : Fin n → Letter := fun q => (w[qs.idxOf q.val]?).getD .I

/-- The name of a list of letters. -/
def letterStr (w : List Letter) : String := String.ofList (w.map Letter.char)

/-- What a complete dictionary of Pauli operators for the lengths `lens` is: exactly one entry per non-identity word over X, Y, Z of
a listed length and increasing tuple of as many qubits; the value is the word on these qubits. -/
structure IsPauliDict (n : ℕ) (lens : List ℕ) (d : List ((String × List ℕ) × QMat n)) : Prop where
  /-- no key twice -/
  nodup : (d.map Prod.fst).Nodup
  /-- the keys -/
  keys : ∀ s qs, (s, qs) ∈ d.map Prod.fst ↔ (s.toList.length ∈ lens ∧ (∀ c ∈ s.toList, c ∈ ['X', 'Y', 'Z']) ∧
    qs.length = s.toList.length ∧ qs.Pairwise (· < ·) ∧ ∀ q ∈ qs, q < n)
  /-- the number of entries -/
  count : d.length = (lens.map (fun k => 3 ^ k * n.choose k)).sum
  /-- the values -/
  value : ∀ (w : List Letter) (qs : List ℕ) (M : QMat n), ((letterStr w, qs), M) ∈ d → M = pauliWord (placed n w qs)
  /-- Hermitian, unitary and traceless -/
  herm : ∀ e ∈ d, e.2ᴴ = e.2
  unitary : ∀ e ∈ d, e.2 * e.2 = 1
  traceless : ∀ e ∈ d, e.2.trace = 0

end Oranssi.Spec
