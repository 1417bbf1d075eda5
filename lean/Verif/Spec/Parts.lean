import Verif.Spec.Pauli
import Verif.Spec.Algebra

/-! # Specification: parts of an operator along some of the Pauli words -/

namespace Oranssi.Spec
open scoped Matrix

/-- The qubits on which a word acts, in increasing order. -/
def actsOn {n : ℕ} (v : Fin n → Letter) : List (Fin n) := (List.finRange n).filter (fun i => v i ≠ .I)

/-- The letters of a word other than the identity, from the first qubit to the last. -/
def lettersIn {n : ℕ} (v : Fin n → Letter) : List Letter := (actsOn v).map v

/-- The component of an operator along a Pauli word. -/
noncomputable def component {n : ℕ} (M : QMat n) (v : Fin n → Letter) : ℂ := (pauliWord v * M).trace / 2 ^ n

/-- `K` consists of the components of `M` along the words in `S`. -/
def IsPart {n : ℕ} (S : (Fin n → Letter) → Prop) (M K : QMat n) : Prop :=
  (∀ v, S v → component K v = component M v) ∧ ∀ v, ¬ S v → component K v = 0

end Oranssi.Spec
