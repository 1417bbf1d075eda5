import Verif.Spec.PauliOp
import Verif.Model.Pauli

/-! # Specification: what a `PauliMonomial` object denotes -/

namespace Oranssi
open Spec

/-- Data of a Pauli. -/
def Pauli.trip (p : Pauli) : ℕ × Fin 4 × ℂ := (p.alpha, p.gamma, p.coeff)

/-- What the constructor guarantees: sites strictly increasing. -/
structure Mono.WF (m : Mono) : Prop where
  sorted : m.locations.Pairwise (· < ·)

/-- The sites and indices of a monomial. -/
def Mono.word (m : Mono) : List (ℕ × Fin 4) := m.monomial.map (fun p => (p.alpha, p.gamma))

/-- The operator of the Paulis of a monomial with their own coefficients. -/
noncomputable def Mono.op (n : ℕ) (m : Mono) : QMat n := opOf n (m.monomial.map Pauli.trip)

/-- The operator of the bare word of a monomial. -/
noncomputable def Mono.wordOp (n : ℕ) (m : Mono) : QMat n := opOf n (m.word.map (fun p => (p.1, p.2, 1)))

/-- The operator denoted by a monomial: attribute `coeff` times its Pauli word. -/
noncomputable def Mono.den (n : ℕ) (m : Mono) : QMat n := m.coeff • m.wordOp n

/-- All sites are inside an `n`-qubit register. -/
def Mono.Fits (n : ℕ) (m : Mono) : Prop := ∀ i ∈ m.locations, i < n

/-- The attribute `coeff` is the product of the coefficients of the Paulis, as the constructor makes it. -/
def Mono.Consistent (m : Mono) : Prop := m.coeff = (m.monomial.map (·.coeff)).prod

end Oranssi
