import Verif.Spec.Algebra
import Verif.Spec.Cost

/-! # Specification: pairs of directions whose commutator is a three-qubit direction -/

namespace Oranssi.Spec

/-- A direction on `k` qubits of `n`: `k` letters X, Y, Z on an increasing tuple of qubits. -/
structure IsDirection (n k : ℕ) (w : List Letter) (q : List ℕ) : Prop where
  letters : w.length = k
  qubits : q.length = k
  noI : .I ∉ w
  increasing : q.Pairwise (· < ·)
  valid : ∀ x ∈ q, x < n

/-- The pair direction `(wb, qb)` shares exactly one qubit with `(wa, qa)`, and the commutator of the two is `i σ` times the three-qubit
direction `(w, q)`, with `σ = ±2`. -/
structure IsCandidate (n : ℕ) (wa : List Letter) (qa : List ℕ) (wb : List Letter) (qb : List ℕ) (w : List Letter) (q : List ℕ) (σ : ℝ) : Prop where
  pair : IsDirection n 2 wb qb
  triple : IsDirection n 3 w q
  shared : (qb.filter (fun x => x ∈ qa)).length = 1
  sign : σ = 2 ∨ σ = -2
  comm : pauliWord (placed n wa qa) * pauliWord (placed n wb qb) - pauliWord (placed n wb qb) * pauliWord (placed n wa qa) =
    (Complex.I * (σ : ℂ)) • pauliWord (placed n w q)

/-- Step `i` of a schedule of `p` steps of the first kind followed by `q` steps of the second kind, repeated, is of the first kind. -/
def Scheduled (p q i : ℕ) : Prop := i % (p + q) < p

end Oranssi.Spec
