import Verif.Spec.Adapt

/-! # Specification: a layer of rotations about one direction on several bonds -/

namespace Oranssi.Spec

/-- A direction of one or two letters with the qubits (in increasing order) it acts on. -/
def IsTerm (n : ℕ) (k : String × List ℕ) : Prop :=
  ∃ w : List Letter, (w.length = 1 ∨ w.length = 2) ∧ (∀ a ∈ w, a ≠ .I) ∧ k.1 = letterStr w ∧ k.2.length = w.length ∧
    k.2.Pairwise (· < ·) ∧ ∀ q ∈ k.2, q < n

/-- The Pauli operator of a term. -/
noncomputable def termOp (n : ℕ) (k : String × List ℕ) : QMat n := pauliWord (placed n (lettersOfStr k.1) k.2)

/-- The rotation by the angle `e.2` about the term `e.1`. -/
noncomputable def termRot (n : ℕ) (e : (String × List ℕ) × ℝ) : QMat n := rotOp n e.2 (lettersOfStr e.1.1) e.1.2

/-- `k` is one of the terms other than `prev`, and its gradient is as large as that of all others, up to `10⁻³` plus `10⁻⁵` of the largest. -/
def NearBest {n : ℕ} (H U : QMat n) (prev k : String × List ℕ) : Prop :=
  (IsTerm n k ∧ k ≠ prev) ∧ ∃ b, (IsTerm n b ∧ b ≠ prev) ∧
    (∀ c, IsTerm n c → c ≠ prev → |grad H U (termOp n c)| ≤ |grad H U (termOp n b)|) ∧
    |grad H U (termOp n b)| - |grad H U (termOp n k)| ≤ 1 / 1000 + 1 / 100000 * |grad H U (termOp n b)|

end Oranssi.Spec
