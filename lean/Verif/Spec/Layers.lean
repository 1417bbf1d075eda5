import Verif.Spec.Algebra

/-! # Specification: unitary matrices, singular value decompositions -/

namespace Oranssi.Spec
open scoped Matrix

/-- A square matrix is unitary. -/
def Unitary {n : ℕ} (U : QMat n) : Prop := Uᴴ * U = 1

/-- What `numpy.linalg.svd` guarantees: `U = P diag(s) Q` with unitary `P`, `Q` and `s ≥ 0`. -/
def ValidSvd {n : ℕ} (svd : QMat n → QMat n × (Fin (2 ^ n) → ℝ) × QMat n) : Prop :=
  ∀ U, Unitary (svd U).1 ∧ Unitary (svd U).2.2 ∧ (∀ i, 0 ≤ (svd U).2.1 i) ∧
    U = (svd U).1 * Matrix.diagonal (fun i => ((svd U).2.1 i : ℂ)) * (svd U).2.2

end Oranssi.Spec
