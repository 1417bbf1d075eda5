import Verif.Spec.Cost

/-! # Eigenspaces of conserved quantities -/

namespace Oranssi.Spec
open scoped Matrix

/-- The state `φ` lies in the eigenspace of the operator `Q` with the eigenvalue `c`. -/
def InSector {n : ℕ} (Q : QMat n) (c : ℂ) (φ : Fin (2 ^ n) → ℂ) : Prop := Q *ᵥ φ = c • φ

end Oranssi.Spec
