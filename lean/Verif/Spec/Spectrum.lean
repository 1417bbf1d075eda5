import Verif.Spec.Cost

/-! # Specification: eigenvalues of a Hamiltonian -/

namespace Oranssi.Spec
open scoped Matrix

/-- `μ` is an eigenvalue of `H`. -/
def IsEigenvalue {n : ℕ} (H : QMat n) (μ : ℝ) : Prop := ∃ v : Fin (2 ^ n) → ℂ, v ≠ 0 ∧ H *ᵥ v = (μ : ℂ) • v

/-- `x` lies between the smallest and the largest eigenvalue. -/
def InSpectralRange {n : ℕ} (H : QMat n) (x : ℝ) : Prop := (∃ μ, IsEigenvalue H μ ∧ μ ≤ x) ∧ ∃ μ, IsEigenvalue H μ ∧ x ≤ μ

end Oranssi.Spec
