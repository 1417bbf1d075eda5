import Verif.Spec.Pauli
import Mathlib.Analysis.Complex.Norm
import Mathlib.LinearAlgebra.Matrix.ConjTranspose

/-! # Symmetries that combine a Pauli word with complex conjugation -/

namespace Oranssi.Spec

open scoped Matrix

/-- The complex conjugate of a matrix. -/
noncomputable def conjM {n : ℕ} (A : QMat n) : QMat n := A.map (starRingEnd ℂ)

/-- The matrix is unchanged by conjugation followed by the word `w`. For the word without letters: the matrix is real. -/
def ConjSymmetric {n : ℕ} (w : Fin n → Letter) (A : QMat n) : Prop := pauliWord w * conjM A = A * pauliWord w

/-- The matrix changes its sign under conjugation followed by the word `w`. -/
def ConjOdd {n : ℕ} (w : Fin n → Letter) (A : QMat n) : Prop := pauliWord w * conjM A = -(A * pauliWord w)

/-- The state is unchanged, up to a phase, by conjugation followed by the word `w`. For the word without letters: the amplitudes are real, up to a phase. -/
def ConjInvariant {n : ℕ} (w : Fin n → Letter) (φ : Fin (2 ^ n) → ℂ) : Prop := ∃ c : ℂ, ‖c‖ = 1 ∧ pauliWord w *ᵥ star φ = c • φ

end Oranssi.Spec
