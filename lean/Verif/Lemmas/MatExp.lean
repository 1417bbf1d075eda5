import Mathlib.Analysis.Normed.Algebra.MatrixExponential
import Mathlib.Analysis.SpecialFunctions.Trigonometric.Series
import Mathlib.LinearAlgebra.Matrix.Hermitian
import Mathlib.Analysis.Complex.Basic

/-! Matrix exponentials of the special forms that occur in the code. -/

namespace Oranssi
open scoped Matrix Nat

variable {ι : Type*} [Fintype ι] [DecidableEq ι]

/-- Exponential of a multiple of an involution. -/
theorem exp_smul_involution (O : Matrix ι ι ℂ) (hO : O * O = 1) (z : ℂ) :
    NormedSpace.exp (z • O) = Complex.cosh z • (1 : Matrix ι ι ℂ) + Complex.sinh z • O := by
  have cong : ∀ {f g : ℕ → Matrix ι ι ℂ} {a : Matrix ι ι ℂ}, HasSum g a → f = g → HasSum f a := by
    intro f g a h hfg; rw [hfg]; exact h
  rw [NormedSpace.exp_eq_tsum ℂ]
  refine HasSum.tsum_eq ?_
  refine HasSum.even_add_odd ?_ ?_
  · have h := (Complex.hasSum_cosh z).smul_const (1 : Matrix ι ι ℂ)
    refine (cong h (funext fun n => ?_))
    rw [smul_pow, pow_mul O, pow_two, hO, one_pow, smul_smul, div_eq_inv_mul]
  · have h := (Complex.hasSum_sinh z).smul_const O
    refine (cong h (funext fun n => ?_))
    rw [smul_pow, pow_succ O, pow_mul O, pow_two, hO, one_pow, one_mul, smul_smul, div_eq_inv_mul]

/-- `exp(-i θ O)` for an involution. -/
theorem exp_neg_I_smul_involution (O : Matrix ι ι ℂ) (hO : O * O = 1) (θ : ℝ) :
    NormedSpace.exp ((-Complex.I * θ) • O) =
      (Real.cos θ : ℂ) • (1 : Matrix ι ι ℂ) - (Complex.I * Real.sin θ) • O := by
  rw [exp_smul_involution O hO, neg_mul, Complex.cosh_neg, Complex.sinh_neg, mul_comm Complex.I, Complex.cosh_mul_I,
    Complex.sinh_mul_I, neg_smul, ← sub_eq_add_neg, Complex.ofReal_cos, Complex.ofReal_sin, mul_comm]

theorem exp_mul_exp_neg (A : Matrix ι ι ℂ) : NormedSpace.exp A * NormedSpace.exp (-A) = 1 := by
  rw [← Matrix.exp_add_of_commute _ _ (Commute.neg_right (Commute.refl A)), add_neg_cancel, NormedSpace.exp_zero]

/-- The exponential of a skew-Hermitian matrix is unitary. -/
theorem exp_skew_unitary (A : Matrix ι ι ℂ) (hA : Aᴴ = -A) :
    (NormedSpace.exp A)ᴴ * NormedSpace.exp A = 1 ∧ NormedSpace.exp A * (NormedSpace.exp A)ᴴ = 1 := by
  rw [← Matrix.exp_conjTranspose, hA]
  refine ⟨?_, exp_mul_exp_neg A⟩
  have := exp_mul_exp_neg (-A)
  rwa [neg_neg] at this

/-- `V diag(exp(a s)) V† = exp(a V diag(s) V†)` for a unitary `V`: the result of exponentiating through an
eigendecomposition does not depend on the decomposition. -/
theorem eig_exp (V : Matrix ι ι ℂ) (hV : Vᴴ * V = 1) (s : ι → ℂ) (a : ℂ) :
    V * Matrix.diagonal (fun i => Complex.exp (a * s i)) * Vᴴ = NormedSpace.exp (a • (V * Matrix.diagonal s * Vᴴ)) := by
  have hV' : V * Vᴴ = 1 := mul_eq_one_comm.1 hV
  have hinv : V⁻¹ = Vᴴ := Matrix.inv_eq_right_inv hV'
  have hu : IsUnit V := ⟨⟨V, Vᴴ, hV', hV⟩, rfl⟩
  have h := Matrix.exp_conj V (a • Matrix.diagonal s) hu
  rw [hinv] at h
  rw [show a • (V * Matrix.diagonal s * Vᴴ) = V * (a • Matrix.diagonal s) * Vᴴ by
    rw [Matrix.mul_smul, Matrix.smul_mul], h, ← Matrix.diagonal_smul, Matrix.exp_diagonal]
  congr 3
  funext i
  rw [Pi.coe_exp]
  simp [Complex.exp_eq_exp_ℂ]

end Oranssi
