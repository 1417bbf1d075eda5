import Verif.Spec.Conjugation
import Verif.Props.GreedySymmetry
import Verif.Props.Tfim
import Mathlib.Analysis.Normed.Algebra.MatrixExponential

/-! # Complex conjugation of matrices and states -/

namespace Oranssi

open Spec
open scoped Matrix

variable {n : ℕ}

theorem conjM_mul (A B : QMat n) : conjM (A * B) = conjM A * conjM B := Matrix.map_mul

theorem conjM_add (A B : QMat n) : conjM (A + B) = conjM A + conjM B := Matrix.map_add _ (map_add _) A B

theorem conjM_smul (c : ℂ) (A : QMat n) : conjM (c • A) = starRingEnd ℂ c • conjM A := by
  ext i j
  simp [conjM]

theorem conjM_sub (A B : QMat n) : conjM (A - B) = conjM A - conjM B := Matrix.map_sub _ (map_sub _) A B

theorem conjM_zero : conjM (0 : QMat n) = 0 := by
  ext i j
  simp [conjM]

theorem conjM_sum {ι : Type} (s : Finset ι) (A : ι → QMat n) : conjM (∑ i ∈ s, A i) = ∑ i ∈ s, conjM (A i) := by
  ext i j
  simp [conjM, Matrix.sum_apply]

theorem conjM_exp (A : QMat n) : conjM (NormedSpace.exp A) = NormedSpace.exp (conjM A) := by
  have h : ∀ B : QMat n, conjM B = (Bᴴ)ᵀ := fun B => rfl
  rw [h, h, ← Matrix.exp_conjTranspose, ← Matrix.exp_transpose]

theorem conjM_conjTranspose (A : QMat n) : conjM Aᴴ = (conjM A)ᴴ := rfl

theorem conjM_mulVec (A : QMat n) (φ : Ket n) : star (A *ᵥ φ) = conjM A *ᵥ star φ := by
  funext i
  simp only [Matrix.mulVec, dotProduct, Pi.star_apply, conjM, Matrix.map_apply, star_sum, star_mul']
  rfl

/-- The sign that a letter gets when it is conjugated. -/
def conjSign : Letter → ℂ
  | .Y => -1
  | _ => 1

theorem conjM_pauliWord (v : Fin n → Letter) : conjM (pauliWord v) = (∏ q, conjSign (v q)) • pauliWord v := by
  ext i j
  simp only [conjM, Matrix.map_apply, Matrix.smul_apply, smul_eq_mul, pauliWord, tensor, map_prod]
  rw [← Finset.prod_mul_distrib]
  refine Finset.prod_congr rfl fun q _ => ?_
  generalize (⟨bit n i q, Nat.mod_lt _ (by decide)⟩ : Fin 2) = x
  generalize (⟨bit n j q, Nat.mod_lt _ (by decide)⟩ : Fin 2) = y
  cases v q <;> fin_cases x <;> fin_cases y <;> simp [Letter.mat, conjSign]

/-- Every Pauli word is symmetric or odd. -/
theorem word_sym_or_odd (w v : Fin n → Letter) : ConjSymmetric w (pauliWord v) ∨ ConjOdd w (pauliWord v) := by
  have h4 : (∏ q, conjSign (v q)) = 1 ∨ (∏ q, conjSign (v q)) = -1 := by
    refine Finset.prod_induction _ (fun z => z = 1 ∨ z = -1) ?_ (.inl rfl) (fun q _ => ?_)
    · rintro a b (rfl | rfl) (rfl | rfl) <;> simp
    · cases v q <;> simp [conjSign]
  rw [ConjSymmetric, ConjOdd, conjM_pauliWord, mul_smul_comm]
  rcases h4 with h | h <;> rcases pauliWord_comm_or w v with h' | h' <;> rw [h, h'] <;> simp

variable {w : Fin n → Letter}

theorem Spec.ConjSymmetric.mul {A B : QMat n} (hA : ConjSymmetric w A) (hB : ConjSymmetric w B) : ConjSymmetric w (A * B) := by
  rw [ConjSymmetric, conjM_mul, ← mul_assoc, hA, mul_assoc, hB, mul_assoc]

theorem Spec.ConjSymmetric.add {A B : QMat n} (hA : ConjSymmetric w A) (hB : ConjSymmetric w B) : ConjSymmetric w (A + B) := by
  rw [ConjSymmetric, conjM_add, mul_add, hA, hB, add_mul]

theorem conjSymmetric_zero : ConjSymmetric w (0 : QMat n) := by rw [ConjSymmetric, conjM_zero, mul_zero, zero_mul]

theorem conjSymmetric_sum : ∀ {l : List (QMat n)}, (∀ A ∈ l, ConjSymmetric w A) → ConjSymmetric w l.sum
  | [], _ => conjSymmetric_zero
  | A :: l, h => by
    rw [List.sum_cons]
    exact (h A (by simp)).add (conjSymmetric_sum fun B hB => h B (by simp [hB]))

theorem Spec.ConjSymmetric.real_smul {A : QMat n} (hA : ConjSymmetric w A) (r : ℝ) : ConjSymmetric w ((r : ℂ) • A) := by
  rw [ConjSymmetric, conjM_smul, Complex.conj_ofReal, mul_smul_comm, hA, smul_mul_assoc]

theorem Spec.ConjOdd.imag_smul {A : QMat n} (hA : ConjOdd w A) (r : ℝ) : ConjSymmetric w ((-Complex.I * (r : ℂ)) • A) := by
  rw [ConjSymmetric, conjM_smul, map_mul, map_neg, Complex.conj_I, Complex.conj_ofReal, mul_smul_comm, hA, smul_mul_assoc]
  module

theorem Spec.ConjSymmetric.exp {A : QMat n} (hA : ConjSymmetric w A) : ConjSymmetric w (NormedSpace.exp A) := by
  rw [ConjSymmetric, conjM_exp]
  exact exp_semiconj (X := pauliWord w) hA

/-- A symmetric matrix maps invariant states to invariant states. -/
theorem Spec.ConjSymmetric.mulVec {A : QMat n} (hA : ConjSymmetric w A) {φ : Ket n} (hφ : ConjInvariant w φ) : ConjInvariant w (A *ᵥ φ) := by
  obtain ⟨c, hc, h⟩ := hφ
  refine ⟨c, hc, ?_⟩
  have e : pauliWord w *ᵥ star (A *ᵥ φ) = A *ᵥ (pauliWord w *ᵥ star φ) := by
    rw [conjM_mulVec, Matrix.mulVec_mulVec, hA, Matrix.mulVec_mulVec]
  exact e.trans (by rw [h, Matrix.mulVec_smul])

/-- The expectation of a symmetric matrix in an invariant state is real, that of an odd matrix is imaginary. -/
theorem expect_conj {M M' : QMat n} (h : pauliWord w * conjM M = M' * pauliWord w) {φ : Ket n} (hφ : ConjInvariant w φ) :
    starRingEnd ℂ (star φ ⬝ᵥ (M *ᵥ φ)) = star φ ⬝ᵥ (M' *ᵥ φ) := by
  obtain ⟨c, hc, hφ⟩ := hφ
  have hsq : pauliWord w * pauliWord w = 1 := pauliWord_sq w
  have hcc : c * starRingEnd ℂ c = 1 := by rw [Complex.mul_conj, Complex.normSq_eq_norm_sq, hc]; norm_num
  have hM : M' = pauliWord w * conjM M * pauliWord w := by rw [h, mul_assoc, hsq, mul_one]
  have hW : pauliWord w *ᵥ φ = starRingEnd ℂ c • star φ := by
    have e : pauliWord w *ᵥ (pauliWord w *ᵥ star φ) = c • (pauliWord w *ᵥ φ) := by rw [hφ, Matrix.mulVec_smul]
    rw [Matrix.mulVec_mulVec, hsq, Matrix.one_mulVec] at e
    rw [e, smul_smul, mul_comm, hcc, one_smul]
  have hW' : star φ ᵥ* pauliWord w = c • φ := by
    have e : star (pauliWord w *ᵥ φ) = c • φ := by
      rw [hW, star_smul, star_star]
      congr 1
      exact Complex.conj_conj c
    rw [← e, Matrix.star_mulVec, (pauliWord_herm w)]
  have e1 : starRingEnd ℂ (star φ ⬝ᵥ (M *ᵥ φ)) = φ ⬝ᵥ (conjM M *ᵥ star φ) := by
    rw [← conjM_mulVec]
    change star (star φ ⬝ᵥ (M *ᵥ φ)) = _
    rw [Matrix.star_dotProduct, dotProduct_comm, star_star]
  rw [e1, hM, ← Matrix.mulVec_mulVec, ← Matrix.mulVec_mulVec, Matrix.dotProduct_mulVec (star φ), hW', hW,
    Matrix.mulVec_smul, smul_dotProduct, dotProduct_smul, smul_smul, hcc, one_smul]

end Oranssi
