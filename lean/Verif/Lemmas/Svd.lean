import Verif.Model.LieLayers
import Verif.Spec.Layers
import Mathlib.Analysis.Matrix.Spectrum
import Mathlib.Analysis.Matrix.PosDef
import Mathlib.Analysis.InnerProductSpace.PiL2

/-! Every complex square matrix has a singular value decomposition, so the contract of `np.linalg.svd` can be met. -/

namespace Oranssi
open Spec
open scoped Matrix ComplexOrder

theorem exists_svd {ι : Type*} [Fintype ι] [DecidableEq ι] (A : Matrix ι ι ℂ) :
    ∃ (P : Matrix ι ι ℂ) (s : ι → ℝ) (Q : Matrix ι ι ℂ), Pᴴ * P = 1 ∧ Qᴴ * Q = 1 ∧ (∀ i, 0 ≤ s i) ∧ A = P * Matrix.diagonal (fun i => (s i : ℂ)) * Q := by
  have hH : (Aᴴ * A).IsHermitian := Matrix.isHermitian_conjTranspose_mul_self A
  have hps : (Aᴴ * A).PosSemidef := Matrix.posSemidef_conjTranspose_mul_self A
  obtain ⟨X, hX⟩ : ∃ X : Matrix ι ι ℂ, X = (hH.eigenvectorUnitary : Matrix ι ι ℂ) := ⟨_, rfl⟩
  have hX1 : Xᴴ * X = 1 := by rw [hX]; exact Unitary.coe_star_mul_self _
  have hX2 : X * Xᴴ = 1 := by rw [hX]; exact Unitary.coe_mul_star_self _
  have hsp : Aᴴ * A = X * Matrix.diagonal (fun i => ((hH.eigenvalues i : ℝ) : ℂ)) * Xᴴ := by
    have := hH.spectral_theorem
    rw [Unitary.conjStarAlgAut_apply] at this
    rw [hX]
    exact this
  have hpos : ∀ i, 0 ≤ hH.eigenvalues i := hps.eigenvalues_nonneg
  generalize hH.eigenvalues = l at hsp hpos
  have hB : (A * X)ᴴ * (A * X) = Matrix.diagonal (fun i => ((l i : ℝ) : ℂ)) := by
    rw [Matrix.conjTranspose_mul, Matrix.mul_assoc, ← Matrix.mul_assoc Aᴴ, hsp]
    simp only [Matrix.mul_assoc, hX1, Matrix.mul_one]
    rw [← Matrix.mul_assoc, hX1, Matrix.one_mul]
  have hBij : ∀ i j, ∑ k, star ((A * X) k i) * (A * X) k j = if i = j then ((l i : ℝ) : ℂ) else 0 := by
    intro i j
    have := congrFun (congrFun hB i) j
    rw [Matrix.mul_apply, Matrix.diagonal_apply] at this
    simpa [Matrix.conjTranspose_apply] using this
  let v : ι → EuclideanSpace ℂ ι := fun i => WithLp.toLp 2 (fun k => (((Real.sqrt (l i))⁻¹ : ℝ) : ℂ) * (A * X) k i)
  let S : Set ι := {i | l i ≠ 0}
  have hv : Orthonormal ℂ (S.domRestrict v) := by
    rw [orthonormal_iff_ite]
    rintro ⟨i, hi⟩ ⟨j, hj⟩
    have e : inner ℂ (v i) (v j) = (((Real.sqrt (l i))⁻¹ : ℝ) : ℂ) * (((Real.sqrt (l j))⁻¹ : ℝ) : ℂ) * ∑ k, star ((A * X) k i) * (A * X) k j := by
      simp only [v, PiLp.inner_apply, RCLike.inner_apply, map_mul, Complex.conj_ofReal, Finset.mul_sum]
      refine Finset.sum_congr rfl fun k _ => ?_
      change _ * (_ * star _) = _
      ring
    change inner ℂ (v i) (v j) = _
    rw [e, hBij]
    by_cases hij : i = j
    · subst hij
      rw [if_pos rfl, if_pos rfl]
      have h0 : 0 < l i := lt_of_le_of_ne (hpos i) (Ne.symm hi)
      have hs : Real.sqrt (l i) ≠ 0 := (Real.sqrt_pos.mpr h0).ne'
      have : (Real.sqrt (l i))⁻¹ * (Real.sqrt (l i))⁻¹ * l i = 1 := by
        nth_rewrite 3 [← Real.mul_self_sqrt (hpos i)]
        field_simp
      exact_mod_cast this
    · rw [if_neg hij, if_neg (by simpa using hij), mul_zero]
  obtain ⟨b, hb⟩ := hv.exists_orthonormalBasis_extension_of_card_eq (by simp)
  let P : Matrix ι ι ℂ := Matrix.of fun k i => b i k
  have hP : Pᴴ * P = 1 := by
    ext i j
    have := (orthonormal_iff_ite.mp b.orthonormal) i j
    rw [PiLp.inner_apply] at this
    rw [Matrix.mul_apply, Matrix.one_apply, ← this]
    refine Finset.sum_congr rfl fun k _ => ?_
    simp only [P, Matrix.conjTranspose_apply, Matrix.of_apply, RCLike.inner_apply]
    exact mul_comm _ _
  have hPB : P * Matrix.diagonal (fun i => ((Real.sqrt (l i) : ℝ) : ℂ)) = A * X := by
    ext k i
    rw [Matrix.mul_diagonal]
    by_cases hi : l i = 0
    · have hz := hBij i i
      rw [if_pos rfl, hi] at hz
      have hz' : ∑ k, ‖(A * X) k i‖ ^ 2 = 0 := by
        have : ((∑ k, ‖(A * X) k i‖ ^ 2 : ℝ) : ℂ) = 0 := by
          rw [Complex.ofReal_zero] at hz
          rw [← hz]
          push_cast
          refine Finset.sum_congr rfl fun k _ => ?_
          exact (Complex.conj_mul' _).symm
        exact_mod_cast this
      have h1 := (Finset.sum_eq_zero_iff_of_nonneg (fun k _ => by positivity)).mp hz' k (Finset.mem_univ k)
      have h2 : (A * X) k i = 0 := by simpa using h1
      rw [h2, hi]
      simp
    · have h0 : 0 < l i := lt_of_le_of_ne (hpos i) (Ne.symm hi)
      have hs : Real.sqrt (l i) ≠ 0 := (Real.sqrt_pos.mpr h0).ne'
      simp only [P, Matrix.of_apply]
      rw [hb i hi]
      simp only [v]
      have : (((Real.sqrt (l i))⁻¹ : ℝ) : ℂ) * ((Real.sqrt (l i) : ℝ) : ℂ) = 1 := by
        exact_mod_cast inv_mul_cancel₀ hs
      rw [mul_right_comm, this, one_mul]
  refine ⟨P, fun i => Real.sqrt (l i), Xᴴ, hP, by rw [Matrix.conjTranspose_conjTranspose]; exact hX2, fun i => Real.sqrt_nonneg _, ?_⟩
  rw [hPB, Matrix.mul_assoc, hX2, Matrix.mul_one]

theorem exists_validSvd (n : ℕ) : ∃ svd : SvdFn n, ValidSvd svd := by
  choose P s Q h1 h2 h3 h4 using fun A : QMat n => exists_svd A
  exact ⟨fun A => (P A, s A, Q A), fun A => ⟨h1 A, h2 A, h3 A, h4 A⟩⟩

end Oranssi
