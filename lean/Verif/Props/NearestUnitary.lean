import Verif.Lemmas.LieLayers
import Verif.Lemmas.Svd

/-! # C77: `_project_onto_unitary` returns the nearest unitary matrix -/

namespace Oranssi
open Spec
open scoped Matrix

/-- The squared distance of two matrices, entry by entry (the Frobenius norm of the difference, squared). -/
noncomputable def Spec.dist2 {n : ℕ} (A B : QMat n) : ℝ := ∑ i, ∑ j, ‖A i j - B i j‖ ^ 2

variable {n : ℕ}

theorem dist2_trace (A B : QMat n) : dist2 A B = (((A - B)ᴴ * (A - B)).trace).re := by
  simp only [dist2, Matrix.trace, Matrix.diag_apply, Matrix.mul_apply, Matrix.conjTranspose_apply, Complex.re_sum, Matrix.sub_apply]
  rw [Finset.sum_comm]
  refine Finset.sum_congr rfl fun i _ => Finset.sum_congr rfl fun j _ => ?_
  rw [Complex.star_def, ← Complex.normSq_eq_conj_mul_self, Complex.ofReal_re, Complex.normSq_eq_norm_sq]

theorem dist2_unitary (A W : QMat n) (hW : Unitary W) :
    dist2 A W = ((Aᴴ * A).trace).re + ((1 : QMat n).trace).re - 2 * ((Aᴴ * W).trace).re := by
  have h : ((Wᴴ * A).trace).re = ((Aᴴ * W).trace).re := by
    rw [← Complex.conj_re, ← Complex.star_def, ← Matrix.trace_conjTranspose, Matrix.conjTranspose_mul, Matrix.conjTranspose_conjTranspose]
  rw [dist2_trace, Matrix.conjTranspose_sub, Matrix.sub_mul, Matrix.mul_sub, Matrix.mul_sub, show Wᴴ * W = 1 from hW]
  simp only [Matrix.trace_sub, Complex.sub_re, h]
  ring

theorem trace_svd (P Q W : QMat n) (s : Fin (2 ^ n) → ℝ) :
    (((P * Matrix.diagonal (fun i => (s i : ℂ)) * Q)ᴴ * W).trace).re = ∑ i, s i * ((Pᴴ * W * Qᴴ) i i).re := by
  have hD : (Matrix.diagonal (fun i => (s i : ℂ)))ᴴ = (Matrix.diagonal (fun i => (s i : ℂ)) : QMat n) := by
    rw [Matrix.diagonal_conjTranspose]; congr 1; funext i; simp
  rw [Matrix.conjTranspose_mul, Matrix.conjTranspose_mul, hD, Matrix.mul_assoc, Matrix.trace_mul_comm, Matrix.mul_assoc, Matrix.mul_assoc, ← Matrix.mul_assoc Pᴴ,
    Matrix.trace, Complex.re_sum]
  refine Finset.sum_congr rfl fun i _ => ?_
  rw [Matrix.diag_apply, Matrix.diagonal_mul, Complex.re_ofReal_mul]

theorem unitary_diag_le {Z : QMat n} (hZ : Unitary Z) (i : Fin (2 ^ n)) : (Z i i).re ≤ 1 ∧ ((Z i i).re = 1 → ∀ j, Z j i = (1 : QMat n) j i) := by
  have h : ∑ j, ‖Z j i‖ ^ 2 = 1 := by
    have := congrArg Complex.re (congrFun (congrFun hZ i) i)
    rw [Matrix.mul_apply, Matrix.one_apply_eq, Complex.re_sum, Complex.one_re] at this
    rw [← this]
    refine Finset.sum_congr rfl fun j _ => ?_
    rw [Matrix.conjTranspose_apply, Complex.star_def, ← Complex.normSq_eq_conj_mul_self, Complex.ofReal_re, Complex.normSq_eq_norm_sq]
  have h1 : ‖Z i i‖ ^ 2 ≤ 1 := by
    rw [← h]; exact Finset.single_le_sum (f := fun j => ‖Z j i‖ ^ 2) (fun j _ => by positivity) (Finset.mem_univ i)
  have h2 : ‖Z i i‖ ≤ 1 := by nlinarith [norm_nonneg (Z i i)]
  refine ⟨(Complex.re_le_norm _).trans h2, fun h3 j => ?_⟩
  have h4 : ‖Z i i‖ ^ 2 = 1 := by
    have := Complex.re_le_norm (Z i i)
    nlinarith [norm_nonneg (Z i i)]
  by_cases hj : j = i
  · subst hj
    rw [Matrix.one_apply_eq]
    apply Complex.ext
    · rw [h3, Complex.one_re]
    · have := Complex.normSq_eq_norm_sq (Z j j)
      rw [Complex.normSq_apply, h3, h4] at this
      rw [Complex.one_im]
      nlinarith
  · rw [Matrix.one_apply_ne hj]
    have h5 : ‖Z i i‖ ^ 2 + ‖Z j i‖ ^ 2 ≤ ∑ k, ‖Z k i‖ ^ 2 := by
      rw [← Finset.sum_pair (f := fun k => ‖Z k i‖ ^ 2) (Ne.symm hj)]
      exact Finset.sum_le_sum_of_subset_of_nonneg (Finset.subset_univ _) fun k _ _ => by positivity
    rw [h, h4] at h5
    have : ‖Z j i‖ ^ 2 = 0 := le_antisymm (by linarith) (by positivity)
    exact norm_eq_zero.1 (pow_eq_zero_iff (by norm_num)|>.1 this)

theorem conj_unitary {P Q W : QMat n} (hP : Unitary P) (hQ : Unitary Q) (hW : Unitary W) : Unitary (Pᴴ * W * Qᴴ) := by
  have h : ∀ {A : QMat n}, Unitary A → Unitary Aᴴ := fun {A} hA => by
    rw [Unitary, Matrix.conjTranspose_conjTranspose]; exact hA.right
  exact ((h hP).mul hW).mul (h hQ)

/-- C77.  The matrix returned is unitary and no unitary matrix is closer to the argument. -/
theorem C77_nearest {svd : SvdFn n} (h : ValidSvd svd) (A : QMat n) :
    Unitary (projectOntoUnitary svd A) ∧ ∀ W, Unitary W → dist2 A (projectOntoUnitary svd A) ≤ dist2 A W := by
  refine ⟨projectOntoUnitary_unitary h A, fun W hW => ?_⟩
  obtain ⟨hP, hQ, hs, e⟩ := h A
  rw [dist2_unitary A _ (projectOntoUnitary_unitary h A), dist2_unitary A W hW]
  have h1 : ((Aᴴ * W).trace).re ≤ ((Aᴴ * projectOntoUnitary svd A).trace).re := by
    conv_lhs => rw [e]
    rw [projectOntoUnitary]
    conv_rhs => rw [show Aᴴ = ((svd A).1 * Matrix.diagonal (fun i => ((svd A).2.1 i : ℂ)) * (svd A).2.2)ᴴ from congrArg _ e]
    rw [trace_svd, trace_svd]
    refine Finset.sum_le_sum fun i _ => mul_le_mul_of_nonneg_left ?_ (hs i)
    have h2 : (svd A).1ᴴ * ((svd A).1 * (svd A).2.2) * (svd A).2.2ᴴ = 1 := by
      rw [← Matrix.mul_assoc, show (svd A).1ᴴ * (svd A).1 = 1 from hP, Matrix.one_mul, hQ.right]
    rw [h2, Matrix.one_apply_eq, Complex.one_re]
    exact (unitary_diag_le (conj_unitary hP hQ hW) i).1
  linarith

/-- C77.  For an invertible argument it is the only nearest unitary matrix. -/
theorem C77_unique {svd : SvdFn n} (h : ValidSvd svd) (A : QMat n) (hA : IsUnit A) (W : QMat n) (hW : Unitary W)
    (hd : dist2 A W ≤ dist2 A (projectOntoUnitary svd A)) : W = projectOntoUnitary svd A := by
  obtain ⟨hP, hQ, hs, e⟩ := h A
  set P := (svd A).1
  set Q := (svd A).2.2
  set s := (svd A).2.1
  have hpos : ∀ i, 0 < s i := by
    intro i
    refine lt_of_le_of_ne (hs i) fun h0 => ?_
    have hdet : A.det ≠ 0 := ((Matrix.isUnit_iff_isUnit_det _).1 hA).ne_zero
    apply hdet
    rw [e, Matrix.det_mul, Matrix.det_mul, Matrix.det_diagonal, Finset.prod_eq_zero (Finset.mem_univ i) (by rw [← h0]; simp)]
    simp
  set Z := Pᴴ * W * Qᴴ with hZ
  have hZu : Unitary Z := conj_unitary hP hQ hW
  have h2 : Pᴴ * (P * Q) * Qᴴ = 1 := by
    rw [← Matrix.mul_assoc, show Pᴴ * P = 1 from hP, Matrix.one_mul, hQ.right]
  have hsum : ∑ i, s i * (1 - (Z i i).re) ≤ 0 := by
    rw [dist2_unitary A _ (projectOntoUnitary_unitary h A), dist2_unitary A W hW] at hd
    have e1 : ((Aᴴ * W).trace).re = ∑ i, s i * (Z i i).re := by rw [e, trace_svd]
    have e2 : ((Aᴴ * projectOntoUnitary svd A).trace).re = ∑ i, s i := by
      rw [show Aᴴ = (P * Matrix.diagonal (fun i => (s i : ℂ)) * Q)ᴴ from congrArg _ e, trace_svd, projectOntoUnitary]
      change ∑ i, s i * ((Pᴴ * (P * Q) * Qᴴ) i i).re = _
      rw [h2]
      simp
    simp only [mul_sub, mul_one, Finset.sum_sub_distrib]
    linarith
  have hnn : ∀ i ∈ Finset.univ, 0 ≤ s i * (1 - (Z i i).re) := fun i _ =>
    mul_nonneg (hs i) (by linarith [(unitary_diag_le hZu i).1])
  have hz := (Finset.sum_eq_zero_iff_of_nonneg hnn).1 (le_antisymm hsum (Finset.sum_nonneg hnn))
  have hZ1 : Z = 1 := by
    ext j i
    refine (unitary_diag_le hZu i).2 ?_ j
    have := (mul_eq_zero.1 (hz i (Finset.mem_univ i))).resolve_left (hpos i).ne'
    linarith
  calc W = P * Pᴴ * W * (Qᴴ * Q) := by rw [hP.right, show Qᴴ * Q = 1 from hQ, Matrix.one_mul, Matrix.mul_one]
    _ = P * Z * Q := by rw [hZ]; simp only [Matrix.mul_assoc]
    _ = P * Q := by rw [hZ1, Matrix.mul_one]

/-- C77.  So for an invertible argument the result does not depend on which singular value decomposition numpy returns, and the projection of a
unitary matrix is the matrix itself. -/
theorem C77_svd_irrelevant {svd svd' : SvdFn n} (h : ValidSvd svd) (h' : ValidSvd svd') (A : QMat n) (hA : IsUnit A) :
    projectOntoUnitary svd A = projectOntoUnitary svd' A :=
  C77_unique h' A hA _ (projectOntoUnitary_unitary h A) ((C77_nearest h A).2 _ (projectOntoUnitary_unitary h' A))

/-- For the zero matrix the result does depend on it: every unitary matrix is nearest. -/
theorem C77_singular : ∃ svd svd' : SvdFn 1, ValidSvd svd ∧ ValidSvd svd' ∧ projectOntoUnitary svd 0 ≠ projectOntoUnitary svd' 0 := by
  obtain ⟨svd, h⟩ := exists_validSvd 1
  have hv : ∀ c : ℂ, star c * c = 1 → ValidSvd (fun A : QMat 1 => if A = 0 then ((c • 1, fun _ => 0, 1) : QMat 1 × _ × _) else svd A) := by
    intro c hc A
    by_cases hA : A = 0
    · simp only [hA, if_true]
      refine ⟨?_, by simp [Unitary], by simp, by simp⟩
      rw [Unitary, Matrix.conjTranspose_smul, Matrix.conjTranspose_one, smul_mul_smul_comm, hc, Matrix.one_mul, one_smul]
    · simp only [hA, if_false]
      exact h A
  refine ⟨_, _, hv 1 (by simp), hv (-1) (by simp), fun hh => ?_⟩
  simp only [projectOntoUnitary, if_true, Matrix.mul_one] at hh
  have := congrFun (congrFun hh 0) 0
  norm_num [Matrix.smul_apply] at this

/-- Hypotheses of C77: twice a unitary matrix is invertible and not unitary; its projection is the unitary matrix. -/
example : ∃ svd : SvdFn 2, ValidSvd svd ∧ IsUnit ((2 : ℂ) • (1 : QMat 2)) ∧ ¬ Unitary ((2 : ℂ) • (1 : QMat 2)) := by
  obtain ⟨svd, h⟩ := exists_validSvd 2
  refine ⟨svd, h, ?_, fun hu => ?_⟩
  · exact (IsUnit.mk0 (2 : ℂ) (by norm_num)).map (algebraMap ℂ (QMat 2)) |> fun h => by rwa [Algebra.algebraMap_eq_smul_one] at h
  · have := congrFun (congrFun hu 0) 0
    norm_num [Matrix.mul_apply, Matrix.conjTranspose_apply, Matrix.one_apply] at this

end Oranssi
