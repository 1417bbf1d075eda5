import Verif.Props.Descent
import Mathlib.Analysis.CStarAlgebra.Matrix
import Mathlib.Analysis.CStarAlgebra.Exponential
import Mathlib.Analysis.Calculus.MeanValue

/-! # How far a product of exponentials can be from its linear part, and what this does to the cost -/

namespace Oranssi
open Spec
open scoped Matrix

section abstract
variable {𝔸 : Type*} [NormedRing 𝔸] [StarRing 𝔸] [CStarRing 𝔸] [NormedAlgebra ℂ 𝔸] [StarModule ℂ 𝔸] [CompleteSpace 𝔸] [Nontrivial 𝔸]

omit [Nontrivial 𝔸] in
theorem exp_skew_mem {X : 𝔸} (hX : star X = -X) : NormedSpace.exp X ∈ unitary 𝔸 := by
  letI : NormedAlgebra ℚ 𝔸 := NormedAlgebra.restrictScalars ℚ ℂ 𝔸
  exact NormedSpace.exp_mem_unitary_of_mem_skewAdjoint (skewAdjoint.mem_iff.2 hX)

theorem norm_exp_skew {X : 𝔸} (hX : star X = -X) : ‖NormedSpace.exp X‖ = 1 := CStarRing.norm_of_mem_unitary (exp_skew_mem hX)

omit [CStarRing 𝔸] [CompleteSpace 𝔸] [Nontrivial 𝔸] in
theorem skew_smul {X : 𝔸} (hX : star X = -X) (t : ℝ) : star ((t : ℂ) • X) = -((t : ℂ) • X) := by
  rw [star_smul, hX]; simp

omit [StarRing 𝔸] [CStarRing 𝔸] [StarModule ℂ 𝔸] [Nontrivial 𝔸] in
theorem deriv_exp_line (X : 𝔸) (t : ℝ) :
    HasDerivAt (fun s : ℝ => NormedSpace.exp ((s : ℂ) • X)) (NormedSpace.exp ((t : ℂ) • X) * X) t := by
  have := HasDerivAt.scomp_of_eq (𝕜 := ℝ) t (hasDerivAt_exp_smul_const (𝕂 := ℂ) X (t : ℂ)) Complex.ofRealCLM.hasDerivAt rfl
  simp only [Complex.ofRealCLM_apply, Complex.ofReal_one, one_smul] at this
  exact this

/-- A unitary exponential moves by no more than its generator. -/
theorem norm_exp_sub_one {X : 𝔸} (hX : star X = -X) {t : ℝ} (ht : 0 ≤ t) : ‖NormedSpace.exp ((t : ℂ) • X) - 1‖ ≤ t * ‖X‖ := by
  have h := norm_image_sub_le_of_norm_deriv_le_segment' (f := fun s : ℝ => NormedSpace.exp ((s : ℂ) • X)) (a := 0) (b := t) (C := ‖X‖)
    (fun s _ => (deriv_exp_line X s).hasDerivWithinAt) (fun s _ => by
      refine (norm_mul_le _ _).trans ?_
      rw [norm_exp_skew (skew_smul hX s), one_mul]) t ⟨ht, le_rfl⟩
  simpa [mul_comm] using h

/-- The second order remainder of a unitary exponential. -/
theorem norm_exp_sub_linear {X : 𝔸} (hX : star X = -X) {t : ℝ} (ht : 0 ≤ t) :
    ‖NormedSpace.exp ((t : ℂ) • X) - 1 - (t : ℂ) • X‖ ≤ (t * ‖X‖) ^ 2 / 2 := by
  have hd : ∀ s : ℝ, HasDerivAt (fun s : ℝ => NormedSpace.exp ((s : ℂ) • X) - 1 - (s : ℂ) • X) ((NormedSpace.exp ((s : ℂ) • X) - 1) * X) s := by
    intro s
    have h1 : HasDerivAt (fun s : ℝ => (s : ℂ) • X) X s := by
      simpa using (Complex.ofRealCLM.hasDerivAt (x := s)).smul_const X
    have := ((deriv_exp_line X s).sub_const 1).sub h1
    rwa [show (NormedSpace.exp ((s : ℂ) • X) - 1) * X = NormedSpace.exp ((s : ℂ) • X) * X - X by rw [sub_mul, one_mul]]
  have h := image_norm_le_of_norm_deriv_right_le_deriv_boundary (a := 0) (b := t)
    (fun s _ => (hd s).continuousAt.continuousWithinAt) (fun s _ => (hd s).hasDerivWithinAt)
    (B := fun s => (s * ‖X‖) ^ 2 / 2) (B' := fun s => s * ‖X‖ ^ 2) (by simp)
    (fun s => by
      have := (((hasDerivAt_id s).mul_const ‖X‖).pow 2).div_const 2
      refine this.congr_deriv ?_
      simp; ring)
    (fun s hs => by
      refine (norm_mul_le _ _).trans ?_
      nlinarith [norm_exp_sub_one hX hs.1, norm_nonneg X])
    (x := t) ⟨ht, le_rfl⟩
  exact h

/-- The product of exponentials in the order in which the layers multiply. -/
theorem norm_fold {t : ℝ} (ht : 0 ≤ t) (V : 𝔸) (hV : ‖V‖ = 1) (b : ℝ) (B : 𝔸) (h1 : ‖V - 1‖ ≤ t * b) (h2 : ‖V - 1 - (t : ℂ) • B‖ ≤ (t * b) ^ 2 / 2)
    (hb : 0 ≤ b) :
    ∀ As : List 𝔸, (∀ A ∈ As, star A = -A) →
      ‖(As.map (fun A => NormedSpace.exp ((t : ℂ) • A))).foldl (fun U F => F * U) V - 1‖ ≤ t * (b + (As.map norm).sum) ∧
      ‖(As.map (fun A => NormedSpace.exp ((t : ℂ) • A))).foldl (fun U F => F * U) V - 1 - (t : ℂ) • (B + As.sum)‖ ≤ (t * (b + (As.map norm).sum)) ^ 2 / 2 := by
  intro As
  induction As generalizing V b B with
  | nil => intro _; simpa using ⟨h1, h2⟩
  | cons A As ih =>
    intro hA
    have hs := hA A List.mem_cons_self
    have e1 := norm_exp_sub_one hs ht
    have e2 := norm_exp_sub_linear hs ht
    have e3 := norm_exp_skew (skew_smul hs t)
    set F := NormedSpace.exp ((t : ℂ) • A) with hF
    have f1 : ‖F * V - 1‖ ≤ t * (b + ‖A‖) := by
      have : F * V - 1 = (F - 1) * V + (V - 1) := by noncomm_ring
      rw [this]
      refine (norm_add_le _ _).trans ?_
      have := norm_mul_le (F - 1) V
      rw [hV, mul_one] at this
      linarith
    have f2 : ‖F * V - 1 - (t : ℂ) • (B + A)‖ ≤ (t * (b + ‖A‖)) ^ 2 / 2 := by
      have : F * V - 1 - (t : ℂ) • (B + A) = (F - 1 - (t : ℂ) • A) + (F - 1) * (V - 1) + (V - 1 - (t : ℂ) • B) := by
        rw [smul_add]; noncomm_ring
      rw [this]
      refine (norm_add_le _ _).trans ?_
      have g1 := norm_add_le (F - 1 - (t : ℂ) • A) ((F - 1) * (V - 1))
      have g2 : ‖(F - 1) * (V - 1)‖ ≤ (t * ‖A‖) * (t * b) :=
        (norm_mul_le _ _).trans (mul_le_mul e1 h1 (norm_nonneg _) (by positivity))
      nlinarith
    have hFV : ‖F * V‖ = 1 := by
      have hu := exp_skew_mem (skew_smul hs t)
      rw [CStarRing.norm_mem_unitary_mul V hu, hV]
    have := ih (F * V) hFV (b + ‖A‖) (B + A) f1 f2 (by positivity) (fun a ha => hA a (List.mem_cons_of_mem _ ha))
    simp only [List.map_cons, List.foldl_cons, List.sum_cons, ← add_assoc, ← hF]
    exact this

theorem norm_fold_one {t : ℝ} (ht : 0 ≤ t) (As : List 𝔸) (hA : ∀ A ∈ As, star A = -A) :
    ‖(As.map (fun A => NormedSpace.exp ((t : ℂ) • A))).foldl (fun U F => F * U) 1 - 1‖ ≤ t * (As.map norm).sum ∧
    ‖(As.map (fun A => NormedSpace.exp ((t : ℂ) • A))).foldl (fun U F => F * U) 1 - 1 - (t : ℂ) • As.sum‖ ≤ (t * (As.map norm).sum) ^ 2 / 2 := by
  have := norm_fold ht (1 : 𝔸) CStarRing.norm_one 0 0 (by simp) (by simp) le_rfl As hA
  simpa using this

end abstract

section matrices
open scoped Matrix.Norms.L2Operator

/-- An expectation value is bounded by the operator norm. -/
theorem quad_le {n : ℕ} (E : QMat n) (φ : Ket n) : |(star φ ⬝ᵥ (E *ᵥ φ)).re| ≤ ‖E‖ * (star φ ⬝ᵥ φ).re := by
  have h1 : (star φ ⬝ᵥ (E *ᵥ φ)) = inner ℂ (WithLp.toLp 2 φ) (WithLp.toLp 2 (E *ᵥ φ)) := by
    rw [EuclideanSpace.inner_toLp_toLp, dotProduct_comm]
  have h2 : (star φ ⬝ᵥ φ).re = ‖(WithLp.toLp 2 φ : EuclideanSpace ℂ (Fin (2 ^ n)))‖ ^ 2 := by
    rw [← inner_self_eq_norm_sq (𝕜 := ℂ), EuclideanSpace.inner_toLp_toLp, dotProduct_comm]
    rfl
  have h3 := Matrix.l2_opNorm_mulVec E (WithLp.toLp 2 φ)
  have h4 : ‖(WithLp.toLp 2 (E *ᵥ φ) : EuclideanSpace ℂ (Fin (2 ^ n)))‖ ≤ ‖E‖ * ‖(WithLp.toLp 2 φ : EuclideanSpace ℂ (Fin (2 ^ n)))‖ := h3
  rw [h1, h2]
  refine (Complex.abs_re_le_norm _).trans ((norm_inner_le_norm _ _).trans ?_)
  nlinarith [norm_nonneg (WithLp.toLp 2 φ : EuclideanSpace ℂ (Fin (2 ^ n)))]

theorem fold_mul_right {n : ℕ} : ∀ (Fs : List (QMat n)) (V U : QMat n),
    Fs.foldl (fun U F => F * U) (V * U) = Fs.foldl (fun U F => F * U) V * U := by
  intro Fs
  induction Fs with
  | nil => intro V U; rfl
  | cons F Fs ih => intro V U; rw [List.foldl_cons, List.foldl_cons, ← Matrix.mul_assoc, ih]

/-- The cost after a product of unitary exponentials, up to second order. -/
theorem cost_fold_le {n : ℕ} (H U : QMat n) (hH : Hᴴ = H) (hU : Unitary U) (As : List (QMat n)) (hA : ∀ A ∈ As, Aᴴ = -A) {t : ℝ} (ht : 0 ≤ t) :
    |cost H ((As.map (fun A => NormedSpace.exp ((t : ℂ) • A))).foldl (fun U F => F * U) U) - cost H U -
      t * (star (fun i => U i 0) ⬝ᵥ ((H * As.sum - As.sum * H) *ᵥ (fun i => U i 0))).re| ≤ 2 * ‖H‖ * (t * (As.map norm).sum) ^ 2 := by
  obtain ⟨h1, h2⟩ := norm_fold_one ht As hA
  have hs := sum_skew hA
  have hf := fold_mul_right (As.map (fun A => NormedSpace.exp ((t : ℂ) • A))) 1 U
  rw [Matrix.one_mul] at hf
  rw [hf]
  set W := (As.map (fun A => NormedSpace.exp ((t : ℂ) • A))).foldl (fun U F => F * U) 1 with hW
  set a := (As.map norm).sum with ha
  set A := As.sum with hAdef
  set φ : Ket n := fun i => U i 0 with hφ
  have hn : (star φ ⬝ᵥ φ).re = 1 := by
    have := congrFun (congrFun hU 0) 0
    rw [Matrix.mul_apply, Matrix.one_apply_eq] at this
    have e : star φ ⬝ᵥ φ = 1 := this
    rw [e, Complex.one_re]
  have hc : cost H (W * U) = (star φ ⬝ᵥ ((Wᴴ * H * W) *ᵥ φ)).re := by
    have hcol : (fun i => (W * U) i 0) = W *ᵥ φ := rfl
    rw [cost, hcol, Matrix.star_mulVec, ← Matrix.dotProduct_mulVec, Matrix.mulVec_mulVec, Matrix.mulVec_mulVec, Matrix.mul_assoc]
  have hR : (W - 1 - (t : ℂ) • A)ᴴ = Wᴴ - 1 + (t : ℂ) • A := by
    rw [Matrix.conjTranspose_sub, Matrix.conjTranspose_sub, Matrix.conjTranspose_smul, hs]
    simp
  have hE : Wᴴ * H * W = H + (t : ℂ) • (H * A - A * H) +
      (H * (W - 1 - (t : ℂ) • A) + (W - 1 - (t : ℂ) • A)ᴴ * H + (W - 1)ᴴ * H * (W - 1)) := by
    rw [hR, Matrix.conjTranspose_sub, Matrix.conjTranspose_one]
    simp only [smul_sub, Matrix.mul_sub, Matrix.sub_mul, Matrix.add_mul, Matrix.mul_one, Matrix.one_mul, Matrix.mul_smul, Matrix.smul_mul]
    abel
  set E := H * (W - 1 - (t : ℂ) • A) + (W - 1 - (t : ℂ) • A)ᴴ * H + (W - 1)ᴴ * H * (W - 1) with hEdef
  have hnE : ‖E‖ ≤ 2 * ‖H‖ * (t * a) ^ 2 := by
    have g1 : ‖H * (W - 1 - (t : ℂ) • A)‖ ≤ ‖H‖ * ((t * a) ^ 2 / 2) :=
      (norm_mul_le _ _).trans (mul_le_mul_of_nonneg_left h2 (norm_nonneg _))
    have g2 : ‖(W - 1 - (t : ℂ) • A)ᴴ * H‖ ≤ ((t * a) ^ 2 / 2) * ‖H‖ := by
      refine (norm_mul_le _ _).trans (mul_le_mul_of_nonneg_right ?_ (norm_nonneg _))
      rw [Matrix.l2_opNorm_conjTranspose]; exact h2
    have g3 : ‖(W - 1)ᴴ * H * (W - 1)‖ ≤ (t * a) * ‖H‖ * (t * a) := by
      have h0 : 0 ≤ t * a := (norm_nonneg _).trans h1
      refine (norm_mul_le _ _).trans (mul_le_mul ?_ h1 (norm_nonneg _) (by positivity))
      refine (norm_mul_le _ _).trans (mul_le_mul_of_nonneg_right ?_ (norm_nonneg _))
      rw [Matrix.l2_opNorm_conjTranspose]; exact h1
    refine (norm_add_le _ _).trans ?_
    have := norm_add_le (H * (W - 1 - (t : ℂ) • A)) ((W - 1 - (t : ℂ) • A)ᴴ * H)
    nlinarith
  have hq := quad_le E φ
  rw [hn, mul_one] at hq
  refine le_trans (le_of_eq ?_) (hq.trans hnE)
  congr 1
  rw [hc, hE, Matrix.add_mulVec, Matrix.add_mulVec, dotProduct_add, dotProduct_add, Complex.add_re, Complex.add_re,
    Matrix.smul_mulVec, dotProduct_smul, smul_eq_mul, Complex.re_ofReal_mul]
  show _ + _ + _ - (star φ ⬝ᵥ (H *ᵥ φ)).re - _ = _
  ring

end matrices

end Oranssi
