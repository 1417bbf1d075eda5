import Verif.Spec.Cost
import Verif.Props.LieLayers
import Mathlib.Analysis.SpecialFunctions.Exponential
import Mathlib.Analysis.Calculus.Deriv.Star
import Mathlib.Analysis.Calculus.Deriv.Mul
import Mathlib.Analysis.Calculus.Deriv.Add
import Mathlib.Analysis.Calculus.Deriv.Comp
import Mathlib.Analysis.Calculus.Deriv.Slope
import Mathlib.Analysis.Normed.Module.FiniteDimension
import Mathlib.Analysis.Matrix.Normed

/-! # Derivative of the cost along a product of exponentials -/

namespace Oranssi
open Spec
open scoped Matrix

section
attribute [local instance] Matrix.linftyOpNormedAddCommGroup Matrix.linftyOpNormedSpace Matrix.linftyOpNormedRing Matrix.linftyOpNormedAlgebra

theorem deriv_exp_fold {n : ℕ} (U : QMat n) : ∀ (As : List (QMat n)) (f : ℝ → QMat n) (f' : QMat n), HasDerivAt f f' 0 →
    HasDerivAt (fun η : ℝ => (As.map (fun A => NormedSpace.exp ((η : ℂ) • A))).foldl (fun U F => F * U) (f η)) (As.sum * f 0 + f') 0 := by
  intro As
  induction As with
  | nil => intro f f' h; simpa using h
  | cons A As ih =>
    intro f f' h
    have hA : HasDerivAt (fun η : ℝ => NormedSpace.exp ((η : ℂ) • A)) A 0 := by
      have := hasDerivAt_exp_smul_const (𝕂 := ℝ) A 0
      simp only [zero_smul, NormedSpace.exp_zero, one_mul] at this
      exact this
    have hm := hA.mul h
    have := ih _ _ hm
    simp only [Pi.mul_apply, Complex.ofReal_zero, zero_smul, NormedSpace.exp_zero, one_mul] at this
    rw [List.sum_cons, add_mul]
    have e : A * f 0 + As.sum * f 0 + f' = As.sum * f 0 + (A * f 0 + f') := by abel
    rw [e]
    refine this.congr_of_eventuallyEq (Filter.Eventually.of_forall fun η => ?_)
    simp

/-- Derivative of one entry of the product. -/
theorem deriv_exp_entry {n : ℕ} (U : QMat n) (As : List (QMat n)) (i j : Fin (2 ^ n)) :
    HasDerivAt (fun η : ℝ => ((As.map (fun A => NormedSpace.exp ((η : ℂ) • A))).foldl (fun U F => F * U) U) i j) ((As.sum * U) i j) 0 := by
  have h := deriv_exp_fold U As (fun _ => U) 0 (hasDerivAt_const _ _)
  let ℓ : QMat n →ₗ[ℝ] ℂ := { toFun := fun M => M i j, map_add' := fun _ _ => rfl, map_smul' := fun _ _ => rfl }
  have := HasFDerivAt.comp_hasDerivAt (0 : ℝ) (LinearMap.toContinuousLinearMap ℓ).hasFDerivAt h
  rw [add_zero] at this
  exact this

end

theorem deriv_cost {n : ℕ} (H : QMat n) (f : ℝ → QMat n) (f' : QMat n)
    (h : ∀ i j, HasDerivAt (fun η => f η i j) (f' i j) 0) :
    HasDerivAt (fun η => cost H (f η)) (star (fun i => f' i 0) ⬝ᵥ (H *ᵥ (fun i => f 0 i 0)) + star (fun i => f 0 i 0) ⬝ᵥ (H *ᵥ (fun i => f' i 0))).re 0 := by
  have h1 : ∀ i, HasDerivAt (fun η => (H *ᵥ (fun i => f η i 0)) i) ((H *ᵥ (fun i => f' i 0)) i) 0 := by
    intro i
    simp only [Matrix.mulVec, dotProduct]
    exact HasDerivAt.fun_sum (fun j _ => (h j 0).const_mul _)
  have h2 : HasDerivAt (fun η => star (fun i => f η i 0) ⬝ᵥ (H *ᵥ (fun i => f η i 0)))
      (star (fun i => f' i 0) ⬝ᵥ (H *ᵥ (fun i => f 0 i 0)) + star (fun i => f 0 i 0) ⬝ᵥ (H *ᵥ (fun i => f' i 0))) 0 := by
    simp only [dotProduct, Pi.star_apply, ← Finset.sum_add_distrib]
    exact HasDerivAt.fun_sum (fun i _ => (h i 0).star.mul (h1 i))
  exact HasFDerivAt.comp_hasDerivAt (0 : ℝ) Complex.reCLM.hasFDerivAt h2

/-- Derivative of the cost along a product of exponentials of skew-Hermitian matrices. -/
theorem deriv_cost_exp {n : ℕ} (H U : QMat n) (As : List (QMat n)) (hA : As.sumᴴ = -As.sum) :
    HasDerivAt (fun η : ℝ => cost H ((As.map (fun A => NormedSpace.exp ((η : ℂ) • A))).foldl (fun U F => F * U) U))
      (star (fun i => U i 0) ⬝ᵥ ((H * As.sum - As.sum * H) *ᵥ (fun i => U i 0))).re 0 := by
  have h := deriv_cost H (fun η : ℝ => (As.map (fun A => NormedSpace.exp ((η : ℂ) • A))).foldl (fun U F => F * U) U) (As.sum * U)
    (fun i j => deriv_exp_entry U As i j)
  have h0 : ((As.map (fun A => NormedSpace.exp (((0 : ℝ) : ℂ) • A))).foldl (fun U F => F * U) U) = U := by
    apply foldl_one
    intro F hF
    obtain ⟨A, -, rfl⟩ := List.mem_map.1 hF
    simp
  have hcol : (fun i => (As.sum * U) i 0) = As.sum *ᵥ (fun i => U i 0) := rfl
  rw [h0, hcol] at h
  convert h using 2
  rw [Matrix.star_mulVec, hA, Matrix.sub_mulVec, dotProduct_sub, ← Matrix.mulVec_mulVec, ← Matrix.mulVec_mulVec,
    ← Matrix.dotProduct_mulVec, Matrix.neg_mulVec, dotProduct_neg]
  abel

end Oranssi
