import Mathlib.Analysis.SpecialFunctions.Trigonometric.Arctan
import Mathlib.Analysis.SpecialFunctions.Trigonometric.Bounds
import Mathlib.Analysis.SpecialFunctions.Complex.Arctan
import Verif.Model.Greedy
import Verif.Spec.Cost
import Verif.Lemmas.MatExp
import Verif.Props.CircuitTools

/-! Lemmas on `rotosolve`: the cost along a direction is a sinusoid. -/

namespace Oranssi
open scoped Matrix
open Spec

theorem cost_add {n : ℕ} (A B U : QMat n) : cost (A + B) U = cost A U + cost B U := by
  simp [cost, Matrix.add_mulVec, dotProduct_add]

theorem cost_zero {n : ℕ} (U : QMat n) : cost 0 U = 0 := by
  simp [cost]

theorem costLoop_gates {n : ℕ} (U : QMat n) : ∀ (gs : List (Gate n)) (acc : ℝ),
    costLoop U (gs.map Gate.obs) acc = .ok (acc + cost (totalObs gs) U)
  | [], acc => by simp [costLoop, totalObs, cost_zero]
  | g :: gs, acc => by
    have h : totalObs (g :: gs) = full n g.ws g.A + totalObs gs := by simp [totalObs]
    rw [List.map_cons, costLoop, expvalFromUnitary, getFullOperator_obs]
    simp only [bind, Except.bind]
    rw [costLoop_gates U gs, h, cost_add, ← add_assoc]
    rfl

/-- The cost computed by the optimizers is the expectation of the sum of the observables. -/
theorem totalCost_gates {n : ℕ} (U : QMat n) (gs : List (Gate n)) : totalCost U (gs.map Gate.obs) = .ok (cost (totalObs gs) U) := by
  rw [totalCost, costLoop_gates, zero_add]

/-- The cost along an involution is a sinusoid. -/
theorem cost_rotation {n : ℕ} (H P U : QMat n) (hP : P * P = 1) : ∃ a b c : ℝ, ∀ θ : ℝ,
    cost H (NormedSpace.exp ((-Complex.I * (θ : ℂ)) • P) * U) = a + b * Real.cos (2 * θ) + c * Real.sin (2 * θ) := by
  set x : Ket n := fun i => U i 0 with hx
  set y : Ket n := (-Complex.I) • (P *ᵥ x) with hy
  let A : ℝ := (star x ⬝ᵥ (H *ᵥ x)).re
  let B : ℝ := (star y ⬝ᵥ (H *ᵥ y)).re
  let C : ℝ := (star x ⬝ᵥ (H *ᵥ y)).re + (star y ⬝ᵥ (H *ᵥ x)).re
  refine ⟨(A + B) / 2, (A - B) / 2, C / 2, fun θ => ?_⟩
  have hcol : (fun i => (NormedSpace.exp ((-Complex.I * (θ : ℂ)) • P) * U) i 0) = ((Real.cos θ : ℝ) : ℂ) • x + ((Real.sin θ : ℝ) : ℂ) • y := by
    rw [exp_neg_I_smul_involution P hP]
    funext i
    rw [Matrix.sub_mul, Matrix.smul_mul, Matrix.smul_mul, Matrix.one_mul]
    simp only [Matrix.sub_apply, Matrix.smul_apply, Pi.add_apply, Pi.smul_apply, hy, hx, smul_eq_mul]
    rw [show (P *ᵥ fun i => U i 0) i = (P * U) i 0 from rfl]
    ring
  have h : cost H (NormedSpace.exp ((-Complex.I * (θ : ℂ)) • P) * U) = Real.cos θ ^ 2 * A + Real.sin θ ^ 2 * B + Real.cos θ * Real.sin θ * C := by
    rw [cost, hcol]
    simp only [star_add, star_smul, Matrix.mulVec_add, Matrix.mulVec_smul, add_dotProduct, dotProduct_add, smul_dotProduct, dotProduct_smul,
      Complex.star_def, Complex.conj_ofReal, smul_eq_mul, Complex.add_re, Complex.re_ofReal_mul]
    simp only [A, B, C]
    ring
  rw [h, Real.cos_two_mul, Real.sin_two_mul]
  have := Real.sin_sq_add_cos_sq θ
  rw [show Real.sin θ ^ 2 = 1 - Real.cos θ ^ 2 by linarith]
  ring

/-- `arctan2` is the polar angle. -/
theorem arctan2_polar (y x : ℝ) : ∃ r ≥ 0, x = r * Real.cos (arctan2 y x) ∧ y = r * Real.sin (arctan2 y x) ∧ r ^ 2 = x ^ 2 + y ^ 2 := by
  refine ⟨‖(⟨x, y⟩ : ℂ)‖, norm_nonneg _, ?_, ?_, ?_⟩
  · rw [arctan2, Complex.norm_mul_cos_arg]
  · rw [arctan2, Complex.norm_mul_sin_arg]
  · rw [← Complex.normSq_eq_norm_sq, Complex.normSq_apply]; ring

theorem rotosolve_ok {n : ℕ} (P U : QMat n) (gs : List (Gate n)) (k : ℕ) :
    let f := fun t : ℝ => cost (totalObs gs) (NormedSpace.exp ((-Complex.I * ((t / 2 ^ k : ℝ) : ℂ)) • P) * U)
    let η := -Real.pi / 2 - arctan2 (2 * f 0 - f (Real.pi / 2) - f (-(Real.pi / 2))) (f (Real.pi / 2) - f (-(Real.pi / 2)))
    rotosolve P (gs.map Gate.obs) U k = .ok (NormedSpace.exp ((-Complex.I * ((η / 2 ^ k : ℝ) : ℂ)) • P) * U, η) := by
  intro f η
  have h0 : cost (totalObs gs) U = f 0 := by simp [f]
  have hm : NormedSpace.exp ((Complex.I * ((Real.pi / 2 / 2 ^ k : ℝ) : ℂ)) • P) = NormedSpace.exp ((-Complex.I * ((-(Real.pi / 2) / 2 ^ k : ℝ) : ℂ)) • P) := by
    congr 2
    push_cast
    ring
  rw [rotosolve, totalCost_gates, totalCost_gates, hm, totalCost_gates, h0]
  rfl

end Oranssi
