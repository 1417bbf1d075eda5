import Mathlib.Analysis.Normed.Algebra.Exponential
import Mathlib.Analysis.SpecialFunctions.Exponential
import Mathlib.Analysis.Complex.Basic
import Mathlib.Tactic.NoncommRing
import Mathlib.Tactic.Module

/-! # Products of three exponentials, up to third order -/

namespace Oranssi
open Asymptotics Filter Topology

variable {𝔸 : Type*} [NormedRing 𝔸] [NormedAlgebra ℂ 𝔸] [CompleteSpace 𝔸]

theorem exp_second_order : (fun y : 𝔸 => NormedSpace.exp y - (1 + y + (1 / 2 : ℂ) • y ^ 2)) =O[𝓝 0] fun y => ‖y‖ ^ 3 := by
  have h := (NormedSpace.exp_hasFPowerSeriesAt_zero (𝕂 := ℂ) (𝔸 := 𝔸)).isBigO_sub_partialSum_pow 3
  refine h.congr_left fun y => ?_
  rw [zero_add]
  congr 1
  simp only [FormalMultilinearSeries.partialSum, Finset.sum_range_succ, Finset.sum_range_zero, NormedSpace.expSeries_apply_eq]
  simp [Nat.factorial]

/-- `f t = a + t b + t² c + O(t³)`. -/
def Jet (f : ℝ → 𝔸) (a b c : 𝔸) : Prop := (fun t : ℝ => f t - (a + (t : ℂ) • b + ((t : ℂ) ^ 2) • c)) =O[𝓝 0] fun t => t ^ 3

omit [CompleteSpace 𝔸] in
theorem jet_cubic {g : ℝ → 𝔸} (hg : ContinuousAt g 0) : (fun t : ℝ => ((t : ℂ) ^ 3) • g t) =O[𝓝 0] fun t => t ^ 3 := by
  have h1 : (fun t : ℝ => (t : ℂ) ^ 3) =O[𝓝 0] fun t : ℝ => t ^ 3 := IsBigO.of_bound 1 (Eventually.of_forall fun t => by simp)
  have h2 : g =O[𝓝 0] fun _ => (1 : ℝ) := hg.isBigO_one ℝ
  simpa using h1.smul h2

omit [CompleteSpace 𝔸] in
theorem poly_continuous (a b c : 𝔸) : Continuous fun t : ℝ => a + (t : ℂ) • b + ((t : ℂ) ^ 2) • c := by
  have : Continuous fun t : ℝ => (t : ℂ) := Complex.continuous_ofReal
  fun_prop

omit [CompleteSpace 𝔸] in
theorem Jet.isBigO_one {f : ℝ → 𝔸} {a b c : 𝔸} (h : Jet f a b c) : f =O[𝓝 0] fun _ => (1 : ℝ) := by
  have h1 : (fun t : ℝ => t ^ 3) =O[𝓝 0] fun _ => (1 : ℝ) := (continuous_pow 3).continuousAt.isBigO_one ℝ
  have h2 : (fun t : ℝ => a + (t : ℂ) • b + ((t : ℂ) ^ 2) • c) =O[𝓝 0] fun _ => (1 : ℝ) := (poly_continuous a b c).continuousAt.isBigO_one ℝ
  refine ((IsBigO.trans h h1).add h2).congr_left fun t => ?_
  simp

omit [CompleteSpace 𝔸] in
theorem Jet.mul {f g : ℝ → 𝔸} {a b c a' b' c' : 𝔸} (hf : Jet f a b c) (hg : Jet g a' b' c') :
    Jet (fun t => f t * g t) (a * a') (a * b' + b * a') (a * c' + b * b' + c * a') := by
  have h1 : (fun t : ℝ => (f t - (a + (t : ℂ) • b + ((t : ℂ) ^ 2) • c)) * g t) =O[𝓝 0] fun t => t ^ 3 := by
    simpa using IsBigO.mul hf hg.isBigO_one
  have h2 : (fun t : ℝ => (a + (t : ℂ) • b + ((t : ℂ) ^ 2) • c) * (g t - (a' + (t : ℂ) • b' + ((t : ℂ) ^ 2) • c'))) =O[𝓝 0] fun t => t ^ 3 := by
    have := IsBigO.mul ((poly_continuous a b c).continuousAt.isBigO_one ℝ) hg
    simpa using this
  have h3 : (fun t : ℝ => ((t : ℂ) ^ 3) • ((b * c' + c * b') + (t : ℂ) • (c * c') + ((t : ℂ) ^ 2) • (0 : 𝔸))) =O[𝓝 0] fun t => t ^ 3 :=
    jet_cubic (poly_continuous _ _ _).continuousAt
  refine ((h1.add h2).add h3).congr_left fun t => ?_
  simp only [mul_sub, sub_mul, mul_add, add_mul, smul_mul_assoc, mul_smul_comm]
  module

theorem jet_exp (p q : 𝔸) : Jet (fun t : ℝ => NormedSpace.exp ((t : ℂ) • p + ((t : ℂ) ^ 2) • q)) 1 p (q + (1 / 2 : ℂ) • p ^ 2) := by
  set S : ℝ → 𝔸 := fun t => (t : ℂ) • (p + (t : ℂ) • q) with hS
  have hc : Continuous S := by
    have : Continuous fun t : ℝ => (t : ℂ) := Complex.continuous_ofReal
    fun_prop
  have h0 : Tendsto S (𝓝 0) (𝓝 0) := by
    have := hc.tendsto 0
    simpa [hS] using this
  have hO : S =O[𝓝 0] fun t => t := by
    have h1 : (fun t : ℝ => (t : ℂ)) =O[𝓝 0] fun t : ℝ => t := IsBigO.of_bound 1 (Eventually.of_forall fun t => by simp)
    have h2 : (fun t : ℝ => p + (t : ℂ) • q) =O[𝓝 0] fun _ => (1 : ℝ) := by
      have hq := poly_continuous p q (0 : 𝔸)
      simp only [smul_zero, add_zero] at hq
      exact hq.continuousAt.isBigO_one ℝ
    have h3 := h1.smul h2
    simp only [smul_eq_mul, mul_one] at h3
    exact h3
  have h1 : (fun t : ℝ => NormedSpace.exp (S t) - (1 + S t + (1 / 2 : ℂ) • S t ^ 2)) =O[𝓝 0] fun t => t ^ 3 :=
    (exp_second_order.comp_tendsto h0).trans (hO.norm_left.pow 3)
  have h2 : (fun t : ℝ => ((t : ℂ) ^ 3) • ((1 / 2 : ℂ) • (p * q + q * p) + (t : ℂ) • ((1 / 2 : ℂ) • (q * q)) + ((t : ℂ) ^ 2) • (0 : 𝔸))) =O[𝓝 0] fun t => t ^ 3 :=
    jet_cubic (poly_continuous _ _ _).continuousAt
  refine (h1.add h2).congr_left fun t => ?_
  have e : (t : ℂ) • p + ((t : ℂ) ^ 2) • q = S t := by simp only [hS]; module
  dsimp only
  rw [e]
  simp only [hS, pow_two, mul_add, add_mul, smul_mul_assoc, mul_smul_comm]
  module

/-- The exponent of a product of three exponentials, up to third order. -/
theorem bch_three (A B C : 𝔸) :
    (fun t : ℝ => NormedSpace.exp ((t : ℂ) • A) * NormedSpace.exp ((t : ℂ) • B) * NormedSpace.exp ((t : ℂ) • C) -
      NormedSpace.exp ((t : ℂ) • (A + B + C) + ((t : ℂ) ^ 2) • ((1 / 2 : ℂ) • ((A * B - B * A) + (A * C - C * A) + (B * C - C * B))))) =O[𝓝 0] fun t => t ^ 3 := by
  have j : ∀ p : 𝔸, Jet (fun t : ℝ => NormedSpace.exp ((t : ℂ) • p)) 1 p ((1 / 2 : ℂ) • p ^ 2) := fun p => by simpa using jet_exp p 0
  have h1 := ((j A).mul (j B)).mul (j C)
  have h2 := jet_exp (A + B + C) ((1 / 2 : ℂ) • ((A * B - B * A) + (A * C - C * A) + (B * C - C * B)))
  refine (IsBigO.sub h1 h2).congr_left fun t => ?_
  simp only [pow_two, mul_sub, sub_mul, mul_add, add_mul, one_mul, mul_one, smul_mul_assoc, mul_smul_comm]
  module

end Oranssi
