import Verif.Props.ExactOptimizer
import Mathlib.Analysis.Calculus.MeanValue
import Mathlib.Analysis.SpecialFunctions.Trigonometric.Deriv

/-! # The exact step for an involutory observable in closed form -/

namespace Oranssi
open Spec
open scoped Matrix

variable {n : ℕ}

section
attribute [local instance] Matrix.linftyOpNormedAddCommGroup Matrix.linftyOpNormedSpace Matrix.linftyOpNormedRing Matrix.linftyOpNormedAlgebra

/-- If `K² R = -s² R`, the exponential of `K` acts on `R` as a rotation in the plane of `R` and `K R`. -/
theorem exp_smul_mul_of_sq (K R : QMat n) (s : ℝ) (h : K * (K * R) = -((s ^ 2 : ℝ) : ℂ) • R) (b : ℝ → ℝ) (hb0 : b 0 = 0)
    (hb : ∀ t, HasDerivAt b (Real.cos (t * s)) t) (hbs : ∀ t, s * b t = Real.sin (t * s)) (t : ℝ) :
    NormedSpace.exp ((t : ℂ) • K) * R = ((Real.cos (t * s) : ℝ) : ℂ) • R + ((b t : ℝ) : ℂ) • (K * R) := by
  let F : ℝ → QMat n := fun t => NormedSpace.exp (t • (-K)) * (Real.cos (t * s) • R + b t • (K * R))
  have hF : ∀ t, HasDerivAt F 0 t := by
    intro t
    have h1 := hasDerivAt_exp_smul_const (𝕂 := ℝ) (-K) t
    have hc : HasDerivAt (fun t => Real.cos (t * s)) (-(s * Real.sin (t * s))) t := by
      have := (Real.hasDerivAt_cos (t * s)).comp t ((hasDerivAt_id t).mul_const s)
      refine this.congr_deriv ?_
      ring
    have h2 : HasDerivAt (fun t => Real.cos (t * s) • R + b t • (K * R)) ((-(s * Real.sin (t * s))) • R + Real.cos (t * s) • (K * R)) t :=
      (hc.smul_const R).add ((hb t).smul_const (K * R))
    have h3 := h1.mul h2
    refine HasDerivAt.congr_deriv (f := F) h3 ?_
    have e : -K * (Real.cos (t * s) • R + b t • (K * R)) + ((-(s * Real.sin (t * s))) • R + Real.cos (t * s) • (K * R)) = 0 := by
      rw [Matrix.mul_add, Matrix.mul_smul, Matrix.mul_smul, Matrix.neg_mul, Matrix.neg_mul, h, ← hbs t]
      ext i j
      simp only [Matrix.add_apply, Matrix.smul_apply, Matrix.neg_apply, Matrix.zero_apply, Complex.real_smul, smul_eq_mul]
      push_cast
      ring
    rw [Matrix.mul_assoc, ← Matrix.mul_add, e, Matrix.mul_zero]
  have hconst : F t = F 0 := is_const_of_deriv_eq_zero (fun t => (hF t).differentiableAt) (fun t => (hF t).deriv) t 0
  have hF0 : F 0 = R := by simp [F, hb0]
  have hFt : NormedSpace.exp ((t : ℂ) • K) * F t = Real.cos (t * s) • R + b t • (K * R) := by
    have e : NormedSpace.exp ((t : ℂ) • K) * NormedSpace.exp (t • (-K)) = 1 := by
      have e1 : t • (-K) = -((t : ℂ) • K) := by ext i j; simp
      rw [e1]
      rw [← Matrix.exp_add_of_commute ((t : ℂ) • K) (-((t : ℂ) • K)) (Commute.neg_right (Commute.refl _)), add_neg_cancel, NormedSpace.exp_zero]
    rw [show F t = NormedSpace.exp (t • (-K)) * (Real.cos (t * s) • R + b t • (K * R)) from rfl, ← Matrix.mul_assoc, e, Matrix.one_mul]
  rw [hconst, hF0] at hFt
  rw [hFt]
  rfl
end

theorem exists_sinc (s : ℝ) : ∃ b : ℝ → ℝ, b 0 = 0 ∧ (∀ t, HasDerivAt b (Real.cos (t * s)) t) ∧ ∀ t, s * b t = Real.sin (t * s) := by
  by_cases hs : s = 0
  · refine ⟨fun t => t, rfl, fun t => ?_, fun t => by simp [hs]⟩
    rw [hs, mul_zero, Real.cos_zero]
    exact hasDerivAt_id t
  · refine ⟨fun t => Real.sin (t * s) / s, by simp, fun t => ?_, fun t => by field_simp⟩
    have := ((Real.hasDerivAt_sin (t * s)).comp t ((hasDerivAt_id t).mul_const s)).div_const s
    refine this.congr_deriv ?_
    field_simp

theorem density_mul (Q U : QMat n) : density (Q * U) = Q * density U * Qᴴ := by
  ext i j
  simp only [density, Matrix.of_apply, Matrix.mul_apply, Matrix.conjTranspose_apply, star_sum, star_mul', Finset.sum_mul, Finset.mul_sum]
  refine Finset.sum_congr rfl fun a _ => Finset.sum_congr rfl fun b _ => by ring

/-- The density matrix sandwiches every matrix to its expectation value. -/
theorem density_sandwich (U M : QMat n) : density U * M * density U = (star (fun i => U i 0) ⬝ᵥ (M *ᵥ (fun i => U i 0))) • density U := by
  ext i j
  simp only [density, Matrix.mul_apply, Matrix.of_apply, Matrix.smul_apply, dotProduct, Matrix.mulVec, Pi.star_apply, Finset.sum_mul, Finset.mul_sum,
    smul_eq_mul]
  rw [Finset.sum_comm]
  refine Finset.sum_congr rfl fun a _ => Finset.sum_congr rfl fun b _ => by ring

theorem expect_one {U : QMat n} (hU : Unitary U) : star (fun i => U i 0) ⬝ᵥ ((1 : QMat n) *ᵥ (fun i => U i 0)) = 1 := by
  have := congrFun (congrFun hU 0) 0
  rw [Matrix.one_mulVec]
  simpa [Matrix.mul_apply, dotProduct, Matrix.conjTranspose_apply] using this

theorem density_idem {U : QMat n} (hU : Unitary U) : density U * density U = density U := by
  have := density_sandwich U 1
  rwa [expect_one hU, one_smul, Matrix.mul_one] at this

theorem density_trace {U : QMat n} (hU : Unitary U) : (density U).trace = 1 := by
  rw [← Matrix.mul_one (density U), ← expect_trace, expect_one hU]

/-- The expectation of a Hermitian matrix is real. -/
theorem expect_real (U O : QMat n) (hO : Oᴴ = O) : star (fun i => U i 0) ⬝ᵥ (O *ᵥ (fun i => U i 0)) = ((cost O U : ℝ) : ℂ) := by
  have h : star (star (fun i => U i 0) ⬝ᵥ (O *ᵥ (fun i => U i 0))) = star (fun i => U i 0) ⬝ᵥ (O *ᵥ (fun i => U i 0)) := by
    rw [expect_trace, ← Matrix.trace_conjTranspose, Matrix.conjTranspose_mul, hO, density_herm, Matrix.trace_mul_comm]
  rw [cost, ← Complex.conj_eq_iff_re.mp h]
  simp

/-- The cost after a step along the commutator with an involution, of any length: with cost `cos x` before, it is `cos (x + 2 t sin x)`. -/
theorem cost_involution_step {U O : QMat n} (hU : Unitary U) (hO : Oᴴ = O) (hO2 : O * O = 1) (x t : ℝ) (hx : cost O U = Real.cos x) :
    cost O (NormedSpace.exp ((t : ℂ) • riemannGen O U) * U) = Real.cos (x + 2 * t * Real.sin x) := by
  set R := density U with hR
  set K := riemannGen O U with hK
  set c : ℂ := ((Real.cos x : ℝ) : ℂ) with hc
  have hid : R * R = R := density_idem hU
  have hsand : R * O * R = c • R := by rw [hR, density_sandwich, expect_real U O hO, hx]
  have htr : R.trace = 1 := density_trace hU
  have htrO : (R * O).trace = c := by rw [hR, ← expect_trace, expect_real U O hO, hx]
  have hKR : K * R = c • R - O * R := by
    rw [hK, riemannGen, ← hR, Matrix.sub_mul, hsand, Matrix.mul_assoc O R R, hid]
  have hRK : R * K = R * O - c • R := by
    rw [hK, riemannGen, ← hR, Matrix.mul_sub, ← Matrix.mul_assoc, hid, ← Matrix.mul_assoc, hsand]
  have hs2 : c * c = 1 - ((Real.sin x ^ 2 : ℝ) : ℂ) := by
    rw [hc, ← Complex.ofReal_mul, ← Complex.ofReal_one, ← Complex.ofReal_sub]
    congr 1
    have := Real.sin_sq_add_cos_sq x
    nlinarith
  have hKKR : K * (K * R) = -((Real.sin x ^ 2 : ℝ) : ℂ) • R := by
    have h1 : K * (O * R) = R - c • (O * R) := by
      rw [hK, riemannGen, ← hR, Matrix.sub_mul, ← Matrix.mul_assoc, Matrix.mul_assoc R O O, hO2, Matrix.mul_one, hid, Matrix.mul_assoc O R (O * R),
        ← Matrix.mul_assoc R O R, hsand, Matrix.mul_smul]
    rw [hKR, Matrix.mul_sub, Matrix.mul_smul, hKR, h1]
    have : -((Real.sin x ^ 2 : ℝ) : ℂ) = c * c - 1 := by rw [hs2]; ring
    rw [this, sub_smul, one_smul, smul_sub, mul_smul]
    abel
  obtain ⟨b, hb0, hb, hbs⟩ := exists_sinc (Real.sin x)
  set E := NormedSpace.exp ((t : ℂ) • K) with hE
  have hER := exp_smul_mul_of_sq K R (Real.sin x) hKKR b hb0 hb hbs t
  rw [← hE] at hER
  set a : ℂ := ((Real.cos (t * Real.sin x) : ℝ) : ℂ) with ha
  set β : ℂ := ((b t : ℝ) : ℂ) with hβ
  have hKs : Kᴴ = -K := riemannGen_skew O U hO
  have hRE : R * Eᴴ = a • R - β • (R * K) := by
    have := congrArg Matrix.conjTranspose hER
    rw [Matrix.conjTranspose_mul, Matrix.conjTranspose_add, Matrix.conjTranspose_smul, Matrix.conjTranspose_smul, Matrix.conjTranspose_mul, hKs, hR,
      density_herm, ← hR, ha, hβ, Complex.star_def, Complex.conj_ofReal, Complex.conj_ofReal, Matrix.mul_neg, smul_neg, ← sub_eq_add_neg] at this
    exact this
  have hden : density (E * U) = (a • R + β • (K * R)) * (a • R - β • (R * K)) := by
    rw [density_mul, ← hR, ← hER, ← hRE, Matrix.mul_assoc E R (R * Eᴴ), ← Matrix.mul_assoc R R, hid, Matrix.mul_assoc]
  have hval : (star (fun i => (E * U) i 0) ⬝ᵥ (O *ᵥ (fun i => (E * U) i 0))) = ((Real.cos (x + 2 * t * Real.sin x) : ℝ) : ℂ) := by
    rw [expect_trace, hden]
    have hOR : (O * R).trace = c := by rw [Matrix.trace_mul_comm, htrO]
    have t1 : (R * R * O).trace = c := by rw [hid, htrO]
    have t2 : (R * (R * K) * O).trace = 1 - c * c := by
      rw [← Matrix.mul_assoc R R, hid, hRK, Matrix.sub_mul, Matrix.mul_assoc, hO2, Matrix.mul_one, Matrix.smul_mul, Matrix.trace_sub, Matrix.trace_smul, htr, htrO,
        smul_eq_mul]
    have t3 : (K * R * R * O).trace = c * c - 1 := by
      rw [Matrix.mul_assoc K R R, hid, hKR, Matrix.sub_mul, Matrix.smul_mul, Matrix.trace_sub, Matrix.trace_smul, htrO, Matrix.trace_mul_comm (O * R) O,
        ← Matrix.mul_assoc, hO2, Matrix.one_mul, htr, smul_eq_mul]
    have t4 : (K * R * (R * K) * O).trace = c - c * c * c := by
      have e1 : K * R * (R * K) = c • (R * O) - (c * c) • R - O * R * O + c • (O * R) := by
        rw [← Matrix.mul_assoc (K * R) R K, Matrix.mul_assoc K R R, hid, Matrix.mul_assoc K R K, hRK, Matrix.mul_sub, Matrix.mul_smul, hKR, ← Matrix.mul_assoc, hKR,
          Matrix.sub_mul, Matrix.smul_mul, smul_sub, smul_smul]
        abel
      have e2 : (O * R * O * O).trace = c := by rw [Matrix.mul_assoc (O * R), hO2, Matrix.mul_one, hOR]
      have e3 : (O * R * O).trace = 1 := by rw [Matrix.trace_mul_comm, ← Matrix.mul_assoc, hO2, Matrix.one_mul, htr]
      rw [e1, Matrix.add_mul, Matrix.sub_mul, Matrix.sub_mul, Matrix.smul_mul, Matrix.smul_mul, Matrix.smul_mul, Matrix.trace_add, Matrix.trace_sub, Matrix.trace_sub,
        Matrix.trace_smul, Matrix.trace_smul, Matrix.trace_smul, Matrix.mul_assoc R O O, hO2, Matrix.mul_one, htr, htrO, e2, e3, smul_eq_mul, smul_eq_mul]
      ring
    have hexp : ((a • R + β • (K * R)) * (a • R - β • (R * K)) * O).trace = a * a * c - a * β * (1 - c * c) + β * a * (c * c - 1) - β * β * (c - c * c * c) := by
      rw [Matrix.add_mul, Matrix.mul_sub, Matrix.mul_sub, Matrix.add_mul, Matrix.sub_mul, Matrix.sub_mul]
      simp only [Matrix.smul_mul, Matrix.mul_smul, Matrix.trace_add, Matrix.trace_sub, Matrix.trace_smul, smul_eq_mul, t1, t2, t3, t4]
      ring
    rw [hexp]
    have h1 : (1 : ℂ) - c * c = ((Real.sin x ^ 2 : ℝ) : ℂ) := by rw [hs2]; ring
    have h2 : c * c - 1 = -((Real.sin x ^ 2 : ℝ) : ℂ) := by rw [hs2]; ring
    have h3 : c - c * c * c = c * ((Real.sin x ^ 2 : ℝ) : ℂ) := by rw [← h1]; ring
    rw [h1, h2, h3, ha, hβ, hc]
    norm_cast
    have hb' := hbs t
    have e : x + 2 * t * Real.sin x = x + (t * Real.sin x + t * Real.sin x) := by ring
    rw [e, Real.cos_add, Real.cos_add, Real.sin_add]
    rw [← hb']
    ring
  rw [cost, hval, Complex.ofReal_re]

end Oranssi
