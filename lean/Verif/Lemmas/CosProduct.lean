import Mathlib.Analysis.SpecialFunctions.Trigonometric.Deriv
import Mathlib.Analysis.SpecialFunctions.Sqrt
import Mathlib.Analysis.Convex.Deriv
import Mathlib.Analysis.Convex.SpecificFunctions.Deriv

/-! # The hypotenuse on the sphere is at most the one in the plane -/

namespace Oranssi

/-- `cos √q` is a convex function of `q`. -/
theorem convexOn_cos_sqrt : ConvexOn ℝ (Set.Icc 0 (Real.pi ^ 2)) (fun q => Real.cos (Real.sqrt q)) := by
  have hd : ∀ q ∈ Set.Ioo 0 (Real.pi ^ 2), HasDerivAt (fun q => Real.cos (Real.sqrt q)) (-(Real.sin (Real.sqrt q) / Real.sqrt q) / 2) q := by
    intro q hq
    have := (Real.hasDerivAt_sqrt hq.1.ne').cos
    refine this.congr_deriv ?_
    have : Real.sqrt q ≠ 0 := (Real.sqrt_pos.2 hq.1).ne'
    field_simp
  refine MonotoneOn.convexOn_of_deriv (convex_Icc _ _) ?_ ?_ ?_
  · exact (Real.continuous_cos.comp Real.continuous_sqrt).continuousOn
  · rw [interior_Icc]
    exact fun q hq => (hd q hq).differentiableAt.differentiableWithinAt
  · rw [interior_Icc]
    intro q hq r hr hqr
    rw [(hd q hq).deriv, (hd r hr).deriv]
    rcases hqr.eq_or_lt with rfl | hlt
    · exact le_rfl
    have hs0 : 0 < Real.sqrt q := Real.sqrt_pos.2 hq.1
    have hsr : Real.sqrt q < Real.sqrt r := Real.sqrt_lt_sqrt hq.1.le hlt
    have hr1 : Real.sqrt r < Real.pi := by
      rw [Real.sqrt_lt' Real.pi_pos]
      exact hr.2
    have := strictConcaveOn_sin_Icc.concaveOn.slope_anti_adjacent (x := 0) (y := Real.sqrt q) (z := Real.sqrt r) ⟨le_rfl, Real.pi_pos.le⟩
      ⟨(hs0.trans hsr).le, hr1.le⟩ hs0 hsr
    rw [Real.sin_zero, sub_zero, sub_zero, div_le_div_iff₀ (by linarith) hs0] at this
    have h2 : Real.sin (Real.sqrt r) / Real.sqrt r ≤ Real.sin (Real.sqrt q) / Real.sqrt q := by
      rw [div_le_div_iff₀ (hs0.trans hsr) hs0]
      linarith
    linarith

theorem cos_sqrt_le_mul {p d : ℝ} (h : |p| + |d| ≤ Real.pi) : Real.cos (Real.sqrt (p ^ 2 + d ^ 2)) ≤ Real.cos p * Real.cos d := by
  have hb : ∀ z : ℝ, |z| ≤ Real.pi → z ^ 2 ∈ Set.Icc 0 (Real.pi ^ 2) := fun z hz =>
    ⟨sq_nonneg z, by rw [← sq_abs z]; exact pow_le_pow_left₀ (abs_nonneg z) hz 2⟩
  have h1 := convexOn_cos_sqrt.2 (hb (p + d) ((abs_add_le _ _).trans h)) (hb (p - d) ((abs_sub _ _).trans h)) 
    (show (0 : ℝ) ≤ 1 / 2 by norm_num) (show (0 : ℝ) ≤ 1 / 2 by norm_num) (by norm_num)
  simp only [smul_eq_mul, Real.sqrt_sq_eq_abs, Real.cos_abs] at h1
  rw [show 1 / 2 * (p + d) ^ 2 + 1 / 2 * (p - d) ^ 2 = p ^ 2 + d ^ 2 by ring, Real.cos_add, Real.cos_sub] at h1
  linarith

end Oranssi
