import Mathlib.Analysis.Real.Pi.Bounds
import Verif.Lemmas.Rotosolve

/-! # C37, C38: `rotosolve` -/

namespace Oranssi
open scoped Matrix
open Spec

/-- C37: along a direction of length 1 (any involution `P`), the circuit returned by `rotosolve` has the least cost of all circuits
`exp(-i t/2 P) U`, and hence at most the cost of `U`.  (Neither `P` nor the observables nor `U` need to be Hermitian or unitary.) -/
theorem C37_rotosolve_optimal {n : ℕ} (P U : QMat n) (hP : P * P = 1) (gs : List (Gate n)) :
    ∃ (V : QMat n) (η : ℝ), rotosolve P (gs.map Gate.obs) U 1 = .ok (V, η) ∧ V = NormedSpace.exp ((-Complex.I * ((η / 2 : ℝ) : ℂ)) • P) * U ∧
      (∀ t : ℝ, cost (totalObs gs) V ≤ cost (totalObs gs) (NormedSpace.exp ((-Complex.I * ((t / 2 : ℝ) : ℂ)) • P) * U)) ∧
      cost (totalObs gs) V ≤ cost (totalObs gs) U := by
  obtain ⟨a, b, c, h⟩ := cost_rotation (totalObs gs) P U hP
  have hr := rotosolve_ok P U gs 1
  simp only [pow_one] at hr
  refine ⟨_, _, hr, rfl, ?_⟩
  have key : ∀ t : ℝ, cost (totalObs gs) (NormedSpace.exp ((-Complex.I * ((t / 2 : ℝ) : ℂ)) • P) * U) = a + b * Real.cos t + c * Real.sin t := by
    intro t
    rw [h, show 2 * (t / 2) = t by ring]
  have hmin : ∀ t : ℝ, cost (totalObs gs) (NormedSpace.exp ((-Complex.I * (((-Real.pi / 2 - arctan2 (2 * cost (totalObs gs) (NormedSpace.exp ((-Complex.I * (((0 : ℝ) / 2 : ℝ) : ℂ)) • P) * U) - cost (totalObs gs) (NormedSpace.exp ((-Complex.I * ((Real.pi / 2 / 2 : ℝ) : ℂ)) • P) * U) - cost (totalObs gs) (NormedSpace.exp ((-Complex.I * ((-(Real.pi / 2) / 2 : ℝ) : ℂ)) • P) * U)) (cost (totalObs gs) (NormedSpace.exp ((-Complex.I * ((Real.pi / 2 / 2 : ℝ) : ℂ)) • P) * U) - cost (totalObs gs) (NormedSpace.exp ((-Complex.I * ((-(Real.pi / 2) / 2 : ℝ) : ℂ)) • P) * U))) / 2 : ℝ) : ℂ)) • P) * U) ≤
      cost (totalObs gs) (NormedSpace.exp ((-Complex.I * ((t / 2 : ℝ) : ℂ)) • P) * U) := by
    intro t
    simp only [key, Real.cos_zero, Real.sin_zero, Real.cos_neg, Real.sin_neg, Real.cos_pi_div_two, Real.sin_pi_div_two]
    obtain ⟨r, hr0, hx, hy, -⟩ := arctan2_polar (2 * (a + b * 1 + c * 0) - (a + b * 0 + c * 1) - (a + b * 0 + c * -1)) (a + b * 0 + c * 1 - (a + b * 0 + c * -1))
    set φ := arctan2 (2 * (a + b * 1 + c * 0) - (a + b * 0 + c * 1) - (a + b * 0 + c * -1)) (a + b * 0 + c * 1 - (a + b * 0 + c * -1))
    have hb : b = r / 2 * Real.sin φ := by linarith
    have hc : c = r / 2 * Real.cos φ := by linarith
    have e1 : Real.cos (-Real.pi / 2 - φ) = -Real.sin φ := by
      rw [show -Real.pi / 2 - φ = -(φ + Real.pi / 2) by ring, Real.cos_neg, Real.cos_add_pi_div_two]
    have e2 : Real.sin (-Real.pi / 2 - φ) = -Real.cos φ := by
      rw [show -Real.pi / 2 - φ = -(φ + Real.pi / 2) by ring, Real.sin_neg, Real.sin_add_pi_div_two]
    rw [e1, e2, hb, hc]
    have h1 := Real.sin_sq_add_cos_sq φ
    have h2 := Real.neg_one_le_sin (φ + t)
    rw [Real.sin_add] at h2
    nlinarith
  refine ⟨hmin, ?_⟩
  have := hmin 0
  simpa using this

/-- The numerical inequality behind C38. -/
theorem core_ineq {s y : ℝ} (hs : 1 ≤ s) (h0 : 0 ≤ y) (h1 : y < Real.pi / 2) :
    Real.cos y * Real.sin (y / (2 * s)) ≤ Real.tan (Real.pi / (4 * s)) * (Real.sin y * Real.cos (y / (2 * s))) := by
  have hpi := Real.pi_gt_three
  have hpi0 := Real.pi_pos
  have hs0 : 0 < s := by linarith
  set u := y / (2 * s) with hu
  have hy : y = 2 * s * u := by rw [hu]; field_simp
  have hu0 : 0 ≤ u := by positivity
  have hu1 : u ≤ Real.pi / 4 := by nlinarith
  have hc : Real.sqrt 2 / 2 ≤ Real.cos u := by
    rw [← Real.cos_pi_div_four]
    exact Real.cos_le_cos_of_nonneg_of_le_pi hu0 (by linarith) hu1
  have hsq : (1.41 : ℝ) ≤ Real.sqrt 2 := Real.le_sqrt_of_sq_le (by norm_num)
  have hc2 : 0.7 ≤ Real.cos u := by linarith
  have hsin : Real.sin u ≤ u := Real.sin_le hu0
  have hcy : 0 < Real.cos y := Real.cos_pos_of_mem_Ioo ⟨by linarith, h1⟩
  have htan : y * Real.cos y ≤ Real.sin y := by
    have := Real.le_tan h0 h1
    rw [Real.tan_eq_sin_div_cos, le_div_iff₀ hcy] at this
    exact this
  have hτ : Real.pi / (4 * s) ≤ Real.tan (Real.pi / (4 * s)) := by
    apply Real.le_tan (by positivity)
    rw [div_lt_div_iff₀ (by positivity) (by norm_num)]
    nlinarith
  have hsy : 0 ≤ Real.sin y := by nlinarith
  have e : Real.cos y * Real.sin u ≤ Real.sin y / (2 * s) := by
    rw [le_div_iff₀ (by positivity)]
    have : Real.cos y * Real.sin u * (2 * s) ≤ Real.cos y * u * (2 * s) := by
      apply mul_le_mul_of_nonneg_right _ (by positivity)
      exact mul_le_mul_of_nonneg_left hsin hcy.le
    calc _ ≤ _ := this
      _ = y * Real.cos y := by rw [hy]; ring
      _ ≤ _ := htan
  have e2 : Real.sin y / (2 * s) ≤ Real.pi / (4 * s) * (Real.sin y * Real.cos u) := by
    rw [show Real.pi / (4 * s) * (Real.sin y * Real.cos u) = (Real.pi / 2 * (Real.sin y * Real.cos u)) / (2 * s) by field_simp; ring]
    apply div_le_div_of_nonneg_right _ (by positivity)
    have : 1 ≤ Real.pi / 2 * Real.cos u := by nlinarith
    nlinarith
  have e3 : Real.pi / (4 * s) * (Real.sin y * Real.cos u) ≤ Real.tan (Real.pi / (4 * s)) * (Real.sin y * Real.cos u) :=
    mul_le_mul_of_nonneg_right hτ (mul_nonneg hsy (by linarith))
  linarith

/-- The step of `rotosolve` on a sinusoid of period `2πs`. -/
theorem sinusoid_step {a b c s : ℝ} (hs : 1 ≤ s) (h : 0 ≤ c ∨ b < 0) (f : ℝ → ℝ) (hf : ∀ t, f t = a + b * Real.cos (t / s) + c * Real.sin (t / s)) :
    f (-Real.pi / 2 - arctan2 (2 * f 0 - f (Real.pi / 2) - f (-(Real.pi / 2))) (f (Real.pi / 2) - f (-(Real.pi / 2)))) ≤ f 0 := by
  have hpi0 := Real.pi_pos
  have hs0 : 0 < s := by linarith
  set σ := Real.pi / (4 * s) with hσ
  have hσ0 : 0 < σ := by positivity
  have hσ1 : σ ≤ Real.pi / 4 := by
    rw [hσ, div_le_div_iff₀ (by positivity) (by norm_num)]
    nlinarith
  have hsσ : 0 < Real.sin σ := Real.sin_pos_of_pos_of_lt_pi hσ0 (by linarith)
  have hcσ : 0 < Real.cos σ := Real.cos_pos_of_mem_Ioo ⟨by linarith, by linarith⟩
  have hd : Real.pi / 2 / s = 2 * σ := by rw [hσ]; field_simp; ring
  have hY : 2 * f 0 - f (Real.pi / 2) - f (-(Real.pi / 2)) = 4 * b * Real.sin σ ^ 2 := by
    rw [hf, hf, hf, neg_div, Real.cos_neg, Real.sin_neg, hd, zero_div, Real.cos_zero, Real.sin_zero, Real.cos_two_mul]
    have := Real.sin_sq_add_cos_sq σ
    rw [show Real.cos σ ^ 2 = 1 - Real.sin σ ^ 2 by linarith]
    ring
  have hX : f (Real.pi / 2) - f (-(Real.pi / 2)) = 4 * c * (Real.sin σ * Real.cos σ) := by
    rw [hf, hf, neg_div, Real.cos_neg, Real.sin_neg, hd, Real.sin_two_mul]
    ring
  rw [hY, hX]
  obtain ⟨r, hr0, hx, hy, -⟩ := arctan2_polar (4 * b * Real.sin σ ^ 2) (4 * c * (Real.sin σ * Real.cos σ))
  have hlo := Complex.neg_pi_lt_arg (⟨4 * c * (Real.sin σ * Real.cos σ), 4 * b * Real.sin σ ^ 2⟩ : ℂ)
  have hhi := Complex.arg_le_pi (⟨4 * c * (Real.sin σ * Real.cos σ), 4 * b * Real.sin σ ^ 2⟩ : ℂ)
  change -Real.pi < arctan2 (4 * b * Real.sin σ ^ 2) (4 * c * (Real.sin σ * Real.cos σ)) at hlo
  change arctan2 (4 * b * Real.sin σ ^ 2) (4 * c * (Real.sin σ * Real.cos σ)) ≤ Real.pi at hhi
  set φ := arctan2 (4 * b * Real.sin σ ^ 2) (4 * c * (Real.sin σ * Real.cos σ))
  rcases hr0.eq_or_lt with hr | hr
  · have hb : b = 0 := by
      have : 4 * b * Real.sin σ ^ 2 = 0 := by rw [hy, ← hr, zero_mul]
      have h3 : Real.sin σ ^ 2 ≠ 0 := by positivity
      have h4 := (mul_eq_zero.1 this).resolve_right h3
      linarith
    have hc : c = 0 := by
      have : 4 * c * (Real.sin σ * Real.cos σ) = 0 := by rw [hx, ← hr, zero_mul]
      have h3 : Real.sin σ * Real.cos σ ≠ 0 := by positivity
      have h4 := (mul_eq_zero.1 this).resolve_right h3
      linarith
    rw [hf, hf, hb, hc]
    simp
  -- the angle and its half
  set η := -Real.pi / 2 - φ with hη
  have e1 : Real.cos φ = -Real.sin η := by
    rw [hη, show -Real.pi / 2 - φ = -(φ + Real.pi / 2) by ring, Real.sin_neg, Real.sin_add_pi_div_two, neg_neg]
  have e2 : Real.sin φ = -Real.cos η := by
    rw [hη, show -Real.pi / 2 - φ = -(φ + Real.pi / 2) by ring, Real.cos_neg, Real.cos_add_pi_div_two, neg_neg]
  set τ := Real.tan σ with hτ
  have hτ' : Real.sin σ = τ * Real.cos σ := by rw [hτ, Real.tan_eq_sin_div_cos]; field_simp
  have hτ0 : 0 < τ := by rw [hτ, Real.tan_eq_sin_div_cos]; positivity
  set ρ := r / (4 * (Real.sin σ * Real.cos σ)) with hρ
  have hρ0 : 0 < ρ := by positivity
  have hc : c = -ρ * Real.sin η := by
    rw [e1] at hx
    rw [hρ]
    field_simp
    linarith
  have hb : b * τ = -ρ * Real.cos η := by
    rw [e2] at hy
    rw [hρ, hτ, Real.tan_eq_sin_div_cos]
    field_simp
    linarith
  have hgoal : ∀ z : ℝ, f z - f 0 = 2 * Real.sin (z / (2 * s)) * (c * Real.cos (z / (2 * s)) - b * Real.sin (z / (2 * s))) := by
    intro z
    rw [hf, hf, zero_div, Real.cos_zero, Real.sin_zero, show z / s = 2 * (z / (2 * s)) by field_simp, Real.cos_two_mul, Real.sin_two_mul]
    have := Real.sin_sq_add_cos_sq (z / (2 * s))
    rw [show Real.cos (z / (2 * s)) ^ 2 = 1 - Real.sin (z / (2 * s)) ^ 2 by linarith]
    ring
  have main : Real.sin (η / (2 * s)) * (Real.cos η * Real.sin (η / (2 * s)) - τ * (Real.sin η * Real.cos (η / (2 * s)))) ≤ 0 := by
    -- for non-negative angles up to a right angle
    have pos : ∀ y, 0 ≤ y → y < Real.pi / 2 →
        Real.sin (y / (2 * s)) * (Real.cos y * Real.sin (y / (2 * s)) - τ * (Real.sin y * Real.cos (y / (2 * s)))) ≤ 0 := by
      intro y h0 h1
      have hci := core_ineq hs h0 h1
      have hsn : 0 ≤ Real.sin (y / (2 * s)) := by
        apply Real.sin_nonneg_of_nonneg_of_le_pi (by positivity)
        rw [div_le_iff₀ (by positivity)]
        nlinarith
      apply mul_nonpos_of_nonneg_of_nonpos hsn
      linarith
    -- the expression is even
    have even : ∀ y, Real.sin (-y / (2 * s)) * (Real.cos (-y) * Real.sin (-y / (2 * s)) - τ * (Real.sin (-y) * Real.cos (-y / (2 * s)))) =
        Real.sin (y / (2 * s)) * (Real.cos y * Real.sin (y / (2 * s)) - τ * (Real.sin y * Real.cos (y / (2 * s)))) := by
      intro y
      rw [neg_div, Real.sin_neg, Real.cos_neg, Real.sin_neg, Real.cos_neg]
      ring
    by_cases hcos : 0 < Real.cos η
    · -- the angle is between minus a right angle and a right angle
      have hlt : |η| < Real.pi / 2 := by
        rw [abs_lt]
        constructor
        · by_contra hlt
          push Not at hlt
          have : Real.cos η ≤ 0 := by
            rw [← Real.cos_neg]
            exact Real.cos_nonpos_of_pi_div_two_le_of_le (by linarith) (by rw [hη]; linarith)
          linarith
        · rw [hη]; linarith
      rcases le_total 0 η with h0 | h0
      · exact pos η h0 (by rw [abs_of_nonneg h0] at hlt; exact hlt)
      · have := pos (-η) (by linarith) (by rw [abs_of_nonpos h0] at hlt; exact hlt)
        rw [← even (-η)] at this
        simpa using this
    · push Not at hcos
      have hb0 : 0 ≤ b := by
        by_contra hlt
        push Not at hlt
        have : b * τ < 0 := mul_neg_of_neg_of_pos hlt hτ0
        nlinarith
      have hc0 : 0 ≤ c := h.resolve_right (by linarith)
      have hsin : Real.sin η ≤ 0 := by nlinarith
      have hcφ : 0 ≤ Real.cos φ := by linarith
      have hφ : φ ≤ Real.pi / 2 ∧ -(Real.pi / 2) ≤ φ := by
        constructor
        · by_contra hlt
          push Not at hlt
          have := Real.cos_neg_of_pi_div_two_lt_of_lt hlt (by linarith)
          linarith
        · by_contra hlt
          push Not at hlt
          have := Real.cos_neg_of_pi_div_two_lt_of_lt (x := -φ) (by linarith) (by linarith)
          rw [Real.cos_neg] at this
          linarith
      have hη0 : η ≤ 0 := by rw [hη]; linarith
      have hη1 : -Real.pi ≤ η := by rw [hη]; linarith
      have hx0 : η / (2 * s) ≤ 0 := div_nonpos_of_nonpos_of_nonneg hη0 (by positivity)
      have hx1 : -(Real.pi / 2) ≤ η / (2 * s) := by
        rw [le_div_iff₀ (by positivity)]
        nlinarith
      have h1 : Real.sin (η / (2 * s)) ≤ 0 := Real.sin_nonpos_of_nonpos_of_neg_pi_le hx0 (by linarith)
      have h2 : 0 ≤ Real.cos (η / (2 * s)) := Real.cos_nonneg_of_mem_Icc ⟨hx1, by linarith⟩
      apply mul_nonpos_of_nonpos_of_nonneg h1
      have := mul_nonneg_of_nonpos_of_nonpos hcos h1
      have h3 : Real.sin η * Real.cos (η / (2 * s)) ≤ 0 := mul_nonpos_of_nonpos_of_nonneg hsin h2
      have h4 := mul_nonpos_of_nonneg_of_nonpos hτ0.le h3
      linarith
  have hfin : τ * (f η - f 0) = 2 * ρ * (Real.sin (η / (2 * s)) * (Real.cos η * Real.sin (η / (2 * s)) - τ * (Real.sin η * Real.cos (η / (2 * s))))) := by
    rw [hgoal]
    have : τ * (2 * Real.sin (η / (2 * s)) * (c * Real.cos (η / (2 * s)) - b * Real.sin (η / (2 * s)))) =
        2 * Real.sin (η / (2 * s)) * (τ * c * Real.cos (η / (2 * s)) - b * τ * Real.sin (η / (2 * s))) := by ring
    rw [this, hb, hc]
    ring
  have : τ * (f η - f 0) ≤ 0 := by
    rw [hfin]
    exact mul_nonpos_of_nonneg_of_nonpos (by positivity) main
  have := nonpos_of_mul_nonpos_right this hτ0
  linarith

/-- The sinusoid in the form `rotosolve` samples it for a direction of length `k`. -/
theorem rotosolve_sinusoid {n : ℕ} (P U : QMat n) (hP : P * P = 1) (H : QMat n) (k : ℕ) : ∃ a b c : ℝ, ∀ t : ℝ,
    cost H (NormedSpace.exp ((-Complex.I * ((t / 2 ^ k : ℝ) : ℂ)) • P) * U) = a + b * Real.cos (t / (2 ^ k / 2)) + c * Real.sin (t / (2 ^ k / 2)) := by
  obtain ⟨a, b, c, h⟩ := cost_rotation H P U hP
  refine ⟨a, b, c, fun t => ?_⟩
  rw [h, show 2 * (t / 2 ^ k) = t / (2 ^ k / 2) by field_simp]

/-- C38, true part: for a direction of any length `k ≥ 1` the cost does not increase, provided the sampled costs `H₊`, `H₋` (at angles
`±π/2`) and `H₀` satisfy `H₋ ≤ H₊` or `2 H₀ < H₊ + H₋`.  Missing: the remaining case, in which the claim is false (below). -/
theorem C38_not_increasing_partial {n : ℕ} (P U : QMat n) (hP : P * P = 1) (gs : List (Gate n)) (k : ℕ) (hk : 1 ≤ k) (f : ℝ → ℝ)
    (hf : f = fun t : ℝ => cost (totalObs gs) (NormedSpace.exp ((-Complex.I * ((t / 2 ^ k : ℝ) : ℂ)) • P) * U))
    (h : f (-(Real.pi / 2)) ≤ f (Real.pi / 2) ∨ 2 * f 0 < f (Real.pi / 2) + f (-(Real.pi / 2))) :
    ∃ (V : QMat n) (η : ℝ), rotosolve P (gs.map Gate.obs) U k = .ok (V, η) ∧ cost (totalObs gs) V = f η ∧
      cost (totalObs gs) V ≤ cost (totalObs gs) U := by
  have hr := rotosolve_ok P U gs k
  have h0 : cost (totalObs gs) U = f 0 := by simp [hf]
  obtain ⟨a, b, c, hs⟩ := rotosolve_sinusoid P U hP (totalObs gs) k
  have hs1 : (1 : ℝ) ≤ 2 ^ k / 2 := by
    rw [le_div_iff₀ (by norm_num), one_mul]
    calc (2 : ℝ) = 2 ^ 1 := by norm_num
      _ ≤ 2 ^ k := pow_le_pow_right₀ (by norm_num) hk
  have hfs : ∀ t, f t = a + b * Real.cos (t / (2 ^ k / 2)) + c * Real.sin (t / (2 ^ k / 2)) := by
    intro t; rw [hf]; exact hs t
  have hpi0 := Real.pi_pos
  have hang : 0 < Real.pi / 2 / (2 ^ k / 2 : ℝ) ∧ Real.pi / 2 / (2 ^ k / 2 : ℝ) ≤ Real.pi / 2 :=
    ⟨by positivity, div_le_self (by positivity) hs1⟩
  have hsin : 0 < Real.sin (Real.pi / 2 / (2 ^ k / 2 : ℝ)) := Real.sin_pos_of_pos_of_lt_pi hang.1 (by linarith [hang.2])
  have hcos : Real.cos (Real.pi / 2 / (2 ^ k / 2 : ℝ)) < 1 := by
    rw [← Real.cos_zero]
    exact Real.cos_lt_cos_of_nonneg_of_le_pi (le_refl _) (by linarith [hang.2]) hang.1
  have hbc : 0 ≤ c ∨ b < 0 := by
    have e0 := hfs 0
    have ep := hfs (Real.pi / 2)
    have em := hfs (-(Real.pi / 2))
    rw [neg_div, Real.cos_neg, Real.sin_neg] at em
    rw [zero_div, Real.cos_zero, Real.sin_zero] at e0
    rcases h with h | h
    · left
      by_contra hc
      push Not at hc
      nlinarith
    · right
      by_contra hb
      push Not at hb
      nlinarith
  subst hf
  refine ⟨_, _, hr, rfl, ?_⟩
  rw [h0]
  exact sinusoid_step hs1 hbc _ hfs

/-- C38 is false: for every direction of length 2 or more, whenever `2 H₀ = H₊ + H₋` and `H₊ < H₋`, `rotosolve` raises the cost. -/
theorem C38_increases {n : ℕ} (P U : QMat n) (hP : P * P = 1) (gs : List (Gate n)) (k : ℕ) (hk : 2 ≤ k) (f : ℝ → ℝ)
    (hf : f = fun t : ℝ => cost (totalObs gs) (NormedSpace.exp ((-Complex.I * ((t / 2 ^ k : ℝ) : ℂ)) • P) * U))
    (h : f (Real.pi / 2) < f (-(Real.pi / 2))) (h' : 2 * f 0 = f (Real.pi / 2) + f (-(Real.pi / 2))) :
    ∃ (V : QMat n) (η : ℝ), rotosolve P (gs.map Gate.obs) U k = .ok (V, η) ∧ cost (totalObs gs) U < cost (totalObs gs) V := by
  have hr := rotosolve_ok P U gs k
  have h0 : cost (totalObs gs) U = f 0 := by simp [hf]
  obtain ⟨a, b, c, hs⟩ := rotosolve_sinusoid P U hP (totalObs gs) k
  have hs1 : (2 : ℝ) ≤ 2 ^ k / 2 := by
    rw [le_div_iff₀ (by norm_num)]
    calc (2 : ℝ) * 2 = 2 ^ 2 := by norm_num
      _ ≤ 2 ^ k := pow_le_pow_right₀ (by norm_num) hk
  have hfs : ∀ t, f t = a + b * Real.cos (t / (2 ^ k / 2)) + c * Real.sin (t / (2 ^ k / 2)) := by
    intro t; rw [hf]; exact hs t
  have hpi0 := Real.pi_pos
  set s : ℝ := 2 ^ k / 2 with hsdef
  have hang : 0 < Real.pi / 2 / s ∧ Real.pi / 2 / s ≤ Real.pi / 4 := by
    refine ⟨by positivity, ?_⟩
    rw [div_le_iff₀ (by linarith)]
    nlinarith
  have hsin : 0 < Real.sin (Real.pi / 2 / s) := Real.sin_pos_of_pos_of_lt_pi hang.1 (by linarith [hang.2])
  have hcos : Real.cos (Real.pi / 2 / s) < 1 := by
    rw [← Real.cos_zero]
    exact Real.cos_lt_cos_of_nonneg_of_le_pi (le_refl _) (by linarith [hang.2]) hang.1
  have e0 := hfs 0
  have ep := hfs (Real.pi / 2)
  have em := hfs (-(Real.pi / 2))
  rw [neg_div, Real.cos_neg, Real.sin_neg] at em
  rw [zero_div, Real.cos_zero, Real.sin_zero] at e0
  have hb : b = 0 := by
    have : b * (1 - Real.cos (Real.pi / 2 / s)) = 0 := by linarith
    exact (mul_eq_zero.1 this).resolve_right (by linarith)
  have hc : c < 0 := by
    by_contra hc
    push Not at hc
    nlinarith
  have harc : arctan2 (2 * f 0 - f (Real.pi / 2) - f (-(Real.pi / 2))) (f (Real.pi / 2) - f (-(Real.pi / 2))) = Real.pi := by
    rw [arctan2, Complex.arg_eq_pi_iff]
    exact ⟨by simpa using h, by show 2 * f 0 - f (Real.pi / 2) - f (-(Real.pi / 2)) = 0; linarith⟩
  have hval : f 0 < f (-Real.pi / 2 - Real.pi) := by
    rw [hfs, hfs, hb, zero_div, Real.sin_zero, show (-Real.pi / 2 - Real.pi) / s = -(3 * (Real.pi / 2 / s)) by field_simp; ring, Real.sin_neg]
    have := Real.sin_pos_of_pos_of_lt_pi (x := 3 * (Real.pi / 2 / s)) (by linarith [hang.1]) (by linarith [hang.2])
    nlinarith
  have hval' : f 0 < f (-Real.pi / 2 - arctan2 (2 * f 0 - f (Real.pi / 2) - f (-(Real.pi / 2))) (f (Real.pi / 2) - f (-(Real.pi / 2)))) := by
    rw [harc]; exact hval
  subst hf
  refine ⟨_, _, hr, ?_⟩
  rw [h0]
  exact hval'

end Oranssi
