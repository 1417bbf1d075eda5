import Verif.Props.GreedyMore
import Mathlib.Analysis.SpecialFunctions.Trigonometric.Arctan
import Mathlib.Analysis.SpecialFunctions.Complex.Arg

/-! # C129: exactly when `rotosolve` raises the cost -/

namespace Oranssi
open scoped Matrix
open Spec

/-- The polar angle of a point of the second quadrant. -/
theorem arctan2_second {X y : ℝ} (hX : X < 0) (hy : 0 ≤ y) : arctan2 y X = Real.pi - Real.arctan (y / -X) := by
  set x := y / -X with hx
  have hx0 : 0 ≤ x := div_nonneg hy (by linarith)
  have hq : 0 < Real.sqrt (1 + x ^ 2) := Real.sqrt_pos.2 (by positivity)
  have hxy : y = -X * x := by
    have : X ≠ 0 := hX.ne
    rw [hx]; field_simp
  have h1 := Real.arctan_nonneg.2 hx0
  have h2 := Real.arctan_lt_pi_div_two x
  have e : (⟨X, y⟩ : ℂ) = ((-X * Real.sqrt (1 + x ^ 2) : ℝ) : ℂ) * (Complex.cos ((Real.pi - Real.arctan x : ℝ) : ℂ) + Complex.sin ((Real.pi - Real.arctan x : ℝ) : ℂ) * Complex.I) := by
    rw [← Complex.ofReal_cos, ← Complex.ofReal_sin, Real.cos_pi_sub, Real.sin_pi_sub, Real.cos_arctan, Real.sin_arctan]
    apply Complex.ext
    · simp
      field_simp
    · simp
      field_simp
      linarith
  rw [arctan2, e, Complex.arg_mul_cos_add_sin_mul_I (mul_pos (by linarith) hq) ⟨by linarith [Real.pi_pos], by linarith⟩]

/-- When the sine of an angle between 0 and a quarter turn grows. -/
theorem sin_add_gt {β u : ℝ} (hβ0 : 0 ≤ β) (hβ1 : β < Real.pi / 2) (hu0 : 0 < u) (hu1 : u ≤ 3 * Real.pi / 2) : Real.sin β < Real.sin (β + u) ↔ 2 * β + u < Real.pi := by
  have hs : 0 < Real.sin (u / 2) := Real.sin_pos_of_pos_of_lt_pi (by linarith) (by linarith [Real.pi_pos])
  have e : Real.sin (β + u) - Real.sin β = 2 * Real.sin (u / 2) * Real.cos (β + u / 2) := by
    rw [Real.sin_sub_sin]
    congr 2
    · congr 1; ring
    · ring
  constructor
  · intro h
    by_contra hcon
    push Not at hcon
    have hc : Real.cos (β + u / 2) ≤ 0 := Real.cos_nonpos_of_pi_div_two_le_of_le (by linarith) (by linarith)
    have := mul_nonpos_of_nonneg_of_nonpos (by linarith : 0 ≤ 2 * Real.sin (u / 2)) hc
    linarith
  · intro h
    have hc : 0 < Real.cos (β + u / 2) := Real.cos_pos_of_mem_Ioo ⟨by linarith [Real.pi_pos], by linarith⟩
    have := mul_pos (by linarith : 0 < 2 * Real.sin (u / 2)) hc
    linarith

/-- C129.  `H₀`, `H₊`, `H₋` are the costs sampled by `rotosolve` at the angles 0 and `±π/2` along a direction of any length `k ≥ 1`.  The step raises the cost if and only if
`H₊ < H₋`, `H₊ + H₋ ≤ 2 H₀` and, for `x = (2 H₀ - H₊ - H₋)/(H₋ - H₊)`, `2 arctan (x / tan (π/2^(k+1))) - arctan x / 2^(k-1) < π - 3π/2^k`. -/
theorem C129_exact {n : ℕ} (P U : QMat n) (hP : P * P = 1) (gs : List (Gate n)) (k : ℕ) (hk : 1 ≤ k) (f : ℝ → ℝ)
    (hf : f = fun t : ℝ => cost (totalObs gs) (NormedSpace.exp ((-Complex.I * ((t / 2 ^ k : ℝ) : ℂ)) • P) * U)) (x : ℝ)
    (hx : x = (2 * f 0 - f (Real.pi / 2) - f (-(Real.pi / 2))) / (f (-(Real.pi / 2)) - f (Real.pi / 2))) :
    ∃ (V : QMat n) (η : ℝ), rotosolve P (gs.map Gate.obs) U k = .ok (V, η) ∧
      (cost (totalObs gs) U < cost (totalObs gs) V ↔ f (Real.pi / 2) < f (-(Real.pi / 2)) ∧ f (Real.pi / 2) + f (-(Real.pi / 2)) ≤ 2 * f 0 ∧
        2 * Real.arctan (x / Real.tan (Real.pi / 2 ^ (k + 1))) - Real.arctan x / 2 ^ (k - 1) < Real.pi - 3 * Real.pi / 2 ^ k) := by
  by_cases hcase : f (Real.pi / 2) < f (-(Real.pi / 2)) ∧ f (Real.pi / 2) + f (-(Real.pi / 2)) ≤ 2 * f 0
  swap
  · obtain ⟨V, η, h1, -, h3⟩ := C38_not_increasing_partial P U hP gs k hk f hf (by
      by_contra hcon
      push Not at hcon
      exact hcase ⟨hcon.1, by linarith [hcon.2]⟩)
    exact ⟨V, η, h1, fun h => absurd h3 (not_le.2 h), fun h => absurd ⟨h.1, h.2.1⟩ hcase⟩
  obtain ⟨hlt, hle⟩ := hcase
  have hr := rotosolve_ok P U gs k
  obtain ⟨a, b, c, hs⟩ := rotosolve_sinusoid P U hP (totalObs gs) k
  have hs' : ∀ t, f t = a + b * Real.cos (t / (2 ^ k / 2)) + c * Real.sin (t / (2 ^ k / 2)) := by
    intro t; rw [hf]; exact hs t
  simp only at hr
  have hfe : ∀ t : ℝ, cost (totalObs gs) (NormedSpace.exp ((-Complex.I * ((t / 2 ^ k : ℝ) : ℂ)) • P) * U) = f t := fun t => by rw [hf]
  simp only [hfe] at hr
  refine ⟨_, _, hr, ?_⟩
  have h0 : cost (totalObs gs) U = f 0 := by simp [hf]
  rw [hfe, h0]
  set s : ℝ := 2 ^ k / 2 with hsd
  have hs1 : (1 : ℝ) ≤ s := by
    rw [hsd, le_div_iff₀ (by norm_num), one_mul]
    calc (2 : ℝ) = 2 ^ 1 := by norm_num
      _ ≤ 2 ^ k := pow_le_pow_right₀ (by norm_num) hk
  have hs0 : 0 < s := by linarith
  have hk2 : (2 : ℝ) ^ k = 2 * s := by rw [hsd]; ring
  have hk3 : (2 : ℝ) ^ (k + 1) = 4 * s := by rw [pow_succ, hk2]; ring
  have hk1 : (2 : ℝ) ^ (k - 1) = s := by
    obtain ⟨m, rfl⟩ : ∃ m, k = m + 1 := ⟨k - 1, by omega⟩
    rw [hsd, Nat.add_sub_cancel, pow_succ]; ring
  set w : ℝ := Real.pi / 2 / s with hw
  have hpi := Real.pi_pos
  have hw0 : 0 < w := by positivity
  have hw1 : w ≤ Real.pi / 2 := by rw [hw]; exact div_le_self (by positivity) hs1
  have hsw : 0 < Real.sin w := Real.sin_pos_of_pos_of_lt_pi hw0 (by linarith)
  have hcw : Real.cos w < 1 := by
    have := Real.cos_lt_cos_of_nonneg_of_le_pi_div_two le_rfl hw1 hw0
    rwa [Real.cos_zero] at this
  have e1 : f (Real.pi / 2) - f (-(Real.pi / 2)) = 2 * c * Real.sin w := by
    rw [hs', hs', neg_div, Real.cos_neg, Real.sin_neg]; ring
  have e2 : 2 * f 0 - f (Real.pi / 2) - f (-(Real.pi / 2)) = 2 * b * (1 - Real.cos w) := by
    rw [hs', hs', hs', neg_div, Real.cos_neg, Real.sin_neg, zero_div, Real.cos_zero, Real.sin_zero]; ring
  have hc : c < 0 := by
    by_contra hcon
    push Not at hcon
    have := mul_nonneg hcon hsw.le
    linarith
  have hb : 0 ≤ b := by
    by_contra hcon
    push Not at hcon
    have := mul_neg_of_neg_of_pos hcon (by linarith : 0 < 1 - Real.cos w)
    linarith
  have htan : Real.tan (Real.pi / 2 ^ (k + 1)) = (1 - Real.cos w) / Real.sin w := by
    have hw2 : Real.pi / 2 ^ (k + 1) = w / 2 := by rw [hk3, hw]; field_simp; ring
    have hc2 : 0 < Real.cos (w / 2) := Real.cos_pos_of_mem_Ioo ⟨by linarith, by linarith⟩
    have hs2 : 0 < Real.sin (w / 2) := Real.sin_pos_of_pos_of_lt_pi (by linarith) (by linarith)
    have c2 : Real.cos w = 1 - 2 * Real.sin (w / 2) ^ 2 := by
      rw [show w = 2 * (w / 2) by ring, Real.cos_two_mul, show 2 * (w / 2) / 2 = w / 2 by ring]
      have := Real.sin_sq_add_cos_sq (w / 2)
      linarith
    have s2 : Real.sin w = 2 * Real.sin (w / 2) * Real.cos (w / 2) := by
      rw [← Real.sin_two_mul]; congr 1; ring
    rw [hw2, Real.tan_eq_sin_div_cos, c2, s2]
    field_simp
    ring
  have hxv : x / Real.tan (Real.pi / 2 ^ (k + 1)) = b / -c := by
    rw [hx, htan, e2, show f (-(Real.pi / 2)) - f (Real.pi / 2) = -(2 * c * Real.sin w) by linarith]
    have : 1 - Real.cos w ≠ 0 := by linarith
    field_simp
  rw [hxv, hk1, hk2]
  have hx0 : 0 ≤ x := by
    rw [hx]; exact div_nonneg (by linarith) (by linarith)
  rw [arctan2_second (by linarith) (by linarith), show -(f (Real.pi / 2) - f (-(Real.pi / 2))) = f (-(Real.pi / 2)) - f (Real.pi / 2) by ring, ← hx]
  set β := Real.arctan (b / -c) with hβ
  set γ := Real.arctan x with hγ
  have hγ0 : 0 ≤ γ := Real.arctan_nonneg.2 hx0
  have hγ1 : γ < Real.pi / 2 := Real.arctan_lt_pi_div_two x
  have hβ0 : 0 ≤ β := Real.arctan_nonneg.2 (div_nonneg hb (by linarith))
  have hβ1 : β < Real.pi / 2 := Real.arctan_lt_pi_div_two _
  set q := Real.sqrt (1 + (b / -c) ^ 2) with hq
  have hq0 : 0 < q := Real.sqrt_pos.2 (by positivity)
  have hcne : c ≠ 0 := hc.ne
  have hsin : b = -c * q * Real.sin β := by
    rw [hβ, Real.sin_arctan, ← hq]; field_simp
  have hcos : -c = -c * q * Real.cos β := by
    rw [hβ, Real.cos_arctan, ← hq]; field_simp
  have hval : ∀ t, f t = a + -c * q * Real.sin (β + -(t / s)) := by
    intro t
    rw [hs', Real.sin_add, Real.cos_neg, Real.sin_neg]
    linear_combination Real.cos (t / s) * hsin - Real.sin (t / s) * hcos
  set u : ℝ := (3 * Real.pi / 2 - γ) / s with hu
  have hη : -((-Real.pi / 2 - (Real.pi - γ)) / s) = u := by rw [hu]; ring
  have hu0 : 0 < u := div_pos (by linarith) hs0
  have hu1 : u ≤ 3 * Real.pi / 2 := by
    rw [hu]
    exact (div_le_self (by linarith) hs1).trans (by linarith)
  have key : f 0 < f (-Real.pi / 2 - (Real.pi - γ)) ↔ 2 * β + u < Real.pi := by
    rw [hval, hval, hη, zero_div, neg_zero, add_zero, add_lt_add_iff_left, mul_lt_mul_iff_right₀ (mul_pos (by linarith) hq0), sin_add_gt hβ0 hβ1 hu0 hu1]
  have hfin : 2 * β + u < Real.pi ↔ 2 * β - γ / s < Real.pi - 3 * Real.pi / (2 * s) := by
    have : u = 3 * Real.pi / (2 * s) - γ / s := by rw [hu]; field_simp
    rw [this]
    constructor <;> intro h <;> linarith
  rw [key, hfin]
  exact ⟨fun h => ⟨hlt, hle, h⟩, fun h => h.2.2⟩

/-- The left side of the criterion grows with `x`. -/
theorem criterion_mono {s κ : ℝ} (hs : 1 ≤ s) (hκ0 : 0 < κ) (hκ1 : κ ≤ 1) (hκs : 1 < 2 * κ * s) : StrictMono fun x : ℝ => 2 * Real.arctan (x / κ) - Real.arctan x / s := by
  refine strictMono_of_deriv_pos fun x => ?_
  have h1 : HasDerivAt (fun x : ℝ => Real.arctan (x / κ)) (1 / (1 + (x / κ) ^ 2) * (1 / κ)) x := (((hasDerivAt_id x).div_const κ).arctan)
  have h2 : HasDerivAt (fun x : ℝ => 2 * Real.arctan (x / κ) - Real.arctan x / s) (2 * (1 / (1 + (x / κ) ^ 2) * (1 / κ)) - 1 / (1 + x ^ 2) / s) x :=
    (h1.const_mul 2).sub ((Real.hasDerivAt_arctan x).div_const s)
  rw [h2.deriv]
  have hs0 : 0 < s := by linarith
  have e : 2 * (1 / (1 + (x / κ) ^ 2) * (1 / κ)) - 1 / (1 + x ^ 2) / s = (2 * κ * s * (1 + x ^ 2) - (κ ^ 2 + x ^ 2)) / ((κ ^ 2 + x ^ 2) * (1 + x ^ 2) * s) := by
    have h3 : κ ^ 2 + x ^ 2 ≠ 0 := by positivity
    have h4 : 1 + x ^ 2 ≠ 0 := by positivity
    have h5 : 1 + (x / κ) ^ 2 = (κ ^ 2 + x ^ 2) / κ ^ 2 := by field_simp
    rw [h5]
    field_simp
  rw [e]
  refine div_pos ?_ (by positivity)
  have h6 : κ ^ 2 ≤ 1 := pow_le_one₀ hκ0.le hκ1
  have h7 := mul_lt_mul_of_pos_right hκs (by positivity : 0 < 1 + x ^ 2)
  linarith

/-- C129 (threshold).  For directions of any length `k ≥ 2` there is one number `τ > 0` such that, for all circuits, observables and directions, the step raises the cost if and only
if `H₊ < H₋` and `0 ≤ 2 H₀ - H₊ - H₋ < τ (H₋ - H₊)`. -/
theorem C129_threshold (k : ℕ) (hk : 2 ≤ k) : ∃ τ > 0, ∀ (n : ℕ) (P U : QMat n) (_ : P * P = 1) (gs : List (Gate n)) (f : ℝ → ℝ)
    (_ : f = fun t : ℝ => cost (totalObs gs) (NormedSpace.exp ((-Complex.I * ((t / 2 ^ k : ℝ) : ℂ)) • P) * U)),
    ∃ (V : QMat n) (η : ℝ), rotosolve P (gs.map Gate.obs) U k = .ok (V, η) ∧
      (cost (totalObs gs) U < cost (totalObs gs) V ↔ f (Real.pi / 2) < f (-(Real.pi / 2)) ∧ 0 ≤ 2 * f 0 - f (Real.pi / 2) - f (-(Real.pi / 2)) ∧
        2 * f 0 - f (Real.pi / 2) - f (-(Real.pi / 2)) < τ * (f (-(Real.pi / 2)) - f (Real.pi / 2))) := by
  have hpi := Real.pi_pos
  set s : ℝ := 2 ^ (k - 1) with hs
  have hs2 : (2 : ℝ) ≤ s := by
    rw [hs]
    calc (2 : ℝ) = 2 ^ 1 := by norm_num
      _ ≤ 2 ^ (k - 1) := pow_le_pow_right₀ (by norm_num) (by omega)
  have hs0 : 0 < s := by linarith
  have hk2 : (2 : ℝ) ^ k = 2 * s := by
    rw [hs, ← pow_succ']; congr 1; omega
  have hk3 : (2 : ℝ) ^ (k + 1) = 4 * s := by rw [pow_succ, hk2]; ring
  set κ := Real.tan (Real.pi / 2 ^ (k + 1)) with hκ
  have hw0 : 0 < Real.pi / (4 * s) := by positivity
  have hw1 : Real.pi / (4 * s) ≤ Real.pi / 8 := div_le_div_of_nonneg_left hpi.le (by norm_num) (by linarith)
  have hκ0 : Real.pi / (4 * s) < κ := by
    rw [hκ, hk3]; exact Real.lt_tan hw0 (by linarith)
  have hκ1 : κ ≤ 1 := by
    rw [hκ, hk3, ← Real.tan_pi_div_four]
    exact Real.strictMonoOn_tan.monotoneOn ⟨by linarith, by linarith⟩ ⟨by linarith, by linarith⟩ (by linarith)
  have hκp : 0 < κ := hw0.trans hκ0
  have hκs : 1 < 2 * κ * s := by
    have h1 : Real.pi / (4 * s) * s < κ * s := mul_lt_mul_of_pos_right hκ0 hs0
    have h2 : Real.pi / (4 * s) * s = Real.pi / 4 := by field_simp
    linarith [Real.pi_gt_three]
  have hmono := criterion_mono (by linarith : 1 ≤ s) hκp hκ1 hκs
  set g : ℝ → ℝ := fun x => 2 * Real.arctan (x / κ) - Real.arctan x / s with hg
  have hcont : Continuous g := by
    rw [hg]
    exact ((Real.continuous_arctan.comp (continuous_id.div_const κ)).const_mul 2).sub (Real.continuous_arctan.div_const s)
  have hT : 3 * Real.pi / 2 ^ k ≤ 3 * Real.pi / 4 := by
    rw [hk2]; exact div_le_div_of_nonneg_left (by linarith) (by norm_num) (by linarith)
  obtain ⟨X, hX⟩ : ∃ X, Real.pi - 3 * Real.pi / 2 ^ k < g X := by
    have hlim : Filter.Tendsto g Filter.atTop (nhds (2 * (Real.pi / 2) - Real.pi / 2 / s)) := by
      have t1 : Filter.Tendsto Real.arctan Filter.atTop (nhds (Real.pi / 2)) := Real.tendsto_arctan_atTop.mono_right nhdsWithin_le_nhds
      exact ((t1.comp (Filter.tendsto_id.atTop_div_const hκp)).const_mul 2).sub (t1.div_const s)
    have hlt : Real.pi - 3 * Real.pi / 2 ^ k < 2 * (Real.pi / 2) - Real.pi / 2 / s := by
      rw [hk2, show 3 * Real.pi / (2 * s) = 3 * (Real.pi / 2 / s) by field_simp]
      have : 0 < Real.pi / 2 / s := by positivity
      linarith
    exact (hlim.eventually (lt_mem_nhds hlt)).exists
  have hg0 : g 0 = 0 := by simp [hg]
  have hX0 : 0 ≤ X := by
    by_contra hcon
    push Not at hcon
    have := hmono hcon
    rw [hg0] at this
    linarith
  obtain ⟨τ, hτ, hτg⟩ := intermediate_value_Icc hX0 hcont.continuousOn ⟨by rw [hg0]; linarith, hX.le⟩
  have hτ0 : 0 < τ := by
    rcases hτ.1.eq_or_lt with h | h
    · rw [← h, hg0] at hτg
      linarith
    · exact h
  refine ⟨τ, hτ0, fun n P U hP gs f hf => ?_⟩
  obtain ⟨V, η, h1, h2⟩ := C129_exact P U hP gs k (by omega) f hf _ rfl
  refine ⟨V, η, h1, h2.trans ?_⟩
  refine and_congr_right fun h3 => ?_
  refine and_congr (by constructor <;> intro h <;> linarith) ?_
  rw [← hτg]
  refine Iff.trans hmono.lt_iff_lt ?_
  rw [div_lt_iff₀ (by linarith)]

/-! ### Example -/

/-- The criterion is met on the circuit of `C38_squared_raises_cost`: the costs sampled are 0, `-√2/2` and `√2/2`, and `x = 0`. -/
example : ∃ (V : QMat 2) (η : ℝ), rotosolve xx ([obsZ0].map Gate.obs) uBad 2 = .ok (V, η) ∧ cost (totalObs [obsZ0]) uBad < cost (totalObs [obsZ0]) V := by
  have hf : ∀ t : ℝ, cost (totalObs [obsZ0]) (NormedSpace.exp ((-Complex.I * ((t / 2 ^ 2 : ℝ) : ℂ)) • xx) * uBad) = -Real.sin (t / 2) := by
    intro t
    rw [uBad, ← Matrix.exp_add_of_commute _ _ (((Commute.refl xx).smul_left _).smul_right _), ← add_smul, ← mul_add, ← Complex.ofReal_add, cost_exp,
      show 2 * (t / 2 ^ 2 + Real.pi / 4) = t / 2 + Real.pi / 2 by ring, Real.cos_add_pi_div_two]
  have hs4 : 0 < Real.sin (Real.pi / 2 / 2) := Real.sin_pos_of_pos_of_lt_pi (by linarith [Real.pi_pos]) (by linarith [Real.pi_pos])
  obtain ⟨V, η, h1, h2⟩ := C129_exact xx uBad (pauliWord_sq _) [obsZ0] 2 (by norm_num) (fun t => -Real.sin (t / 2)) (funext fun t => (hf t).symm) _ rfl
  refine ⟨V, η, h1, h2.2 ⟨?_, ?_, ?_⟩⟩
  · rw [neg_div, Real.sin_neg]; linarith
  · rw [neg_div, Real.sin_neg]; simp
  · rw [neg_div (2 : ℝ) (Real.pi / 2), Real.sin_neg, zero_div, Real.sin_zero]
    norm_num
    linarith [Real.pi_pos]

end Oranssi
