import Verif.Props.PlotDifference
import Verif.Props.RedBlue

/-! # C148: the parameter-shift run of `plot_difference` in closed form -/

namespace Oranssi
open Spec
open scoped Matrix

/-- Gradient descent on `sin a cos b` is two separate flows: `a + b - π/2` and `a - b - π/2`. -/
theorem descentAB_split (e a b : ℝ) : ∀ k,
    (descentAB e a b k).1 + (descentAB e a b k).2 - Real.pi / 2 = flowAngle e (a + b - Real.pi / 2) k ∧
    (descentAB e a b k).1 - (descentAB e a b k).2 - Real.pi / 2 = flowAngle e (a - b - Real.pi / 2) k
  | 0 => ⟨rfl, rfl⟩
  | k + 1 => by
    obtain ⟨h1, h2⟩ := descentAB_split e a b k
    rw [flowAngle, flowAngle, ← h1, ← h2, Real.sin_sub_pi_div_two, Real.sin_sub_pi_div_two, Real.cos_add, Real.cos_sub, descentAB]
    constructor <;> ring

theorem sin_mul_cos_split (a b : ℝ) : Real.sin a * Real.cos b = (Real.cos (a + b - Real.pi / 2) + Real.cos (a - b - Real.pi / 2)) / 2 := by
  rw [Real.cos_sub_pi_div_two, Real.cos_sub_pi_div_two, Real.sin_add, Real.sin_sub]
  ring

section
variable {ret : CircuitRet} {gd : ℝ → (List ℝ → Py ℝ) → List ℝ → Py (List ℝ)} {p : List ℝ} {args : PsArgs} {out : OptOut (PsItem 1 (List ℝ))}

/-- C148.  The costs of a parameter-shift run on the circuit and observable of `plot_difference` in closed form: the mean of the cosines of two angles that each follow
the flow of a single involutory observable. -/
theorem C148_costs (hgd : ValidGdList gd) (hp : 1 < p.length) (e : ℝ) (hE : args.eta = .float e) (rp : Bool) (hrp : args.returnParams = boolFlag rp)
    (h : parameterShiftOptimizer gd ret plotDifferenceCircuit p ([gateX].map Gate.obs) args = .ok out) :
    psCosts out = (List.range (psCosts out).length).map (fun k =>
      (Real.cos (flowAngle e (p.getD 0 0 + p.getD 1 0 - Real.pi / 2) k) + Real.cos (flowAngle e (p.getD 0 0 - p.getD 1 0 - Real.pi / 2) k)) / 2) := by
  obtain ⟨N, e', t, V, m, hN1, he1, ht1, hV0, hmN, hstep, hl, hc, -⟩ := C55_trace _ _ _ _ _ _ _ rp hrp h
  rw [hE] at he1
  obtain rfl := PyVal.float.inj he1
  have hV : ∀ k ≤ m, (V k).length = p.length ∧ ((V k).getD 0 0, (V k).getD 1 0) = descentAB e (p.getD 0 0) (p.getD 1 0) k := by
    intro k
    induction k with
    | zero => intro _; rw [hV0]; exact ⟨rfl, rfl⟩
    | succ k ih =>
      intro hk
      obtain ⟨hl, ha⟩ := ih (by omega)
      obtain ⟨p', q1, q2, q3, q4⟩ := gd_difference hgd (p := V k) (by omega) e
      rw [hstep k (by omega)] at q1
      obtain rfl := Except.ok.inj q1
      refine ⟨by omega, ?_⟩
      rw [q3, q4, descentAB, ← ha]
  apply List.ext_getElem?
  intro k
  by_cases hk : k ≤ m
  · have := hc k hk
    obtain ⟨h1, h2⟩ := hV k hk
    rw [plotDifference_cost _ (by omega)] at this
    have h3 := Except.ok.inj this
    obtain ⟨s1, s2⟩ := descentAB_split e (p.getD 0 0) (p.getD 1 0) k
    rw [← h2] at s1 s2
    rw [List.getElem?_map, List.getElem?_range (by omega), Option.map_some, ← s1, ← s2, ← sin_mul_cos_split, h3, List.getD_eq_getElem (hn := by omega),
      List.getElem?_eq_getElem]
  · rw [List.getElem?_eq_none (by omega), List.getElem?_eq_none (by simp; omega)]

theorem difference_getD (hgd : ValidGdList gd) (hp : 1 < p.length) (e : ℝ) (hE : args.eta = .float e) (rp : Bool) (hrp : args.returnParams = boolFlag rp)
    (h : parameterShiftOptimizer gd ret plotDifferenceCircuit p ([gateX].map Gate.obs) args = .ok out) (k : ℕ) (hk : k < (psCosts out).length) :
    (psCosts out).getD k 0 =
      (Real.cos (flowAngle e (p.getD 0 0 + p.getD 1 0 - Real.pi / 2) k) + Real.cos (flowAngle e (p.getD 0 0 - p.getD 1 0 - Real.pi / 2) k)) / 2 := by
  rw [C148_costs hgd hp e hE rp hrp h, List.getD_eq_getElem (hn := by simpa using hk), List.getElem_map, List.getElem_range]

/-- C148.  Every step goes down, by at least `eta (1 - eta / 2) / 2` times the sum of the squared sines of the two angles. -/
theorem C148_descends (hgd : ValidGdList gd) (hp : 1 < p.length) (e : ℝ) (hE : args.eta = .float e) (rp : Bool) (hrp : args.returnParams = boolFlag rp)
    (h : parameterShiftOptimizer gd ret plotDifferenceCircuit p ([gateX].map Gate.obs) args = .ok out) (k : ℕ) (hk : k + 1 < (psCosts out).length) :
    (psCosts out).getD (k + 1) 0 ≤ (psCosts out).getD k 0 - e * (1 - e / 2) / 2 *
      (Real.sin (flowAngle e (p.getD 0 0 + p.getD 1 0 - Real.pi / 2) k) ^ 2 + Real.sin (flowAngle e (p.getD 0 0 - p.getD 1 0 - Real.pi / 2) k) ^ 2) := by
  rw [difference_getD hgd hp e hE rp hrp h _ hk, difference_getD hgd hp e hE rp hrp h k (by omega), flowAngle, flowAngle]
  have d1 := flow_drop e (flowAngle e (p.getD 0 0 + p.getD 1 0 - Real.pi / 2) k)
  have d2 := flow_drop e (flowAngle e (p.getD 0 0 - p.getD 1 0 - Real.pi / 2) k)
  linarith

/-- C148.  If one of the angles starts at a multiple of `2π` the costs stay nonnegative. -/
theorem C148_stuck (hgd : ValidGdList gd) (hp : 1 < p.length) (e : ℝ) (hE : args.eta = .float e) (rp : Bool) (hrp : args.returnParams = boolFlag rp)
    (h : parameterShiftOptimizer gd ret plotDifferenceCircuit p ([gateX].map Gate.obs) args = .ok out)
    (hs : Real.sin (p.getD 0 0 + p.getD 1 0) = 1 ∨ Real.sin (p.getD 0 0 - p.getD 1 0) = 1) : ∀ c ∈ psCosts out, 0 ≤ c := by
  have h0 : ∀ x : ℝ, Real.sin x = 1 → ∀ k, Real.cos (flowAngle e (x - Real.pi / 2) k) = 1 := by
    intro x hx k
    have := Real.sin_sq_add_cos_sq x
    rw [hx] at this
    have hc : Real.cos x = 0 := pow_eq_zero_iff (two_ne_zero) |>.1 (by linarith)
    rw [flow_still (by rw [Real.sin_sub_pi_div_two, hc, neg_zero]), Real.cos_sub_pi_div_two, hx]
  intro c hc
  rw [C148_costs hgd hp e hE rp hrp h] at hc
  obtain ⟨k, -, rfl⟩ := List.mem_map.1 hc
  rcases hs with hs | hs
  · rw [h0 _ hs]
    linarith [Real.neg_one_le_cos (flowAngle e (p.getD 0 0 - p.getD 1 0 - Real.pi / 2) k)]
  · rw [h0 _ hs]
    linarith [Real.neg_one_le_cos (flowAngle e (p.getD 0 0 + p.getD 1 0 - Real.pi / 2) k)]

end

/-- C148.  From every other start at which both angles can move the costs approach the smallest eigenvalue `-1` of `X`. -/
theorem C148_limit (e a b : ℝ) (hE0 : 0 < e) (hE1 : e ≤ 1) (h1 : Real.cos (a + b) ≠ 0) (h2 : Real.cos (a - b) ≠ 0) (ε : ℝ) (hε : 0 < ε) :
    ∃ K : ℕ, ∀ (ret : CircuitRet) (gd : ℝ → (List ℝ → Py ℝ) → List ℝ → Py (List ℝ)) (args : PsArgs) (out : OptOut (PsItem 1 (List ℝ))) (rp : Bool),
      ValidGdList gd → args.eta = .float e → args.returnParams = boolFlag rp →
      parameterShiftOptimizer gd ret plotDifferenceCircuit [a, b] ([gateX].map Gate.obs) args = .ok out →
      ∀ k ≥ K, ∀ c, (psCosts out)[k]? = some c → |c - -1| < ε := by
  have s1 : Real.sin (a + b - Real.pi / 2) ≠ 0 := by rw [Real.sin_sub_pi_div_two]; exact neg_ne_zero.2 h1
  have s2 : Real.sin (a - b - Real.pi / 2) ≠ 0 := by rw [Real.sin_sub_pi_div_two]; exact neg_ne_zero.2 h2
  have ht := ((flow_cos_tendsto hE0 (by linarith) s1).add (flow_cos_tendsto hE0 (by linarith) s2)).div_const 2
  rw [show ((-1 : ℝ) + -1) / 2 = -1 by ring] at ht
  obtain ⟨K, hK⟩ := Metric.tendsto_atTop.1 ht ε hε
  refine ⟨K, fun ret gd args out rp hgd hE hrp h k hk c hc => ?_⟩
  rw [C148_costs hgd (by simp) e hE rp hrp h, List.getElem?_map, Option.map_eq_some_iff] at hc
  obtain ⟨j, hj, rfl⟩ := hc
  obtain ⟨-, rfl⟩ := List.getElem?_eq_some_iff.1 hj
  simpa [Real.dist_eq] using hK k hk

/-- The script's start: both angles move. -/
example : Real.cos ((0.4 : ℝ) + 1.2) ≠ 0 ∧ Real.cos ((0.4 : ℝ) - 1.2) ≠ 0 := by
  constructor
  · have h1 := Real.pi_lt_d2
    have h2 := Real.pi_gt_d2
    exact (Real.cos_neg_of_pi_div_two_lt_of_lt (by linarith) (by linarith)).ne
  · have h2 := Real.pi_gt_d2
    exact (Real.cos_pos_of_mem_Ioo ⟨by linarith, by linarith⟩).ne'

/-- A start from which the run of C148_stuck stays at or above 0. -/
example : Real.sin (([Real.pi / 4, Real.pi / 4] : List ℝ).getD 0 0 + ([Real.pi / 4, Real.pi / 4] : List ℝ).getD 1 0) = 1 := by
  simp only [List.getD_cons_zero, List.getD_cons_succ]
  rw [show Real.pi / 4 + Real.pi / 4 = Real.pi / 2 by ring, Real.sin_pi_div_two]

theorem flow_reflect (e x : ℝ) : ∀ k, flowAngle e (-x) k = -flowAngle e x k
  | 0 => rfl
  | k + 1 => by rw [flowAngle, flowAngle, flow_reflect e x k, Real.sin_neg]; ring

theorem flow_period (e x : ℝ) (n : ℤ) : ∀ k, flowAngle e (x + n * (2 * Real.pi)) k = flowAngle e x k + n * (2 * Real.pi)
  | 0 => rfl
  | k + 1 => by rw [flowAngle, flowAngle, flow_period e x n k, Real.sin_add_int_mul_two_pi]; ring

/-- The cosine along the flow depends only on the cosine of the start. -/
theorem flow_cos_congr (e : ℝ) {x y : ℝ} (h : Real.cos x = Real.cos y) (k : ℕ) : Real.cos (flowAngle e x k) = Real.cos (flowAngle e y k) := by
  obtain ⟨n, hn | hn⟩ := Real.cos_eq_cos_iff.1 h
  · rw [show y = x + n * (2 * Real.pi) by rw [hn]; ring, flow_period, Real.cos_add_int_mul_two_pi]
  · rw [show y = -x + n * (2 * Real.pi) by rw [hn]; ring, flow_period, Real.cos_add_int_mul_two_pi, flow_reflect, Real.cos_neg]

/-- C148.  From a start with `cos a sin b = 0` the two optimizers report the same costs as long as both run. -/
theorem C148_agree {eigh : EighFn 1} {rnd : ℕ → Matrix (Fin (2 ^ 1)) (Fin (2 ^ 1)) ℝ} {ret ret' : CircuitRet}
    {gd : ℝ → (List ℝ → Py ℝ) → List ℝ → Py (List ℝ)} {p : List ℝ} {ops : List (NpMat × List ℤ)}
    {argsE : ExactArgs} {argsP : PsArgs} {outE : OptOut (ExactItem 1)} {outP : OptOut (PsItem 1 (List ℝ))}
    (he : ValidEigh eigh) (hgd : ValidGdList gd) (hp : 1 < p.length) (hops : plotDifferenceCircuit p = .ok ops)
    (e : ℝ) (hE : argsE.eta = .float e) (hE' : argsP.eta = .float e) (hP : argsE.perturbation = .bool false)
    (rp : Bool) (hrp : argsP.returnParams = boolFlag rp)
    (hX : exactLieOptimizer eigh rnd ret ops ([gateX].map Gate.obs) argsE = .ok outE)
    (hS : parameterShiftOptimizer gd ret' plotDifferenceCircuit p ([gateX].map Gate.obs) argsP = .ok outP)
    (hz : Real.cos (p.getD 0 0) * Real.sin (p.getD 1 0) = 0) :
    ∀ k, k < (exactCosts outE).length → k < (psCosts outP).length → (exactCosts outE).getD k 0 = (psCosts outP).getD k 0 := by
  intro k k1 k2
  rw [(C93_costs he hgd hp hops e hE hE' hP rp hrp hX hS).2 k k1, difference_getD hgd hp e hE' rp hrp hS k k2]
  generalize p.getD 0 0 = a at *
  generalize p.getD 1 0 = b at *
  have hb := abs_le.1 (abs_mul (Real.sin a) (Real.cos b) ▸ mul_le_one₀ (Real.abs_sin_le_one a) (abs_nonneg _) (Real.abs_cos_le_one b))
  have c0 := Real.cos_arccos hb.1 hb.2
  have c1 : Real.cos (a + b - Real.pi / 2) = Real.cos (Real.arccos (Real.sin a * Real.cos b)) := by
    rw [c0, Real.cos_sub_pi_div_two, Real.sin_add, hz, add_zero]
  have c2 : Real.cos (a - b - Real.pi / 2) = Real.cos (Real.arccos (Real.sin a * Real.cos b)) := by
    rw [c0, Real.cos_sub_pi_div_two, Real.sin_sub, hz, sub_zero]
  rw [flow_cos_congr e c1, flow_cos_congr e c2]
  ring

/-! ## The runs differ from every other start -/

/-- The step size of the exact step that moves the state as far as a gradient step with step size `e` does. -/
noncomputable def shorter (e a b : ℝ) : ℝ :=
  e * Real.sqrt ((Real.cos a * Real.cos b) ^ 2 + (Real.sin a * Real.sin b) ^ 2) / Real.sqrt (Real.cos a ^ 2 + (Real.sin a * Real.sin b) ^ 2)

theorem shorter_bounds {e a b : ℝ} (h0 : 0 < e) (hz : Real.cos a * Real.sin b ≠ 0) : 0 ≤ shorter e a b ∧ shorter e a b < e := by
  have t2 := Real.sin_sq_add_cos_sq b
  have hpos : 0 < (Real.cos a * Real.sin b) ^ 2 := by positivity
  have hlt : (Real.cos a * Real.cos b) ^ 2 + (Real.sin a * Real.sin b) ^ 2 < Real.cos a ^ 2 + (Real.sin a * Real.sin b) ^ 2 := by nlinarith
  have hs : Real.sqrt ((Real.cos a * Real.cos b) ^ 2 + (Real.sin a * Real.sin b) ^ 2) < Real.sqrt (Real.cos a ^ 2 + (Real.sin a * Real.sin b) ^ 2) :=
    Real.sqrt_lt_sqrt (by positivity) hlt
  have h1 := Real.sqrt_nonneg ((Real.cos a * Real.cos b) ^ 2 + (Real.sin a * Real.sin b) ^ 2)
  refine ⟨by unfold shorter; positivity, ?_⟩
  rw [shorter, div_lt_iff₀ (by linarith)]
  exact mul_lt_mul_of_pos_left hs h0

theorem shorter_close {e a b x : ℝ} (h0 : 0 < e) (h1 : e ≤ 1) (hz : Real.cos a * Real.sin b ≠ 0) (hs : 0 ≤ Real.sin x) (hx : Real.sin a * Real.cos b = Real.cos x) :
    Real.cos (shorter e a b * Real.sin x / 2) ≤
      overlap (circAB a b) (circAB (a - e * (Real.cos a * Real.cos b)) (b + e * (Real.sin a * Real.sin b))) := by
  refine le_trans ?_ (overlap_circAB ..)
  rw [show (a - e * (Real.cos a * Real.cos b) - a) / 2 = -(e * (Real.cos a * Real.cos b) / 2) by ring, Real.cos_neg,
    show (b + e * (Real.sin a * Real.sin b) - b) / 2 = e * (Real.sin a * Real.sin b) / 2 by ring]
  have ca := Real.abs_cos_le_one a
  have cb := Real.abs_cos_le_one b
  have sa := Real.abs_sin_le_one a
  have sb := Real.abs_sin_le_one b
  have b1 : |e * (Real.cos a * Real.cos b) / 2| ≤ 1 / 2 := by
    rw [abs_div, abs_mul, abs_mul, abs_of_nonneg h0.le, abs_of_pos (by norm_num : (0 : ℝ) < 2)]
    have := mul_le_one₀ ca (abs_nonneg _) cb
    have := mul_le_one₀ h1 (by positivity) this
    linarith
  have b2 : |e * (Real.sin a * Real.sin b) / 2| ≤ 1 / 2 := by
    rw [abs_div, abs_mul, abs_mul, abs_of_nonneg h0.le, abs_of_pos (by norm_num : (0 : ℝ) < 2)]
    have := mul_le_one₀ sa (abs_nonneg _) sb
    have := mul_le_one₀ h1 (by positivity) this
    linarith
  refine le_trans (le_of_eq ?_) (cos_sqrt_le_mul (by linarith [Real.pi_gt_three]))
  have t1 := Real.sin_sq_add_cos_sq a
  have t2 := Real.sin_sq_add_cos_sq b
  have t3 := Real.sin_sq_add_cos_sq x
  rw [← hx] at t3
  have hsin : Real.sin x = Real.sqrt (Real.cos a ^ 2 + (Real.sin a * Real.sin b) ^ 2) := by
    rw [← Real.sqrt_sq hs]
    congr 1
    nlinarith
  have hca : Real.cos a ≠ 0 := left_ne_zero_of_mul hz
  have hne : Real.sqrt (Real.cos a ^ 2 + (Real.sin a * Real.sin b) ^ 2) ≠ 0 := (Real.sqrt_pos.2 (by positivity)).ne'
  congr 1
  rw [shorter, hsin, div_mul_cancel₀ _ hne, ← Real.sqrt_sq (by positivity : 0 ≤ e * Real.sqrt ((Real.cos a * Real.cos b) ^ 2 + (Real.sin a * Real.sin b) ^ 2) / 2)]
  congr 1
  rw [div_pow, mul_pow, Real.sq_sqrt (by positivity)]
  ring

/-- One step of gradient descent stays strictly above the exact step. -/
theorem difference_step_lt {e a b : ℝ} (h0 : 0 < e) (h1 : e ≤ 1) (hz : Real.cos a * Real.sin b ≠ 0) {x : ℝ} (x0 : 0 ≤ x) (x1 : x ≤ Real.pi)
    (hx : Real.sin a * Real.cos b = Real.cos x) :
    Real.cos (x + e * Real.sin x) < Real.sin (a - e * (Real.cos a * Real.cos b)) * Real.cos (b + e * (Real.sin a * Real.sin b)) := by
  obtain ⟨eigh, he⟩ := exists_validEigh 1
  obtain ⟨d0, de⟩ := shorter_bounds h0 hz
  have hX : full 1 gateX.ws gateX.A = matX := full_one_qubit matX
  have hc : cost (full 1 gateX.ws gateX.A) (circAB a b) = Real.cos x := by rw [hX, cost_circAB, hx]
  have hV := C47_riemannian_step eigh he (shorter e a b) gateX matX_herm matX_sq (circAB a b)
  have hs := Real.sin_nonneg_of_nonneg_of_le_pi x0 x1
  obtain ⟨d1, d2⟩ := C92_distance he matX_herm matX_sq (circAB_unitary a b) d0 (by linarith) x hc hV
  have := C92_steepest he matX_herm matX_sq (circAB_unitary a b) d0 (by linarith) hV _ (circAB_unitary _ _)
    (d1.trans_le (shorter_close h0 h1 hz hs hx))
  rw [d2, hX, cost_circAB] at this
  refine lt_of_lt_of_le ?_ this
  have hs' : 0 < Real.sin x := by
    refine lt_of_le_of_ne hs fun h => hz ?_
    have t1 := Real.sin_sq_add_cos_sq a
    have t2 := Real.sin_sq_add_cos_sq b
    have t3 := Real.sin_sq_add_cos_sq x
    rw [← h, ← hx] at t3
    have : Real.cos a ^ 2 = 0 := by nlinarith [sq_nonneg (Real.sin a * Real.sin b), sq_nonneg (Real.cos a)]
    rw [pow_eq_zero_iff two_ne_zero |>.1 this, zero_mul]
  have hr := flow_range h0.le h1 x0 x1 1
  rw [flowAngle, flowAngle] at hr
  exact Real.cos_lt_cos_of_nonneg_of_le_pi (by positivity) hr.2 (by nlinarith)

theorem flow_strict {e x y : ℝ} (h0 : 0 ≤ e) (h1 : e ≤ 1) (h : y < x) : y + e * Real.sin y < x + e * Real.sin x := by
  have h2 : Real.sin y - Real.sin x < x - y := by
    rw [Real.sin_sub_sin]
    have s1 : |Real.sin ((y - x) / 2)| < (x - y) / 2 := by
      have := Real.abs_sin_lt_abs (x := (y - x) / 2) (by intro h'; linarith)
      rwa [abs_of_neg (by linarith : (y - x) / 2 < 0), show -((y - x) / 2) = (x - y) / 2 by ring] at this
    have s2 := Real.abs_cos_le_one ((y + x) / 2)
    have s3 : |Real.sin ((y - x) / 2) * Real.cos ((y + x) / 2)| ≤ |Real.sin ((y - x) / 2)| := by
      rw [abs_mul]; exact mul_le_of_le_one_right (abs_nonneg _) s2
    have := (le_abs_self _).trans s3
    linarith
  rcases h0.eq_or_lt with rfl | h0
  · linarith
  · nlinarith

theorem difference_bound_lt {e a b : ℝ} (h0 : 0 < e) (h1 : e ≤ 1) (hz : Real.cos a * Real.sin b ≠ 0) : ∀ k,
    Real.arccos (Real.sin (descentAB e a b (k + 1)).1 * Real.cos (descentAB e a b (k + 1)).2) < flowAngle e (Real.arccos (Real.sin a * Real.cos b)) (k + 1)
  | 0 => by
    have hb := abs_le.1 (abs_mul (Real.sin a) (Real.cos b) ▸ mul_le_one₀ (Real.abs_sin_le_one a) (abs_nonneg _) (Real.abs_cos_le_one b))
    have hs := difference_step_lt h0 h1 hz (Real.arccos_nonneg _) (Real.arccos_le_pi _) (Real.cos_arccos hb.1 hb.2).symm
    have hr := flow_range h0.le h1 (Real.arccos_nonneg (Real.sin a * Real.cos b)) (Real.arccos_le_pi _) 1
    rw [flowAngle, flowAngle] at hr
    rw [flowAngle, flowAngle, descentAB, descentAB]
    have hb' := abs_le.1 (abs_mul (Real.sin (a - e * (Real.cos a * Real.cos b))) (Real.cos (b + e * (Real.sin a * Real.sin b))) ▸
      mul_le_one₀ (Real.abs_sin_le_one _) (abs_nonneg _) (Real.abs_cos_le_one _))
    have := Real.arccos_lt_arccos (Real.neg_one_le_cos _) hs hb'.2
    rwa [Real.arccos_cos hr.1 hr.2] at this
  | k + 1 => by
    have ih := difference_bound_lt h0 h1 hz k
    set A := (descentAB e a b (k + 1)).1 with hA
    set B := (descentAB e a b (k + 1)).2 with hB
    have hs := difference_bound e A B h0.le h1 1
    rw [flowAngle, flowAngle, descentAB, descentAB] at hs
    rw [flowAngle, descentAB]
    exact hs.trans_lt (flow_strict h0.le h1 ih)

/-- C148.  From every other start the exact optimizer is strictly below from the first step on. -/
theorem C148_below {eigh : EighFn 1} {rnd : ℕ → Matrix (Fin (2 ^ 1)) (Fin (2 ^ 1)) ℝ} {ret ret' : CircuitRet}
    {gd : ℝ → (List ℝ → Py ℝ) → List ℝ → Py (List ℝ)} {p : List ℝ} {ops : List (NpMat × List ℤ)}
    {argsE : ExactArgs} {argsP : PsArgs} {outE : OptOut (ExactItem 1)} {outP : OptOut (PsItem 1 (List ℝ))}
    (he : ValidEigh eigh) (hgd : ValidGdList gd) (hp : 1 < p.length) (hops : plotDifferenceCircuit p = .ok ops)
    (e : ℝ) (hE : argsE.eta = .float e) (hE' : argsP.eta = .float e) (hP : argsE.perturbation = .bool false)
    (rp : Bool) (hrp : argsP.returnParams = boolFlag rp)
    (hX : exactLieOptimizer eigh rnd ret ops ([gateX].map Gate.obs) argsE = .ok outE)
    (hS : parameterShiftOptimizer gd ret' plotDifferenceCircuit p ([gateX].map Gate.obs) argsP = .ok outP)
    (h0 : 0 < e) (hz : Real.cos (p.getD 0 0) * Real.sin (p.getD 1 0) ≠ 0) :
    ∀ k, 1 ≤ k → k < (exactCosts outE).length → k < (psCosts outP).length → (exactCosts outE).getD k 0 < (psCosts outP).getD k 0 := by
  obtain ⟨hc1, hc2⟩ := C93_costs he hgd hp hops e hE hE' hP rp hrp hX hS
  obtain ⟨-, N, e', t, rs, q, rq, ru, hv, -⟩ := (exact_ok_iff ..).mp hX
  have hee := hv.eta
  rw [hE] at hee
  obtain rfl := PyVal.float.inj hee
  intro k k0 k1 k2
  rw [hc1 k k2, hc2 k k1]
  obtain ⟨k, rfl⟩ : ∃ j, k = j + 1 := ⟨k - 1, by omega⟩
  have hd := difference_bound_lt h0 hv.eta1 hz k
  set A := (descentAB e (p.getD 0 0) (p.getD 1 0) (k + 1)).1
  set B := (descentAB e (p.getD 0 0) (p.getD 1 0) (k + 1)).2
  have hb := abs_le.1 (abs_mul (Real.sin A) (Real.cos B) ▸ mul_le_one₀ (Real.abs_sin_le_one A) (abs_nonneg _) (Real.abs_cos_le_one B))
  have hr := flow_range hv.eta0 hv.eta1 (Real.arccos_nonneg (Real.sin (p.getD 0 0) * Real.cos (p.getD 1 0))) (Real.arccos_le_pi _) (k + 1)
  calc Real.cos (flowAngle e (Real.arccos (Real.sin (p.getD 0 0) * Real.cos (p.getD 1 0))) (k + 1))
      < Real.cos (Real.arccos (Real.sin A * Real.cos B)) := Real.cos_lt_cos_of_nonneg_of_le_pi (Real.arccos_nonneg _) hr.2 hd
    _ = Real.sin A * Real.cos B := Real.cos_arccos hb.1 hb.2

/-- The script's start is one from which the two differ. -/
example : Real.cos (([0.4, 1.2] : List ℝ).getD 0 0) * Real.sin (([0.4, 1.2] : List ℝ).getD 1 0) ≠ 0 := by
  simp only [List.getD_cons_zero, List.getD_cons_succ]
  have h2 := Real.pi_gt_d2
  exact mul_ne_zero (Real.cos_pos_of_mem_Ioo ⟨by linarith, by linarith⟩).ne' (Real.sin_pos_of_pos_of_lt_pi (by norm_num) (by linarith)).ne'

end Oranssi
