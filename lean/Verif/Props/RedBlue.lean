import Verif.Props.SequentialObs
import Verif.Props.StepSize
import Verif.Model.RedBlue
import Mathlib.Analysis.Calculus.Deriv.MeanValue

/-! # C108, C109: the parameter-shift run of red_blue_comparison.py -/

namespace Oranssi
open Spec
open scoped Matrix

/-! ## One angle -/

theorem cos_add_le_of_nonneg (x : ℝ) {h : ℝ} (hh : 0 ≤ h) : Real.cos (x + h) ≤ Real.cos x - h * Real.sin x + h ^ 2 / 2 := by
  have hd : ∀ t : ℝ, HasDerivAt (fun t => Real.cos x - t * Real.sin x + t ^ 2 / 2 - Real.cos (x + t)) (-Real.sin x + t + Real.sin (x + t)) t := by
    intro t
    have h1 : HasDerivAt (fun t : ℝ => Real.cos (x + t)) (-Real.sin (x + t) * 1) t := ((hasDerivAt_id t).const_add x).cos
    have h2 : HasDerivAt (fun t : ℝ => t ^ 2 / 2) (2 * t / 2) t := by simpa using ((hasDerivAt_id t).pow 2).div_const 2
    have h3 : HasDerivAt (fun t : ℝ => t * Real.sin x) (1 * Real.sin x) t := (hasDerivAt_id t).mul_const _
    refine HasDerivAt.congr_deriv (((h3.const_sub (Real.cos x)).add h2).sub h1) ?_
    ring
  have hm : MonotoneOn (fun t => Real.cos x - t * Real.sin x + t ^ 2 / 2 - Real.cos (x + t)) (Set.Ici 0) := by
    refine monotoneOn_of_deriv_nonneg (convex_Ici 0) (fun t _ => (hd t).continuousAt.continuousWithinAt) (fun t _ => (hd t).differentiableAt.differentiableWithinAt)
      fun t ht => ?_
    rw [interior_Ici] at ht
    rw [(hd t).deriv]
    have := (abs_le.1 (Real.abs_sin_sub_sin_le (x + t) x)).1
    rw [add_sub_cancel_left, abs_of_pos ht] at this
    linarith
  have := hm (Set.mem_Ici.2 le_rfl) (Set.mem_Ici.2 hh) hh
  simp only [zero_mul, sub_zero, add_zero, ne_eq, OfNat.ofNat_ne_zero, not_false_eq_true, zero_pow, zero_div, sub_self] at this
  linarith

theorem cos_add_le (x h : ℝ) : Real.cos (x + h) ≤ Real.cos x - h * Real.sin x + h ^ 2 / 2 := by
  rcases le_total 0 h with hh | hh
  · exact cos_add_le_of_nonneg x hh
  · have := cos_add_le_of_nonneg (-x) (h := -h) (by linarith)
    rw [show -x + -h = -(x + h) by ring, Real.cos_neg, Real.cos_neg, Real.sin_neg] at this
    linarith

/-- One step of the flow lowers the cosine by at least this much. -/
theorem flow_drop (e x : ℝ) : Real.cos (x + e * Real.sin x) ≤ Real.cos x - e * (1 - e / 2) * Real.sin x ^ 2 := by
  have := cos_add_le x (e * Real.sin x)
  nlinarith

theorem flow_cos_antitone {e x : ℝ} (h0 : 0 ≤ e) (h2 : e ≤ 2) : Antitone (fun k => Real.cos (flowAngle e x k)) := by
  refine antitone_nat_of_succ_le fun k => ?_
  rw [flowAngle]
  have := flow_drop e (flowAngle e x k)
  have : 0 ≤ e * (1 - e / 2) * Real.sin (flowAngle e x k) ^ 2 := mul_nonneg (mul_nonneg h0 (by linarith)) (sq_nonneg _)
  linarith

/-- For every step size below 2 the cosine of the angle approaches `-1`, from every angle at which it can move. -/
theorem flow_cos_tendsto {e x : ℝ} (h0 : 0 < e) (h2 : e < 2) (hx : Real.sin x ≠ 0) :
    Filter.Tendsto (fun k => Real.cos (flowAngle e x k)) Filter.atTop (nhds (-1)) := by
  have ha := flow_cos_antitone (x := x) h0.le h2.le
  have hb : BddBelow (Set.range fun k => Real.cos (flowAngle e x k)) := ⟨-1, by rintro _ ⟨k, rfl⟩; exact Real.neg_one_le_cos _⟩
  have ht := tendsto_atTop_ciInf ha hb
  set L := ⨅ k, Real.cos (flowAngle e x k) with hL
  have hc : 0 < e * (1 - e / 2) := mul_pos h0 (by linarith)
  have hs : Filter.Tendsto (fun k => Real.sin (flowAngle e x k) ^ 2) Filter.atTop (nhds 0) := by
    have h1 : Filter.Tendsto (fun k => (Real.cos (flowAngle e x k) - Real.cos (flowAngle e x (k + 1))) / (e * (1 - e / 2))) Filter.atTop (nhds 0) := by
      have := (ht.sub (ht.comp (Filter.tendsto_add_atTop_nat 1))).div_const (e * (1 - e / 2))
      simpa using this
    refine squeeze_zero (fun k => sq_nonneg _) (fun k => ?_) h1
    rw [le_div_iff₀ hc, flowAngle]
    have := flow_drop e (flowAngle e x k)
    linarith
  have h1 : Filter.Tendsto (fun k => Real.cos (flowAngle e x k) ^ 2) Filter.atTop (nhds 1) := by
    have := hs.const_sub 1
    simpa only [sub_zero, ← Real.cos_sq'] using this
  have h3 : L ^ 2 = 1 := tendsto_nhds_unique (ht.pow 2) h1
  have h4 : L ≤ Real.cos x := ciInf_le hb 0
  have h5 : Real.cos x < 1 := by
    refine lt_of_le_of_ne (Real.cos_le_one x) fun h => hx ?_
    have := Real.sin_sq_add_cos_sq x
    rw [h] at this
    exact pow_eq_zero_iff (two_ne_zero) |>.1 (by linarith)
  have h6 : (L - 1) * (L + 1) = 0 := by linear_combination h3
  rcases mul_eq_zero.1 h6 with h | h
  · linarith
  · rw [show (-1 : ℝ) = L by linarith]
    exact ht

/-! ## The cost and the gradient -/

theorem redBlue_cost (p : List ℝ) (hp : 1 < p.length) : psCost 1 plotDifferenceCircuit ([gateX, gateY].map Gate.obs) p =
    .ok (Real.sin (p.getD 0 0) * Real.cos (p.getD 1 0) + Real.sin (p.getD 0 0) * Real.sin (p.getD 1 0)) := by
  rw [psCost, plotDifference_unitary p hp]
  simp only [bind, Except.bind]
  rw [totalCost_gates, totalObs_pair, cost_add, circAB, (redBlue_costs _ _).1, (redBlue_costs _ _).2]

/-- A gradient step on the cost `sin a (cos b + sin b)`. -/
theorem gd_redBlue {gd : ℝ → (List ℝ → Py ℝ) → List ℝ → Py (List ℝ)} (hgd : ValidGdList gd) {p : List ℝ} (hp : 1 < p.length) (e : ℝ) :
    ∃ p', gd e (psCost 1 plotDifferenceCircuit ([gateX, gateY].map Gate.obs)) p = .ok p' ∧ p'.length = p.length ∧
      p'.getD 0 0 = p.getD 0 0 - e * (Real.cos (p.getD 0 0) * (Real.cos (p.getD 1 0) + Real.sin (p.getD 1 0))) ∧
      p'.getD 1 0 = p.getD 1 0 - e * (Real.sin (p.getD 0 0) * (Real.cos (p.getD 1 0) - Real.sin (p.getD 1 0))) := by
  have hset : ∀ i < p.length, ∀ t, (p.set i t).getD i 0 = t := fun i hi t => by rw [List.getD_eq_getElem (hn := by simpa using hi), List.getElem_set_self]
  have hset' : ∀ i < p.length, ∀ j, j ≠ i → ∀ t, (p.set j t).getD i 0 = p.getD i 0 := fun i hi j hj t => by
    rw [List.getD_eq_getElem (hn := by simpa using hi), List.getElem_set_ne hj, List.getD_eq_getElem (hn := hi)]
  have h0 : HasDerivAt (fun t => Real.sin t * Real.cos (p.getD 1 0) + Real.sin t * Real.sin (p.getD 1 0))
      (Real.cos (p.getD 0 0) * Real.cos (p.getD 1 0) + Real.cos (p.getD 0 0) * Real.sin (p.getD 1 0)) (p.getD 0 0) :=
    ((Real.hasDerivAt_sin _).mul_const _).add ((Real.hasDerivAt_sin _).mul_const _)
  have h1 : HasDerivAt (fun t => Real.sin (p.getD 0 0) * Real.cos t + Real.sin (p.getD 0 0) * Real.sin t)
      (Real.sin (p.getD 0 0) * -Real.sin (p.getD 1 0) + Real.sin (p.getD 0 0) * Real.cos (p.getD 1 0)) (p.getD 1 0) :=
    ((Real.hasDerivAt_cos _).const_mul _).add ((Real.hasDerivAt_sin _).const_mul _)
  have e0 : (fun t => Real.sin ((p.set 0 t).getD 0 0) * Real.cos ((p.set 0 t).getD 1 0) + Real.sin ((p.set 0 t).getD 0 0) * Real.sin ((p.set 0 t).getD 1 0)) =
      fun t => Real.sin t * Real.cos (p.getD 1 0) + Real.sin t * Real.sin (p.getD 1 0) := by
    funext t; rw [hset 0 (by omega), hset' 1 hp 0 (by omega)]
  have e1 : (fun t => Real.sin ((p.set 1 t).getD 0 0) * Real.cos ((p.set 1 t).getD 1 0) + Real.sin ((p.set 1 t).getD 0 0) * Real.sin ((p.set 1 t).getD 1 0)) =
      fun t => Real.sin (p.getD 0 0) * Real.cos t + Real.sin (p.getD 0 0) * Real.sin t := by
    funext t; rw [hset 1 hp, hset' 0 (by omega) 1 (by omega)]
  obtain ⟨p', q1, q2, q3⟩ := hgd e _ (fun q => Real.sin (q.getD 0 0) * Real.cos (q.getD 1 0) + Real.sin (q.getD 0 0) * Real.sin (q.getD 1 0)) p
    (fun q hq => redBlue_cost q (by omega)) (fun i hi => by
    rcases Nat.lt_or_ge 1 i with h | h
    · simp only [hset' 0 (by omega) i (by omega), hset' 1 hp i (by omega)]
      exact differentiableAt_const _
    · interval_cases i
      · rw [e0]; exact h0.differentiableAt
      · rw [e1]; exact h1.differentiableAt)
  refine ⟨p', q1, q2, ?_, ?_⟩
  · rw [q3 0 (by omega), e0, h0.deriv]
    ring
  · rw [q3 1 hp, e1, h1.deriv]
    ring

/-! ## The two angles that decouple -/

/-- The parameters of the circuit whose sum and difference are at the angles `x` and `y`. -/
noncomputable def Spec.anglesAB (x y : ℝ) : ℝ × ℝ := ((x + y + Real.pi) / 2, (x - y + Real.pi / 2) / 2)

theorem sqrt_half_mul : Real.sqrt 2 * (Real.sqrt 2 / 2) = 1 := by
  have := Real.mul_self_sqrt (show (0 : ℝ) ≤ 2 by norm_num)
  linarith

theorem sin_sub_three (w : ℝ) : Real.sqrt 2 * Real.sin (w - 3 * Real.pi / 4) = -(Real.cos w + Real.sin w) := by
  rw [show w - 3 * Real.pi / 4 = w + Real.pi / 4 - Real.pi by ring, Real.sin_sub_pi, Real.sin_add, Real.cos_pi_div_four, Real.sin_pi_div_four]
  linear_combination (-(Real.cos w + Real.sin w)) * sqrt_half_mul

theorem cos_sub_three (w : ℝ) : Real.sqrt 2 * Real.cos (w - 3 * Real.pi / 4) = Real.sin w - Real.cos w := by
  rw [show w - 3 * Real.pi / 4 = w + Real.pi / 4 - Real.pi by ring, Real.cos_sub_pi, Real.cos_add, Real.cos_pi_div_four, Real.sin_pi_div_four]
  linear_combination (Real.sin w - Real.cos w) * sqrt_half_mul

theorem sin_sub_quarter (w : ℝ) : Real.sqrt 2 * Real.sin (w - Real.pi / 4) = Real.sin w - Real.cos w := by
  rw [Real.sin_sub, Real.cos_pi_div_four, Real.sin_pi_div_four]
  linear_combination (Real.sin w - Real.cos w) * sqrt_half_mul

theorem cos_sub_quarter (w : ℝ) : Real.sqrt 2 * Real.cos (w - Real.pi / 4) = Real.cos w + Real.sin w := by
  rw [Real.cos_sub, Real.cos_pi_div_four, Real.sin_pi_div_four]
  linear_combination (Real.cos w + Real.sin w) * sqrt_half_mul

/-- The cost of the circuit in the two angles. -/
theorem redBlue_split (a b : ℝ) : Real.sin a * Real.cos b + Real.sin a * Real.sin b =
    Real.sqrt 2 / 2 * (Real.cos (a + b - 3 * Real.pi / 4) + Real.cos (a - b - Real.pi / 4)) := by
  have h1 := cos_sub_three (a + b)
  have h2 := cos_sub_quarter (a - b)
  rw [Real.sin_add, Real.cos_add] at h1
  rw [Real.sin_sub a, Real.cos_sub a b] at h2
  linear_combination (-1 / 2 : ℝ) * h1 - 1 / 2 * h2

section
variable {ret : CircuitRet} {gd : ℝ → (List ℝ → Py ℝ) → List ℝ → Py (List ℝ)} {p : List ℝ} {args : PsArgs} {out : OptOut (PsItem 1 (List ℝ))}

/-- The parameters of a run. -/
theorem redBlue_trace (hgd : ValidGdList gd) (hp : 1 < p.length) (e : ℝ) (hE : args.eta = .float e) (rp : Bool) (hrp : args.returnParams = boolFlag rp)
    (h : parameterShiftOptimizer gd ret plotDifferenceCircuit p ([gateX, gateY].map Gate.obs) args = .ok out) :
    ∃ (N : ℕ) (t : Tol) (V : ℕ → List ℝ) (m : ℕ), args.nsteps = .int (N : ℤ) ∧ 1 ≤ N ∧ 0 ≤ e ∧ e ≤ 1 ∧ IsTol args.tol t ∧ m ≤ N ∧ (psCosts out).length = m + 1 ∧
      (∀ k ≤ m, (V k).length = p.length ∧
        (V k).getD 0 0 + (V k).getD 1 0 - 3 * Real.pi / 4 = flowAngle (Real.sqrt 2 * e) (p.getD 0 0 + p.getD 1 0 - 3 * Real.pi / 4) k ∧
        (V k).getD 0 0 - (V k).getD 1 0 - Real.pi / 4 = flowAngle (Real.sqrt 2 * e) (p.getD 0 0 - p.getD 1 0 - Real.pi / 4) k ∧
        (psCosts out).getD k 0 = Real.sin ((V k).getD 0 0) * Real.cos ((V k).getD 1 0) + Real.sin ((V k).getD 0 0) * Real.sin ((V k).getD 1 0)) ∧
      (rp = true → psParams out = some ((List.range (m + 1)).map V)) ∧
      (∀ k, 3 ≤ k → k + 1 < m → ¬ Close t.spec ((psCosts out).getD (k + 1) 0) ((psCosts out).getD k 0)) ∧
      (m = N ∨ ∃ k, 3 ≤ k ∧ k < N ∧ m = k + 1 ∧ Close t.spec ((psCosts out).getD (k + 1) 0) ((psCosts out).getD k 0)) := by
  obtain ⟨-, -, N', e'', t', rs', hv', -⟩ := (ps_ok_iff ..).mp h
  obtain ⟨N, e', t, V, m, hN1, he1, ht1, hV0, hmN, hstep, hl, hc, -, hpar, hnot, hend⟩ := C55_trace _ _ _ _ _ _ _ rp hrp h
  rw [hE] at he1
  obtain rfl := PyVal.float.inj he1
  have he2 := hv'.eta
  rw [hE] at he2
  obtain rfl := PyVal.float.inj he2
  have hNN := hv'.nsteps
  rw [hN1] at hNN
  injection hNN with hNN
  have hpos := hv'.pos
  refine ⟨N, t, V, m, hN1, by omega, hv'.eta0, hv'.eta1, ht1, hmN, hl, ?_, hpar, hnot, hend⟩
  have hV : ∀ k ≤ m, (V k).length = p.length ∧
      (V k).getD 0 0 + (V k).getD 1 0 - 3 * Real.pi / 4 = flowAngle (Real.sqrt 2 * e) (p.getD 0 0 + p.getD 1 0 - 3 * Real.pi / 4) k ∧
      (V k).getD 0 0 - (V k).getD 1 0 - Real.pi / 4 = flowAngle (Real.sqrt 2 * e) (p.getD 0 0 - p.getD 1 0 - Real.pi / 4) k := by
    intro k
    induction k with
    | zero => intro _; rw [hV0]; exact ⟨rfl, rfl, rfl⟩
    | succ k ih =>
      intro hk
      obtain ⟨hl, h1, h2⟩ := ih (by omega)
      obtain ⟨p', q1, q2, q3, q4⟩ := gd_redBlue hgd (p := V k) (by omega) e
      rw [hstep k (by omega)] at q1
      obtain rfl := Except.ok.inj q1
      have s1 := sin_sub_three ((V k).getD 0 0 + (V k).getD 1 0)
      have s2 := sin_sub_quarter ((V k).getD 0 0 - (V k).getD 1 0)
      rw [Real.sin_add, Real.cos_add] at s1
      rw [Real.sin_sub ((V k).getD 0 0), Real.cos_sub] at s2
      refine ⟨by omega, ?_, ?_⟩
      · rw [flowAngle, ← h1, q3, q4]
        linear_combination (-e) * s1
      · rw [flowAngle, ← h2, q3, q4]
        linear_combination (-e) * s2
  intro k hk
  obtain ⟨h1, h2, h3⟩ := hV k hk
  refine ⟨h1, h2, h3, ?_⟩
  have := hc k hk
  rw [redBlue_cost _ (by omega)] at this
  exact (Except.ok.inj this).symm

/-- C108.  The costs of a parameter-shift run on the circuit and observables of red_blue_comparison.py in closed form: two angles that follow the flow of a single
involutory observable, each with the step size `√2 eta`. -/
theorem C108_costs (hgd : ValidGdList gd) (hp : 1 < p.length) (e : ℝ) (hE : args.eta = .float e) (rp : Bool) (hrp : args.returnParams = boolFlag rp)
    (h : parameterShiftOptimizer gd ret plotDifferenceCircuit p ([gateX, gateY].map Gate.obs) args = .ok out) :
    psCosts out = (List.range (psCosts out).length).map (fun k => Real.sqrt 2 / 2 *
      (Real.cos (flowAngle (Real.sqrt 2 * e) (p.getD 0 0 + p.getD 1 0 - 3 * Real.pi / 4) k) +
        Real.cos (flowAngle (Real.sqrt 2 * e) (p.getD 0 0 - p.getD 1 0 - Real.pi / 4) k))) := by
  obtain ⟨N, t, V, m, hN, hN1, h0, h1, ht, hmN, hl, hV, -⟩ := redBlue_trace hgd hp e hE rp hrp h
  apply List.ext_getElem?
  intro k
  by_cases hk : k ≤ m
  · obtain ⟨-, q1, q2, q3⟩ := hV k hk
    rw [List.getElem?_map, List.getElem?_range (by omega), Option.map_some, ← q1, ← q2, ← redBlue_split, ← q3, List.getD_eq_getElem (hn := by omega),
      List.getElem?_eq_getElem]
  · rw [List.getElem?_eq_none (by omega), List.getElem?_eq_none (by simp; omega)]

/-- C108.  The parameters that such a run returns. -/
theorem C108_params (hgd : ValidGdList gd) (hp : p.length = 2) (e : ℝ) (hE : args.eta = .float e) (hrp : args.returnParams = boolFlag true)
    (h : parameterShiftOptimizer gd ret plotDifferenceCircuit p ([gateX, gateY].map Gate.obs) args = .ok out) :
    psParams out = some ((List.range (psCosts out).length).map (fun k =>
      [(anglesAB (flowAngle (Real.sqrt 2 * e) (p.getD 0 0 + p.getD 1 0 - 3 * Real.pi / 4) k) (flowAngle (Real.sqrt 2 * e) (p.getD 0 0 - p.getD 1 0 - Real.pi / 4) k)).1,
       (anglesAB (flowAngle (Real.sqrt 2 * e) (p.getD 0 0 + p.getD 1 0 - 3 * Real.pi / 4) k)
         (flowAngle (Real.sqrt 2 * e) (p.getD 0 0 - p.getD 1 0 - Real.pi / 4) k)).2])) := by
  obtain ⟨N, t, V, m, hN, hN1, h0, h1, ht, hmN, hl, hV, hpar, -⟩ := redBlue_trace hgd (by omega) e hE true hrp h
  rw [hpar rfl, hl]
  refine congrArg some (List.map_congr_left fun k hk => ?_)
  obtain ⟨q0, q1, q2, -⟩ := hV k (by have := List.mem_range.1 hk; omega)
  rw [← q1, ← q2]
  generalize V k = v at q0
  match v, q0 with
  | [a, b], _ =>
    simp only [List.getD_cons_zero, List.getD_cons_succ, anglesAB, List.cons.injEq, and_true]
    constructor <;> ring
  | [], q => simp at q; omega
  | [_], q => simp at q; omega
  | _ :: _ :: _ :: _, q => simp at q; omega

theorem sqrt_two_mul_lt {e : ℝ} (h0 : 0 ≤ e) (h1 : e ≤ 1) : 0 ≤ Real.sqrt 2 * e ∧ Real.sqrt 2 * e < 2 := by
  have h2 : Real.sqrt 2 < 2 := (Real.sqrt_lt' (by norm_num)).2 (by norm_num)
  exact ⟨by positivity, by nlinarith [Real.sqrt_nonneg 2]⟩

/-- C108.  Every step goes down, by at least `eta (1 - eta / √2)` times the sum of the squared sines of the two angles. -/
theorem C108_descends (hgd : ValidGdList gd) (hp : 1 < p.length) (e : ℝ) (hE : args.eta = .float e) (rp : Bool) (hrp : args.returnParams = boolFlag rp)
    (h : parameterShiftOptimizer gd ret plotDifferenceCircuit p ([gateX, gateY].map Gate.obs) args = .ok out) (k : ℕ) (hk : k + 1 < (psCosts out).length) :
    (psCosts out).getD (k + 1) 0 ≤ (psCosts out).getD k 0 - e * (1 - e / Real.sqrt 2) *
      (Real.sin (flowAngle (Real.sqrt 2 * e) (p.getD 0 0 + p.getD 1 0 - 3 * Real.pi / 4) k) ^ 2 +
        Real.sin (flowAngle (Real.sqrt 2 * e) (p.getD 0 0 - p.getD 1 0 - Real.pi / 4) k) ^ 2) := by
  have hc := C108_costs hgd hp e hE rp hrp h
  have hg : ∀ j < (psCosts out).length, (psCosts out).getD j 0 = Real.sqrt 2 / 2 *
      (Real.cos (flowAngle (Real.sqrt 2 * e) (p.getD 0 0 + p.getD 1 0 - 3 * Real.pi / 4) j) +
        Real.cos (flowAngle (Real.sqrt 2 * e) (p.getD 0 0 - p.getD 1 0 - Real.pi / 4) j)) := by
    intro j hj
    rw [hc, List.getD_eq_getElem (hn := by simpa using hj), List.getElem_map, List.getElem_range]
  rw [hg _ hk, hg k (by omega), flowAngle, flowAngle]
  have d1 := flow_drop (Real.sqrt 2 * e) (flowAngle (Real.sqrt 2 * e) (p.getD 0 0 + p.getD 1 0 - 3 * Real.pi / 4) k)
  have d2 := flow_drop (Real.sqrt 2 * e) (flowAngle (Real.sqrt 2 * e) (p.getD 0 0 - p.getD 1 0 - Real.pi / 4) k)
  generalize flowAngle (Real.sqrt 2 * e) (p.getD 0 0 + p.getD 1 0 - 3 * Real.pi / 4) k = x at *
  generalize flowAngle (Real.sqrt 2 * e) (p.getD 0 0 - p.getD 1 0 - Real.pi / 4) k = y at *
  have hs : 0 < Real.sqrt 2 / 2 := by positivity
  have hm := mul_le_mul_of_nonneg_left (add_le_add d1 d2) hs.le
  refine hm.trans (le_of_eq ?_)
  have h2 : e / Real.sqrt 2 = Real.sqrt 2 * e / 2 := by
    rw [div_eq_iff (by positivity)]
    linear_combination (-e) * sqrt_half_mul
  rw [h2]
  linear_combination (-(e * (1 - Real.sqrt 2 * e / 2) * (Real.sin x ^ 2 + Real.sin y ^ 2))) * sqrt_half_mul

theorem redBlue_bounds (x y : ℝ) : |Real.sqrt 2 / 2 * (Real.cos x + Real.cos y)| ≤ Real.sqrt 2 := by
  have h1 := Real.neg_one_le_cos x
  have h2 := Real.cos_le_one x
  have h3 := Real.neg_one_le_cos y
  have h4 := Real.cos_le_one y
  have hs := Real.sqrt_nonneg 2
  rw [abs_le]
  constructor <;> nlinarith

/-- C108.  With a positive tolerance `t` the run takes at most `2 √2 / t + 4` steps, whatever `nsteps` is, -/
theorem C108_stops (hgd : ValidGdList gd) (hp : 1 < p.length) (e : ℝ) (hE : args.eta = .float e) (rp : Bool) (hrp : args.returnParams = boolFlag rp)
    (h : parameterShiftOptimizer gd ret plotDifferenceCircuit p ([gateX, gateY].map Gate.obs) args = .ok out) (t : ℝ) (ht : args.tol = .float t) (ht0 : 0 < t) :
    ((psCosts out).length : ℝ) ≤ 2 * Real.sqrt 2 / t + 5 := by
  obtain ⟨N, t', V, m, hN, hN1, h0, h1, ht', hmN, hl, hV, hpar, hnot, hend⟩ := redBlue_trace hgd hp e hE rp hrp h
  have htt : t'.spec = some t := by
    rw [ht] at ht'
    cases t' with
    | fin x => rw [show x = t from (PyVal.float.inj ht'.1).symm]; rfl
    | inf => exact absurd ht' (by simp [IsTol])
  have hanti : ∀ j, j + 1 < (psCosts out).length → (psCosts out).getD (j + 1) 0 ≤ (psCosts out).getD j 0 := by
    intro j hj
    have := C108_descends hgd hp e hE rp hrp h j hj
    have h2 : 0 ≤ 1 - e / Real.sqrt 2 := by
      have : e / Real.sqrt 2 ≤ 1 := by
        rw [div_le_one (by positivity)]
        exact h1.trans (Real.one_le_sqrt.2 (by norm_num))
      linarith
    have h3 := mul_nonneg (mul_nonneg h0 h2) (add_nonneg (sq_nonneg (Real.sin (flowAngle (Real.sqrt 2 * e) (p.getD 0 0 + p.getD 1 0 - 3 * Real.pi / 4) j)))
      (sq_nonneg (Real.sin (flowAngle (Real.sqrt 2 * e) (p.getD 0 0 - p.getD 1 0 - Real.pi / 4) j))))
    linarith
  have hdrop : ∀ j, 3 + j < m → (psCosts out).getD (3 + j) 0 ≤ (psCosts out).getD 3 0 - j * t := by
    intro j
    induction j with
    | zero => intro _; simp
    | succ j ih =>
      intro hj
      have q1 := ih (by omega)
      have q2 := hnot (3 + j) (by omega) (by omega)
      have q3 := hanti (3 + j) (by omega)
      rw [Close] at q2
      push Not at q2
      obtain ⟨t1, e1, q2⟩ := q2
      rw [htt] at e1
      obtain rfl := Option.some.inj e1
      rw [abs_of_nonpos (sub_nonpos.2 q3)] at q2
      have q4 := abs_nonneg ((psCosts out).getD (3 + j) 0)
      rw [show 3 + (j + 1) = 3 + j + 1 by ring]
      push_cast
      linarith
  have hb : ∀ j < (psCosts out).length, |(psCosts out).getD j 0| ≤ Real.sqrt 2 := by
    intro j hj
    have hc := C108_costs hgd hp e hE rp hrp h
    rw [hc, List.getD_eq_getElem (hn := by simpa using hj), List.getElem_map, List.getElem_range]
    exact redBlue_bounds _ _
  rw [hl]
  have hs : 0 ≤ 2 * Real.sqrt 2 / t := by positivity
  rcases Nat.lt_or_ge 4 m with hm | hm
  · have q1 := hdrop (m - 4) (by omega)
    have q2 := (abs_le.1 (hb 3 (by omega))).2
    have q3 := (abs_le.1 (hb (3 + (m - 4)) (by omega))).1
    have q4 : ((m - 4 : ℕ) : ℝ) * t ≤ 2 * Real.sqrt 2 := by linarith
    rw [← le_div_iff₀ ht0, Nat.cast_sub (by omega)] at q4
    push_cast at q4 ⊢
    linarith
  · have : (m : ℝ) ≤ 4 := by exact_mod_cast hm
    push_cast
    linarith

/-- C108.  and a run that ends before `nsteps` ends where the gradient is small. -/
theorem C108_stationary (hgd : ValidGdList gd) (hp : 1 < p.length) (e : ℝ) (hE : args.eta = .float e) (rp : Bool) (hrp : args.returnParams = boolFlag rp)
    (h : parameterShiftOptimizer gd ret plotDifferenceCircuit p ([gateX, gateY].map Gate.obs) args = .ok out) (t : ℝ) (ht : args.tol = .float t)
    (N : ℕ) (hN : args.nsteps = .int N) (hlen : (psCosts out).length ≤ N) :
    e * (1 - e / Real.sqrt 2) *
      (Real.sin (flowAngle (Real.sqrt 2 * e) (p.getD 0 0 + p.getD 1 0 - 3 * Real.pi / 4) ((psCosts out).length - 2)) ^ 2 +
        Real.sin (flowAngle (Real.sqrt 2 * e) (p.getD 0 0 - p.getD 1 0 - Real.pi / 4) ((psCosts out).length - 2)) ^ 2) ≤ t + 1e-5 * Real.sqrt 2 := by
  obtain ⟨N', t', V, m, hN', hN1, h0, h1, ht', hmN, hl, hV, hpar, hnot, hend⟩ := redBlue_trace hgd hp e hE rp hrp h
  have htt : t'.spec = some t := by
    rw [ht] at ht'
    cases t' with
    | fin x => rw [show x = t from (PyVal.float.inj ht'.1).symm]; rfl
    | inf => exact absurd ht' (by simp [IsTol])
  rw [hN] at hN'
  injection hN' with hN'
  rcases hend with rfl | ⟨k, hk3, hkN, rfl, hclose⟩
  · omega
  have hd := C108_descends hgd hp e hE rp hrp h k (by omega)
  have hcl := hclose t htt
  have hbk : |(psCosts out).getD k 0| ≤ Real.sqrt 2 := by
    rw [C108_costs hgd hp e hE rp hrp h, List.getD_eq_getElem (hn := by simp; omega), List.getElem_map, List.getElem_range]
    exact redBlue_bounds _ _
  rw [show (psCosts out).length - 2 = k by omega]
  have := (abs_le.1 hcl).1
  have h5 : (1e-5 : ℝ) * |(psCosts out).getD k 0| ≤ 1e-5 * Real.sqrt 2 := mul_le_mul_of_nonneg_left hbk (by norm_num)
  linarith

end

/-- C108.  The costs approach the smallest eigenvalue `-√2` of `X + Y`: for every accuracy there is a number of steps after which every run from the parameters
`a`, `b` is that accurate.  This needs that neither of the two angles starts at a multiple of `π`. -/
theorem C108_limit (e a b : ℝ) (hE0 : 0 < e) (hE1 : e ≤ 1) (h1 : Real.sin (a + b - 3 * Real.pi / 4) ≠ 0) (h2 : Real.sin (a - b - Real.pi / 4) ≠ 0)
    (ε : ℝ) (hε : 0 < ε) :
    ∃ K : ℕ, ∀ (ret : CircuitRet) (gd : ℝ → (List ℝ → Py ℝ) → List ℝ → Py (List ℝ)) (args : PsArgs) (out : OptOut (PsItem 1 (List ℝ))) (rp : Bool),
      ValidGdList gd → args.eta = .float e → args.returnParams = boolFlag rp →
      parameterShiftOptimizer gd ret plotDifferenceCircuit [a, b] ([gateX, gateY].map Gate.obs) args = .ok out →
      ∀ k ≥ K, ∀ c, (psCosts out)[k]? = some c → |c - -Real.sqrt 2| < ε := by
  obtain ⟨r0, r1⟩ := sqrt_two_mul_lt hE0.le hE1
  have hr : 0 < Real.sqrt 2 * e := by positivity
  have ht := ((flow_cos_tendsto hr r1 h1).add (flow_cos_tendsto hr r1 h2)).const_mul (Real.sqrt 2 / 2)
  rw [show Real.sqrt 2 / 2 * (-1 + -1) = -Real.sqrt 2 by ring] at ht
  obtain ⟨K, hK⟩ := Metric.tendsto_atTop.1 ht ε hε
  refine ⟨K, fun ret gd args out rp hgd hE hrp h k hk c hc => ?_⟩
  rw [C108_costs hgd (by simp) e hE rp hrp h, List.getElem?_map, Option.map_eq_some_iff] at hc
  obtain ⟨j, hj, rfl⟩ := hc
  obtain ⟨-, rfl⟩ := List.getElem?_eq_some_iff.1 hj
  simpa [Real.dist_eq] using hK k hk

theorem flow_still {e x : ℝ} (hx : Real.sin x = 0) : ∀ k, flowAngle e x k = x
  | 0 => rfl
  | k + 1 => by rw [flowAngle, flow_still hx k, hx, mul_zero, add_zero]

/-- C108.  That hypothesis is needed: from the other starting points one of the angles never moves, and if it is at the top the costs stay nonnegative. -/
theorem C108_stuck {ret : CircuitRet} {gd : ℝ → (List ℝ → Py ℝ) → List ℝ → Py (List ℝ)} {p : List ℝ} {args : PsArgs} {out : OptOut (PsItem 1 (List ℝ))}
    (hgd : ValidGdList gd) (hp : 1 < p.length) (e : ℝ) (hE : args.eta = .float e) (rp : Bool) (hrp : args.returnParams = boolFlag rp)
    (h : parameterShiftOptimizer gd ret plotDifferenceCircuit p ([gateX, gateY].map Gate.obs) args = .ok out)
    (hs : Real.cos (p.getD 0 0 + p.getD 1 0 - 3 * Real.pi / 4) = 1 ∨ Real.cos (p.getD 0 0 - p.getD 1 0 - Real.pi / 4) = 1) : ∀ c ∈ psCosts out, 0 ≤ c := by
  have h0 : ∀ x : ℝ, Real.cos x = 1 → Real.sin x = 0 := by
    intro x hx
    have := Real.sin_sq_add_cos_sq x
    rw [hx] at this
    exact pow_eq_zero_iff (two_ne_zero) |>.1 (by linarith)
  intro c hc
  rw [C108_costs hgd hp e hE rp hrp h] at hc
  obtain ⟨k, -, rfl⟩ := List.mem_map.1 hc
  refine mul_nonneg (by positivity) ?_
  rcases hs with hs | hs
  · rw [flow_still (h0 _ hs), hs]
    linarith [Real.neg_one_le_cos (flowAngle (Real.sqrt 2 * e) (p.getD 0 0 - p.getD 1 0 - Real.pi / 4) k)]
  · rw [flow_still (h0 _ hs), hs]
    linarith [Real.neg_one_le_cos (flowAngle (Real.sqrt 2 * e) (p.getD 0 0 + p.getD 1 0 - 3 * Real.pi / 4) k)]

/-! ## C109: what the red figure draws -/

theorem pyMod_period (x : ℝ) : ∃ z : ℤ, pyMod x (2 * Real.pi) = x - z * (2 * Real.pi) := ⟨⌊x / (2 * Real.pi)⌋, by rw [pyMod]; ring⟩

theorem sin_pyMod (x : ℝ) : Real.sin (pyMod x (2 * Real.pi)) = Real.sin x := by
  obtain ⟨z, hz⟩ := pyMod_period x
  rw [hz, Real.sin_sub_int_mul_two_pi]

theorem cos_pyMod (x : ℝ) : Real.cos (pyMod x (2 * Real.pi)) = Real.cos x := by
  obtain ⟨z, hz⟩ := pyMod_period x
  rw [hz, Real.cos_sub_int_mul_two_pi]

theorem pyMod_range (x : ℝ) : 0 ≤ pyMod x (2 * Real.pi) ∧ pyMod x (2 * Real.pi) < 2 * Real.pi := by
  have hp := Real.two_pi_pos
  have h1 := Int.floor_le (x / (2 * Real.pi))
  have h2 := Int.lt_floor_add_one (x / (2 * Real.pi))
  rw [le_div_iff₀ hp] at h1
  rw [div_lt_iff₀ hp] at h2
  rw [pyMod]
  constructor <;> linarith

theorem mapM_column (l : List (List ℝ)) (i : ℕ) (hl : ∀ r ∈ l, i < r.length) :
    l.mapM (fun row => do .ok (pyMod (← pyGetItem row (i : ℤ)) (2 * Real.pi)) : List ℝ → Py ℝ) = .ok (l.map (fun r => pyMod (r.getD i 0) (2 * Real.pi))) := by
  induction l with
  | nil => rfl
  | cons r l ih =>
    have h1 := hl r (by simp)
    have h2 : pyGetItem r (i : ℤ) = .ok (r.getD i 0) := by
      rw [List.getD_eq_getElem (hn := h1)]
      simp [pyGetItem, pyIndex, h1]
    rw [List.mapM_cons, ih fun r hr => hl r (by simp [hr]), h2]
    rfl

theorem redBlueDrawn_ok (l : List (List ℝ)) (hl : ∀ r ∈ l, 1 < r.length) : redBlueDrawn l =
    .ok (l.map (fun r => pyMod (r.getD 0 0) (2 * Real.pi)), l.map (fun r => pyMod (r.getD 1 0) (2 * Real.pi))) := by
  have h0 := mapM_column l 0 fun r hr => by have := hl r hr; omega
  have h1 := mapM_column l 1 hl
  rw [redBlueDrawn]
  simp only [Nat.cast_zero, Nat.cast_one] at h0 h1
  rw [h0, ok_bind, h1]
  rfl

/-- C109 (partial).  Every drawn point is in the plotted square, and the landscape drawn behind it has at this point the height of the cost of the same step. -/
theorem C109_points_partial {ret : CircuitRet} {gd : ℝ → (List ℝ → Py ℝ) → List ℝ → Py (List ℝ)} {p : List ℝ} {args : PsArgs}
    {out : OptOut (PsItem 1 (List ℝ))} (hgd : ValidGdList gd) (hp : 1 < p.length) (e : ℝ) (hE : args.eta = .float e) (hrp : args.returnParams = boolFlag true)
    (h : parameterShiftOptimizer gd ret plotDifferenceCircuit p ([gateX, gateY].map Gate.obs) args = .ok out) :
    ∃ P as bs, psParams out = some P ∧ redBlueDrawn P = .ok (as, bs) ∧ as.length = (psCosts out).length ∧ bs.length = (psCosts out).length ∧
      ∀ k < (psCosts out).length, (0 ≤ as.getD k 0 ∧ as.getD k 0 < 2 * Real.pi) ∧ (0 ≤ bs.getD k 0 ∧ bs.getD k 0 < 2 * Real.pi) ∧
        psCost 1 plotDifferenceCircuit ([gateX, gateY].map Gate.obs) [as.getD k 0, bs.getD k 0] = .ok ((psCosts out).getD k 0) := by
  obtain ⟨N, t, V, m, hN, hN1, h0, h1, ht, hmN, hl, hV, hpar, -⟩ := redBlue_trace hgd hp e hE true hrp h
  have hr : ∀ r ∈ (List.range (m + 1)).map V, 1 < r.length := by
    intro r hr
    obtain ⟨k, hk, rfl⟩ := List.mem_map.1 hr
    rw [(hV k (by have := List.mem_range.1 hk; omega)).1]
    exact hp
  refine ⟨_, _, _, hpar rfl, redBlueDrawn_ok _ hr, by simp [hl], by simp [hl], fun k hk => ?_⟩
  have g : ∀ i, (((List.range (m + 1)).map V).map (fun r => pyMod (r.getD i 0) (2 * Real.pi))).getD k 0 = pyMod ((V k).getD i 0) (2 * Real.pi) := by
    intro i
    rw [List.getD_eq_getElem (hn := by simp; omega), List.getElem_map, List.getElem_map, List.getElem_range]
  rw [g, g]
  refine ⟨pyMod_range _, pyMod_range _, ?_⟩
  rw [redBlue_cost _ (by simp), (hV k (by omega)).2.2.2]
  simp only [List.getD_cons_zero, List.getD_cons_succ]
  rw [sin_pyMod, sin_pyMod, cos_pyMod]

theorem flow_neg (e x : ℝ) : ∀ k, flowAngle e (-x) k = -flowAngle e x k
  | 0 => rfl
  | k + 1 => by rw [flowAngle, flowAngle, flow_neg e x k, Real.sin_neg]; ring

theorem sin_ge_between {c x : ℝ} (hc : 0 ≤ c) (h1 : c ≤ x) (h2 : x ≤ Real.pi - c) : Real.sin c ≤ Real.sin x := by
  have hp := Real.pi_pos
  rcases le_total x (Real.pi / 2) with h | h
  · exact Real.sin_le_sin_of_le_of_le_pi_div_two (by linarith) h h1
  · rw [← Real.sin_pi_sub x]
    exact Real.sin_le_sin_of_le_of_le_pi_div_two (by linarith) (by linarith) (by linarith)

/-- C109 (the claim is false).  In the run of the script the drawn path jumps: there is a step at which the first parameter moves by less than `0.08`, and the
point drawn for it moves from the left border of the figure to the right border. -/
theorem C109_refuted {ret : CircuitRet} {gd : ℝ → (List ℝ → Py ℝ) → List ℝ → Py (List ℝ)} {args : PsArgs} {out : OptOut (PsItem 1 (List ℝ))}
    (hgd : ValidGdList gd) (hE : args.eta = .float 0.05) (hN : args.nsteps = .int 100) (ht : args.tol = .float 1e-3) (hrp : args.returnParams = boolFlag true)
    (h : parameterShiftOptimizer gd ret plotDifferenceCircuit [Real.pi / 3, Real.pi / 5] ([gateX, gateY].map Gate.obs) args = .ok out) :
    ∃ P as bs, psParams out = some P ∧ redBlueDrawn P = .ok (as, bs) ∧ ∃ k, k + 1 < P.length ∧
      |(P.getD (k + 1) []).getD 0 0 - (P.getD k []).getD 0 0| < 0.08 ∧ as.getD k 0 < 0.08 ∧ 6.2 < as.getD (k + 1) 0 := by
  have hpi := Real.pi_gt_d2
  have hpi' := Real.pi_pos
  have hs1 : Real.sqrt 2 < 1.415 := (Real.sqrt_lt' (by norm_num)).2 (by norm_num)
  have hs0 : 1.414 < Real.sqrt 2 := (Real.lt_sqrt (by norm_num)).2 (by norm_num)
  have hP := C108_params hgd (by simp) 0.05 hE hrp h
  simp only [List.getD_cons_zero, List.getD_cons_succ] at hP
  rw [show Real.pi / 3 + Real.pi / 5 - 3 * Real.pi / 4 = -(13 * Real.pi / 60) by ring, show Real.pi / 3 - Real.pi / 5 - Real.pi / 4 = -(7 * Real.pi / 60) by ring] at hP
  simp only [flow_neg] at hP
  have hst := fun hlen => C108_stationary hgd (by simp) 0.05 hE true hrp h 1e-3 ht 100 hN hlen
  simp only [List.getD_cons_zero, List.getD_cons_succ] at hst
  rw [show Real.pi / 3 + Real.pi / 5 - 3 * Real.pi / 4 = -(13 * Real.pi / 60) by ring, show Real.pi / 3 - Real.pi / 5 - Real.pi / 4 = -(7 * Real.pi / 60) by ring] at hst
  simp only [flow_neg, Real.sin_neg, neg_sq] at hst
  obtain ⟨N', t', V, m, hN', hN1, -, -, -, hmN, hl, -, -, -, hend⟩ := redBlue_trace hgd (by simp) 0.05 hE true hrp h
  rw [hN] at hN'
  injection hN' with hN'
  set X := flowAngle (Real.sqrt 2 * 0.05) (13 * Real.pi / 60) with hX
  set Y := flowAngle (Real.sqrt 2 * 0.05) (7 * Real.pi / 60) with hY
  have hX1 : ∀ k, X (k + 1) = X k + Real.sqrt 2 * 0.05 * Real.sin (X k) := fun k => rfl
  have hY1 : ∀ k, Y (k + 1) = Y k + Real.sqrt 2 * 0.05 * Real.sin (Y k) := fun k => rfl
  have hXm := (flowAngle_strictMono (Real.sqrt 2 * 0.05) (13 * Real.pi / 60) (by positivity) (by linarith) (by positivity) (by linarith)).monotone
  have hYm := (flowAngle_strictMono (Real.sqrt 2 * 0.05) (7 * Real.pi / 60) (by positivity) (by linarith) (by positivity) (by linarith)).monotone
  have hX0 : ∀ k, 13 * Real.pi / 60 ≤ X k := fun k => hXm (Nat.zero_le k)
  have hY0 : ∀ k, 7 * Real.pi / 60 ≤ Y k := fun k => hYm (Nat.zero_le k)
  have hc : 7 / 30 ≤ Real.sin (7 * Real.pi / 60) := by
    have := Real.mul_le_sin (x := 7 * Real.pi / 60) (by positivity) (by linarith)
    rw [show 2 / Real.pi * (7 * Real.pi / 60) = 7 / 30 by field_simp; norm_num] at this
    exact this
  have hsin : ∀ k, X k + Y k ≤ Real.pi → 7 / 30 ≤ Real.sin (X k) ∧ 7 / 30 ≤ Real.sin (Y k) := by
    intro k hk
    have := hX0 k
    have := hY0 k
    exact ⟨hc.trans (sin_ge_between (by positivity) (by linarith) (by linarith)), hc.trans (sin_ge_between (by positivity) (by linarith) (by linarith))⟩
  have hex : ∃ k < m, X k + Y k ≤ Real.pi ∧ Real.pi < X (k + 1) + Y (k + 1) := by
    by_contra hno
    push Not at hno
    have hall : ∀ k ≤ m, X k + Y k ≤ Real.pi ∧ Real.pi / 3 + k * 0.032 ≤ X k + Y k := by
      intro k
      induction k with
      | zero =>
        intro _
        have e1 : X 0 = 13 * Real.pi / 60 := rfl
        have e2 : Y 0 = 7 * Real.pi / 60 := rfl
        rw [e1, e2]
        constructor
        · linarith
        · push_cast; linarith
      | succ k ih =>
        intro hk
        obtain ⟨i1, i2⟩ := ih (by omega)
        refine ⟨hno k (by omega) i1, ?_⟩
        obtain ⟨s1, s2⟩ := hsin k i1
        rw [hX1, hY1]
        push_cast
        nlinarith
    rcases Nat.lt_or_ge 100 (psCosts out).length with hlen | hlen
    · have : m = 100 := by omega
      have h2 := hall m le_rfl
      rw [this] at h2
      have hp4 := Real.pi_lt_d2
      push_cast at h2
      linarith
    · have h2 := hst hlen
      have hlen2 : 2 ≤ (psCosts out).length := by
        rcases hend with rfl | ⟨k, -, -, rfl, -⟩ <;> omega
      obtain ⟨s1, s2⟩ := hsin _ (hall ((psCosts out).length - 2) (by omega)).1
      have q1 : (7 / 30 : ℝ) ^ 2 ≤ Real.sin (X ((psCosts out).length - 2)) ^ 2 := pow_le_pow_left₀ (by norm_num) s1 2
      have q2 : (7 / 30 : ℝ) ^ 2 ≤ Real.sin (Y ((psCosts out).length - 2)) ^ 2 := pow_le_pow_left₀ (by norm_num) s2 2
      have q3 : (0.96 : ℝ) ≤ 1 - 0.05 / Real.sqrt 2 := by
        have : 0.05 / Real.sqrt 2 ≤ 0.04 := by
          rw [div_le_iff₀ (by positivity)]
          linarith
        linarith
      have q4 : (0.05 : ℝ) * 0.96 * ((7 / 30) ^ 2 + (7 / 30) ^ 2) ≤ 0.05 * (1 - 0.05 / Real.sqrt 2) *
          (Real.sin (X ((psCosts out).length - 2)) ^ 2 + Real.sin (Y ((psCosts out).length - 2)) ^ 2) :=
        mul_le_mul (by linarith) (by linarith) (by norm_num) (by linarith)
      norm_num at q4 h2
      linarith
  obtain ⟨k, hkm, k1, k2⟩ := hex
  have hlP : ∀ r ∈ (List.range (psCosts out).length).map (fun k => [(anglesAB (-X k) (-Y k)).1, (anglesAB (-X k) (-Y k)).2]), 1 < r.length := by
    intro r hr
    obtain ⟨j, -, rfl⟩ := List.mem_map.1 hr
    simp
  refine ⟨_, _, _, hP, redBlueDrawn_ok _ hlP, k, by simp; omega, ?_, ?_, ?_⟩
  all_goals
    have b1 := Real.sin_le_one (X k)
    have b2 := Real.sin_le_one (Y k)
    obtain ⟨s1, s2⟩ := hsin k k1
    rw [hX1, hY1] at k2
  · have g : ∀ j < (psCosts out).length, (((List.range (psCosts out).length).map (fun k => [(anglesAB (-X k) (-Y k)).1, (anglesAB (-X k) (-Y k)).2])).getD j []) =
        [(anglesAB (-X j) (-Y j)).1, (anglesAB (-X j) (-Y j)).2] := fun j hj => by
      rw [List.getD_eq_getElem (hn := by simpa using hj), List.getElem_map, List.getElem_range]
    rw [g (k + 1) (by omega), g k (by omega), List.getD_cons_zero, List.getD_cons_zero, anglesAB, anglesAB, hX1, hY1, abs_lt]
    constructor <;> nlinarith
  · rw [List.getD_eq_getElem (hn := by simp; omega), List.getElem_map, List.getElem_map, List.getElem_range, List.getD_cons_zero, anglesAB, pyMod,
      show ⌊(-X k + -Y k + Real.pi) / 2 / (2 * Real.pi)⌋ = 0 from ?_]
    · push_cast
      nlinarith
    · rw [Int.floor_eq_zero_iff, Set.mem_Ico]
      constructor
      · exact div_nonneg (by linarith) (by linarith)
      · rw [div_lt_one (by linarith)]
        linarith [hX0 k, hY0 k]
  · rw [List.getD_eq_getElem (hn := by simp; omega), List.getElem_map, List.getElem_map, List.getElem_range, List.getD_cons_zero, anglesAB, hX1, hY1, pyMod,
      show ⌊(-(X k + Real.sqrt 2 * 0.05 * Real.sin (X k)) + -(Y k + Real.sqrt 2 * 0.05 * Real.sin (Y k)) + Real.pi) / 2 / (2 * Real.pi)⌋ = -1 from ?_]
    · push_cast
      nlinarith
    · rw [Int.floor_eq_iff]
      push_cast
      constructor
      · rw [le_div_iff₀ (by linarith)]
        nlinarith
      · rw [div_lt_iff₀ (by linarith)]
        linarith

/-- Hypotheses of C108 and C109: the run of the script, and a starting point of `C108_stuck`. -/
example : ∃ (gd : ℝ → (List ℝ → Py ℝ) → List ℝ → Py (List ℝ)) (args : PsArgs), ValidGdList gd ∧ args.eta = .float 0.05 ∧ args.nsteps = .int 100 ∧
    args.tol = .float 1e-3 ∧ args.returnParams = boolFlag true ∧
    (∃ out, parameterShiftOptimizer (n := 1) gd .nothing plotDifferenceCircuit [Real.pi / 3, Real.pi / 5] ([gateX, gateY].map Gate.obs) args = .ok out) ∧
    (∃ out, parameterShiftOptimizer (n := 1) gd .nothing plotDifferenceCircuit [Real.pi / 2, Real.pi / 4] ([gateX, gateY].map Gate.obs) args = .ok out) ∧
    Real.sin (Real.pi / 3 + Real.pi / 5 - 3 * Real.pi / 4) ≠ 0 ∧ Real.sin (Real.pi / 3 - Real.pi / 5 - Real.pi / 4) ≠ 0 ∧
    Real.cos (Real.pi / 2 + Real.pi / 4 - 3 * Real.pi / 4) = 1 := by
  obtain ⟨gd, hgd⟩ := exists_validGdList
  have hps : ∀ a b : ℝ, ∃ out, parameterShiftOptimizer (n := 1) gd .nothing plotDifferenceCircuit [a, b] ([gateX, gateY].map Gate.obs)
      { nsteps := .int (100 : ℕ), eta := .float 0.05, returnState := .bool true, returnParams := boolFlag true } = .ok out := by
    intro a b
    refine ps_succeeds (fun p => p.length = 2) rfl (fun p hp => ⟨_, plotDifference_unitary p (by omega)⟩) (fun e p hp => ?_)
      (N := 100) (e := 0.05) (t := .fin 1e-3) (rs := true) ⟨rfl, by norm_num, rfl, by norm_num, by norm_num, ⟨rfl, by norm_num⟩, rfl⟩ true rfl
    obtain ⟨q, h1, h2, -⟩ := gd_redBlue hgd (p := p) (by omega) e
    exact ⟨q, h1, h2.trans hp⟩
  have hpi := Real.pi_pos
  refine ⟨gd, _, hgd, rfl, rfl, rfl, rfl, hps _ _, hps _ _, ?_, ?_, ?_⟩
  · rw [show Real.pi / 3 + Real.pi / 5 - 3 * Real.pi / 4 = -(13 * Real.pi / 60) by ring, Real.sin_neg, neg_ne_zero]
    exact (Real.sin_pos_of_pos_of_lt_pi (by linarith) (by linarith)).ne'
  · rw [show Real.pi / 3 - Real.pi / 5 - Real.pi / 4 = -(7 * Real.pi / 60) by ring, Real.sin_neg, neg_ne_zero]
    exact (Real.sin_pos_of_pos_of_lt_pi (by linarith) (by linarith)).ne'
  · rw [show Real.pi / 2 + Real.pi / 4 - 3 * Real.pi / 4 = 0 by ring, Real.cos_zero]

end Oranssi
