import Verif.Props.PlotEqual
import Verif.Props.Steepest
import Verif.Lemmas.CosProduct
import Mathlib.Analysis.SpecialFunctions.Trigonometric.Bounds

/-! # C93: on the circuit of `plot_difference` the Riemannian costs are never above the parameter-shift costs -/

namespace Oranssi
open Spec
open scoped Matrix

/-- The matrix of `RZ(b)`. -/
noncomputable def rotZ (b : ℝ) : QMat 1 :=
  (!![(Real.cos (b / 2) : ℂ) - Complex.I * Real.sin (b / 2), 0; 0, (Real.cos (b / 2) : ℂ) + Complex.I * Real.sin (b / 2)] : Matrix (Fin 2) (Fin 2) ℂ)

/-- The gate `RZ(b)`. -/
noncomputable def rotGateZ (b : ℝ) : Gate 1 := ⟨[0], rotZ b, by simp, by simp, by simp⟩

theorem rotGate_Z (b : ℝ) : rotGate b "Z" [0] = ((rotGateZ b).obs.matrix, (rotGateZ b).obs.wires) := by
  have h : pauliRot b [Letter.Z] = rotZ b := by
    rw [pauliRot]
    change _ • (1 : Matrix (Fin 2) (Fin 2) ℂ) - _ • pauliWord (n := 1) _ = (!![_, _; _, _] : Matrix (Fin 2) (Fin 2) ℂ)
    rw [pauliWord_one]
    change _ • (1 : Matrix (Fin 2) (Fin 2) ℂ) - _ • (!![1, 0; 0, -1] : Matrix (Fin 2) (Fin 2) ℂ) = _
    rw [Matrix.one_fin_two]
    ext i j
    fin_cases i <;> fin_cases j <;> simp
  have hZ : lettersOfStr "Z" = [Letter.Z] := by decide
  rw [rotGate, hZ, h]
  rfl

theorem rotZ_unitary (b : ℝ) : (rotZ b)ᴴ * rotZ b = 1 := by
  have h2 : (Real.cos (b / 2) : ℂ) ^ 2 + (Real.sin (b / 2) : ℂ) ^ 2 = 1 := by
    norm_cast
    exact Real.cos_sq_add_sin_sq _
  change (!![(Real.cos (b / 2) : ℂ) - Complex.I * Real.sin (b / 2), 0; 0, (Real.cos (b / 2) : ℂ) + Complex.I * Real.sin (b / 2)] : Matrix (Fin 2) (Fin 2) ℂ)ᴴ *
    !![(Real.cos (b / 2) : ℂ) - Complex.I * Real.sin (b / 2), 0; 0, (Real.cos (b / 2) : ℂ) + Complex.I * Real.sin (b / 2)] = 1
  rw [Matrix.one_fin_two]
  ext i j
  fin_cases i <;> fin_cases j <;>
    simp [Matrix.mul_apply, Fin.sum_univ_two, Matrix.conjTranspose_apply, Complex.conj_ofReal, -Complex.ofReal_cos, -Complex.ofReal_sin]
  · linear_combination h2 - (Real.sin (b / 2) : ℂ) ^ 2 * Complex.I_sq
  · linear_combination h2 - (Real.sin (b / 2) : ℂ) ^ 2 * Complex.I_sq

theorem plotDifference_ok (p : List ℝ) (hp : 1 < p.length) : plotDifferenceCircuit p =
    .ok ([rotGate0 (p.getD 0 0 / 2), rotGateZ (p.getD 1 0)].map (fun g => (g.obs.matrix, g.obs.wires))) := by
  match p, hp with
  | a :: b :: p, _ => simp [plotDifferenceCircuit, pyGetItem, pyIndex, bind, Except.bind, rotGate_Y, rotGate_Z]

/-- The circuit with the angles `a` and `b`. -/
noncomputable def circAB (a b : ℝ) : QMat 1 := rotZ b * rot (a / 2)

theorem circAB_unitary (a b : ℝ) : Unitary (circAB a b) := by
  rw [Unitary, circAB, Matrix.conjTranspose_mul, Matrix.mul_assoc, ← Matrix.mul_assoc _ (rotZ b), rotZ_unitary, Matrix.one_mul, rot_unitary]

theorem compileLoop_obs {n : ℕ} (gs : List (Gate n)) (U : QMat n) :
    compileLoop n (gs.map (fun g => (g.obs.matrix, g.obs.wires))) U = .ok (gs.foldl (fun U g => full n g.ws g.A * U) U) := compileLoop_gates gs U

theorem ok_bind {α β : Type} (a : α) (f : α → Py β) : ((Except.ok a : Py α) >>= f) = f a := rfl

theorem plotDifference_unitary (p : List ℝ) (hp : 1 < p.length) :
    circuitUnitary 1 plotDifferenceCircuit p = .ok (circAB (p.getD 0 0) (p.getD 1 0)) := by
  rw [circuitUnitary, plotDifference_ok p hp, ok_bind, compileLoop_obs]
  simp only [List.foldl_cons, List.foldl_nil, mul_one]
  rw [show full 1 (rotGateZ (p.getD 1 0)).ws (rotGateZ (p.getD 1 0)).A = rotZ (p.getD 1 0) from full_one_qubit _,
    show full 1 (rotGate0 (p.getD 0 0 / 2)).ws (rotGate0 (p.getD 0 0 / 2)).A = rot (p.getD 0 0 / 2) from full_one_qubit _, circAB]

theorem col_circAB (a b : ℝ) : (fun i => circAB a b i 0) =
    (![((Real.cos (b / 2) : ℂ) - Complex.I * Real.sin (b / 2)) * Real.cos (a / 2), ((Real.cos (b / 2) : ℂ) + Complex.I * Real.sin (b / 2)) * Real.sin (a / 2)] : Fin 2 → ℂ) := by
  funext i
  change ((!![(Real.cos (b / 2) : ℂ) - Complex.I * Real.sin (b / 2), 0; 0, (Real.cos (b / 2) : ℂ) + Complex.I * Real.sin (b / 2)] : Matrix (Fin 2) (Fin 2) ℂ) *
    (!![((Real.cos (a / 2) : ℝ) : ℂ), -((Real.sin (a / 2) : ℝ) : ℂ); ((Real.sin (a / 2) : ℝ) : ℂ), ((Real.cos (a / 2) : ℝ) : ℂ)] : Matrix (Fin 2) (Fin 2) ℂ)) i 0 = _
  fin_cases i <;> simp [Matrix.mul_apply, Fin.sum_univ_two]

theorem cost_circAB (a b : ℝ) : cost matX (circAB a b) = Real.sin a * Real.cos b := by
  have h : star (fun i => circAB a b i 0) ⬝ᵥ (matX *ᵥ (fun i => circAB a b i 0)) = ((Real.sin a * Real.cos b : ℝ) : ℂ) := by
    rw [col_circAB]
    change ∑ i : Fin 2, star ((![((Real.cos (b / 2) : ℂ) - Complex.I * Real.sin (b / 2)) * Real.cos (a / 2), ((Real.cos (b / 2) : ℂ) + Complex.I * Real.sin (b / 2)) * Real.sin (a / 2)] : Fin 2 → ℂ) i) *
      ((!![0, 1; 1, 0] : Matrix (Fin 2) (Fin 2) ℂ) *ᵥ
        (![((Real.cos (b / 2) : ℂ) - Complex.I * Real.sin (b / 2)) * Real.cos (a / 2), ((Real.cos (b / 2) : ℂ) + Complex.I * Real.sin (b / 2)) * Real.sin (a / 2)] : Fin 2 → ℂ)) i = _
    rw [Fin.sum_univ_two, show a = 2 * (a / 2) by ring, show b = 2 * (b / 2) by ring, Real.sin_two_mul, Real.cos_two_mul']
    simp [Matrix.mulVec, dotProduct, Fin.sum_univ_two, Complex.conj_ofReal, -Complex.ofReal_cos, -Complex.ofReal_sin]
    linear_combination (2 * (Real.cos (a / 2) : ℂ) * Real.sin (a / 2) * (Real.sin (b / 2) : ℂ) ^ 2) * Complex.I_sq
  exact (congrArg Complex.re h).trans (Complex.ofReal_re _)

theorem overlap_circAB (a b a' b' : ℝ) : Real.cos ((a' - a) / 2) * Real.cos ((b' - b) / 2) ≤ overlap (circAB a b) (circAB a' b') := by
  have h : (star (fun i => circAB a b i 0) ⬝ᵥ (fun i => circAB a' b' i 0)).re = Real.cos ((a' - a) / 2) * Real.cos ((b' - b) / 2) := by
    rw [col_circAB, col_circAB]
    change (∑ i : Fin 2, star ((![((Real.cos (b / 2) : ℂ) - Complex.I * Real.sin (b / 2)) * Real.cos (a / 2), ((Real.cos (b / 2) : ℂ) + Complex.I * Real.sin (b / 2)) * Real.sin (a / 2)] : Fin 2 → ℂ) i) *
        (![((Real.cos (b' / 2) : ℂ) - Complex.I * Real.sin (b' / 2)) * Real.cos (a' / 2), ((Real.cos (b' / 2) : ℂ) + Complex.I * Real.sin (b' / 2)) * Real.sin (a' / 2)] : Fin 2 → ℂ) i).re = _
    rw [Fin.sum_univ_two, show (a' - a) / 2 = a' / 2 - a / 2 by ring, show (b' - b) / 2 = b' / 2 - b / 2 by ring, Real.cos_sub, Real.cos_sub]
    simp [Complex.conj_ofReal, -Complex.ofReal_cos, -Complex.ofReal_sin]
    ring
  rw [← h]
  exact Complex.re_le_norm _

theorem plotDifference_cost (p : List ℝ) (hp : 1 < p.length) :
    psCost 1 plotDifferenceCircuit ([gateX].map Gate.obs) p = .ok (Real.sin (p.getD 0 0) * Real.cos (p.getD 1 0)) := by
  rw [psCost, plotDifference_unitary p hp]
  simp only [bind, Except.bind]
  rw [totalCost_gates, totalObs_single, show full 1 gateX.ws gateX.A = matX from full_one_qubit matX, cost_circAB]

/-- A gradient step on the cost `sin a cos b`. -/
theorem gd_difference {gd : ℝ → (List ℝ → Py ℝ) → List ℝ → Py (List ℝ)} (hgd : ValidGdList gd) {p : List ℝ} (hp : 1 < p.length) (e : ℝ) :
    ∃ p', gd e (psCost 1 plotDifferenceCircuit ([gateX].map Gate.obs)) p = .ok p' ∧ p'.length = p.length ∧
      p'.getD 0 0 = p.getD 0 0 - e * (Real.cos (p.getD 0 0) * Real.cos (p.getD 1 0)) ∧
      p'.getD 1 0 = p.getD 1 0 + e * (Real.sin (p.getD 0 0) * Real.sin (p.getD 1 0)) := by
  have hset : ∀ i < p.length, ∀ t, (p.set i t).getD i 0 = t := fun i hi t => by rw [List.getD_eq_getElem (hn := by simpa using hi), List.getElem_set_self]
  have hset' : ∀ i < p.length, ∀ j, j ≠ i → ∀ t, (p.set j t).getD i 0 = p.getD i 0 := fun i hi j hj t => by
    rw [List.getD_eq_getElem (hn := by simpa using hi), List.getElem_set_ne hj, List.getD_eq_getElem (hn := hi)]
  have h0 : HasDerivAt (fun t => Real.sin t * Real.cos (p.getD 1 0)) (Real.cos (p.getD 0 0) * Real.cos (p.getD 1 0)) (p.getD 0 0) :=
    (Real.hasDerivAt_sin _).mul_const _
  have h1 : HasDerivAt (fun t => Real.sin (p.getD 0 0) * Real.cos t) (Real.sin (p.getD 0 0) * -Real.sin (p.getD 1 0)) (p.getD 1 0) :=
    (Real.hasDerivAt_cos _).const_mul _
  have e0 : (fun t => Real.sin ((p.set 0 t).getD 0 0) * Real.cos ((p.set 0 t).getD 1 0)) = fun t => Real.sin t * Real.cos (p.getD 1 0) := by
    funext t; rw [hset 0 (by omega), hset' 1 hp 0 (by omega)]
  have e1 : (fun t => Real.sin ((p.set 1 t).getD 0 0) * Real.cos ((p.set 1 t).getD 1 0)) = fun t => Real.sin (p.getD 0 0) * Real.cos t := by
    funext t; rw [hset 1 hp, hset' 0 (by omega) 1 (by omega)]
  obtain ⟨p', q1, q2, q3⟩ := hgd e _ (fun q => Real.sin (q.getD 0 0) * Real.cos (q.getD 1 0)) p (fun q hq => plotDifference_cost q (by omega)) (fun i hi => by
    rcases Nat.lt_or_ge 1 i with h | h
    · simp only [hset' 0 (by omega) i (by omega), hset' 1 hp i (by omega)]
      exact differentiableAt_const _
    · interval_cases i
      · rw [e0]; exact h0.differentiableAt
      · rw [e1]; exact h1.differentiableAt)
  refine ⟨p', q1, q2, ?_, ?_⟩
  · rw [q3 0 (by omega), e0, h0.deriv]
  · rw [q3 1 hp, e1, h1.deriv]
    ring

/-- A gradient step on this circuit moves the state at most as far as the exact step does. -/
theorem difference_close (a b e x : ℝ) (h0 : 0 ≤ e) (h1 : e ≤ 1) (hs : 0 ≤ Real.sin x) (hx : Real.sin a * Real.cos b = Real.cos x) :
    Real.cos (e * Real.sin x / 2) ≤
      overlap (circAB a b) (circAB (a - e * (Real.cos a * Real.cos b)) (b + e * (Real.sin a * Real.sin b))) := by
  refine le_trans ?_ (overlap_circAB ..)
  rw [show (a - e * (Real.cos a * Real.cos b) - a) / 2 = -(e * (Real.cos a * Real.cos b) / 2) by ring, Real.cos_neg,
    show (b + e * (Real.sin a * Real.sin b) - b) / 2 = e * (Real.sin a * Real.sin b) / 2 by ring]
  have ca := Real.abs_cos_le_one a
  have cb := Real.abs_cos_le_one b
  have sa := Real.abs_sin_le_one a
  have sb := Real.abs_sin_le_one b
  have b1 : |e * (Real.cos a * Real.cos b) / 2| ≤ 1 / 2 := by
    rw [abs_div, abs_mul, abs_mul, abs_of_nonneg h0, abs_of_pos (by norm_num : (0 : ℝ) < 2)]
    have := mul_le_one₀ ca (abs_nonneg _) cb
    have := mul_le_one₀ h1 (by positivity) this
    linarith
  have b2 : |e * (Real.sin a * Real.sin b) / 2| ≤ 1 / 2 := by
    rw [abs_div, abs_mul, abs_mul, abs_of_nonneg h0, abs_of_pos (by norm_num : (0 : ℝ) < 2)]
    have := mul_le_one₀ sa (abs_nonneg _) sb
    have := mul_le_one₀ h1 (by positivity) this
    linarith
  refine le_trans ?_ (cos_sqrt_le_mul (by linarith [Real.pi_gt_three]))
  have hx1 : Real.sin x ≤ 1 := Real.sin_le_one x
  refine Real.cos_le_cos_of_nonneg_of_le_pi (Real.sqrt_nonneg _) (by nlinarith [Real.pi_gt_three]) ?_
  rw [Real.sqrt_le_left (by positivity)]
  have t1 := Real.sin_sq_add_cos_sq a
  have t2 := Real.sin_sq_add_cos_sq b
  have t3 := Real.sin_sq_add_cos_sq x
  rw [← hx] at t3
  have : Real.sin x ^ 2 = Real.cos a ^ 2 + Real.sin a ^ 2 * Real.sin b ^ 2 := by nlinarith
  have h2 : (Real.cos a * Real.cos b) ^ 2 ≤ Real.cos a ^ 2 := by nlinarith [sq_nonneg (Real.cos a), sq_nonneg (Real.cos a * Real.sin b)]
  have h3 : e ^ 2 * (Real.cos a * Real.cos b) ^ 2 ≤ e ^ 2 * Real.cos a ^ 2 := mul_le_mul_of_nonneg_left h2 (sq_nonneg e)
  rw [div_pow, div_pow, div_pow, mul_pow e (Real.sin x), this]
  nlinarith

section
variable {eigh : EighFn 1} {rnd : ℕ → Matrix (Fin (2 ^ 1)) (Fin (2 ^ 1)) ℝ} {ret ret' : CircuitRet}
  {gd : ℝ → (List ℝ → Py ℝ) → List ℝ → Py (List ℝ)} {p : List ℝ} {ops : List (NpMat × List ℤ)}
  {argsE : ExactArgs} {argsP : PsArgs} {outE : OptOut (ExactItem 1)} {outP : OptOut (PsItem 1 (List ℝ))}

/-- The parameters after `k` steps of gradient descent on `sin a cos b`. -/
noncomputable def Spec.descentAB (e a b : ℝ) : ℕ → ℝ × ℝ
  | 0 => (a, b)
  | k + 1 => ((descentAB e a b k).1 - e * (Real.cos (descentAB e a b k).1 * Real.cos (descentAB e a b k).2),
      (descentAB e a b k).2 + e * (Real.sin (descentAB e a b k).1 * Real.sin (descentAB e a b k).2))

/-- C93.  The costs of the two runs on the circuit of `plot_difference`: gradient descent on `sin a cos b`, and the Riemannian flow. -/
theorem C93_costs (he : ValidEigh eigh) (hgd : ValidGdList gd) (hp : 1 < p.length) (hops : plotDifferenceCircuit p = .ok ops)
    (e : ℝ) (hE : argsE.eta = .float e) (hE' : argsP.eta = .float e) (hP : argsE.perturbation = .bool false)
    (rp : Bool) (hrp : argsP.returnParams = boolFlag rp)
    (hX : exactLieOptimizer eigh rnd ret ops ([gateX].map Gate.obs) argsE = .ok outE)
    (hS : parameterShiftOptimizer gd ret' plotDifferenceCircuit p ([gateX].map Gate.obs) argsP = .ok outP) :
    (∀ k < (psCosts outP).length, (psCosts outP).getD k 0 =
      Real.sin (descentAB e (p.getD 0 0) (p.getD 1 0) k).1 * Real.cos (descentAB e (p.getD 0 0) (p.getD 1 0) k).2) ∧
    (∀ k < (exactCosts outE).length, (exactCosts outE).getD k 0 =
      Real.cos (flowAngle e (Real.arccos (Real.sin (p.getD 0 0) * Real.cos (p.getD 1 0))) k)) := by
  constructor
  · obtain ⟨N, e', t, V, m, hN1, he1, ht1, hV0, hmN, hstep, hl, hc, -⟩ := C55_trace _ _ _ _ _ _ _ rp hrp hS
    rw [hE'] at he1
    obtain rfl := PyVal.float.inj he1
    have hV : ∀ k ≤ m, (V k).length = p.length ∧ ((V k).getD 0 0, (V k).getD 1 0) = descentAB e (p.getD 0 0) (p.getD 1 0) k := by
      intro k
      induction k with
      | zero => intro _; rw [hV0]; exact ⟨rfl, rfl⟩
      | succ k ih =>
        intro hk
        obtain ⟨hl, ha⟩ := ih (by omega)
        obtain ⟨p', q1, q2, q3, q4⟩ := gd_difference hgd (p := V k) (by omega) e
        rw [hstep k (by omega)] at q1
        obtain rfl := Except.ok.inj q1
        refine ⟨by omega, ?_⟩
        rw [q3, q4, descentAB, ← ha]
    intro k hk
    have := hc k (by omega)
    obtain ⟨h1, h2⟩ := hV k (by omega)
    rw [plotDifference_cost _ (by omega)] at this
    rw [← Except.ok.inj this, ← h2]
  · rw [plotDifference_ok p hp] at hops
    obtain rfl := Except.ok.inj hops
    have hunit : ∀ c ∈ [rotGate0 (p.getD 0 0 / 2), rotGateZ (p.getD 1 0)], c.Aᴴ * c.A = 1 := by
      intro c hc
      rcases List.mem_cons.1 hc with rfl | hc
      · exact rot_unitary _
      · rw [List.mem_singleton.1 hc]
        exact rotZ_unitary _
    have hb := abs_le.1 (abs_mul (Real.sin (p.getD 0 0)) (Real.cos (p.getD 1 0)) ▸
      mul_le_one₀ (Real.abs_sin_le_one (p.getD 0 0)) (abs_nonneg _) (Real.abs_cos_le_one (p.getD 1 0)))
    have hfirst : (exactCosts outE)[0]? = some (Real.cos (Real.arccos (Real.sin (p.getD 0 0) * Real.cos (p.getD 1 0)))) := by
      obtain ⟨-, -, e', -, W, -, m', -, h0, -, hcE, -⟩ := C44_trace eigh rnd _ _ _ argsE outE hX
      rw [hcE 0 (by omega)]
      have h1 := plotDifference_cost p hp
      rw [psCost, circuitUnitary, plotDifference_ok p hp, ok_bind, h0, ok_bind, totalCost_gates] at h1
      rw [Except.ok.inj h1, Real.cos_arccos hb.1 hb.2]
    have hC := C76_costs he hunit matX_herm matX_sq hP e hE hX _ hfirst
    intro k hk
    rw [hC, List.getD_eq_getElem (hn := by simpa using hk), List.getElem_map, List.getElem_range]

/-- One step of gradient descent on `sin a cos b` does not go below the exact step. -/
theorem difference_step (e a b : ℝ) (h0 : 0 ≤ e) (h1 : e ≤ 1) (x : ℝ) (x0 : 0 ≤ x) (x1 : x ≤ Real.pi) (hx : Real.sin a * Real.cos b = Real.cos x) :
    Real.cos (x + e * Real.sin x) ≤ Real.sin (a - e * (Real.cos a * Real.cos b)) * Real.cos (b + e * (Real.sin a * Real.sin b)) := by
  obtain ⟨eigh, he⟩ := exists_validEigh 1
  have hX : full 1 gateX.ws gateX.A = matX := full_one_qubit matX
  have hc : cost (full 1 gateX.ws gateX.A) (circAB a b) = Real.cos x := by rw [hX, cost_circAB, hx]
  have hV := C47_riemannian_step eigh he e gateX matX_herm matX_sq (circAB a b)
  obtain ⟨d1, d2⟩ := C92_distance he matX_herm matX_sq (circAB_unitary a b) h0 h1 x hc hV
  have := C92_steepest he matX_herm matX_sq (circAB_unitary a b) h0 h1 hV _ (circAB_unitary _ _)
    (d1.trans_le (difference_close a b e x h0 h1 (Real.sin_nonneg_of_nonneg_of_le_pi x0 x1) hx))
  rwa [d2, hX, cost_circAB] at this

theorem flow_mono {e x y : ℝ} (h0 : 0 ≤ e) (h1 : e ≤ 1) (h : y ≤ x) : y + e * Real.sin y ≤ x + e * Real.sin x := by
  have := abs_le.1 (Real.abs_sin_sub_sin_le y x)
  rw [abs_of_nonpos (by linarith : y - x ≤ 0)] at this
  nlinarith

theorem flow_range {e x : ℝ} (h0 : 0 ≤ e) (h1 : e ≤ 1) (x0 : 0 ≤ x) (x1 : x ≤ Real.pi) : ∀ k, 0 ≤ flowAngle e x k ∧ flowAngle e x k ≤ Real.pi
  | 0 => ⟨x0, x1⟩
  | k + 1 => by
    obtain ⟨a0, a1⟩ := flow_range h0 h1 x0 x1 k
    have s0 := Real.sin_nonneg_of_nonneg_of_le_pi a0 a1
    have s1 := sin_le_pi_sub a1
    rw [flowAngle]
    constructor
    · positivity
    · nlinarith

theorem difference_bound (e a b : ℝ) (h0 : 0 ≤ e) (h1 : e ≤ 1) : ∀ k,
    Real.arccos (Real.sin (descentAB e a b k).1 * Real.cos (descentAB e a b k).2) ≤ flowAngle e (Real.arccos (Real.sin a * Real.cos b)) k
  | 0 => le_rfl
  | k + 1 => by
    have ih := difference_bound e a b h0 h1 k
    set A := (descentAB e a b k).1 with hA
    set B := (descentAB e a b k).2 with hB
    have hb := abs_le.1 (abs_mul (Real.sin A) (Real.cos B) ▸ mul_le_one₀ (Real.abs_sin_le_one A) (abs_nonneg _) (Real.abs_cos_le_one B))
    have hs := difference_step e A B h0 h1 (Real.arccos (Real.sin A * Real.cos B)) (Real.arccos_nonneg _) (Real.arccos_le_pi _)
      (Real.cos_arccos hb.1 hb.2).symm
    have h2 := Real.antitone_arccos hs
    have hr := flow_range h0 h1 (Real.arccos_nonneg (Real.sin A * Real.cos B)) (Real.arccos_le_pi _) 1
    rw [flowAngle, flowAngle] at hr
    rw [Real.arccos_cos hr.1 hr.2] at h2
    rw [flowAngle]
    exact h2.trans (flow_mono h0 h1 ih)

/-- C93.  With the same step size the exact optimizer is at every step at or below the parameter-shift optimizer. -/
theorem C93_dominates (he : ValidEigh eigh) (hgd : ValidGdList gd) (hp : 1 < p.length) (hops : plotDifferenceCircuit p = .ok ops)
    (e : ℝ) (hE : argsE.eta = .float e) (hE' : argsP.eta = .float e) (hP : argsE.perturbation = .bool false)
    (rp : Bool) (hrp : argsP.returnParams = boolFlag rp)
    (hX : exactLieOptimizer eigh rnd ret ops ([gateX].map Gate.obs) argsE = .ok outE)
    (hS : parameterShiftOptimizer gd ret' plotDifferenceCircuit p ([gateX].map Gate.obs) argsP = .ok outP) :
    ∀ k, k < (exactCosts outE).length → k < (psCosts outP).length → (exactCosts outE).getD k 0 ≤ (psCosts outP).getD k 0 := by
  obtain ⟨hc1, hc2⟩ := C93_costs he hgd hp hops e hE hE' hP rp hrp hX hS
  obtain ⟨-, N, e', t, rs, q, rq, ru, hv, -⟩ := (exact_ok_iff ..).mp hX
  have hee := hv.eta
  rw [hE] at hee
  obtain rfl := PyVal.float.inj hee
  intro k k1 k2
  rw [hc1 k k2, hc2 k k1]
  have hd := difference_bound e (p.getD 0 0) (p.getD 1 0) hv.eta0 hv.eta1 k
  set A := (descentAB e (p.getD 0 0) (p.getD 1 0) k).1
  set B := (descentAB e (p.getD 0 0) (p.getD 1 0) k).2
  have hb := abs_le.1 (abs_mul (Real.sin A) (Real.cos B) ▸ mul_le_one₀ (Real.abs_sin_le_one A) (abs_nonneg _) (Real.abs_cos_le_one B))
  have hr := flow_range hv.eta0 hv.eta1 (Real.arccos_nonneg (Real.sin (p.getD 0 0) * Real.cos (p.getD 1 0))) (Real.arccos_le_pi _) k
  calc Real.cos (flowAngle e (Real.arccos (Real.sin (p.getD 0 0) * Real.cos (p.getD 1 0))) k)
      ≤ Real.cos (Real.arccos (Real.sin A * Real.cos B)) := Real.cos_le_cos_of_nonneg_of_le_pi (Real.arccos_nonneg _) hr.2 hd
    _ = Real.sin A * Real.cos B := Real.cos_arccos hb.1 hb.2

/-- C93.  The two differ: from `params = [0, b]` with `b` not a multiple of `π` the exact optimizer is strictly below after one step. -/
theorem C93_strict (he : ValidEigh eigh) (hgd : ValidGdList gd) (hp : 1 < p.length) (hops : plotDifferenceCircuit p = .ok ops)
    (e : ℝ) (hE : argsE.eta = .float e) (hE' : argsP.eta = .float e) (hP : argsE.perturbation = .bool false)
    (rp : Bool) (hrp : argsP.returnParams = boolFlag rp)
    (hX : exactLieOptimizer eigh rnd ret ops ([gateX].map Gate.obs) argsE = .ok outE)
    (hS : parameterShiftOptimizer gd ret' plotDifferenceCircuit p ([gateX].map Gate.obs) argsP = .ok outP)
    (h0 : 0 < e) (ha : p.getD 0 0 = 0) (hb : Real.sin (p.getD 1 0) ≠ 0) :
    1 < (exactCosts outE).length ∧ 1 < (psCosts outP).length ∧ (exactCosts outE).getD 1 0 < (psCosts outP).getD 1 0 := by
  obtain ⟨hc1, hc2⟩ := C93_costs he hgd hp hops e hE hE' hP rp hrp hX hS
  obtain ⟨-, N, e', t, rs, q, rq, ru, hv, -⟩ := (exact_ok_iff ..).mp hX
  have hee := hv.eta
  rw [hE] at hee
  obtain rfl := PyVal.float.inj hee
  have hl1 : 1 < (exactCosts outE).length := by
    obtain ⟨N', t', hN2, ht2, hnot', hend', hmin⟩ := C45_first_flat_step _ _ _ _ _ _ _ hX hP
    have hN := hv.nsteps
    rw [hN2] at hN
    injection hN with hN
    have := hv.pos
    omega
  have hl2 : 1 < (psCosts outP).length := by
    obtain ⟨-, -, N', e', t', rs', hv', -⟩ := (ps_ok_iff ..).mp hS
    have h1 := hv'.pos
    obtain ⟨N, e, t, V, m, hN1, he1, ht1, hV0, hmN, hstep, hl, hc, -, -, -, hend⟩ := C55_trace _ _ _ _ _ _ _ rp hrp hS
    rw [hv'.nsteps] at hN1
    injection hN1 with hN1
    omega
  refine ⟨hl1, hl2, ?_⟩
  rw [hc1 1 hl2, hc2 1 hl1, flowAngle, flowAngle, descentAB, descentAB, ha]
  simp only [Real.sin_zero, zero_mul, Real.cos_zero, one_mul, Real.arccos_zero, Real.sin_pi_div_two, mul_one, mul_zero, add_zero, zero_sub]
  rw [add_comm, Real.cos_add_pi_div_two, Real.sin_neg]
  set c := Real.cos (p.getD 1 0) with hc
  have hc1 : |c| < 1 := by
    rw [← sq_lt_one_iff_abs_lt_one]
    have := Real.sin_sq_add_cos_sq (p.getD 1 0)
    have h2 : 0 < Real.sin (p.getD 1 0) ^ 2 := by positivity
    rw [← hc] at this
    nlinarith
  have hev : Real.sin (e * c) * c = Real.sin (e * |c|) * |c| := by
    rcases abs_cases c with ⟨h, -⟩ | ⟨h, -⟩
    · rw [h]
    · rw [h, show e * -c = -(e * c) by ring, Real.sin_neg]; ring
  have h3 : Real.sin (e * |c|) ≤ Real.sin e :=
    Real.sin_le_sin_of_le_of_le_pi_div_two (by nlinarith [abs_nonneg c, Real.pi_pos]) (by linarith [Real.pi_gt_three, hv.eta1]) (by nlinarith)
  have h4 : 0 < Real.sin e := Real.sin_pos_of_pos_of_lt_pi h0 (by linarith [Real.pi_gt_three, hv.eta1])
  have h5 : Real.sin (e * |c|) * |c| < Real.sin e := by
    calc Real.sin (e * |c|) * |c| ≤ Real.sin e * |c| := mul_le_mul_of_nonneg_right h3 (abs_nonneg c)
      _ < Real.sin e := by nlinarith
  rw [neg_mul, hev]
  linarith

end

/-- Hypotheses of C93: the two calls of `plot_difference` succeed, also from parameters as in `C93_strict`. -/
example (rnd : ℕ → Matrix (Fin (2 ^ 1)) (Fin (2 ^ 1)) ℝ) (a b : ℝ) :
    ∃ (eigh : EighFn 1) (gd : ℝ → (List ℝ → Py ℝ) → List ℝ → Py (List ℝ)) (ops : List (NpMat × List ℤ))
    (argsE : ExactArgs) (argsP : PsArgs), ValidEigh eigh ∧ ValidGdList gd ∧ plotDifferenceCircuit [a, b] = .ok ops ∧
      argsE.eta = .float 0.1 ∧ argsP.eta = .float 0.1 ∧ argsE.perturbation = .bool false ∧ argsP.returnParams = boolFlag true ∧
      (∃ outE, exactLieOptimizer eigh rnd .state ops ([gateX].map Gate.obs) argsE = .ok outE) ∧
      (∃ outP, parameterShiftOptimizer (n := 1) gd .nothing plotDifferenceCircuit [a, b] ([gateX].map Gate.obs) argsP = .ok outP) := by
  obtain ⟨eigh, he⟩ := exists_validEigh 1
  obtain ⟨gd, hgd⟩ := exists_validGdList
  refine ⟨eigh, gd, _, { nsteps := .int (100 : ℕ), returnState := .bool true }, { nsteps := .int (100 : ℕ), returnState := .bool true, returnParams := boolFlag true },
    he, hgd, plotDifference_ok _ (by simp), rfl, rfl, rfl, rfl, ?_, ?_⟩
  · exact (C44_succeeds_iff ..).mpr ⟨rfl, 100, 0.1, .fin 1e-3, true, false, false, false,
      ⟨rfl, by norm_num, rfl, by norm_num, by norm_num, ⟨rfl, by norm_num⟩, rfl, rfl, rfl, by simp, rfl⟩⟩
  · refine ps_succeeds (fun p => p.length = 2) rfl (fun p hp => ⟨_, plotDifference_unitary p (by omega)⟩) (fun e p hp => ?_)
      (N := 100) (e := 0.1) (t := .fin 1e-3) (rs := true) ⟨rfl, by norm_num, rfl, by norm_num, by norm_num, ⟨rfl, by norm_num⟩, rfl⟩ true rfl
    obtain ⟨q, h1, h2, -⟩ := gd_difference hgd (p := p) (by omega) e
    exact ⟨q, h1, h2.trans hp⟩

end Oranssi
