import Verif.Props.ZassenhausV2Params
import Verif.Props.ZassenhausScript

/-! # C139: runs with `ZassenhausLayerV2`, and the figure of `two_observables_2_qubits_zassenhaus_v2` -/

namespace Oranssi
open scoped Matrix
open Spec

/-! ### Runs -/

/-- C139 (runs, success): with a `ZassenhausLayerV2` alone, on at least two qubits, a call of the optimizer that does not ask for directions succeeds exactly when the circuit returns a
state and the arguments are valid. -/
theorem C139_succeeds {n : ℕ} (hn : 2 ≤ n) (E : LayerEnv n) (eigh : EighFn n) (rnd : ℕ → Matrix (Fin (2 ^ n)) (Fin (2 ^ n)) ℝ) (ret : CircuitRet) (cs : List (Gate n))
    (params : List (List ℝ)) (gs : List (Gate n)) (ord : SetOrder SMono) (nm : NelderMead) (la : LayerArgs) (b1 b2 : Bool) (L : ZassV2Layer n)
    (hL : zassV2Layer ord n (gs.map Gate.obs) la b1 b2 = .ok L) (args : ApproxArgs) (ho : args.returnOmegas = .bool false) :
    (∃ out, approximateLieOptimizer E eigh rnd ret (cs.map (fun g => (g.obs.matrix, g.obs.wires))) params (gs.map Gate.obs) (fun _ : Fin 1 => .v2 nm L) [0] args = .ok out) ↔
      ret = .state ∧ ∃ N e t F, ApproxValid args N e t F := by
  refine C50_succeeds_iff E eigh rnd ret params gs _ [0] args cs (by simp) (fun _ os => ∃ p, os 0 = .v2 nm { L with params := p }) ⟨L.params, rfl⟩ ?_ ho
  rintro ps os U i ⟨p, hp⟩
  obtain rfl : i = 0 := Subsingleton.elim _ _
  rw [hp, AnyLayer.call, v2_call_params hn nm hL]
  exact ⟨_, rfl, _, Function.update_self ..⟩

/-- C139 (runs): the costs of a run without perturbation are those of the circuits that each are the ansatz with the angles fitted to the one before; the given circuit is only the first of
them.  The attribute `params` of the layer ends as the sum of (0.1, 1.2, 0.6) and all fits. -/
theorem C139_run {n : ℕ} (hn : 2 ≤ n) (E : LayerEnv n) (eigh : EighFn n) (rnd : ℕ → Matrix (Fin (2 ^ n)) (Fin (2 ^ n)) ℝ) (ret : CircuitRet) (ops : List (NpMat × List ℤ))
    (params : List (List ℝ)) (gs : List (Gate n)) (ord : SetOrder SMono) (nm : NelderMead) (la : LayerArgs) (b1 b2 : Bool) (L : ZassV2Layer n)
    (hL : zassV2Layer ord n (gs.map Gate.obs) la b1 b2 = .ok L) (args : ApproxArgs) (hp : args.perturb = .bool false) (out : OptOut (ApproxItem n) × (Fin 1 → AnyLayer n))
    (h : approximateLieOptimizer E eigh rnd ret ops params (gs.map Gate.obs) (fun _ : Fin 1 => .v2 nm L) [0] args = .ok out) :
    ∃ (N j : ℕ) (U : QMat n), args.nsteps = .int (N : ℤ) ∧ 1 ≤ j ∧ j ≤ N ∧ compileLoop n ops 1 = .ok U ∧ (approxCosts out.1).length = j + 1 ∧
      (∀ k ≤ j, (approxCosts out.1)[k]? = some (cost (totalObs gs) (v2Circuits nm (totalObs gs) L.eta U k))) ∧
      out.2 0 = .v2 nm { L with params := ![0.1, 1.2, 0.6] + ∑ i ∈ Finset.range j, v2Fit nm (totalObs gs) L.eta (v2Circuits nm (totalObs gs) L.eta U i) } := by
  obtain ⟨N, hN, e, -, V, W, j, hj1, hjN, hV0, -, ho0, hout, hstep, -, hWV, -, -, hl, hc, -⟩ := C50_trace _ _ _ _ _ _ _ _ _ _ _ h
  have key : ∀ k ≤ j, (V k).U = v2Circuits nm (totalObs gs) L.eta (V 0).U k ∧
      (V k).objs 0 = .v2 nm { L with params := ![0.1, 1.2, 0.6] + ∑ i ∈ Finset.range k, v2Fit nm (totalObs gs) L.eta (v2Circuits nm (totalObs gs) L.eta (V 0).U i) } := by
    intro k
    induction k with
    | zero =>
      intro _
      refine ⟨rfl, ?_⟩
      rw [ho0, Finset.range_zero, Finset.sum_empty, add_zero, ← zassV2Layer_params hL]
    | succ k ih =>
      intro hk
      obtain ⟨h1, h2⟩ := ih (by omega)
      obtain ⟨i, L', -, hs, ho⟩ := hstep k (by omega)
      obtain rfl : i = 0 := Subsingleton.elim _ _
      rw [hWV hp k (by omega), h2, AnyLayer.call, v2_call_params hn nm hL] at hs
      obtain ⟨e1, e2⟩ := Prod.mk.inj (Except.ok.inj hs)
      obtain ⟨-, e3⟩ := Prod.mk.inj e2
      constructor
      · rw [← e1, h1]
        rfl
      · rw [ho, Function.update_self, ← e3, h1, Finset.sum_range_succ, add_assoc]
  refine ⟨N, j, (V 0).U, hN, hj1, hjN, hV0, hl, fun k hk => ?_, ?_⟩
  · rw [hc k hk, (key k hk).1]
  · rw [hout, (key j le_rfl).2]

/-! ### The function that the layer of the script minimises -/

/-- The gradients in the state of the ansatz, entry by entry. -/
theorem grad_zz (A P : QMat 2) (θ : ℝ) : grad A (rotOp 2 θ [.Z, .Z] [0, 1] * hadamardPair 2) P =
    (∑ i : Fin (2 ^ 2), ∑ j : Fin (2 ^ 2), star (1 / 2 * (Real.cos (θ / 2) - Complex.I * Real.sin (θ / 2) * zzSign i)) * ((P * A - A * P) i j *
      (1 / 2 * (Real.cos (θ / 2) - Complex.I * Real.sin (θ / 2) * zzSign j)))).im := by
  have e : ∀ i, (rotOp 2 θ [.Z, .Z] [0, 1] * hadamardPair 2 : QMat 2) i 0 = 1 / 2 * (Real.cos (θ / 2) - Complex.I * Real.sin (θ / 2) * zzSign i) := fun i => by
    rw [rotOp_pair le_rfl, hadamardPair_full le_rfl, pair_mul le_rfl, show full 2 [0, 1] _ = _ from full_range 2 _]
    exact zz_column θ i
  rw [grad]
  simp only [dotProduct, Matrix.mulVec, Pi.star_apply, e, Finset.mul_sum]

theorem v2Ham : totalObs (v2Observables (n := 2) le_rfl) = pairWord .X .I + (pairWord .I .X + pairWord .I .Y) := by
  rw [v2Observables_total, placed_first, placed_second, placed_second]
  rfl

/-- The commutators of the Hamiltonian of the script with the five terms of the layer, as expectation values. -/
theorem v2_grads (θ : ℝ) : 
    grad (totalObs (v2Observables (n := 2) le_rfl)) (rotOp 2 θ [.Z, .Z] [0, 1] * hadamardPair 2) (pauliWord (placed 2 [.X] [0])) = 0 ∧
    grad (totalObs (v2Observables (n := 2) le_rfl)) (rotOp 2 θ [.Z, .Z] [0, 1] * hadamardPair 2) (pauliWord (placed 2 [.X] [1])) = 0 ∧
    grad (totalObs (v2Observables (n := 2) le_rfl)) (rotOp 2 θ [.Z, .Z] [0, 1] * hadamardPair 2) (pauliWord (placed 2 [.Z, .Z] [0, 1])) = 4 * Real.sin θ ∧
    grad (totalObs (v2Observables (n := 2) le_rfl)) (rotOp 2 θ [.Z, .Z] [0, 1] * hadamardPair 2) (pauliWord (placed 2 [.Y, .Z] [0, 1])) = 0 ∧
    grad (totalObs (v2Observables (n := 2) le_rfl)) (rotOp 2 θ [.Z, .Z] [0, 1] * hadamardPair 2) (pauliWord (placed 2 [.Z, .Y] [0, 1])) = 0 := by
  have e : 2 * Real.sin (θ / 2) * Real.cos (θ / 2) = Real.sin θ := by
    rw [← Real.sin_two_mul]
    congr 1
    ring
  rw [v2Ham, placed_first, placed_second, ← e]
  simp only [grad_zz, show ∀ a b, pauliWord (placed 2 [a, b] [0, 1]) = pairWord a b from fun _ _ => rfl, Matrix.sub_apply, Matrix.mul_apply, Matrix.add_apply]
  generalize Real.cos (θ / 2) = C
  generalize Real.sin (θ / 2) = S
  simp only [sum_four]
  refine ⟨?_, ?_, ?_, ?_, ?_⟩
  · simp [zzSign, pairWord_apply, Letter.mat, Matrix.one_apply]
    try ring
  · simp [zzSign, pairWord_apply, Letter.mat, Matrix.one_apply]
    try ring
  · simp [zzSign, pairWord_apply, Letter.mat, Matrix.one_apply]
    ring
  · simp [zzSign, pairWord_apply, Letter.mat, Matrix.one_apply]
    try ring
  · simp [zzSign, pairWord_apply, Letter.mat, Matrix.one_apply]
    try ring

/-- What the minimiser of the script is asked to minimise when the third angle of the circuit is `θ`. -/
noncomputable def Spec.v2Target (θ : ℝ) (y : Fin 3 → ℝ) : ℝ := (y 0 ^ 2 + y 1 ^ 2 + (y 2 + 0.4 * Real.sin θ) ^ 2 + (y 0 * y 2) ^ 2 + (y 1 * y 2) ^ 2) / 5

/-- The third angles of the circuits of the script: 0.4, and then the third of the angles that the minimiser finds. -/
noncomputable def Spec.v2Angle (nm : NelderMead) : ℕ → ℝ
  | 0 => 0.4
  | k + 1 => nm (v2Target (v2Angle nm k)) ![0.1, 0.2, 0.3] 2

/-- C139 (the fit).  In the script, where every circuit is the ansatz of the layer, the function that the layer minimises depends on the third angle of the circuit only; four of the
five gradients are 0.  Its one zero is the point `(0, 0, -0.4 sin θ)`, so an exact fit takes the third angle to `-0.4` times its sine: towards 0, where the cost of the ansatz is largest. -/
theorem C139_fit (x : Fin 3 → ℝ) : fitness 2 (totalObs (v2Observables (n := 2) le_rfl)) (v2Ansatz 2 x) 0.1 = v2Target (x 2) ∧
    cost (totalObs (v2Observables (n := 2) le_rfl)) (v2Ansatz 2 x) = 2 * Real.cos (x 2) ∧
    ∀ y, v2Target (x 2) y = 0 ↔ y = ![0, 0, -(0.4 * Real.sin (x 2))] := by
  have hs := v2_state le_rfl x (v2_compile_ansatz le_rfl x)
  refine ⟨?_, ?_, fun y => ?_⟩
  · obtain ⟨g0, g1, g2, g3, g4⟩ := v2_grads (x 2)
    funext y
    have hg : ∀ P, grad (totalObs (v2Observables (n := 2) le_rfl)) (v2Ansatz 2 x) P =
        grad (totalObs (v2Observables (n := 2) le_rfl)) (rotOp 2 (x 2) [.Z, .Z] [0, 1] * hadamardPair 2) P := fun P => congrArg Complex.im (sandwich_eq hs _)
    rw [fitness, hg, hg, hg, hg, hg, g0, g1, g2, g3, g4, v2Target]
    ring
  · have := v2_script_cost le_rfl x (v2_compile_ansatz (n := 2) le_rfl x)
    rw [totalCost_gates] at this
    exact Except.ok.inj this
  · rw [v2Target]
    constructor
    · intro h
      have h' : y 0 ^ 2 + y 1 ^ 2 + (y 2 + 0.4 * Real.sin (x 2)) ^ 2 + (y 0 * y 2) ^ 2 + (y 1 * y 2) ^ 2 = 0 := by linarith
      have a0 := sq_nonneg (y 0); have a1 := sq_nonneg (y 1); have a2 := sq_nonneg (y 2 + 0.4 * Real.sin (x 2))
      have a3 := sq_nonneg (y 0 * y 2); have a4 := sq_nonneg (y 1 * y 2)
      have b0 : y 0 = 0 := by rw [← sq_eq_zero_iff]; linarith
      have b1 : y 1 = 0 := by rw [← sq_eq_zero_iff]; linarith
      have b2 : y 2 + 0.4 * Real.sin (x 2) = 0 := by rw [← sq_eq_zero_iff]; linarith
      ext i
      fin_cases i
      · exact b0
      · exact b1
      · exact eq_neg_of_add_eq_zero_left b2
    · rintro rfl
      simp

/-- The minimiser never answers with a point worse than the one it starts from. -/
def Spec.NeverWorse (nm : NelderMead) : Prop := ∀ (f : (Fin 3 → ℝ) → ℝ) (x : Fin 3 → ℝ), f (nm f x) ≤ f x

/-- The minimiser finds a smallest value if there is one. -/
def Spec.ExactMin (nm : NelderMead) : Prop := ∀ (f : (Fin 3 → ℝ) → ℝ) (x : Fin 3 → ℝ), (∃ y, ∀ z, f y ≤ f z) → ∀ z, f (nm f x) ≤ f z

theorem cos_114 : (0.4 : ℝ) < Real.cos 1.14 := by
  have h := Real.one_sub_sq_div_two_le_cos (x := 0.57)
  have e : Real.cos 1.14 = 2 * Real.cos 0.57 ^ 2 - 1 := by rw [← Real.cos_two_mul]; norm_num
  have h2 := pow_le_pow_left₀ (by norm_num) h 2
  norm_num at h2 e ⊢
  rw [e]
  linarith

/-- C139 (the costs stay positive).  If only the minimiser never answers with a point worse than its start, every cost of the script is above 0.8; the smallest eigenvalue is
`-1 - √2`. -/
theorem C139_positive (nm : NelderMead) (h : NeverWorse nm) (k : ℕ) : 0.8 < 2 * Real.cos (v2Angle nm k) := by
  have key : |v2Angle nm k| ≤ 1.14 := by
    cases k with
    | zero => rw [v2Angle]; norm_num [abs_of_pos]
    | succ k =>
      rw [v2Angle]
      have hb := h (v2Target (v2Angle nm k)) ![0.1, 0.2, 0.3]
      set y := nm (v2Target (v2Angle nm k)) ![0.1, 0.2, 0.3] with hy
      have h1 := Real.sin_le_one (v2Angle nm k)
      have h2 := Real.neg_one_le_sin (v2Angle nm k)
      rw [v2Target, v2Target] at hb
      generalize Real.sin (v2Angle nm k) = s at *
      simp only [Matrix.cons_val_zero, Matrix.cons_val_one, Matrix.cons_val] at hb
      have c0 : (y 2 + 0.4 * s) ^ 2 ≤ (0.3 + 0.4 * s) ^ 2 + 0.0545 := by
        have a0 := sq_nonneg (y 0); have a1 := sq_nonneg (y 1); have a3 := sq_nonneg (y 0 * y 2); have a4 := sq_nonneg (y 1 * y 2)
        norm_num at hb ⊢
        linarith
      rw [abs_le]
      constructor
      · by_contra hc
        push Not at hc
        have h3 : 0 < -1.14 - y 2 := by linarith
        have h4 : 0 < -1.14 - y 2 + 2 * (1.14 - 0.4 * s) := by norm_num at h3 ⊢; linarith
        have := mul_pos h3 h4
        norm_num at this c0
        nlinarith
      · by_contra hc
        push Not at hc
        have h3 : 0 < y 2 - 1.14 := by linarith
        have h4 : 0 < y 2 - 1.14 + 2 * (1.14 + 0.4 * s) := by norm_num at h3 ⊢; linarith
        have := mul_pos h3 h4
        norm_num at this c0
        nlinarith
  rw [← Real.cos_abs]
  have := Real.cos_le_cos_of_nonneg_of_le_pi (abs_nonneg (v2Angle nm k)) (by linarith [Real.pi_gt_three]) key
  have := cos_114
  norm_num at *
  linarith

/-- C139 (an exact fit goes to the largest cost).  If the minimiser finds the smallest value, every third angle is `-0.4` times the sine of the one before; the costs of the script rise
at every step and tend to 2, the largest cost of the ansatz. -/
theorem C139_exact (nm : NelderMead) (h : ExactMin nm) (k : ℕ) : v2Angle nm (k + 1) = -(0.4 * Real.sin (v2Angle nm k)) ∧
    2 * Real.cos (v2Angle nm k) < 2 * Real.cos (v2Angle nm (k + 1)) ∧ 2 - 2 * Real.cos (v2Angle nm k) ≤ (0.4 ^ (k + 1)) ^ 2 := by
  have hrec : ∀ k, v2Angle nm (k + 1) = -(0.4 * Real.sin (v2Angle nm k)) := fun k => by
    have hz : v2Target (v2Angle nm k) ![0, 0, -(0.4 * Real.sin (v2Angle nm k))] = 0 := ((C139_fit ![0, 0, v2Angle nm k]).2.2 _).2 rfl
    have hnn : ∀ y, 0 ≤ v2Target (v2Angle nm k) y := fun y => by rw [v2Target]; positivity
    have h1 := h (v2Target (v2Angle nm k)) ![0.1, 0.2, 0.3] ⟨_, fun z => hz.le.trans (hnn z)⟩ ![0, 0, -(0.4 * Real.sin (v2Angle nm k))]
    have h2 := ((C139_fit ![0, 0, v2Angle nm k]).2.2 _).1 (le_antisymm (h1.trans hz.le) (hnn _))
    rw [v2Angle, h2]
    rfl
  have hb : ∀ k, 0 < |v2Angle nm k| ∧ |v2Angle nm k| ≤ 0.4 ^ (k + 1) := by
    intro k
    induction k with
    | zero => rw [v2Angle]; norm_num [abs_of_pos]
    | succ k ih =>
      have h1 : (0.4 : ℝ) ^ (k + 1) ≤ 1 := pow_le_one₀ (by norm_num) (by norm_num)
      have hne : v2Angle nm k ≠ 0 := abs_pos.1 ih.1
      rw [hrec k, abs_neg, abs_mul, abs_of_pos (by norm_num : (0 : ℝ) < 0.4), pow_succ']
      refine ⟨mul_pos (by norm_num) (abs_pos.2 fun h0 => ?_), mul_le_mul_of_nonneg_left ((Real.abs_sin_le_abs).trans ih.2) (by norm_num)⟩
      refine hne (Real.sin_eq_zero_iff_of_lt_of_lt ?_ ?_ |>.1 h0)
      · have := neg_abs_le (v2Angle nm k); linarith [Real.pi_gt_three]
      · have := le_abs_self (v2Angle nm k); linarith [Real.pi_gt_three]
  refine ⟨hrec k, ?_, ?_⟩
  · have h1 : |v2Angle nm (k + 1)| < |v2Angle nm k| := by
      rw [hrec k, abs_neg, abs_mul, abs_of_pos (by norm_num : (0 : ℝ) < 0.4)]
      have := Real.abs_sin_le_abs (x := v2Angle nm k)
      have := (hb k).1
      norm_num
      linarith
    have h2 : |v2Angle nm k| ≤ Real.pi := by
      have : (0.4 : ℝ) ^ (k + 1) ≤ 1 := pow_le_one₀ (by norm_num) (by norm_num)
      linarith [Real.pi_gt_three, (hb k).2]
    rw [← Real.cos_abs (v2Angle nm k), ← Real.cos_abs (v2Angle nm (k + 1))]
    linarith [Real.cos_lt_cos_of_nonneg_of_le_pi (abs_nonneg _) h2 h1]
  · have h1 := Real.one_sub_sq_div_two_le_cos (x := v2Angle nm k)
    have h2 := pow_le_pow_left₀ (abs_nonneg _) (hb k).2 2
    rw [sq_abs] at h2
    linarith

/-! ### The figure -/

theorem zassV2Observables_eq : zassV2Observables = (v2Observables (n := 2) le_rfl).map Gate.obs := by
  rw [zassV2Observables, npX_word, npY_word]
  rfl

/-- The arguments of the call of the optimizer (zassenhaus.py:100-101). -/
noncomputable def v2ScriptArgs : ApproxArgs := { eta := .float 0.011, returnZassenhaus := .bool true }

theorem v2ScriptArgs_valid : ApproxValid v2ScriptArgs 40 0.011 (some (.fin 1e-3)) ⟨false, false, false, false, false, false, true⟩ :=
  ⟨rfl, by norm_num, rfl, by norm_num, by norm_num, ⟨rfl, by norm_num⟩, rfl, rfl, rfl, rfl, rfl, rfl, rfl, rfl⟩

theorem v2Circuits_angle (nm : NelderMead) (x : Fin 3 → ℝ) (hx : x 2 = 0.4) (k : ℕ) :
    ∃ y : Fin 3 → ℝ, v2Circuits nm (totalObs (v2Observables (n := 2) le_rfl)) 0.1 (v2Ansatz 2 x) k = v2Ansatz 2 y ∧ y 2 = v2Angle nm k := by
  induction k with
  | zero => exact ⟨x, rfl, hx⟩
  | succ k ih =>
    obtain ⟨y, h1, h2⟩ := ih
    refine ⟨_, rfl, ?_⟩
    rw [h1, v2Fit, (C139_fit y).1, h2, v2Angle]

theorem zassV2Layer_eta {n : ℕ} {ord : SetOrder SMono} {gs : List (Gate n)} {args : LayerArgs} {b1 b2 : Bool} {L : ZassV2Layer n}
    (hL : zassV2Layer ord n (gs.map Gate.obs) args b1 b2 = .ok L) (he : args.eta = none) : L.eta = 0.1 := by
  obtain ⟨a0, h0, -⟩ := algebraSU8_attrs n b1 b2
  rw [zassV2Layer, promoteAll_gates, h0, he] at hL
  simp only [bind, Except.bind] at hL
  split at hL
  · simp at hL
  rename_i eta heta
  have h1 : eta = 0.1 := by
    exact (PyVal.float.inj ((validateEta_iff _ _).1 heta).1).symm
  repeat' (split at hL; · simp at hL)
  rw [← Except.ok.inj hL, h1]

/-- C139 (the figure).  Whatever the minimiser answers, the script saves its figure.  The point `k` of the curve is the absolute value of twice the cosine of the angle `k`, at most 2;
the dashed line `Minimum` is at `-1 - √2`, so the line is below the axis and the curve, which is drawn as absolute values, nowhere below it.  The curve has at least 11 and at most 41
points, and exactly 11 if the minimiser finds the smallest values. -/
theorem C139_script (ord : SetOrder SMono) (nm : NelderMead) (E : LayerEnv 2) (eigh : EighFn 2) (he : ValidEigh eigh) (rnd : ℕ → Matrix (Fin (2 ^ 2)) (Fin (2 ^ 2)) ℝ) (fs : List OutFile) :
    ∃ (j : ℕ) (curve : List ℝ), zassV2Script ord nm E eigh rnd fs = (.ok (curve, List.replicate (j + 1) (-1 - Real.sqrt 2)), fs ++ [.figure "su8_zass_optimizer_multi_obs_2"]) ∧
      10 ≤ j ∧ j ≤ 40 ∧ curve = (List.range (j + 1)).map (fun k => |2 * Real.cos (v2Angle nm k)|) ∧ (∀ y ∈ curve, 0 ≤ y ∧ y ≤ 2) ∧ (ExactMin nm → j = 10) := by
  obtain ⟨L, hL⟩ := (C80_constructor (n := 2) ord (v2Observables le_rfl) {} false false).2 ⟨⟨0.1, rfl, by norm_num, by norm_num⟩, ⟨false, rfl⟩, ⟨false, rfl⟩⟩
  have heta : L.eta = 0.1 := zassV2Layer_eta hL rfl
  have hmin : minEigenvalue eigh ((v2Observables (n := 2) le_rfl).map (fun g => full 2 g.ws g.A)).sum = -1 - Real.sqrt 2 := by
    obtain ⟨hm, U, hU, hc⟩ := C104_minimum (n := 2) le_rfl
    refine minEigenvalue_eq he ?_ hm hU hc
    change (totalObs (v2Observables (n := 2) le_rfl))ᴴ = totalObs (v2Observables (n := 2) le_rfl)
    rw [v2Observables_total]
    simp only [Matrix.conjTranspose_add, pauliWord_herm]
  obtain ⟨cs, -, hcs⟩ := exists_preimages (fun _ : Gate 2 => True) (fun g => (g.obs.matrix, g.obs.wires)) (v2Gates ![0.6, 1.8, 0.4])
    (fun g hg => by obtain ⟨c, -, hc⟩ := v2Gates_good (n := 2) le_rfl _ g hg; exact ⟨c, trivial, hc⟩)
  obtain ⟨out, hout⟩ := (C139_succeeds le_rfl E eigh rnd .state cs [] (v2Observables le_rfl) ord nm {} false false L hL v2ScriptArgs rfl).2 ⟨rfl, _, _, _, _, v2ScriptArgs_valid⟩
  rw [← hcs] at hout
  have hout' := hout
  unfold v2ScriptArgs at hout'
  obtain ⟨N, j, U, hN, hj1, hjN, hU, hlen, hcost, -⟩ := C139_run le_rfl E eigh rnd _ _ _ (v2Observables le_rfl) ord nm {} false false L hL v2ScriptArgs rfl out hout
  have hN40 : N = 40 := by have := hN.symm.trans v2ScriptArgs_valid.nsteps; simp at this; exact_mod_cast this
  have hU' : U = v2Ansatz 2 ![0.6, 1.8, 0.4] := Except.ok.inj (hU.symm.trans (v2_compile_ansatz le_rfl _))
  obtain ⟨N3, t3, hN3, ht3, hne, hstop, hge⟩ := C51_first_flat_step _ _ _ _ _ _ _ _ _ _ _ hout rfl _ rfl
  have hN3' : N3 = 40 := by have := hN3.symm.trans v2ScriptArgs_valid.nsteps; simp at this; exact_mod_cast this
  rw [hN3'] at hge
  norm_num at hge
  obtain ⟨-, N', e', t', F, hv', V', W', j', r, -, -, -, -, ho, -⟩ := approx_outcome _ _ _ _ _ _ _ _ _ _ _ hout
  have hF : F = ⟨false, false, false, false, false, false, true⟩ := by
    obtain ⟨a, b, c, d, p, e, f⟩ := F
    have hv := v2ScriptArgs_valid
    have h1 := hv'.flagS; have h2 := hv'.flagO; have h3 := hv'.flagU; have h4 := hv'.flagG; have h5 := hv'.flagP; have h6 := hv'.flagR; have h7 := hv'.flagZ
    rw [hv.flagS] at h1; rw [hv.flagO] at h2; rw [hv.flagU] at h3; rw [hv.flagG] at h4; rw [hv.flagP] at h5; rw [hv.flagR] at h6; rw [hv.flagZ] at h7
    simp only [BoolArg.bool.injEq] at h1 h2 h3 h4 h5 h6 h7
    simp [← h1, ← h2, ← h3, ← h4, ← h5, ← h6, ← h7]
  have h1 : out.1 = approxOutput r F := by rw [ho]
  have hr := (approxOutput_read r F).1
  rw [← h1] at hr
  have hx : ∃ z, out.1 = .tuple [.costs (approxCosts out.1), .zassenhaus z] := ⟨r.zassenhaus, by rw [hr, h1, hF]; rfl⟩
  obtain ⟨z, hx⟩ := hx
  have hval : ∀ k ≤ j, (approxCosts out.1)[k]? = some (2 * Real.cos (v2Angle nm k)) := fun k hk => by
    obtain ⟨y, hy1, hy2⟩ := v2Circuits_angle nm ![0.6, 1.8, 0.4] rfl k
    rw [hcost k hk, hU', heta, hy1, (C139_fit y).2.1, hy2]
  set cs' := approxCosts out.1 with hcs'
  have hlist : cs' = (List.range (j + 1)).map (fun k => 2 * Real.cos (v2Angle nm k)) := by
    refine List.ext_getElem? fun k => ?_
    by_cases hk : k ≤ j
    · rw [hval k hk]; simp [show k < j + 1 by omega]
    · rw [List.getElem?_eq_none (by omega), List.getElem?_eq_none (by simp; omega)]
  refine ⟨j, cs'.map (fun c => |c|), ?_, by omega, by omega, ?_, ?_, fun hex => ?_⟩
  · rw [zassV2Script, zassV2Observables_eq]
    rw [Script.bind_ok (Script.call_ok (C08_hamiltonian_default 2 _) _), Script.bind_ok (Script.call_ok hL _), Script.bind_ok (Script.call_ok hout' _)]
    obtain ⟨o1, o2⟩ := out
    have hx' : o1 = _ := hx
    clear_value cs'
    subst hx'
    refine (Script.bind_ok (Script.call_ok (rfl : unpackPair _ = .ok (ApproxItem.costs cs', ApproxItem.zassenhaus z)) _)).trans ?_
    refine (Script.bind_ok (Script.call_ok (rfl : asCosts _ = .ok cs') _)).trans ?_
    rw [hmin, hlen]
    exact Script.bind_ok (Script.write_ok _ _)
  · rw [hlist, List.map_map]
    rfl
  · intro y hy
    rw [hlist, List.map_map] at hy
    obtain ⟨k, -, rfl⟩ := List.mem_map.1 hy
    refine ⟨abs_nonneg _, ?_⟩
    simp only [Function.comp, abs_mul, abs_two]
    linarith [Real.abs_cos_le_one (v2Angle nm k)]
  · by_contra hj
    have hc := hne 9 le_rfl (by omega)
    apply hc
    have g : ∀ k ≤ j, cs'.getD k 0 = 2 * Real.cos (v2Angle nm k) := fun k hk => by rw [List.getD_eq_getElem?_getD, hval k hk]; rfl
    rw [g _ (by omega), g _ (by omega)]
    intro t ht
    have e1 : t3 = .fin 1e-3 := by
      cases t3 with
      | fin x => obtain ⟨h, -⟩ := ht3; rw [PyVal.float.inj h]
      | inf => cases ht3
    rw [e1] at ht
    obtain rfl : (1e-3 : ℝ) = t := Option.some.inj ht
    have b5 := (C139_exact nm hex 5).2.2
    have b10 := (C139_exact nm hex 10).2.2
    have c5 := Real.cos_le_one (v2Angle nm 5)
    have c10 := Real.cos_le_one (v2Angle nm 10)
    have c0 := abs_nonneg (2 * Real.cos (v2Angle nm 5))
    change |2 * Real.cos (v2Angle nm 10) - 2 * Real.cos (v2Angle nm 5)| ≤ 1e-3 + 1e-5 * |2 * Real.cos (v2Angle nm 5)|
    generalize |2 * Real.cos (v2Angle nm 5)| = a at c0 ⊢
    norm_num at b5 b10 ⊢
    rw [abs_le]
    constructor <;> linarith

/-! ### Cases -/

/-- A minimiser that finds the smallest value, if there is one, and stays where it is if not. -/
theorem exists_exactMin : ∃ nm : NelderMead, ExactMin nm ∧ NeverWorse nm := by
  classical
  refine ⟨fun f x => if h : ∃ y, ∀ z, f y ≤ f z then h.choose else x, fun f x h z => ?_, fun f x => ?_⟩
  · simp only [dif_pos h]
    exact h.choose_spec z
  · by_cases h : ∃ y, ∀ z, f y ≤ f z
    · simp only [dif_pos h]
      exact h.choose_spec x
    · simp only [dif_neg h]; exact le_rfl

/-- With such a minimiser the script draws 11 points, each above the one before. -/
example (ord : SetOrder SMono) (E : LayerEnv 2) (eigh : EighFn 2) (he : ValidEigh eigh) (rnd : ℕ → Matrix (Fin (2 ^ 2)) (Fin (2 ^ 2)) ℝ) :
    ∃ (nm : NelderMead) (curve minimum : List ℝ), zassV2Script ord nm E eigh rnd [] = (.ok (curve, minimum), [.figure "su8_zass_optimizer_multi_obs_2"]) ∧ curve.length = 11 ∧
      ∀ k < 10, curve.getD k 0 < curve.getD (k + 1) 0 := by
  obtain ⟨nm, h1, h2⟩ := exists_exactMin
  obtain ⟨j, curve, hs, -, -, hc, -, hj⟩ := C139_script ord nm E eigh he rnd []
  obtain rfl := hj h1
  refine ⟨nm, curve, _, hs, by rw [hc]; simp, fun k hk => ?_⟩
  have g : ∀ k < 11, curve.getD k 0 = 2 * Real.cos (v2Angle nm k) := fun k hk => by
    rw [hc, List.getD_eq_getElem?_getD]
    simp only [List.getElem?_map, List.getElem?_range hk, Option.map_some, Option.getD_some]
    exact abs_of_pos (by linarith [C139_positive nm h2 k])
  rw [g k (by omega), g (k + 1) (by omega)]
  exact (C139_exact nm h1 k).2.1

end Oranssi
