import Verif.Props.ExactTrace
import Mathlib.Analysis.Complex.ExponentialBounds
import Mathlib.Analysis.SpecialFunctions.Trigonometric.Bounds
import Mathlib.Analysis.SpecialFunctions.Trigonometric.Deriv

/-! # C46, C48: early stopping within the tolerance and the cost of the returned unitary (both refuted), runs on one qubit (C68) -/

namespace Oranssi
open Spec
open scoped Matrix

/-- The random matrix of a perturbation, made antisymmetric. -/
noncomputable def antisym {n : ℕ} (R : Matrix (Fin (2 ^ n)) (Fin (2 ^ n)) ℝ) : QMat n := ((0.05 : ℝ) • (R - Rᵀ)).map (fun x : ℝ => (x : ℂ))

theorem antisym_skew {n : ℕ} (R : Matrix (Fin (2 ^ n)) (Fin (2 ^ n)) ℝ) : (antisym R)ᴴ = -antisym R := by
  ext i j
  simp only [antisym, Matrix.conjTranspose_apply, Matrix.map_apply, Matrix.smul_apply, Matrix.sub_apply, Matrix.transpose_apply, smul_eq_mul,
    Matrix.neg_apply, Complex.star_def, Complex.conj_ofReal]
  push_cast
  ring

/-- A perturbation multiplies the circuit by `exp(-eta/2 A)` for a real antisymmetric matrix `A`. -/
theorem perturb_eq {n : ℕ} {eigh : EighFn n} (he : ValidEigh eigh) (eta : ℝ) (R : Matrix (Fin (2 ^ n)) (Fin (2 ^ n)) ℝ) (U : QMat n) :
    perturb eigh eta R U = NormedSpace.exp ((-(eta / 2 : ℝ) : ℂ) • antisym R) * U := by
  have hA : (((0.5 : ℝ) • ((0.1 : ℝ) • R - ((0.1 : ℝ) • R)ᵀ)).map (fun x : ℝ => (x : ℂ))) = antisym R := by
    ext i j
    simp only [antisym, Matrix.map_apply, Matrix.smul_apply, Matrix.sub_apply, Matrix.transpose_apply, smul_eq_mul]
    push_cast
    ring
  have hH : ((-Complex.I) • antisym R)ᴴ = (-Complex.I) • antisym R := by
    rw [Matrix.conjTranspose_smul, antisym_skew, star_neg, Complex.star_def, Complex.conj_I, smul_neg, neg_smul, neg_neg]
  rw [perturb, hA, eighExp_eq he eta hH, smul_smul]
  congr 3
  have := Complex.I_mul_I
  push_cast
  linear_combination (eta / 2 : ℂ) * this

/-- C49.  A perturbation multiplies the circuit by a unitary. -/
theorem C49_perturbation_unitary {n : ℕ} {eigh : EighFn n} (he : ValidEigh eigh) (eta : ℝ) (R : Matrix (Fin (2 ^ n)) (Fin (2 ^ n)) ℝ) (U : QMat n) :
    ∃ Q : QMat n, Qᴴ * Q = 1 ∧ perturb eigh eta R U = Q * U := by
  refine ⟨_, (exp_skew_unitary _ ?_).1, perturb_eq he eta R U⟩
  rw [Matrix.conjTranspose_smul, antisym_skew, smul_neg]
  congr 2
  rw [star_neg, Complex.star_def, Complex.conj_ofReal]

/-! ### One qubit -/

/-- One step on one qubit for the observable Z. -/
theorem exact_rot {eigh : EighFn 1} (he : ValidEigh eigh) (e a : ℝ) :
    exactUpdates eigh e ([gateZ].map Gate.obs) (rot a) = .ok (rot (a + e / 2 * Real.sin (2 * a))) := by
  have h := C47_riemannian_step eigh he e gateZ gateZ_herm gateZ_sq (rot a)
  rw [full_gateZ, riemannGen_rot, smul_smul, ← Complex.ofReal_mul, exp_genJ, rot_mul, add_comm] at h
  simp only [List.map_cons, List.map_nil, exactUpdates, h]
  rfl

/-- The flow on one qubit: the angle after `k` steps. -/
noncomputable def Spec.flowAngle (e x : ℝ) : ℕ → ℝ
  | 0 => x
  | k + 1 => flowAngle e x k + e * Real.sin (flowAngle e x k)

/-- The circuit that is one rotation. -/
noncomputable def rotGate0 (a : ℝ) : Gate 1 := ⟨[0], rot a, by simp, by simp, by simp⟩

theorem compile_rot (a : ℝ) : compileLoop 1 ([rotGate0 a].map (fun g => (g.obs.matrix, g.obs.wires))) 1 = .ok (rot a) := by
  have := compileCircuit_gates [rotGate0 a]
  rw [compileCircuit, List.zip_map'] at this
  refine this.trans ?_
  simp only [List.foldl_cons, List.foldl_nil, mul_one]
  exact congrArg Except.ok (full_one_qubit (rot a))

/-- C68.  On one qubit, with the observable Z, a circuit that rotates by `x/2` and no perturbation, the costs are `cos x_k` with
`x_{k+1} = x_k + eta sin x_k`. -/
theorem C68_one_qubit_run {eigh : EighFn 1} (he : ValidEigh eigh) (rnd : ℕ → Matrix (Fin (2 ^ 1)) (Fin (2 ^ 1)) ℝ) (x e : ℝ) (args : ExactArgs)
    (out : OptOut (ExactItem 1)) (hp : args.perturbation = .bool false) (hE : args.eta = .float e)
    (h : exactLieOptimizer eigh rnd .state ([rotGate0 (x / 2)].map (fun g => (g.obs.matrix, g.obs.wires))) ([gateZ].map Gate.obs) args = .ok out) :
    exactCosts out = (List.range (exactCosts out).length).map (fun k => Real.cos (flowAngle e x k)) := by
  obtain ⟨N, hN, e', he', V, W, m, hm, h0, hl, hc, hs, hW0, hWV, -⟩ := C44_trace eigh rnd _ _ _ args out h
  rw [hE] at he'
  obtain rfl := PyVal.float.inj he'
  rw [compile_rot] at h0
  have hV : ∀ k ≤ m, V k = rot (flowAngle e x k / 2) := by
    intro k
    induction k with
    | zero => intro _; exact (Except.ok.inj h0).symm
    | succ k ih =>
      intro hk
      have h1 := hs k (by omega)
      rw [hWV hp k (by omega), ih (by omega), exact_rot he] at h1
      rw [← Except.ok.inj h1, flowAngle]
      congr 1
      rw [show 2 * (flowAngle e x k / 2) = flowAngle e x k by ring]
      ring
  apply List.ext_getElem?
  intro k
  by_cases hk : k ≤ m
  · rw [hc k hk, List.getElem?_map, List.getElem?_range (by omega), totalObs_gateZ, hV k hk, cost_rot, Option.map_some]
    congr 2; ring
  · rw [List.getElem?_eq_none (by omega), List.getElem?_eq_none (by simp; omega)]

theorem flowAngle_bounds (e x : ℝ) (he : 0 ≤ e) (he1 : e ≤ 1) (hx0 : 0 < x) (hx1 : x < Real.pi) : ∀ k, 0 < flowAngle e x k ∧ flowAngle e x k < Real.pi
  | 0 => ⟨hx0, hx1⟩
  | k + 1 => by
    obtain ⟨h0, h1⟩ := flowAngle_bounds e x he he1 hx0 hx1 k
    have hs := Real.sin_pos_of_pos_of_lt_pi h0 h1
    refine ⟨by rw [flowAngle]; positivity, ?_⟩
    rw [flowAngle]
    have h2 : Real.sin (flowAngle e x k) < Real.pi - flowAngle e x k := by
      rw [← Real.sin_pi_sub]
      exact Real.sin_lt (by linarith)
    nlinarith

/-- C68.  Away from the eigenstates of Z the cost decreases in every step (for `0 < eta ≤ 1`, whatever the step size). -/
theorem C68_one_qubit_descends {eigh : EighFn 1} (he : ValidEigh eigh) (rnd : ℕ → Matrix (Fin (2 ^ 1)) (Fin (2 ^ 1)) ℝ) (x e : ℝ) (args : ExactArgs)
    (out : OptOut (ExactItem 1)) (hp : args.perturbation = .bool false) (hE : args.eta = .float e) (hE0 : 0 < e) (hx0 : 0 < x) (hx1 : x < Real.pi)
    (h : exactLieOptimizer eigh rnd .state ([rotGate0 (x / 2)].map (fun g => (g.obs.matrix, g.obs.wires))) ([gateZ].map Gate.obs) args = .ok out) :
    (exactCosts out).Pairwise (· > ·) := by
  have hE1 : e ≤ 1 := by
    obtain ⟨-, N, e', t, rs, p, rp, ru, hv, -⟩ := (exact_ok_iff ..).mp h
    have := hv.eta
    rw [hE] at this
    rw [PyVal.float.inj this]; exact hv.eta1
  rw [C68_one_qubit_run he rnd x e args out hp hE h, List.pairwise_map]
  refine List.Pairwise.imp ?_ (List.pairwise_lt_range)
  have hb := flowAngle_bounds e x hE0.le hE1 hx0 hx1
  have hmono : StrictMono (flowAngle e x) := by
    refine strictMono_nat_of_lt_succ fun k => ?_
    have := Real.sin_pos_of_pos_of_lt_pi (hb k).1 (hb k).2
    rw [flowAngle]
    nlinarith
  intro a b hab
  exact Real.cos_lt_cos_of_nonneg_of_le_pi (hb a).1.le (hb b).2.le (hmono hab)

/-! ### C46 -/

/-- C46 as stated is false: with `tol=0.0` a run may stop early although its last step changed the cost. -/
theorem C46_refuted : ∃ (eigh : EighFn 1) (rnd : ℕ → Matrix (Fin (2 ^ 1)) (Fin (2 ^ 1)) ℝ) (cs gs : List (Gate 1)) (out : OptOut (ExactItem 1)),
    ValidEigh eigh ∧ (∀ g ∈ cs, g.Aᴴ * g.A = 1) ∧
    exactLieOptimizer eigh rnd .state (cs.map (fun g => (g.obs.matrix, g.obs.wires))) (gs.map Gate.obs) { nsteps := .int 100, eta := .float 1e-7, tol := .float 0 } = .ok out ∧
    (exactCosts out).length = 6 ∧ 0 < |(exactCosts out).getD 5 0 - (exactCosts out).getD 4 0| := by
  obtain ⟨eigh, he⟩ := exists_validEigh 1
  let args : ExactArgs := { nsteps := .int 100, eta := .float 1e-7, tol := .float 0 }
  have hv : ExactValid args 100 1e-7 (.fin 0) false false false false :=
    ⟨rfl, by norm_num, rfl, by norm_num, by norm_num, ⟨rfl, le_refl _⟩, rfl, rfl, rfl, by simp, rfl⟩
  obtain ⟨out, h⟩ := (C44_succeeds_iff eigh (fun _ => 0) .state [gateZ] args [rotGate0 (1 / 2 / 2)]).mpr ⟨rfl, _, _, _, _, _, _, _, hv⟩
  refine ⟨eigh, fun _ => 0, [rotGate0 (1 / 2 / 2)], [gateZ], out, he, ?_, h, ?_⟩
  · intro g hg
    rw [List.mem_singleton] at hg
    subst hg
    have : (rot (1 / 2 / 2))ᴴ * rot (1 / 2 / 2) = 1 := by
      rw [← exp_genJ]
      refine (exp_skew_unitary _ ?_).1
      have hJ : genJᴴ = -genJ := by
        change (!![0, -1; 1, 0] : Matrix (Fin 2) (Fin 2) ℂ)ᴴ = -(!![0, -1; 1, 0] : Matrix (Fin 2) (Fin 2) ℂ)
        ext i j
        fin_cases i <;> fin_cases j <;> simp [Matrix.conjTranspose_apply]
      rw [Matrix.conjTranspose_smul, hJ, smul_neg, Complex.star_def, Complex.conj_ofReal]
    exact this
  have hrun := C68_one_qubit_run he (fun _ => 0) (1 / 2) 1e-7 args out rfl rfl h
  obtain ⟨N, t, hN, ht, hnf, hend, hmin⟩ := C45_first_flat_step eigh _ _ _ _ args out h rfl
  have hN' : N = 100 := by
    have : (100 : ℤ) = (N : ℤ) := NArg.int.inj hN
    omega
  subst hN'
  have htol : t = .fin 0 := by
    cases t with
    | fin y => rw [PyVal.float.inj ht.1.symm]
    | inf => cases ht
  subst htol
  set c := exactCosts out with hc
  set f := flowAngle 1e-7 (1 / 2) with hf
  have hg : ∀ k < c.length, c.getD k 0 = Real.cos (f k) := by
    intro k hk
    rw [hrun, List.getD_eq_getElem _ _ (by simpa using hk)]
    simp
  have hpi : (1 / 2 : ℝ) < Real.pi := by have := Real.two_le_pi; linarith
  have hb : ∀ k, 0 < f k ∧ f k < Real.pi := flowAngle_bounds 1e-7 (1 / 2) (by norm_num) (by norm_num) (by norm_num) hpi
  have hup : ∀ k : ℕ, f k ≤ 1 / 2 + k * 1e-7 := by
    intro k
    induction k with
    | zero => simp [hf, flowAngle]
    | succ k ih =>
      have := Real.sin_le_one (f k)
      have h2 : f (k + 1) = f k + 1e-7 * Real.sin (f k) := rfl
      rw [h2]; push_cast; nlinarith
  have h5 : f 5 = f 4 + 1e-7 * Real.sin (f 4) := rfl
  have hs4 := Real.sin_pos_of_pos_of_lt_pi (hb 4).1 (hb 4).2
  have hlt : Real.cos (f 5) < Real.cos (f 4) := Real.cos_lt_cos_of_nonneg_of_le_pi (hb 4).1.le (hb 5).2.le (by rw [h5]; nlinarith)
  have hclose : Close (Tol.fin 0).spec (Real.cos (f 5)) (Real.cos (f 4)) := by
    intro t ht
    obtain rfl : 0 = t := Option.some.inj ht
    have hlip : |Real.cos (f 5) - Real.cos (f 4)| ≤ |f 5 - f 4| := by
      have := Real.lipschitzWith_cos.dist_le_mul (f 5) (f 4)
      simpa [Real.dist_eq] using this
    have h1 : |f 5 - f 4| ≤ 1e-7 := by
      rw [h5, add_sub_cancel_left, abs_of_pos (by positivity)]
      have := Real.sin_le_one (f 4)
      nlinarith
    have h2 : (1 / 2 : ℝ) ≤ Real.cos (f 4) := by
      have h3 := Real.one_sub_sq_div_two_le_cos (x := f 4)
      have h4 := hup 4
      have h5 := (hb 4).1
      have h6 : f 4 ≤ 3 / 5 := by norm_num at h4; linarith
      nlinarith
    have h3 : |Real.cos (f 4)| = Real.cos (f 4) := abs_of_nonneg (by linarith)
    rw [h3]
    norm_num at h1 ⊢
    linarith
  have hlen : c.length = 6 := by
    have h6 : 6 ≤ c.length := by simpa using hmin
    by_contra hne
    refine hnf 4 le_rfl (by omega) ?_
    rw [hg 5 (by omega), hg 4 (by omega)]
    exact hclose
  refine ⟨hlen, ?_⟩
  rw [hg 5 (by omega), hg 4 (by omega)]
  exact abs_pos.mpr (by linarith)

/-- C46, what holds for the exact optimizer: a run that stops early has a last change of at most `tol + 1e-5` times the previous cost. -/
theorem C46_exact_bound_partial {n : ℕ} (eigh : EighFn n) (rnd : ℕ → Matrix (Fin (2 ^ n)) (Fin (2 ^ n)) ℝ) (ret : CircuitRet) (ops : List (NpMat × List ℤ))
    (gs : List (Gate n)) (args : ExactArgs) (out : OptOut (ExactItem n)) (N : ℕ) (t : ℝ) (hN : args.nsteps = .int (N : ℤ)) (ht : args.tol = .float t)
    (h : exactLieOptimizer eigh rnd ret ops (gs.map Gate.obs) args = .ok out) (hs : (exactCosts out).length < N + 1) :
    ∃ k, (exactCosts out).length = k + 2 ∧
      |(exactCosts out).getD (k + 1) 0 - (exactCosts out).getD k 0| ≤ t + 1e-5 * |(exactCosts out).getD k 0| := by
  obtain ⟨-, N', e, t', rs, p, rp, ru, hv, -⟩ := (exact_ok_iff ..).mp h
  cases p with
  | true =>
    obtain ⟨M, t', hM, -, hl, -⟩ := C49_exact eigh rnd ret ops gs args out h hv.flagP
    rw [hN] at hM
    have := NArg.int.inj hM
    omega
  | false =>
    obtain ⟨M, t', hM, ht', -, hend, -⟩ := C45_first_flat_step eigh rnd ret ops gs args out h hv.flagP
    rw [hN] at hM
    have := NArg.int.inj hM
    rcases hend with hl | ⟨k, -, -, hl, hcl⟩
    · omega
    · refine ⟨k, hl, hcl t ?_⟩
      cases t' with
      | fin y => have h1 := ht'.1; rw [ht] at h1; rw [PyVal.float.inj h1]; rfl
      | inf => rw [IsTol, ht] at ht'; cases ht'

/-! ### C48 -/

/-- C48 as stated is false: when the last step is perturbed, the returned unitary does not have the cost reported last. -/
theorem C48_refuted : ∃ (eigh : EighFn 1) (rnd : ℕ → Matrix (Fin (2 ^ 1)) (Fin (2 ^ 1)) ℝ) (gs : List (Gate 1)) (out : OptOut (ExactItem 1)) (U : QMat 1),
    ValidEigh eigh ∧ (∀ g ∈ gs, g.Aᴴ = g.A) ∧
    exactLieOptimizer eigh rnd .state [] (gs.map Gate.obs) { nsteps := .int 5, perturbation := .bool true, returnUnitary := .bool true } = .ok out ∧
    exactUnitary out = some U ∧ (exactCosts out).getLast? = some 1 ∧ cost (totalObs gs) U < 1 := by
  obtain ⟨eigh, he⟩ := exists_validEigh 1
  let R : Matrix (Fin (2 ^ 1)) (Fin (2 ^ 1)) ℝ := (!![0, 1; 0, 0] : Matrix (Fin 2) (Fin 2) ℝ)
  let args : ExactArgs := { nsteps := .int 5, perturbation := .bool true, returnUnitary := .bool true }
  have hv : ExactValid args 5 0.1 (.fin 1e-3) false true false true :=
    ⟨rfl, by norm_num, rfl, by norm_num, by norm_num, ⟨rfl, by norm_num⟩, rfl, rfl, rfl, by simp, rfl⟩
  obtain ⟨out, h⟩ := (C44_succeeds_iff eigh (fun _ => R) .state [gateZ] args []).mpr ⟨rfl, _, _, _, _, _, _, _, hv⟩
  obtain ⟨-, N, e, t, rs, p, rp, ru, hv', V, W, m, r, h0, hrun, rfl, hW, hc, -, -⟩ := exact_outcome eigh _ _ _ _ args out h
  have hN : N = 5 := by
    have : (5 : ℤ) = (N : ℤ) := NArg.int.inj hv'.nsteps
    omega
  subst hN
  obtain rfl : true = p := BoolArg.bool.inj hv'.flagP
  obtain rfl : true = ru := BoolArg.bool.inj hv'.flagU
  obtain rfl : (0.1 : ℝ) = e := PyVal.float.inj hv'.eta
  have hm : m = 5 := by
    rcases hrun.ended with he | ⟨hn, -⟩
    · exact he
    · simp [exactRules] at hn
  subst hm
  have hV0 : V 0 = rot 0 := by
    rw [rot_zero]; exact (Except.ok.inj h0).symm
  have hstep : ∀ k < 5, W k = rot 0 → V (k + 1) = rot 0 := by
    intro k hk hw
    have h1 := hrun.advance k hk
    simp only [exactRules] at h1
    rw [hw, exact_rot he] at h1
    simpa using (Except.ok.inj h1).symm
  have hVW : ∀ k ≤ 4, V k = rot 0 ∧ W k = rot 0 := by
    intro k
    induction k with
    | zero => intro _; exact ⟨hV0, by rw [hrun.start, hV0]⟩
    | succ k ih =>
      intro hk
      have h1 := hstep k (by omega) (ih (by omega)).2
      refine ⟨h1, ?_⟩
      rw [hrun.kept k (by omega) (.inl fun hf => ?_), h1]
      have := hf.1
      simp only [exactRules] at this
      omega
  have hV5 : V 5 = rot 0 := hstep 4 (by omega) (hVW 4 le_rfl).2
  have hflat : (exactRules eigh (fun _ => R) [gateZ] 5 0.1 t true).Flat V 4 := by
    refine ⟨le_rfl, ?_⟩
    simp only [exactRules]
    rw [hV5, (hVW 4 le_rfl).1]
    intro t' ht'
    have h0 : 0 ≤ t' := by
      have hT := hv'.tol
      cases t with
      | fin y => rw [← Option.some.inj ht']; exact hT.2
      | inf => cases ht'
    rw [sub_self, abs_zero]
    positivity
  have hW5 : W 5 = rot 0.0025 := by
    rw [hrun.kicked 4 (by omega) hflat _ rfl, hV5, perturb_eq he]
    have : antisym R = ((-0.05 : ℝ) : ℂ) • genJ := by
      have hR : Rᵀ = (!![0, 0; 1, 0] : Matrix (Fin 2) (Fin 2) ℝ) := by
        change (!![0, 1; 0, 0] : Matrix (Fin 2) (Fin 2) ℝ)ᵀ = _
        ext i j
        fin_cases i <;> fin_cases j <;> rfl
      rw [antisym, hR]
      change (((0.05 : ℝ) • ((!![0, 1; 0, 0] : Matrix (Fin 2) (Fin 2) ℝ) - (!![0, 0; 1, 0] : Matrix (Fin 2) (Fin 2) ℝ))).map (fun x : ℝ => (x : ℂ))) =
        ((-0.05 : ℝ) : ℂ) • (!![0, -1; 1, 0] : Matrix (Fin 2) (Fin 2) ℂ)
      ext i j
      fin_cases i <;> fin_cases j <;> simp
    rw [this, smul_smul, ← Complex.ofReal_neg, ← Complex.ofReal_mul, exp_genJ, rot_mul]
    congr 1; norm_num
  refine ⟨eigh, fun _ => R, [gateZ], _, r.unitary, he, ?_, h, by rw [exactOutput_unitary]; rfl, ?_, ?_⟩
  · intro g hg
    rw [List.mem_singleton] at hg
    subst hg
    exact gateZ_herm
  · rw [exactOutput_costs, hc, List.range_succ, List.map_append]
    simp [hV5, totalObs_gateZ, cost_rot]
  · rw [hW, hW5, totalObs_gateZ, cost_rot]
    have := Real.cos_lt_cos_of_nonneg_of_le_pi (x := 0) (y := 2 * 0.0025) le_rfl (by have := Real.two_le_pi; norm_num; linarith) (by norm_num)
    rwa [Real.cos_zero] at this

/-- Successful calls exist for every step count, step size, tolerance and choice of flags: the hypotheses of C44, C45, C48, C49 and C52. -/
theorem exact_runs (eigh : EighFn 1) (rnd : ℕ → Matrix (Fin (2 ^ 1)) (Fin (2 ^ 1)) ℝ) (x : ℝ) (N : ℕ) (hN : 1 ≤ N) (e t : ℝ) (h0 : 0 ≤ e) (h1 : e ≤ 1) (ht : 0 ≤ t)
    (rs p ru : Bool) : ∃ out, exactLieOptimizer eigh rnd .state ([rotGate0 x].map (fun g => (g.obs.matrix, g.obs.wires))) ([gateZ].map Gate.obs)
      { nsteps := .int N, eta := .float e, tol := .float t, returnState := .bool rs, perturbation := .bool p, returnPerturbations := .bool p, returnUnitary := .bool ru } =
      .ok out :=
  (C44_succeeds_iff eigh rnd .state [gateZ] _ [rotGate0 x]).mpr ⟨rfl, N, e, .fin t, rs, p, p, ru, ⟨rfl, hN, rfl, h0, h1, ⟨rfl, ht⟩, rfl, rfl, rfl, id, rfl⟩⟩

/-- A successful call without perturbation, and one with. -/
example : ∃ (eigh : EighFn 1) (out out' : OptOut (ExactItem 1)), ValidEigh eigh ∧
    exactLieOptimizer eigh (fun _ => 1) .state ([rotGate0 1].map (fun g => (g.obs.matrix, g.obs.wires))) ([gateZ].map Gate.obs)
      { nsteps := .int (7 : ℕ), eta := .float (1 / 2), tol := .float (1 / 100), returnState := .bool true, perturbation := .bool false,
        returnPerturbations := .bool false, returnUnitary := .bool true } = .ok out ∧
    exactLieOptimizer eigh (fun _ => 1) .state ([rotGate0 1].map (fun g => (g.obs.matrix, g.obs.wires))) ([gateZ].map Gate.obs)
      { nsteps := .int (7 : ℕ), eta := .float (1 / 2), tol := .float (1 / 100), returnState := .bool true, perturbation := .bool true,
        returnPerturbations := .bool true, returnUnitary := .bool true } = .ok out' := by
  obtain ⟨eigh, he⟩ := exists_validEigh 1
  obtain ⟨out, h⟩ := exact_runs eigh (fun _ => 1) 1 7 (by norm_num) (1 / 2) (1 / 100) (by norm_num) (by norm_num) (by norm_num) true false true
  obtain ⟨out', h'⟩ := exact_runs eigh (fun _ => 1) 1 7 (by norm_num) (1 / 2) (1 / 100) (by norm_num) (by norm_num) (by norm_num) true true true
  exact ⟨eigh, out, out', he, h, h'⟩

end Oranssi
