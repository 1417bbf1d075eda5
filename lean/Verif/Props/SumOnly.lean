import Verif.Lemmas.SumOnly
import Verif.Props.ApproxTotal
import Verif.Props.ExactRefute

/-! # C85: which runs depend on the observables only through their sum -/

namespace Oranssi
open Spec
open scoped Matrix

variable {n m : ℕ}

/-- A greedy layer and the arguments of its constructor besides the observables. -/
inductive GreedyKind where
  | squared (args : LayerArgs)
  | adapt (args : LayerArgs)
  | su8 (args : LayerArgs) (addSu2 addSu4 : Bool)
  | zass (args : LayerArgs) (addSu2 addSu4 : Bool) (ratio : ℤ × ℤ)

/-- The layer object for a list of observables. -/
noncomputable def GreedyKind.make (n : ℕ) (observables : List Obs) : GreedyKind → Py (AnyLayer n)
  | .squared args => do let L ← squaredLayer n observables args; .ok (.squared L)
  | .adapt args => do let L ← adaptLayer n observables args; .ok (.adapt L)
  | .su8 args a b => do let L ← su8Layer n observables args a b; .ok (.su8 L)
  | .zass args a b r => do let L ← zassLayer n observables args a b r; .ok (.zass L)

theorem make_only {gs gs' : List (Gate n)} (h : totalObs gs = totalObs gs') (K : GreedyKind) :
    SameBehaviour SumLayer (K.make n (gs.map Gate.obs)) (K.make n (gs'.map Gate.obs)) := by
  have h1 : ∀ gs : List (Gate n), promoteAll n (gs.map Gate.obs) = .ok (fulls gs) := promoteAll_gates
  cases K with
  | squared args =>
    refine .bind (R := fun L L' => SumLayer (.squared L) (.squared L')) ?_ fun a b hab => .ok hab
    rw [squaredLayer, squaredLayer, h1, h1]
    refine .bind_eq (validateEta _) fun eta => .bind_eq (validateBool _) fun c => .bind_eq (validateBool _) fun tr => .bind_eq _ fun la => ?_
    exact .ok (.squared ⟨eta, la, [], [], c, tr, ("Null", [0])⟩ gs gs' h)
  | adapt args =>
    refine .bind (R := fun L L' => SumLayer (.adapt L) (.adapt L')) ?_ fun a b hab => .ok hab
    rw [adaptLayer, adaptLayer, h1, h1]
    refine .bind_eq (validateEta _) fun eta => .bind_eq (validateBool _) fun c => .bind_eq (validateBool _) fun tr => .bind_eq _ fun la => ?_
    exact .ok (.adapt ⟨eta, la, [], [], c, tr, none, []⟩ gs gs' h)
  | su8 args a b =>
    refine .bind (R := fun L L' => SumLayer (.su8 L) (.su8 L')) ?_ fun a b hab => .ok hab
    rw [su8Layer, su8Layer, h1, h1]
    refine .bind_eq (validateEta _) fun eta => .bind_eq (pyAssert _) fun _ => .bind_eq (algebraSU8 _ _ _) fun l8 => .bind_eq (validateBool _) fun c =>
      .bind_eq (validateBool _) fun tr => .bind_eq _ fun la => ?_
    exact .ok (.su8 ⟨eta, la, [], [], c, tr⟩ gs gs' h)
  | zass args a b r =>
    refine .bind (R := fun L L' => SumLayer (.zass L) (.zass L')) ?_ fun a b hab => .ok hab
    rw [zassLayer, zassLayer, h1, h1]
    refine .bind_eq (validateEta _) fun eta => .bind_eq (pyAssert _) fun _ => .bind_eq (algebraSU8 _ _ _) fun l8 => .bind_eq (validateBool _) fun c =>
      .bind_eq (validateBool _) fun tr => .bind_eq _ fun a2 => .bind_eq _ fun a4 => .bind_eq _ fun a8 => ?_
    let L : ZassLayer n := {
      eta := eta, su2 := a2, su4 := a4, su8 := a8, observables := [], observablesFull := [], check := c, trotterize := tr, currentPauli := none,
      previousEta := none, ratio := r, counter := 0, phase := .su4 }
    exact .ok (.zass L gs gs' h)

/-- **C85**, constructors: whether a greedy layer can be built (and the error, if not) does not depend on how the total observable is split
into terms. -/
theorem C85_constructors {gs gs' : List (Gate n)} (h : totalObs gs = totalObs gs') (K : GreedyKind) :
    SameBehaviour (fun _ _ => True) (K.make n (gs.map Gate.obs)) (K.make n (gs'.map Gate.obs)) :=
  (make_only h K).mono fun _ _ _ => trivial

/-- **C85** for `approximate_lie_optimizer` with greedy layers: two lists of observables with the same sum lead to the same outcome, be it an
error or the returned costs, states, gradients, unitaries and perturbed steps. -/
theorem C85_approx (E : LayerEnv n) (eigh : EighFn n) (rnd : ℕ → Matrix (Fin (2 ^ n)) (Fin (2 ^ n)) ℝ) (ret : CircuitRet) (ops : List (NpMat × List ℤ))
    (params : List (List ℝ)) (gs gs' : List (Gate n)) (hgs : totalObs gs = totalObs gs') (kind : Fin m → GreedyKind) (objs objs' : Fin m → AnyLayer n)
    (hobjs : ∀ i, (kind i).make n (gs.map Gate.obs) = .ok (objs i)) (hobjs' : ∀ i, (kind i).make n (gs'.map Gate.obs) = .ok (objs' i))
    (layers : List (Fin m)) (args : ApproxArgs) :
    SameBehaviour (fun a b => a.1 = b.1) (approximateLieOptimizer E eigh rnd ret ops params (gs.map Gate.obs) objs layers args)
      (approximateLieOptimizer E eigh rnd ret ops params (gs'.map Gate.obs) objs' layers args) := by
  have hL : ∀ i, SumLayer (objs i) (objs' i) := by
    intro i
    have h := make_only hgs (kind i)
    rw [hobjs i, hobjs' i] at h
    cases h with
    | ok h => exact h
  rw [approximateLieOptimizer, approximateLieOptimizer]
  refine .bind_eq _ fun _ => .bind_eq _ fun nsteps => .bind_eq _ fun eta => .bind_eq _ fun tol => .bind_eq _ fun _ => .bind_eq _ fun rs =>
    .bind_eq _ fun ro => .bind_eq _ fun ru => .bind_eq _ fun rg => .bind_eq _ fun pt => .bind_eq _ fun rp => .bind_eq _ fun rz => .bind_eq _ fun U => ?_
  dsimp only
  obtain ⟨hc, hc'⟩ := addCosts_only hgs U [] 0 (i := 0) rfl
  rw [List.nil_append] at hc hc'
  rw [hc, hc']
  change SameBehaviour _ (pyForRange _ _ _ _ >>= _) (pyForRange _ _ _ _ >>= _)
  refine .bind (SameBehaviour.forRangeIdx (R := SumState) (Q := fun s t => ∃ k, SumState k s t) (approxBody_only E eigh rnd hgs eta tol _)
    (fun k s t hst => ⟨k, hst⟩) nsteps 0 _ _ ⟨rfl, rfl, rfl, rfl, rfl, rfl, rfl, rfl, rfl, rfl, hL⟩) ?_
  rintro s t ⟨k, hst⟩
  rw [hst.costs, hst.states, hst.omegas, hst.unitaries, hst.perturbations, hst.zassenhaus]
  exact .ok rfl

/-- **C85** for `parameter_shift_optimizer`: lists of observables with the same sum lead to the same outcome. -/
theorem C85_parameter_shift (gs gs' : List (Gate n)) (hgs : totalObs gs = totalObs gs') {P : Type} (gd : ℝ → (P → Py ℝ) → P → Py P) (ret : CircuitRet)
    (circuit : P → Py (List (NpMat × List ℤ))) (params : P) (args : PsArgs) :
    parameterShiftOptimizer (n := n) gd ret circuit params (gs.map Gate.obs) args =
      parameterShiftOptimizer gd ret circuit params (gs'.map Gate.obs) args :=
  parameterShift_only hgs gd ret circuit params args

/-- Lists that are rearranged have the same sum. -/
theorem Spec.totalObs_perm {gs gs' : List (Gate n)} (h : gs.Perm gs') : totalObs gs = totalObs gs' :=
  (h.map (fun g : Gate n => full n g.ws g.A)).sum_eq

/-- **C85**, in particular the order of the observables does not matter. -/
theorem C85_approx_order (E : LayerEnv n) (eigh : EighFn n) (rnd : ℕ → Matrix (Fin (2 ^ n)) (Fin (2 ^ n)) ℝ) (ret : CircuitRet) (ops : List (NpMat × List ℤ))
    (params : List (List ℝ)) (gs gs' : List (Gate n)) (hgs : gs.Perm gs') (kind : Fin m → GreedyKind) (objs objs' : Fin m → AnyLayer n)
    (hobjs : ∀ i, (kind i).make n (gs.map Gate.obs) = .ok (objs i)) (hobjs' : ∀ i, (kind i).make n (gs'.map Gate.obs) = .ok (objs' i))
    (layers : List (Fin m)) (args : ApproxArgs) :
    SameBehaviour (fun a b => a.1 = b.1) (approximateLieOptimizer E eigh rnd ret ops params (gs.map Gate.obs) objs layers args)
      (approximateLieOptimizer E eigh rnd ret ops params (gs'.map Gate.obs) objs' layers args) :=
  C85_approx E eigh rnd ret ops params gs gs' (totalObs_perm hgs) kind objs objs' hobjs hobjs' layers args

/-! ### The exact optimizer applies the terms one after the other -/

/-- The Pauli matrix X. -/
def matX : QMat 1 := (!![0, 1; 1, 0] : Matrix (Fin 2) (Fin 2) ℂ)

/-- The observable X on qubit 0. -/
def gateX : Gate 1 := ⟨[0], matX, by simp, by simp, by simp⟩

theorem matX_herm : matXᴴ = matX := by
  change (!![0, 1; 1, 0] : Matrix (Fin 2) (Fin 2) ℂ)ᴴ = (!![0, 1; 1, 0] : Matrix (Fin 2) (Fin 2) ℂ)
  ext i j
  fin_cases i <;> fin_cases j <;> simp [Matrix.conjTranspose_apply]

theorem matX_sq : matX * matX = 1 := by
  change (!![0, 1; 1, 0] : Matrix (Fin 2) (Fin 2) ℂ) * (!![0, 1; 1, 0] : Matrix (Fin 2) (Fin 2) ℂ) = 1
  rw [Matrix.one_fin_two]
  simp

theorem riemannGen_rotX (a : ℝ) : riemannGen matX (rot a) = ((-Real.cos (2 * a) : ℝ) : ℂ) • genJ := by
  have hd : density (rot a) = (!![((Real.cos a * Real.cos a : ℝ) : ℂ), ((Real.cos a * Real.sin a : ℝ) : ℂ);
      ((Real.sin a * Real.cos a : ℝ) : ℂ), ((Real.sin a * Real.sin a : ℝ) : ℂ)] : Matrix (Fin 2) (Fin 2) ℂ) := by
    funext i j
    change (rot a i 0) * star (rot a j 0) = _
    revert i j
    change ∀ i j : Fin 2, (!![((Real.cos a : ℝ) : ℂ), -((Real.sin a : ℝ) : ℂ); ((Real.sin a : ℝ) : ℂ), ((Real.cos a : ℝ) : ℂ)] : Matrix (Fin 2) (Fin 2) ℂ) i 0 *
      star ((!![((Real.cos a : ℝ) : ℂ), -((Real.sin a : ℝ) : ℂ); ((Real.sin a : ℝ) : ℂ), ((Real.cos a : ℝ) : ℂ)] : Matrix (Fin 2) (Fin 2) ℂ) j 0) =
      (!![((Real.cos a * Real.cos a : ℝ) : ℂ), ((Real.cos a * Real.sin a : ℝ) : ℂ);
      ((Real.sin a * Real.cos a : ℝ) : ℂ), ((Real.sin a * Real.sin a : ℝ) : ℂ)] : Matrix (Fin 2) (Fin 2) ℂ) i j
    intro i j
    fin_cases i <;> fin_cases j <;> simp [-Complex.ofReal_cos, -Complex.ofReal_sin, Complex.conj_ofReal]
  rw [riemannGen, hd]
  change (!![((Real.cos a * Real.cos a : ℝ) : ℂ), ((Real.cos a * Real.sin a : ℝ) : ℂ);
      ((Real.sin a * Real.cos a : ℝ) : ℂ), ((Real.sin a * Real.sin a : ℝ) : ℂ)] : Matrix (Fin 2) (Fin 2) ℂ) * (!![0, 1; 1, 0] : Matrix (Fin 2) (Fin 2) ℂ) -
      (!![0, 1; 1, 0] : Matrix (Fin 2) (Fin 2) ℂ) * (!![((Real.cos a * Real.cos a : ℝ) : ℂ), ((Real.cos a * Real.sin a : ℝ) : ℂ);
      ((Real.sin a * Real.cos a : ℝ) : ℂ), ((Real.sin a * Real.sin a : ℝ) : ℂ)] : Matrix (Fin 2) (Fin 2) ℂ) =
      ((-Real.cos (2 * a) : ℝ) : ℂ) • (!![0, -1; 1, 0] : Matrix (Fin 2) (Fin 2) ℂ)
  rw [Real.cos_two_mul']
  ext i j
  fin_cases i <;> fin_cases j <;> simp [-Complex.ofReal_cos, -Complex.ofReal_sin] <;> ring

/-- The cost of a rotation for the observable X. -/
theorem cost_rotX (a : ℝ) : cost matX (rot a) = Real.sin (2 * a) := by
  have h : star (fun i => rot a i 0) ⬝ᵥ (matX *ᵥ (fun i => rot a i 0)) = ((Real.sin (2 * a) : ℝ) : ℂ) := by
    change ∑ i : Fin 2, star ((!![((Real.cos a : ℝ) : ℂ), -((Real.sin a : ℝ) : ℂ); ((Real.sin a : ℝ) : ℂ), ((Real.cos a : ℝ) : ℂ)] : Matrix (Fin 2) (Fin 2) ℂ) i 0) *
      ((!![0, 1; 1, 0] : Matrix (Fin 2) (Fin 2) ℂ) *ᵥ
        (fun i : Fin 2 => (!![((Real.cos a : ℝ) : ℂ), -((Real.sin a : ℝ) : ℂ); ((Real.sin a : ℝ) : ℂ), ((Real.cos a : ℝ) : ℂ)] : Matrix (Fin 2) (Fin 2) ℂ) i 0)) i = _
    rw [Real.sin_two_mul, Fin.sum_univ_two]
    simp [Matrix.mulVec, dotProduct, Fin.sum_univ_two, Complex.conj_ofReal, -Complex.ofReal_cos, -Complex.ofReal_sin]
    ring
  exact (congrArg Complex.re h).trans (Complex.ofReal_re _)

theorem exactUpdate_rotZ {eigh : EighFn 1} (he : ValidEigh eigh) (e a : ℝ) :
    exactUpdate eigh e gateZ.obs (rot a) = .ok (rot (a + e / 2 * Real.sin (2 * a))) := by
  have h := C47_riemannian_step eigh he e gateZ gateZ_herm gateZ_sq (rot a)
  rwa [full_gateZ, riemannGen_rot, smul_smul, ← Complex.ofReal_mul, exp_genJ, rot_mul, add_comm] at h

theorem exactUpdate_rotX {eigh : EighFn 1} (he : ValidEigh eigh) (e a : ℝ) :
    exactUpdate eigh e gateX.obs (rot a) = .ok (rot (a - e / 2 * Real.cos (2 * a))) := by
  have h := C47_riemannian_step eigh he e gateX matX_herm matX_sq (rot a)
  rw [show full 1 gateX.ws gateX.A = matX from full_one_qubit matX, riemannGen_rotX, smul_smul, ← Complex.ofReal_mul, exp_genJ, rot_mul] at h
  rw [h]
  congr 2
  ring

theorem cost_ZX (a : ℝ) : cost (totalObs [gateZ, gateX]) (rot a) = Real.cos (2 * a) + Real.sin (2 * a) := by
  have h : totalObs [gateZ, gateX] = matZ + matX := by
    simp only [totalObs, List.map_cons, List.map_nil, List.sum_cons, List.sum_nil, add_zero]
    rw [full_gateZ, show full 1 gateX.ws gateX.A = matX from full_one_qubit matX]
  rw [h, cost_add, cost_rot, cost_rotX]

/-- The costs of a run of one step. -/
theorem exact_one_step {eigh : EighFn 1} (rnd : ℕ → Matrix (Fin (2 ^ 1)) (Fin (2 ^ 1)) ℝ) (gs : List (Gate 1)) (V : QMat 1)
    (hV : exactUpdates eigh 0.1 (gs.map Gate.obs) (rot 0) = .ok V) :
    ∃ out, exactLieOptimizer eigh rnd .state [] (gs.map Gate.obs) { nsteps := .int 1 } = .ok out ∧
      exactCosts out = [cost (totalObs gs) (rot 0), cost (totalObs gs) V] := by
  have hv : ExactValid { nsteps := .int 1 } 1 0.1 (.fin 1e-3) false false false false :=
    ⟨rfl, by norm_num, rfl, by norm_num, by norm_num, ⟨rfl, by norm_num⟩, rfl, rfl, rfl, by simp, rfl⟩
  obtain ⟨out, h⟩ := (C44_succeeds_iff eigh rnd .state gs { nsteps := .int 1 } []).mpr ⟨rfl, _, _, _, _, _, _, _, hv⟩
  refine ⟨out, h, ?_⟩
  obtain ⟨-, N, e, t, rs, p, rp, ru, hv', V', W, m, r, h0, hrun, rfl, -, hc, -⟩ := exact_outcome eigh _ _ _ _ _ out h
  have hN : N = 1 := by
    have : (1 : ℤ) = (N : ℤ) := NArg.int.inj hv'.nsteps
    omega
  subst hN
  obtain rfl : (0.1 : ℝ) = e := PyVal.float.inj hv'.eta
  have hm : m = 1 := by
    rcases hrun.ended with he | ⟨-, k, hk, hf⟩
    · exact he
    · have := hf.1
      have := hrun.bounded
      simp only [exactRules] at *
      omega
  subst hm
  have hV0 : V' 0 = rot 0 := by
    rw [rot_zero]; exact (Except.ok.inj h0).symm
  have h1 := hrun.advance 0 (by omega)
  simp only [exactRules] at h1
  rw [hrun.start, hV0, hV] at h1
  rw [exactOutput_costs, hc]
  simp [List.range_succ, hV0, ← Except.ok.inj h1]

/-- **C85** does not hold for `exact_lie_optimizer`: for the observables Z and X on one qubit the result of one step depends on their order. -/
theorem C85_exact_order_matters : ∃ (eigh : EighFn 1) (rnd : ℕ → Matrix (Fin (2 ^ 1)) (Fin (2 ^ 1)) ℝ) (gs gs' : List (Gate 1)) (out out' : OptOut (ExactItem 1)),
    ValidEigh eigh ∧ gs.Perm gs' ∧ (∀ g ∈ gs, g.Aᴴ = g.A ∧ g.A * g.A = 1) ∧
    exactLieOptimizer eigh rnd .state [] (gs.map Gate.obs) { nsteps := .int 1 } = .ok out ∧
    exactLieOptimizer eigh rnd .state [] (gs'.map Gate.obs) { nsteps := .int 1 } = .ok out' ∧ exactCosts out ≠ exactCosts out' := by
  obtain ⟨eigh, he⟩ := exists_validEigh 1
  have hperm : [gateZ, gateX].Perm [gateX, gateZ] := .swap _ _ _
  have h1 : exactUpdates eigh 0.1 ([gateZ, gateX].map Gate.obs) (rot 0) = .ok (rot (-0.05)) := by
    simp only [List.map_cons, List.map_nil, exactUpdates, exactUpdate_rotZ he, bind, Except.bind, exactUpdate_rotX he]
    norm_num
  have h2 : exactUpdates eigh 0.1 ([gateX, gateZ].map Gate.obs) (rot 0) = .ok (rot (-0.05 - 0.05 * Real.sin 0.1)) := by
    simp only [List.map_cons, List.map_nil, exactUpdates, exactUpdate_rotZ he, bind, Except.bind, exactUpdate_rotX he]
    congr 2
    rw [show (2 : ℝ) * (0 - 0.1 / 2 * Real.cos (2 * 0)) = -0.1 by rw [mul_zero, Real.cos_zero]; norm_num, Real.sin_neg, mul_zero, Real.cos_zero]
    ring
  obtain ⟨out, ho, hc⟩ := exact_one_step (fun _ => 0) _ _ h1
  obtain ⟨out', ho', hc'⟩ := exact_one_step (fun _ => 0) _ _ h2
  refine ⟨eigh, fun _ => 0, _, _, out, out', he, hperm, ?_, ho, ho', ?_⟩
  · intro g hg
    simp only [List.mem_cons, List.not_mem_nil, or_false] at hg
    rcases hg with rfl | rfl
    · exact ⟨gateZ_herm, gateZ_sq⟩
    · exact ⟨matX_herm, matX_sq⟩
  · rw [hc, hc', ← totalObs_perm hperm]
    simp only [cost_ZX]
    intro hcon
    have h := (List.cons.inj (List.cons.inj hcon).2).1
    set s := Real.sin 0.1 with hs
    have hs0 : 0 < s := Real.sin_pos_of_pos_of_lt_pi (by norm_num) (by have := Real.two_le_pi; norm_num; linarith)
    have hs1 : s ≤ 1 := Real.sin_le_one _
    have hpi := Real.two_le_pi
    rw [show 2 * (-0.05 - 0.05 * s) = -(0.1 + 0.1 * s) by ring, show 2 * (-0.05 : ℝ) = -0.1 by norm_num, Real.cos_neg, Real.cos_neg, Real.sin_neg,
      Real.sin_neg] at h
    have h3 : Real.cos (0.1 + 0.1 * s) < Real.cos 0.1 :=
      Real.cos_lt_cos_of_nonneg_of_le_pi (by norm_num) (by norm_num; linarith) (by linarith)
    have h4 : Real.sin 0.1 < Real.sin (0.1 + 0.1 * s) :=
      Real.sin_lt_sin_of_lt_of_le_pi_div_two (by norm_num; linarith) (by norm_num; linarith) (by linarith)
    linarith

/-- The hypotheses of C85 are met by lists of different lengths: Z and X on one qubit as two terms, or their sum as one term. -/
example : totalObs [gateX, gateZ] = totalObs [(⟨[0], matZ + matX, by simp, by simp, by simp⟩ : Gate 1)] ∧
    ∃ L L', (GreedyKind.squared {}).make 1 ([gateX, gateZ].map Gate.obs) = .ok L ∧
      (GreedyKind.squared {}).make 1 ([(⟨[0], matZ + matX, by simp, by simp, by simp⟩ : Gate 1)].map Gate.obs) = .ok L' := by
  have h : totalObs [gateX, gateZ] = totalObs [(⟨[0], matZ + matX, by simp, by simp, by simp⟩ : Gate 1)] := by
    simp only [totalObs, List.map_cons, List.map_nil, List.sum_cons, List.sum_nil, add_zero]
    rw [full_gateZ, show full 1 gateX.ws gateX.A = matX from full_one_qubit matX]
    exact (add_comm _ _).trans (full_one_qubit (matZ + matX)).symm
  refine ⟨h, ?_⟩
  obtain ⟨a, ha, -⟩ := algebraSU4_getAll 1
  have hok : ∃ L, (GreedyKind.squared {}).make 1 ([gateX, gateZ].map Gate.obs) = .ok L := by
    rw [GreedyKind.make, squaredLayer, promoteAll_gates, ha]
    simp only [bind, Except.bind]
    rw [show validateEta (Option.getD ({} : LayerArgs).eta (.float 0.1)) = .ok 0.1 from defaultEta_ok']
    exact ⟨_, rfl⟩
  obtain ⟨L, hL⟩ := hok
  have h' := make_only h (GreedyKind.squared {})
  rw [hL] at h'
  generalize hx : (GreedyKind.squared {}).make 1 ([(⟨[0], matZ + matX, by simp, by simp, by simp⟩ : Gate 1)].map Gate.obs) = x at h'
  cases h' with
  | ok h'' => exact ⟨L, _, hL, rfl⟩

end Oranssi
