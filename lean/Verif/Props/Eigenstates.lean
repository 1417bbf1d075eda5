import Verif.Props.ApproxTotal
import Verif.Props.ExactRefute

/-! # C86: runs that start in a common eigenstate of the observables stay there -/

namespace Oranssi
open Spec
open scoped Matrix ComplexOrder

variable {n m : ℕ}

/-- The state prepared by the circuit is an eigenvector of every observable. -/
def Spec.CommonEigenstate (gs : List (Gate n)) (U : QMat n) : Prop := ∀ g ∈ gs, ∃ c : ℂ, full n g.ws g.A *ᵥ (fun i => U i 0) = c • (fun i => U i 0)

/-- A Hermitian matrix commutes with the density matrix of each of its eigenvectors. -/
theorem density_commute {O U : QMat n} (hO : Oᴴ = O) {c : ℂ} (h : O *ᵥ (fun i => U i 0) = c • (fun i => U i 0)) : Commute O (density U) := by
  set φ : Ket n := fun i => U i 0 with hφ
  have hd : density U = Matrix.vecMulVec φ (star φ) := rfl
  have h2 : star φ ᵥ* O = star c • star φ := by
    rw [← star_smul, ← h, Matrix.star_mulVec, hO]
  have h3 : c • density U = star c • density U := by
    by_cases h0 : φ = 0
    · rw [hd, h0, Matrix.zero_vecMulVec, smul_zero, smul_zero]
    · have h4 : c * (star φ ⬝ᵥ φ) = star c * (star φ ⬝ᵥ φ) := by
        rw [← smul_eq_mul, ← dotProduct_smul, ← h, Matrix.dotProduct_mulVec, h2, smul_dotProduct, smul_eq_mul]
      have h5 : star φ ⬝ᵥ φ ≠ 0 := fun h => h0 (dotProduct_star_self_eq_zero.mp h)
      exact congrArg (· • density U) (mul_right_cancel₀ h5 h4)
  calc O * density U = c • density U := by rw [hd, Matrix.mul_vecMulVec, h, Matrix.smul_vecMulVec]
    _ = star c • density U := h3
    _ = density U * O := by rw [hd, Matrix.vecMulVec_mul, h2, Matrix.vecMulVec_smul]

/-- The generator of the exact update vanishes at the eigenstates, for every Hermitian observable. -/
theorem shiftGen_eigen {O U : QMat n} (hO : Oᴴ = O) {c : ℂ} (h : O *ᵥ (fun i => U i 0) = c • (fun i => U i 0)) : shiftGen O U = 0 := by
  have hc := density_commute hO h
  have key : ∀ t : ℝ, NormedSpace.exp ((-Complex.I * ((t / 2 : ℝ) : ℂ)) • O) * (density U * (NormedSpace.exp ((-Complex.I * ((t / 2 : ℝ) : ℂ)) • O))ᴴ) = density U := by
    intro t
    have h1 : Commute (NormedSpace.exp ((-Complex.I * ((t / 2 : ℝ) : ℂ)) • O)) (density U) := Commute.exp_left (hc.smul_left _)
    have h2 : ((-Complex.I * ((t / 2 : ℝ) : ℂ)) • O)ᴴ = -((-Complex.I * ((t / 2 : ℝ) : ℂ)) • O) := by
      rw [Matrix.conjTranspose_smul, hO, ← neg_smul]
      congr 1
      simp
    rw [← mul_assoc, h1.eq, mul_assoc, (exp_skew_unitary _ h2).2, mul_one]
  rw [shiftGen, paramShiftComm, key, key, sub_self]

theorem exactUpdates_eigen {eigh : EighFn n} (he : ValidEigh eigh) (e : ℝ) (U : QMat n) : ∀ gs : List (Gate n), (∀ g ∈ gs, g.Aᴴ = g.A) →
    CommonEigenstate gs U → exactUpdates eigh e (gs.map Gate.obs) U = .ok U
  | [], _, _ => rfl
  | g :: gs, hH, h => by
    obtain ⟨c, hc⟩ := h g (by simp)
    have hO : (full n g.ws g.A)ᴴ = full n g.ws g.A := by rw [← full_conjTranspose rfl g.valid.2, hH g (by simp)]
    have h1 : exactUpdate eigh e g.obs U = .ok U := by
      rw [exactUpdate_gate, eighExp_eq he e (shiftGen_herm _ _), shiftGen_eigen hO hc, smul_zero, NormedSpace.exp_zero, one_mul]
    rw [List.map_cons, exactUpdates, h1]
    exact exactUpdates_eigen he e U gs (fun g hg => hH g (by simp [hg])) (fun g hg => h g (by simp [hg]))

/-- A run whose cost never changes, without perturbations, stops as soon as the cost is tested. -/
theorem Spec.Rules.Run.length_flat {α : Type*} {R : Rules α} {V W : ℕ → α} {m : ℕ} (h : R.Run V W m) (hk : R.kick = none) (hV : ∀ k ≤ m, V k = V 0)
    (hc : R.close (R.cost (V 0)) (R.cost (V 0))) : m = min R.nsteps (R.first + 1) := by
  have hb := h.bounded
  have hflat : ∀ k < m, R.first ≤ k → R.Flat V k := by
    intro k hk1 hk2
    refine ⟨hk2, ?_⟩
    rw [hV (k + 1) (by omega), hV (k + 1 - R.lag) (by omega)]
    exact hc
  have h1 : m ≤ R.first + 1 := by
    by_contra hcon
    exact h.notBefore hk R.first (by omega) (hflat _ (by omega) le_rfl)
  rcases h.ended with he | ⟨-, k, rfl, hf⟩
  · omega
  · have := hf.1
    omega

theorem close_self {t : Option ℝ} (ht : ∀ x, t = some x → 0 ≤ x) (c : ℝ) : Close t c c := by
  intro x hx
  have := ht x hx
  rw [sub_self, abs_zero]
  positivity

theorem isTol_nonneg {v : PyVal} {t : Tol} (h : IsTol v t) : ∀ x, t.spec = some x → 0 ≤ x := by
  intro x hx
  cases t with
  | fin y => rw [← Option.some.inj hx]; exact h.2
  | inf => cases hx

theorem map_range_const {β : Type*} (f : ℕ → β) (x : β) (k : ℕ) (h : ∀ i < k, f i = x) : (List.range k).map f = List.replicate k x := by
  rw [List.eq_replicate_iff]
  refine ⟨by simp, fun b hb => ?_⟩
  obtain ⟨i, hi, rfl⟩ := List.mem_map.1 hb
  exact h i (List.mem_range.1 hi)

/-- **C86** for `exact_lie_optimizer`: a run (without perturbation) from a common eigenstate of the observables leaves the circuit as it is and
stops after `min(nsteps, 5)` steps. -/
theorem C86_exact {eigh : EighFn n} (he : ValidEigh eigh) (rnd : ℕ → Matrix (Fin (2 ^ n)) (Fin (2 ^ n)) ℝ) (ret : CircuitRet) (ops : List (NpMat × List ℤ))
    (gs : List (Gate n)) (hH : ∀ g ∈ gs, g.Aᴴ = g.A) (args : ExactArgs) (out : OptOut (ExactItem n)) (hp : args.perturbation = .bool false) (U : QMat n)
    (hU : compileLoop n ops 1 = .ok U) (hE : CommonEigenstate gs U)
    (h : exactLieOptimizer eigh rnd ret ops (gs.map Gate.obs) args = .ok out) :
    ∃ N : ℕ, args.nsteps = .int (N : ℤ) ∧ exactCosts out = List.replicate (min N 5 + 1) (cost (totalObs gs) U) ∧
      (∀ l, exactStates out = some l → l = List.replicate (min N 5 + 1) (fun i => U i 0)) ∧ (∀ V, exactUnitary out = some V → V = U) := by
  obtain ⟨-, N, e, t, rs, p, rp, ru, hv, V, W, m, r, h0, hrun, rfl, hW, hc, hst, -⟩ := exact_outcome eigh rnd ret ops gs args out h
  rw [hv.flagP] at hp
  obtain rfl := BoolArg.bool.inj hp
  have hV0 : V 0 = U := Except.ok.inj (h0.symm.trans hU)
  have hVW : ∀ k ≤ m, V k = U ∧ W k = U := by
    intro k
    induction k with
    | zero => intro _; exact ⟨hV0, by rw [hrun.start, hV0]⟩
    | succ k ih =>
      intro hk
      have h1 := hrun.advance k (by omega)
      simp only [exactRules] at h1
      rw [(ih (by omega)).2, exactUpdates_eigen he e U gs hH hE] at h1
      exact ⟨(Except.ok.inj h1).symm, by rw [hrun.kept k (by omega) (.inr rfl)]; exact (Except.ok.inj h1).symm⟩
  have hm : m = min N 5 := hrun.length_flat rfl (fun k hk => by rw [(hVW k hk).1, hV0]) (close_self (isTol_nonneg hv.tol) _)
  subst hm
  refine ⟨N, hv.nsteps, ?_, ?_, ?_⟩
  · rw [exactOutput_costs, hc]
    exact map_range_const _ _ _ fun i hi => by rw [(hVW i (by omega)).1]
  · intro l hl
    rw [exactOutput_states] at hl
    cases rs with
    | false => simp at hl
    | true =>
      rw [← Option.some.inj hl, hst]
      exact map_range_const _ _ _ fun i hi => by rw [(hVW i (by omega)).1]; rfl
  · intro X hX
    rw [exactOutput_unitary] at hX
    cases ru with
    | false => simp at hX
    | true => rw [← Option.some.inj hX, hW, (hVW _ le_rfl).2]

/-- A local or custom layer for Hermitian observables of which the state prepared by `U` is a common eigenvector. -/
inductive StationaryLayer (U : QMat n) : AnyLayer n → Prop
  | loc (hs : List (Gate n)) (hH : ∀ g ∈ hs, g.Aᴴ = g.A) (hE : CommonEigenstate hs U) (locality : ℤ) (la : LayerArgs) (stride : Option ℤ)
      (D : Option (List String)) (L : LocalLayer n) (hL : localLayer n (hs.map Gate.obs) locality la stride D = .ok L)
      (hne : D ≠ some [] ∨ L.trotterize = true) : StationaryLayer U (.loc L)
  | custom (hs : List (Gate n)) (hH : ∀ g ∈ hs, g.Aᴴ = g.A) (hE : CommonEigenstate hs U) (D : List String) (la : LayerArgs) (L : CustomLayer n)
      (hL : customLayer n (hs.map Gate.obs) (some D) la = .ok L) (hne : (∃ d ∈ D, d.toList.length ≤ n) ∨ L.trotterize = true) : StationaryLayer U (.custom L)

theorem stationary_call (E : LayerEnv n) (hs : ValidSvd E.svd) {U : QMat n} {L : AnyLayer n} (h : StationaryLayer U L) (ps : List (List ℝ)) :
    L.call E ps U = .ok (U, ps, L) := by
  cases h with
  | loc hs' hH hE locality la stride D L hL hne =>
    have := C29_local hs' hH locality la stride D L hL hne E.svd hs L.eta U (.inr hE)
    rw [AnyLayer.call, show L.call E.svd U = .ok U from this]
    rfl
  | custom hs' hH hE D la L hL hne =>
    have := C29_custom hs' hH D la L hL hne E.svd hs L.eta U (.inr hE)
    rw [AnyLayer.call, show L.call E.svd U = .ok U from this]
    rfl

/-- **C86** for `approximate_lie_optimizer` with local and custom layers: a run (without perturbation) from a common eigenstate leaves the circuit, the
parameters and the layer objects as they are, and stops after `min(nsteps, 10)` steps, or after `nsteps` steps if `tol=None`. -/
theorem C86_approx (E : LayerEnv n) (hs : ValidSvd E.svd) (eigh : EighFn n) (rnd : ℕ → Matrix (Fin (2 ^ n)) (Fin (2 ^ n)) ℝ) (ret : CircuitRet)
    (ops : List (NpMat × List ℤ)) (params : List (List ℝ)) (gs : List (Gate n)) (objs : Fin m → AnyLayer n) (layers : List (Fin m)) (args : ApproxArgs)
    (out : OptOut (ApproxItem n) × (Fin m → AnyLayer n)) (hp : args.perturb = .bool false) (U : QMat n) (hU : compileLoop n ops 1 = .ok U)
    (hobjs : ∀ i, StationaryLayer U (objs i))
    (h : approximateLieOptimizer E eigh rnd ret ops params (gs.map Gate.obs) objs layers args = .ok out) :
    ∃ N : ℕ, args.nsteps = .int (N : ℤ) ∧ out.2 = objs ∧ ∃ j, (args.tol = none → j = N) ∧ (args.tol ≠ none → j = min N 10) ∧
      approxCosts out.1 = List.replicate (j + 1) (cost (totalObs gs) U) ∧
      (∀ l, approxStates out.1 = some l → l = List.replicate (j + 1) (fun i => U i 0)) ∧
      (∀ l, approxUnitaries out.1 = some l → l = List.replicate (j + 1) U) := by
  obtain ⟨-, N, e, t, F, hv, V, W, j, r, h0, hp0, ho0, hrun, rfl, hc, hst, hun, -⟩ := approx_outcome E eigh rnd ret ops params gs objs layers args out h
  obtain ⟨r1, r2, -, r4, -⟩ := approxOutput_read r F
  have hF : F.perturb = false := by
    have := hv.flagP
    rw [hp] at this
    exact (BoolArg.bool.inj this).symm
  rw [hF] at hrun
  have hV0 : V 0 = ⟨U, params, objs⟩ := by
    have : (V 0).U = U := Except.ok.inj (h0.symm.trans hU)
    rw [← this, ← hp0, ← ho0]
  have hVW : ∀ k ≤ j, V k = ⟨U, params, objs⟩ ∧ W k = ⟨U, params, objs⟩ := by
    intro k
    induction k with
    | zero => intro _; exact ⟨hV0, by rw [hrun.start, hV0]⟩
    | succ k ih =>
      intro hk
      obtain ⟨i, L', hi, hcall, hobj⟩ := hrun.advance k (by omega)
      rw [(ih (by omega)).2] at hcall hobj
      rw [stationary_call E hs (hobjs i)] at hcall
      have h2 := Except.ok.inj hcall
      have hV : V (k + 1) = ⟨U, params, objs⟩ := by
        obtain ⟨h3, h4⟩ := Prod.mk.inj h2
        obtain ⟨h4, h5⟩ := Prod.mk.inj h4
        have h6 : (V (k + 1)).objs = objs := by rw [hobj, ← h5]; exact Function.update_eq_self i objs
        have h7 : (V (k + 1)).U = U := h3.symm
        have h8 : (V (k + 1)).params = params := h4.symm
        rw [← h6, ← h7, ← h8]
      exact ⟨hV, by rw [hrun.kept k (by omega) (.inr rfl), hV]⟩
  have hVj : ∀ k ≤ j, (V k).U = U := fun k hk => by rw [(hVW k hk).1]
  refine ⟨N, hv.nsteps, by rw [(hVW j le_rfl).2], j, ?_, ?_, ?_, ?_, ?_⟩
  · intro ht
    have htt := hv.tol
    rw [ht] at htt
    cases t with
    | some t => exact absurd htt (by simp [IsTolOpt])
    | none =>
      rcases hrun.ended with he | ⟨-, k, -, hf⟩
      · exact he
      · exact absurd hf.2 (by simp [approxRules, CloseOpt])
  · intro ht
    have htt := hv.tol
    cases t with
    | none =>
      cases ha : args.tol with
      | none => exact absurd ha ht
      | some v => rw [ha] at htt; exact absurd htt (by simp [IsTolOpt])
    | some t =>
      cases ha : args.tol with
      | none => exact absurd ha ht
      | some v =>
        rw [ha] at htt
        refine hrun.length_flat rfl (fun k hk => by rw [(hVW k hk).1, hV0]) ?_
        exact ⟨t, rfl, close_self (isTol_nonneg htt) _⟩
  · rw [r1, hc]
    exact map_range_const _ _ _ fun i hi => by rw [hVj i (by omega)]
  · intro l hl
    rw [r2] at hl
    cases hf : F.returnState with
    | false => simp [hf] at hl
    | true =>
      rw [hf, if_pos rfl] at hl
      rw [← Option.some.inj hl, hst, if_pos hf]
      exact map_range_const _ _ _ fun i hi => by rw [hVj i (by omega)]; rfl
  · intro l hl
    rw [r4] at hl
    cases hf : F.returnUnitary with
    | false => simp [hf] at hl
    | true =>
      rw [hf, if_pos rfl] at hl
      rw [← Option.some.inj hl, hun, if_pos hf]
      exact map_range_const _ _ _ fun i hi => hVj i (by omega)

/-- The circuit without gates prepares an eigenstate of Z. -/
theorem eigenstate_Z : CommonEigenstate [gateZ] (1 : QMat 1) := by
  intro g hg
  rw [List.mem_singleton] at hg
  subst hg
  refine ⟨1, ?_⟩
  rw [full_gateZ, one_smul]
  change (!![1, 0; 0, -1] : Matrix (Fin 2) (Fin 2) ℂ) *ᵥ (fun i : Fin 2 => (1 : Matrix (Fin 2) (Fin 2) ℂ) i 0) = fun i : Fin 2 => (1 : Matrix (Fin 2) (Fin 2) ℂ) i 0
  rw [Matrix.one_fin_two]
  funext i
  fin_cases i <;> simp [Matrix.mulVec, dotProduct, Fin.sum_univ_two]

/-- The hypotheses of C86 are met on one qubit: the observable Z, the circuit without gates, a local layer, 20 steps. -/
example : ∃ (eigh : EighFn 1) (E : LayerEnv 1) (L : LocalLayer 1) (out : OptOut (ExactItem 1)) (out' : OptOut (ApproxItem 1) × (Fin 1 → AnyLayer 1)),
    ValidEigh eigh ∧ ValidSvd E.svd ∧ StationaryLayer 1 (.loc L) ∧ compileLoop 1 [] 1 = .ok (1 : QMat 1) ∧
    exactLieOptimizer eigh (fun _ => 0) .state [] ([gateZ].map Gate.obs) { nsteps := .int (20 : ℕ) } = .ok out ∧
    approximateLieOptimizer E eigh (fun _ => 0) .state [] [] ([gateZ].map Gate.obs) (fun _ : Fin 1 => .loc L) [0] { nsteps := .int (20 : ℕ) } = .ok out' := by
  obtain ⟨eigh, he⟩ := exists_validEigh 1
  obtain ⟨svd, hsvd⟩ := exists_validSvd 1
  let E : LayerEnv 1 := ⟨svd, ⟨List.reverse, List.reverse_perm⟩, fun _ _ p => .ok p⟩
  have hok : LocalOk 1 1 {} none none :=
    { eta := ⟨0.1, defaultEta_ok⟩, loc := Or.inl rfl, dirs := by simp, check := ⟨false, rfl⟩, trot := ⟨false, rfl⟩ }
  obtain ⟨k, e, b, t, -, -, -, -, -, hL⟩ := localLayer_ok [gateZ] hok
  have hH : ∀ g ∈ [gateZ], g.Aᴴ = g.A := by
    intro g hg
    rw [List.mem_singleton] at hg
    subst hg
    exact gateZ_herm
  have hS := StationaryLayer.loc (U := 1) [gateZ] hH eigenstate_Z 1 {} none none _ hL (.inl (by simp))
  obtain ⟨out, h⟩ := (C44_succeeds_iff eigh (fun _ => 0) .state [gateZ] { nsteps := .int (20 : ℕ) } []).mpr
    ⟨rfl, 20, 0.1, .fin 1e-3, false, false, false, false, ⟨rfl, by norm_num, rfl, by norm_num, by norm_num, ⟨rfl, by norm_num⟩, rfl, rfl, rfl, by simp, rfl⟩⟩
  obtain ⟨out', h'⟩ := (C50_total_layers E hsvd eigh (fun _ => 0) .state [] [] [gateZ] (fun _ : Fin 1 => .loc _) [0] { nsteps := .int (20 : ℕ) } (List.cons_ne_nil _ _)
    (fun _ => .loc [gateZ] hH 1 {} none none _ hL (.inl (by simp))) rfl).mpr
    ⟨rfl, 20, 0.1, some (.fin 1e-3), _, approxValid_of 20 (by norm_num) (some (.float 1e-3)) (some (.fin 1e-3)) ⟨rfl, by norm_num⟩ ⟨false, false, false, false, false, false, false⟩⟩
  exact ⟨eigh, E, _, out, out', he, hsvd, hS, rfl, h, h'⟩

end Oranssi
