import Verif.Props.ExactOptimizer

/-! # C44, C45, C46, C48, C49, C52 for `exact_lie_optimizer` -/

namespace Oranssi
open Spec
open scoped Matrix

variable {n : ℕ} (eigh : EighFn n) (rnd : ℕ → Matrix (Fin (2 ^ n)) (Fin (2 ^ n)) ℝ) (ret : CircuitRet) (ops : List (NpMat × List ℤ)) (gs : List (Gate n))
  (args : ExactArgs) (out : OptOut (ExactItem n))

open Classical in
/-- Everything about a successful call. -/
theorem exact_outcome (h : exactLieOptimizer eigh rnd ret ops (gs.map Gate.obs) args = .ok out) :
    ret = .state ∧ ∃ N e t rs p rp ru, ExactValid args N e t rs p rp ru ∧ ∃ V W m r, compileLoop n ops 1 = .ok (V 0) ∧
      (exactRules eigh rnd gs N e t p).Run V W m ∧ out = exactOutput r rs rp ru ∧ r.unitary = W m ∧
      r.costs = (List.range (m + 1)).map (fun k => cost (totalObs gs) (V k)) ∧
      r.states = (if rs then (List.range (m + 1)).map (fun k => stateFromUnitary (V k)) else []) ∧
      r.perturbations = (if p then (List.range m).filter (fun k => (exactRules eigh rnd gs N e t p).Flat V k) else []) := by
  obtain ⟨hr, N, e, t, rs, p, rp, ru, hv, U, s, hU, hs, hout⟩ := (exact_ok_iff ..).mp h
  obtain ⟨V, W, m, hrun, h0, hW, hc, hst, hp⟩ := exact_loop eigh rnd gs N e t rs p U s hs
  exact ⟨hr, N, e, t, rs, p, rp, ru, hv, V, W, m, ⟨s.costs, s.states, s.perturbations, s.U⟩, by rw [hU, h0], hrun, hout, hW, hc, hst, hp⟩

/-- C44.  The costs are the costs of the circuit after `0, 1, …, m` steps, at most `nsteps` of them, the states (if asked for) are their states, and each
step performs the updates of the observables one after the other on the result of the step before (or on its perturbation). -/
theorem C44_trace (h : exactLieOptimizer eigh rnd ret ops (gs.map Gate.obs) args = .ok out) :
    ∃ N : ℕ, args.nsteps = .int (N : ℤ) ∧ ∃ e : ℝ, args.eta = .float e ∧ ∃ (V W : ℕ → QMat n) (m : ℕ), m ≤ N ∧ compileLoop n ops 1 = .ok (V 0) ∧
      (exactCosts out).length = m + 1 ∧ (∀ k ≤ m, (exactCosts out)[k]? = some (cost (totalObs gs) (V k))) ∧
      (∀ k < m, exactUpdates eigh e (gs.map Gate.obs) (W k) = .ok (V (k + 1))) ∧ W 0 = V 0 ∧
      (args.perturbation = .bool false → ∀ k ≤ m, W k = V k) ∧
      (args.perturbation = .bool true → ∀ k < m, W (k + 1) = V (k + 1) ∨ W (k + 1) = perturb eigh e (rnd k) (V (k + 1))) ∧
      (args.returnState = .bool true → ∃ l, exactStates out = some l ∧ l.length = m + 1 ∧ ∀ k ≤ m, l[k]? = some (fun i => V k i 0)) ∧
      (args.returnState = .bool false → exactStates out = none) := by
  obtain ⟨-, N, e, t, rs, p, rp, ru, hv, V, W, m, r, h0, hrun, rfl, -, hc, hst, -⟩ := exact_outcome eigh rnd ret ops gs args out h
  refine ⟨N, hv.nsteps, e, hv.eta, V, W, m, hrun.bounded, h0, ?_, ?_, hrun.advance, hrun.start, ?_, ?_, ?_, ?_⟩
  · rw [exactOutput_costs, hc]; simp
  · intro k hk
    rw [exactOutput_costs, hc]
    simp [show k < m + 1 by omega]
  · intro hp k hk
    rw [hv.flagP] at hp
    obtain rfl := BoolArg.bool.inj hp
    cases k with
    | zero => exact hrun.start
    | succ k => exact hrun.kept k (by omega) (.inr rfl)
  · intro hp k hk
    rw [hv.flagP] at hp
    obtain rfl := BoolArg.bool.inj hp
    by_cases hf : (exactRules eigh rnd gs N e t true).Flat V k
    · exact .inr (hrun.kicked k hk hf _ rfl)
    · exact .inl (hrun.kept k hk (.inl hf))
  · intro hr
    rw [hv.flagS] at hr
    obtain rfl := BoolArg.bool.inj hr
    refine ⟨r.states, by rw [exactOutput_states]; rfl, by rw [hst]; simp, fun k hk => ?_⟩
    rw [hst]
    simp only [if_true, List.getElem?_map]
    rw [List.getElem?_range (by omega)]
    rfl
  · intro hr
    rw [hv.flagS] at hr
    obtain rfl := BoolArg.bool.inj hr
    rw [exactOutput_states]; rfl

theorem exactBody_total (e : ℝ) (t : Tol) (rs p : Bool) (k : ℕ) (s : ExactState n) (hl : s.costs.length = k + 1) :
    ∃ x, exactBody eigh rnd (gs.map Gate.obs) e t rs p k s = .ok x ∧ x.1.costs.length = k + 2 := by
  have hk : ((k : ℤ) + 1) = (s.costs.length : ℤ) := by rw [hl]; push_cast; ring
  unfold exactBody
  rw [exactUpdates_gates]
  simp only [bind, Except.bind]
  rw [hk, addCosts_gates, zero_add]
  simp only
  generalize gs.foldl (fun U g => eighExp eigh e (shiftGen (full n g.ws g.A) U) * U) s.U = v
  have h1 : pyGetItem (s.costs ++ [cost (totalObs gs) v]) (-1) = .ok (cost (totalObs gs) v) := getItem_last
  have h2 := getItem_neg (s.costs ++ [cost (totalObs gs) v]) 1 (by simp [hl])
  rw [show (-(((1 : ℕ) : ℤ) + 1)) = -2 by norm_num] at h2
  rw [h1, h2]
  simp only
  split
  · split
    · split <;> exact ⟨_, rfl, by simp [hl]⟩
    · exact ⟨_, rfl, by simp [hl]⟩
  · exact ⟨_, rfl, by simp [hl]⟩

/-- C44, C67 (exact optimizer).  The call succeeds exactly when the circuit returns a state and the arguments are valid. -/
theorem C44_succeeds_iff (cs : List (Gate n)) :
    (∃ out, exactLieOptimizer eigh rnd ret (cs.map (fun g => (g.obs.matrix, g.obs.wires))) (gs.map Gate.obs) args = .ok out) ↔
      ret = .state ∧ ∃ N e t rs p rp ru, ExactValid args N e t rs p rp ru := by
  constructor
  · rintro ⟨out, h⟩
    obtain ⟨hr, N, e, t, rs, p, rp, ru, hv, -⟩ := (exact_ok_iff ..).mp h
    exact ⟨hr, N, e, t, rs, p, rp, ru, hv⟩
  · rintro ⟨hr, N, e, t, rs, p, rp, ru, hv⟩
    have hU : ∃ U, compileLoop n (cs.map (fun g => (g.obs.matrix, g.obs.wires))) 1 = .ok U := by
      have := compileCircuit_gates cs
      rw [compileCircuit, List.zip_map'] at this
      exact ⟨_, this⟩
    obtain ⟨U, hU⟩ := hU
    obtain ⟨s, hs⟩ := forRange_total (exactBody eigh rnd (gs.map Gate.obs) e t rs p) (fun k s => s.costs.length = k + 1)
      (fun k s hl => exactBody_total eigh rnd gs e t rs p k s hl) N 0 (exactInit gs rs U) rfl
    exact ⟨_, (exact_ok_iff ..).mpr ⟨hr, N, e, t, rs, p, rp, ru, hv, U, s, hU, hs, rfl⟩⟩

/-- C45.  Without perturbation the run stops after the first step `k ≥ 4` whose cost is close to the previous one, or after `nsteps` steps. -/
theorem C45_first_flat_step (h : exactLieOptimizer eigh rnd ret ops (gs.map Gate.obs) args = .ok out) (hp : args.perturbation = .bool false) :
    ∃ (N : ℕ) (t : Tol), args.nsteps = .int (N : ℤ) ∧ IsTol args.tol t ∧
      (∀ k, 4 ≤ k → k + 2 < (exactCosts out).length → ¬ Close t.spec ((exactCosts out).getD (k + 1) 0) ((exactCosts out).getD k 0)) ∧
      ((exactCosts out).length = N + 1 ∨ ∃ k, 4 ≤ k ∧ k < N ∧ (exactCosts out).length = k + 2 ∧
        Close t.spec ((exactCosts out).getD (k + 1) 0) ((exactCosts out).getD k 0)) ∧
      min N 5 + 1 ≤ (exactCosts out).length := by
  obtain ⟨-, N, e, t, rs, p, rp, ru, hv, V, W, m, r, h0, hrun, rfl, -, hc, -, -⟩ := exact_outcome eigh rnd ret ops gs args out h
  rw [hv.flagP] at hp
  obtain rfl := BoolArg.bool.inj hp
  rw [exactOutput_costs, hc]
  have hl : ((List.range (m + 1)).map (fun k => cost (totalObs gs) (V k))).length = m + 1 := by simp
  have hg : ∀ k ≤ m, ((List.range (m + 1)).map (fun k => cost (totalObs gs) (V k))).getD k 0 = cost (totalObs gs) (V k) :=
    fun k hk => costs_get _ V (m + 1) k (by omega)
  have hb := hrun.bounded
  simp only [exactRules] at hb
  rw [hl]
  refine ⟨N, t, hv.nsteps, hv.tol, ?_, ?_, ?_⟩
  · intro k hk hkm
    rw [hg _ (by omega), hg _ (by omega)]
    exact fun hcl => hrun.notBefore rfl k (by omega) ⟨hk, hcl⟩
  · rcases hrun.ended with he | ⟨-, k, rfl, hk4, hcl⟩
    · exact .inl (congrArg (· + 1) he)
    · refine .inr ⟨k, hk4, by omega, rfl, ?_⟩
      rw [hg _ (by omega), hg _ (by omega)]
      exact hcl
  · rcases hrun.ended with he | ⟨-, k, rfl, hk4, -⟩
    · simp only [exactRules] at he; omega
    · simp only [exactRules] at hk4; omega

/-- C49 (exact optimizer).  With perturbation the run never stops early, and the reported steps are the steps `k ≥ 4` with a flat cost, in increasing order. -/
theorem C49_exact (h : exactLieOptimizer eigh rnd ret ops (gs.map Gate.obs) args = .ok out) (hp : args.perturbation = .bool true) :
    ∃ (N : ℕ) (t : Tol), args.nsteps = .int (N : ℤ) ∧ IsTol args.tol t ∧ (exactCosts out).length = N + 1 ∧
      (args.returnPerturbations = .bool true → ∃ ps, exactPerturbations out = some ps ∧ ps.Pairwise (· < ·) ∧
        ∀ k, k ∈ ps ↔ 4 ≤ k ∧ k < N ∧ Close t.spec ((exactCosts out).getD (k + 1) 0) ((exactCosts out).getD k 0)) := by
  classical
  obtain ⟨-, N, e, t, rs, p, rp, ru, hv, V, W, m, r, h0, hrun, rfl, -, hc, -, hps⟩ := exact_outcome eigh rnd ret ops gs args out h
  rw [hv.flagP] at hp
  obtain rfl := BoolArg.bool.inj hp
  have hm : m = N := by
    rcases hrun.ended with he | ⟨hn, -⟩
    · exact he
    · simp [exactRules] at hn
  subst hm
  rw [exactOutput_costs, hc]
  refine ⟨m, t, hv.nsteps, hv.tol, by simp, fun hr => ?_⟩
  rw [hv.flagR] at hr
  obtain rfl := BoolArg.bool.inj hr
  refine ⟨r.perturbations, by rw [exactOutput_perturbations]; rfl, ?_, ?_⟩
  · rw [hps]
    exact List.Pairwise.filter _ (List.pairwise_lt_range)
  · intro k
    rw [hps]
    simp only [if_true, List.mem_filter, List.mem_range, decide_eq_true_eq]
    constructor
    · rintro ⟨hk, h4, hcl⟩
      refine ⟨h4, hk, ?_⟩
      rw [costs_get _ V (m + 1) _ (by omega), costs_get _ V (m + 1) _ (by omega)]
      exact hcl
    · rintro ⟨h4, hk, hcl⟩
      rw [costs_get _ V (m + 1) _ (by omega), costs_get _ V (m + 1) _ (by omega)] at hcl
      exact ⟨hk, h4, hcl⟩

/-- C49 (exact optimizer).  Asking for the perturbed steps without perturbation raises. -/
theorem C49_exact_needs_perturbation (hp : args.perturbation = .bool false) (hr : args.returnPerturbations = .bool true) :
    exactLieOptimizer eigh rnd ret ops (gs.map Gate.obs) args ≠ .ok out := by
  intro h
  obtain ⟨-, N, e, t, rs, p, rp, ru, hv, -⟩ := (exact_ok_iff ..).mp h
  rw [hv.flagP] at hp
  rw [hv.flagR] at hr
  obtain rfl := BoolArg.bool.inj hp
  obtain rfl := BoolArg.bool.inj hr
  exact absurd (hv.needsP rfl) (by simp)

/-- C52 (exact optimizer).  The shape of the return value. -/
theorem C52_exact (h : exactLieOptimizer eigh rnd ret ops (gs.map Gate.obs) args = .ok out) :
    ∃ rs rp ru, args.returnState = .bool rs ∧ args.returnPerturbations = .bool rp ∧ args.returnUnitary = .bool ru ∧
      ∃ costs states ps U, out = (if rs = false ∧ rp = false ∧ ru = false then OptOut.bare costs
        else .tuple ([.costs costs] ++ (if rs then [.states states] else []) ++ (if rp then [.perturbations ps] else []) ++ (if ru then [.unitary U] else []))) := by
  obtain ⟨-, N, e, t, rs, p, rp, ru, hv, V, W, m, r, h0, hrun, rfl, -⟩ := exact_outcome eigh rnd ret ops gs args out h
  exact ⟨rs, rp, ru, hv.flagS, hv.flagR, hv.flagU, r.costs, r.states, r.perturbations, r.unitary, rfl⟩

/-- C48, without perturbation: the returned unitary has the cost reported last. -/
theorem C48_without_perturbation_partial (h : exactLieOptimizer eigh rnd ret ops (gs.map Gate.obs) args = .ok out) (hp : args.perturbation = .bool false)
    (hu : args.returnUnitary = .bool true) : ∃ U, exactUnitary out = some U ∧ (exactCosts out).getLast? = some (cost (totalObs gs) U) := by
  obtain ⟨-, N, e, t, rs, p, rp, ru, hv, V, W, m, r, h0, hrun, rfl, hW, hc, -, -⟩ := exact_outcome eigh rnd ret ops gs args out h
  rw [hv.flagP] at hp
  rw [hv.flagU] at hu
  obtain rfl := BoolArg.bool.inj hp
  obtain rfl := BoolArg.bool.inj hu
  refine ⟨r.unitary, by rw [exactOutput_unitary]; rfl, ?_⟩
  rw [exactOutput_costs, hc, hW, List.range_succ]
  have : W m = V m := by
    cases m with
    | zero => exact hrun.start
    | succ k => exact hrun.kept k (by omega) (.inr rfl)
  simp [this]

/-- C48, with perturbation: the returned unitary has the cost reported last unless the last step was perturbed. -/
theorem C48_last_step_not_flat_partial (h : exactLieOptimizer eigh rnd ret ops (gs.map Gate.obs) args = .ok out) (hp : args.perturbation = .bool true)
    (hu : args.returnUnitary = .bool true) (t : Tol) (ht : IsTol args.tol t)
    (hl : ∀ k, (exactCosts out).length = k + 2 → 4 ≤ k → ¬ Close t.spec ((exactCosts out).getD (k + 1) 0) ((exactCosts out).getD k 0)) :
    ∃ U, exactUnitary out = some U ∧ (exactCosts out).getLast? = some (cost (totalObs gs) U) := by
  obtain ⟨-, N, e, t', rs, p, rp, ru, hv, V, W, m, r, h0, hrun, rfl, hW, hc, -, -⟩ := exact_outcome eigh rnd ret ops gs args out h
  rw [hv.flagP] at hp
  rw [hv.flagU] at hu
  obtain rfl := BoolArg.bool.inj hp
  obtain rfl := BoolArg.bool.inj hu
  have htt : t = t' := by
    have h1 := (validateTol_iff _ _).mpr ht
    rw [(validateTol_iff _ _).mpr hv.tol] at h1
    exact (Except.ok.inj h1).symm
  subst htt
  refine ⟨r.unitary, by rw [exactOutput_unitary]; rfl, ?_⟩
  rw [exactOutput_costs, hc] at hl
  rw [exactOutput_costs, hc, hW, List.range_succ]
  have : W m = V m := by
    cases m with
    | zero => exact hrun.start
    | succ k =>
      refine hrun.kept k (by omega) (.inl fun hf => ?_)
      refine hl k (by simp) hf.1 ?_
      rw [costs_get _ V (k + 2) _ (by omega), costs_get _ V (k + 2) _ (by omega)]
      exact hf.2
  simp [this]

end Oranssi
