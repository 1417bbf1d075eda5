import Verif.Props.ApproxOptimizer
import Verif.Props.ExactOptimizer
import Verif.Props.LieLayersMore
import Verif.Props.Zassenhaus
import Verif.Lemmas.OneQubit

/-! # C41, C46, C49 - C54 for `approximate_lie_optimizer` -/

namespace Oranssi
open Spec
open scoped Matrix

/-! ### Reading the output -/

/-- The list of costs in the output. -/
def approxCosts {n : ℕ} : OptOut (ApproxItem n) → List ℝ
  | .bare c => c
  | .tuple (.costs c :: _) => c
  | .tuple _ => []

/-- The list of states in the output. -/
def approxStates {n : ℕ} : OptOut (ApproxItem n) → Option (List (Ket n))
  | .bare _ => none
  | .tuple l => l.findSome? (fun x => match x with | .states s => some s | _ => none)

/-- The list of direction dictionaries in the output. -/
def approxOmegas {n : ℕ} : OptOut (ApproxItem n) → Option (List (List (String × ℝ)))
  | .bare _ => none
  | .tuple l => l.findSome? (fun x => match x with | .omegas s => some s | _ => none)

/-- The list of unitaries in the output. -/
def approxUnitaries {n : ℕ} : OptOut (ApproxItem n) → Option (List (QMat n))
  | .bare _ => none
  | .tuple l => l.findSome? (fun x => match x with | .unitaries s => some s | _ => none)

/-- The list of gates in the output. -/
def approxGates {n : ℕ} : OptOut (ApproxItem n) → Option (List (List (NpMat × List ℤ)))
  | .bare _ => none
  | .tuple l => l.findSome? (fun x => match x with | .gates s => some s | _ => none)

/-- The list of perturbed steps in the output. -/
def approxPerturbations {n : ℕ} : OptOut (ApproxItem n) → Option (List ℕ)
  | .bare _ => none
  | .tuple l => l.findSome? (fun x => match x with | .perturbations s => some s | _ => none)

/-- The list of Zassenhaus phases in the output. -/
def approxZassenhaus {n : ℕ} : OptOut (ApproxItem n) → Option (List (Option Phase))
  | .bare _ => none
  | .tuple l => l.findSome? (fun x => match x with | .zassenhaus s => some s | _ => none)

theorem approxOutput_read {n : ℕ} (r : ApproxResult n) (F : ApproxFlags) :
    approxCosts (approxOutput r F) = r.costs ∧ approxStates (approxOutput r F) = (if F.returnState then some r.states else none) ∧
    approxOmegas (approxOutput r F) = (if F.returnOmegas then some r.omegas else none) ∧
    approxUnitaries (approxOutput r F) = (if F.returnUnitary then some r.unitaries else none) ∧
    approxGates (approxOutput r F) = (if F.returnGates then some r.gates else none) ∧
    approxPerturbations (approxOutput r F) = (if F.returnPerturbations then some r.perturbations else none) ∧
    approxZassenhaus (approxOutput r F) = (if F.returnZassenhaus then some r.zassenhaus else none) := by
  obtain ⟨a, b, c, d, p, e, f⟩ := F
  cases a <;> cases b <;> cases c <;> cases d <;> cases e <;> cases f <;> exact ⟨rfl, rfl, rfl, rfl, rfl, rfl, rfl⟩

variable {n m : ℕ} (E : LayerEnv n) (eigh : EighFn n) (rnd : ℕ → Matrix (Fin (2 ^ n)) (Fin (2 ^ n)) ℝ) (ret : CircuitRet) (ops : List (NpMat × List ℤ))
  (params : List (List ℝ)) (gs : List (Gate n)) (objs : Fin m → AnyLayer n) (layers : List (Fin m)) (args : ApproxArgs)
  (out : OptOut (ApproxItem n) × (Fin m → AnyLayer n))

/-- C50.  `V k` is the circuit (with the parameters and the layer objects) after `k` steps, `W k` is where step `k` starts: `V k`, or its perturbation.
Step `k` calls the layer `k mod len(layers)`; the costs, states and unitaries are those of `V 0, …, V j`, and there is one entry of `omegas` and
`zassenhaus` per step. -/
theorem C50_trace (h : approximateLieOptimizer E eigh rnd ret ops params (gs.map Gate.obs) objs layers args = .ok out) :
    ∃ N : ℕ, args.nsteps = .int (N : ℤ) ∧ ∃ e : ℝ, args.eta = .float e ∧ ∃ (V W : ℕ → World n m) (j : ℕ), 1 ≤ j ∧ j ≤ N ∧
      compileLoop n ops 1 = .ok (V 0).U ∧ (V 0).params = params ∧ (V 0).objs = objs ∧ out.2 = (V j).objs ∧
      (∀ k < j, ∃ i L', layers[k % layers.length]? = some i ∧ ((W k).objs i).call E (W k).params (W k).U = .ok ((V (k + 1)).U, (V (k + 1)).params, L') ∧
        (V (k + 1)).objs = Function.update (W k).objs i L') ∧
      W 0 = V 0 ∧ (args.perturb = .bool false → ∀ k ≤ j, W k = V k) ∧
      (∀ k ≤ j, (W k).objs = (V k).objs ∧ (W k).params = (V k).params) ∧
      (∀ k < j, W (k + 1) = V (k + 1) ∨ (W (k + 1)).U = perturb eigh e (rnd k) (V (k + 1)).U) ∧
      (approxCosts out.1).length = j + 1 ∧ (∀ k ≤ j, (approxCosts out.1)[k]? = some (cost (totalObs gs) (V k).U)) ∧
      (args.returnState = .bool true → ∃ l, approxStates out.1 = some l ∧ l.length = j + 1 ∧ ∀ k ≤ j, l[k]? = some (fun i => (V k).U i 0)) ∧
      (args.returnUnitary = .bool true → ∃ l, approxUnitaries out.1 = some l ∧ l.length = j + 1 ∧ ∀ k ≤ j, l[k]? = some (V k).U) ∧
      (args.returnOmegas = .bool true → ∃ l, approxOmegas out.1 = some l ∧ l.length = j ∧
        ∀ k < j, ∃ i d, layers[k % layers.length]? = some i ∧ ((V (k + 1)).objs i).directionsDict (V (k + 1)).U = .ok d ∧ l[k]? = some d) ∧
      (args.returnZassenhaus = .bool true → ∃ l, approxZassenhaus out.1 = some l ∧ l.length = j ∧
        ∀ k < j, ∃ i, layers[k % layers.length]? = some i ∧ l[k]? = some ((W k).objs i).suState) := by
  obtain ⟨-, N, e, t, F, hv, V, W, j, r, h0, hp0, ho0, hrun, rfl, hc, hst, hun, -, -, hz, ho⟩ := approx_outcome E eigh rnd ret ops params gs objs layers args out h
  obtain ⟨r1, r2, r3, r4, r5, r6, r7⟩ := approxOutput_read r F
  have hj1 : 1 ≤ j := by
    rcases hrun.ended with he | ⟨-, k, rfl, -⟩
    · have := hv.pos
      have he' : j = N := he
      omega
    · omega
  have hWV : ∀ k ≤ j, (W k).objs = (V k).objs ∧ (W k).params = (V k).params := by
    intro k hk
    cases k with
    | zero => rw [hrun.start]; exact ⟨rfl, rfl⟩
    | succ k =>
      by_cases hf : (approxRules E eigh rnd gs layers N e t F.perturb).Flat V k
      · cases hp : F.perturb with
        | true =>
          rw [hp] at hrun hf
          rw [hrun.kicked k hk hf _ rfl]
          exact ⟨rfl, rfl⟩
        | false =>
          rw [hp] at hrun hf
          rw [hrun.kept k hk (.inr rfl)]
          exact ⟨rfl, rfl⟩
      · rw [hrun.kept k hk (.inl hf)]
        exact ⟨rfl, rfl⟩
  refine ⟨N, hv.nsteps, e, hv.eta, V, W, j, hj1, hrun.bounded, h0, hp0, ho0, (hWV j le_rfl).1, hrun.advance, hrun.start, ?_, hWV, ?_, ?_, ?_, ?_, ?_, ?_, ?_⟩
  · intro hp k hk
    rw [hv.flagP] at hp
    have hp := BoolArg.bool.inj hp
    cases k with
    | zero => exact hrun.start
    | succ k => exact hrun.kept k (by omega) (.inr (by simp [approxRules, hp]))
  · intro k hk
    by_cases hf : (approxRules E eigh rnd gs layers N e t F.perturb).Flat V k
    · cases hp : F.perturb with
      | true =>
        rw [hp] at hrun hf
        rw [hrun.kicked k hk hf _ rfl]
        exact .inr rfl
      | false =>
        rw [hp] at hrun hf
        exact .inl (hrun.kept k hk (.inr rfl))
    · exact .inl (hrun.kept k hk (.inl hf))
  · rw [r1, hc]; simp
  · intro k hk
    rw [r1, hc]
    simp [show k < j + 1 by omega]
  · intro hf
    rw [hv.flagS] at hf
    have hf := BoolArg.bool.inj hf
    rw [if_pos hf] at r2 hst
    refine ⟨_, r2, by rw [hst]; simp, fun k hk => ?_⟩
    rw [hst, List.getElem?_map, List.getElem?_range (by omega)]
    rfl
  · intro hf
    rw [hv.flagU] at hf
    have hf := BoolArg.bool.inj hf
    rw [if_pos hf] at r4 hun
    refine ⟨_, r4, by rw [hun]; simp, fun k hk => ?_⟩
    rw [hun, List.getElem?_map, List.getElem?_range (by omega)]
    rfl
  · intro hf
    rw [hv.flagO] at hf
    have hf := BoolArg.bool.inj hf
    rw [if_pos hf] at r3
    refine ⟨_, r3, (ho hf).1, fun k hk => ?_⟩
    obtain ⟨d, ⟨i, hi, hd⟩, hl⟩ := (ho hf).2 k hk
    exact ⟨i, d, hi, hd, hl⟩
  · intro hf
    rw [hv.flagZ] at hf
    have hf := BoolArg.bool.inj hf
    rw [if_pos hf] at r7
    refine ⟨_, r7, (hz hf).1, fun k hk => ?_⟩
    obtain ⟨x, ⟨i, hi, rfl⟩, hl⟩ := (hz hf).2 k hk
    exact ⟨i, hi, hl⟩

/-- C50.  Without layers the optimizer raises `StopIteration`. -/
theorem C50_empty_layers : approximateLieOptimizer E eigh rnd ret ops params (gs.map Gate.obs) objs [] args ≠ .ok out := by
  intro h
  obtain ⟨N, -, e, -, V, W, j, hj, -, -, -, -, -, hs, -⟩ := C50_trace E eigh rnd ret ops params gs objs [] args out h
  obtain ⟨i, L', hi, -⟩ := hs 0 hj
  cases hi

/-- C51.  With a tolerance and without perturbation the run stops after the first step `k ≥ 9` whose cost is close to the cost five steps
earlier, or after `nsteps` steps. -/
theorem C51_first_flat_step (h : approximateLieOptimizer E eigh rnd ret ops params (gs.map Gate.obs) objs layers args = .ok out)
    (hp : args.perturb = .bool false) (v : PyVal) (ht : args.tol = some v) :
    ∃ (N : ℕ) (t : Tol), args.nsteps = .int (N : ℤ) ∧ IsTol v t ∧
      (∀ k, 9 ≤ k → k + 2 < (approxCosts out.1).length → ¬ Close t.spec ((approxCosts out.1).getD (k + 1) 0) ((approxCosts out.1).getD (k - 4) 0)) ∧
      ((approxCosts out.1).length = N + 1 ∨ ∃ k, 9 ≤ k ∧ k < N ∧ (approxCosts out.1).length = k + 2 ∧
        Close t.spec ((approxCosts out.1).getD (k + 1) 0) ((approxCosts out.1).getD (k - 4) 0)) ∧
      min N 10 + 1 ≤ (approxCosts out.1).length := by
  obtain ⟨-, N, e, t, F, hv, V, W, j, r, h0, hp0, ho0, hrun, rfl, hc, -⟩ := approx_outcome E eigh rnd ret ops params gs objs layers args out h
  obtain ⟨r1, -⟩ := approxOutput_read r F
  rw [hv.flagP] at hp
  have hp := BoolArg.bool.inj hp
  rw [hp] at hrun
  have htt := hv.tol
  rw [ht] at htt
  cases t with
  | none => cases htt
  | some t =>
  rw [r1, hc]
  have hl : ((List.range (j + 1)).map (fun k => cost (totalObs gs) (V k).U)).length = j + 1 := by simp
  have hg : ∀ k ≤ j, ((List.range (j + 1)).map (fun k => cost (totalObs gs) (V k).U)).getD k 0 = cost (totalObs gs) (V k).U :=
    fun k hk => costs_get (fun w : World n m => cost (totalObs gs) w.U) V (j + 1) k (by omega)
  have hb := hrun.bounded
  simp only [approxRules] at hb
  rw [hl]
  refine ⟨N, t, hv.nsteps, htt, ?_, ?_, ?_⟩
  · intro k hk hkm
    rw [hg _ (by omega), hg _ (by omega)]
    exact fun hcl => hrun.notBefore rfl k (by omega) ⟨hk, t, rfl, hcl⟩
  · rcases hrun.ended with he | ⟨-, k, rfl, hk9, t', ht', hcl⟩
    · exact .inl (congrArg (· + 1) he)
    · cases ht'
      simp only [approxRules] at hk9
      refine .inr ⟨k, hk9, by omega, rfl, ?_⟩
      rw [hg _ (by omega), hg _ (by omega)]
      exact hcl
  · rcases hrun.ended with he | ⟨-, k, rfl, hk9, -⟩
    · simp only [approxRules] at he; omega
    · simp only [approxRules] at hk9; omega

/-- C51.  With `tol=None` the run executes `nsteps` steps, with or without perturbation, and perturbs nothing. -/
theorem C51_no_tolerance (h : approximateLieOptimizer E eigh rnd ret ops params (gs.map Gate.obs) objs layers args = .ok out) (ht : args.tol = none) :
    ∃ N : ℕ, args.nsteps = .int (N : ℤ) ∧ (approxCosts out.1).length = N + 1 ∧
      (args.returnPerturbations = .bool true → approxPerturbations out.1 = some []) := by
  classical
  obtain ⟨-, N, e, t, F, hv, V, W, j, r, h0, hp0, ho0, hrun, rfl, hc, -, -, hps, -⟩ := approx_outcome E eigh rnd ret ops params gs objs layers args out h
  obtain ⟨r1, -, -, -, -, r6, -⟩ := approxOutput_read r F
  have htt := hv.tol
  rw [ht] at htt
  cases t with
  | some t => cases htt
  | none =>
  have hnf : ∀ k, ¬ (approxRules E eigh rnd gs layers N e none F.perturb).Flat V k := by
    rintro k ⟨-, t, ht, -⟩
    cases ht
  refine ⟨N, hv.nsteps, ?_, fun hr => ?_⟩
  · rw [r1, hc]
    rcases hrun.ended with he | ⟨-, k, -, hk⟩
    · have he' : j = N := he
      simp [he']
    · exact absurd hk (hnf k)
  · rw [hv.flagR] at hr
    rw [r6, if_pos (BoolArg.bool.inj hr), hps]
    split
    · rw [List.filter_eq_nil_iff.mpr (fun k _ => by simpa using hnf k)]
    · rfl

/-- C49 (approximate optimizer).  With perturbation and a tolerance the run never stops early, and the reported steps are the steps `k ≥ 9` with a flat
cost, in increasing order. -/
theorem C49_approx (h : approximateLieOptimizer E eigh rnd ret ops params (gs.map Gate.obs) objs layers args = .ok out)
    (hp : args.perturb = .bool true) (v : PyVal) (ht : args.tol = some v) :
    ∃ (N : ℕ) (t : Tol), args.nsteps = .int (N : ℤ) ∧ IsTol v t ∧ (approxCosts out.1).length = N + 1 ∧
      (args.returnPerturbations = .bool true → ∃ ps, approxPerturbations out.1 = some ps ∧ ps.Pairwise (· < ·) ∧
        ∀ k, k ∈ ps ↔ 9 ≤ k ∧ k < N ∧ Close t.spec ((approxCosts out.1).getD (k + 1) 0) ((approxCosts out.1).getD (k - 4) 0)) := by
  classical
  obtain ⟨-, N, e, t, F, hv, V, W, j, r, h0, hp0, ho0, hrun, rfl, hc, -, -, hps, -⟩ := approx_outcome E eigh rnd ret ops params gs objs layers args out h
  obtain ⟨r1, -, -, -, -, r6, -⟩ := approxOutput_read r F
  rw [hv.flagP] at hp
  have hp := BoolArg.bool.inj hp
  rw [hp] at hrun hps
  have htt := hv.tol
  rw [ht] at htt
  cases t with
  | none => cases htt
  | some t =>
  have hm : j = N := by
    rcases hrun.ended with he | ⟨hn, -⟩
    · exact he
    · simp [approxRules] at hn
  subst hm
  have hg : ∀ k ≤ j, ((List.range (j + 1)).map (fun k => cost (totalObs gs) (V k).U)).getD k 0 = cost (totalObs gs) (V k).U :=
    fun k hk => costs_get (fun w : World n m => cost (totalObs gs) w.U) V (j + 1) k (by omega)
  rw [r1, hc]
  refine ⟨j, t, hv.nsteps, htt, by simp, fun hr => ?_⟩
  rw [hv.flagR] at hr
  refine ⟨r.perturbations, by rw [r6, if_pos (BoolArg.bool.inj hr)], ?_, ?_⟩
  · rw [hps]
    exact List.Pairwise.filter _ (List.pairwise_lt_range)
  · intro k
    rw [hps]
    simp only [if_true, List.mem_filter, List.mem_range, decide_eq_true_eq]
    constructor
    · rintro ⟨hk, h9, t', ht', hcl⟩
      cases ht'
      simp only [approxRules] at h9
      refine ⟨h9, hk, ?_⟩
      rw [hg _ (by omega), hg _ (by omega)]
      exact hcl
    · rintro ⟨h9, hk, hcl⟩
      rw [hg _ (by omega), hg _ (by omega)] at hcl
      exact ⟨hk, h9, t, rfl, hcl⟩

/-- C49 (approximate optimizer).  Without perturbation the reported list is empty. -/
theorem C49_approx_without (h : approximateLieOptimizer E eigh rnd ret ops params (gs.map Gate.obs) objs layers args = .ok out)
    (hp : args.perturb = .bool false) (hr : args.returnPerturbations = .bool true) : approxPerturbations out.1 = some [] := by
  classical
  obtain ⟨-, N, e, t, F, hv, V, W, j, r, h0, hp0, ho0, hrun, rfl, hc, -, -, hps, -⟩ := approx_outcome E eigh rnd ret ops params gs objs layers args out h
  obtain ⟨r1, -, -, -, -, r6, -⟩ := approxOutput_read r F
  rw [hv.flagP] at hp
  rw [hv.flagR] at hr
  rw [r6, if_pos (BoolArg.bool.inj hr), hps, if_neg (by simp [BoolArg.bool.inj hp])]

/-- C52 (approximate optimizer).  The shape of the return value. -/
theorem C52_approx (h : approximateLieOptimizer E eigh rnd ret ops params (gs.map Gate.obs) objs layers args = .ok out) :
    ∃ rs ro ru rg rp rz, args.returnState = .bool rs ∧ args.returnOmegas = .bool ro ∧ args.returnUnitary = .bool ru ∧ args.returnGates = .bool rg ∧
      args.returnPerturbations = .bool rp ∧ args.returnZassenhaus = .bool rz ∧
      ∃ costs states omegas us gates ps zs, out.1 = (if rs = false ∧ ro = false ∧ ru = false ∧ rg = false ∧ rp = false ∧ rz = false then OptOut.bare costs
        else .tuple ([.costs costs] ++ (if rs then [.states states] else []) ++ (if ro then [.omegas omegas] else []) ++ (if ru then [.unitaries us] else []) ++
          (if rg then [.gates gates] else []) ++ (if rp then [.perturbations ps] else []) ++ (if rz then [.zassenhaus zs] else []))) := by
  obtain ⟨-, N, e, t, F, hv, V, W, j, r, -, -, -, -, rfl, -⟩ := approx_outcome E eigh rnd ret ops params gs objs layers args out h
  exact ⟨_, _, _, _, _, _, hv.flagS, hv.flagO, hv.flagU, hv.flagG, hv.flagR, hv.flagZ, r.costs, r.states, r.omegas, r.unitaries, r.gates, r.perturbations, r.zassenhaus, rfl⟩

/-- C53 is false: whatever is run, the list of gates is empty, although at least one step was executed. -/
theorem C53_refuted (h : approximateLieOptimizer E eigh rnd ret ops params (gs.map Gate.obs) objs layers args = .ok out)
    (hg : args.returnGates = .bool true) : approxGates out.1 = some [] ∧ 2 ≤ (approxCosts out.1).length := by
  obtain ⟨-, -, e, -, V, W, j, hj, -, -, -, -, -, -, -, -, -, -, hl, -⟩ := C50_trace E eigh rnd ret ops params gs objs layers args out h
  obtain ⟨-, N, e, t, F, hv, V, W, j, r, -, -, -, -, rfl, -, -, -, -, hgr, -⟩ := approx_outcome E eigh rnd ret ops params gs objs layers args out h
  obtain ⟨r1, -, -, -, r5, -⟩ := approxOutput_read r F
  rw [hv.flagG] at hg
  exact ⟨by rw [r5, if_pos (BoolArg.bool.inj hg), hgr], by omega⟩

/-- C46 (approximate optimizer).  A run that stops early has a change over the last five steps of at most `tol + 1e-5 |cost five steps earlier|`. -/
theorem C46_approx_bound_partial (h : approximateLieOptimizer E eigh rnd ret ops params (gs.map Gate.obs) objs layers args = .ok out)
    (N : ℕ) (hN : args.nsteps = .int (N : ℤ)) (x : ℝ) (ht : args.tol = some (.float x)) (j : ℕ) (hj : (approxCosts out.1).length = j + 1) (hs : j < N) :
    9 < j ∧ |(approxCosts out.1).getD j 0 - (approxCosts out.1).getD (j - 5) 0| ≤ x + 1e-5 * |(approxCosts out.1).getD (j - 5) 0| := by
  have hpf : args.perturb = .bool false := by
    obtain ⟨-, N', e, t, F, hv, -⟩ := (approx_ok_iff ..).mp h
    cases hp : F.perturb with
    | false => rw [hv.flagP, hp]
    | true =>
      obtain ⟨N'', t', hN'', -, hl, -⟩ := C49_approx E eigh rnd ret ops params gs objs layers args out h (by rw [hv.flagP, hp]) _ ht
      rw [hN] at hN''
      have : N = N'' := by exact_mod_cast NArg.int.inj hN''
      omega
  obtain ⟨N', t, hN', htt, -, hend, -⟩ := C51_first_flat_step E eigh rnd ret ops params gs objs layers args out h hpf _ ht
  rw [hN] at hN'
  have hNN : N = N' := by exact_mod_cast NArg.int.inj hN'
  rcases hend with he | ⟨k, hk, -, hl, hcl⟩
  · omega
  · obtain rfl : j = k + 1 := by omega
    refine ⟨by omega, ?_⟩
    rw [show k + 1 - 5 = k - 4 by omega]
    refine hcl x ?_
    cases t with
    | fin y => rw [PyVal.float.inj htt.1]; rfl
    | inf => cases htt

/-! ### C41: the reported phase -/

/-- How often the object `i` was called in the first `k` steps. -/
def callsBefore {m : ℕ} (layers : List (Fin m)) (i : Fin m) (k : ℕ) : ℕ := ((List.range k).filter (fun j => layers[j % layers.length]? = some i)).length

theorem callsBefore_succ {m : ℕ} (layers : List (Fin m)) (i : Fin m) (k : ℕ) :
    callsBefore layers i (k + 1) = if layers[k % layers.length]? = some i then callsBefore layers i k + 1 else callsBefore layers i k := by
  rw [callsBefore, List.range_succ, List.filter_append]
  by_cases h : layers[k % layers.length]? = some i <;> simp [h, callsBefore]

/-- C41 (the optimizer).  When the layers contain a Zassenhaus layer with ratio `r`, the value reported for a step that calls it is the phase that this
call executes, and over the calls of this layer these phases follow the schedule.  `V`, `W` are as in C50. -/
theorem C41_reported (h : approximateLieOptimizer E eigh rnd ret ops params (gs.map Gate.obs) objs layers args = .ok out)
    (hz : args.returnZassenhaus = .bool true) (i : Fin m) (hs : List (Gate n)) (la : LayerArgs) (b1 b2 : Bool) (r : ℤ × ℤ) (L : ZassLayer n)
    (hL : zassLayer n (hs.map Gate.obs) la b1 b2 r = .ok L) (ho : objs i = .zass L) :
    ∃ (V W : ℕ → World n m) (j : ℕ) (zs : List (Option Phase)), (V 0).objs = objs ∧ W 0 = V 0 ∧ (approxCosts out.1).length = j + 1 ∧
      (∀ k ≤ j, (approxCosts out.1)[k]? = some (cost (totalObs gs) (V k).U) ∧ (W k).objs = (V k).objs) ∧ (∀ k < j, LayerStep E layers k (W k) (V (k + 1))) ∧
      approxZassenhaus out.1 = some zs ∧ zs.length = j ∧
      ∀ k < j, layers[k % layers.length]? = some i → ∃ Lk Lk' : ZassLayer n, (W k).objs i = .zass Lk ∧ (V (k + 1)).objs i = .zass Lk' ∧
        (Scheduled (max 1 r.1.toNat) (max 1 r.2.toNat) (callsBefore layers i k) →
          zs[k]? = some (some .su4) ∧ Lk.callSu4 (W k).U = .ok ((V (k + 1)).U, Lk')) ∧
        (¬ Scheduled (max 1 r.1.toNat) (max 1 r.2.toNat) (callsBefore layers i k) →
          zs[k]? = some (some .su8) ∧ Lk.callSu8 E.ord (W k).U = .ok ((V (k + 1)).U, Lk')) := by
  obtain ⟨N, -, e, -, V, W, j, hj, -, -, -, hV0, -, hstep, hW0, -, hWV, -, hl, hcs, -, -, -, hzs⟩ :=
    C50_trace E eigh rnd ret ops params gs objs layers args out h
  obtain ⟨zs, hzo, hzl, hze⟩ := hzs hz
  refine ⟨V, W, j, zs, hV0, hW0, hl, fun k hk => ⟨hcs k hk, (hWV k hk).1⟩, hstep, hzo, hzl, ?_⟩
  obtain ⟨-, -, -, -, -, hr, hc, hp, -⟩ := zassLayer_inv hL
  have p1 : 1 ≤ stepsOf r.1 := by simp only [stepsOf]; omega
  have hat : ∀ k ≤ j, ∃ Lk, (W k).objs i = .zass Lk ∧ ZassAt r (callsBefore layers i k) Lk := by
    intro k
    induction k with
    | zero =>
      intro _
      exact ⟨L, by rw [hW0, hV0, ho], hr, 0, by simp [callsBefore], Or.inl ⟨by omega, hp, by simpa using hc⟩⟩
    | succ k ih =>
      intro hk
      obtain ⟨Lk, hLk, hA⟩ := ih (by omega)
      obtain ⟨i', L', hi', hcall, hup⟩ := hstep k (by omega)
      rw [(hWV (k + 1) hk).1, hup, callsBefore_succ, hi']
      by_cases hii : i' = i
      · subst hii
        rw [if_pos rfl, Function.update_self]
        rw [hLk, AnyLayer.call] at hcall
        obtain ⟨x, hx, hres⟩ := bind_ok_iff.mp hcall
        have hL' : L' = .zass x.2 := (congrArg (fun z => z.2.2) (Except.ok.inj hres)).symm
        exact ⟨x.2, hL', zassAt_step (V := x.1) hA hx⟩
      · rw [if_neg (by simpa using hii), Function.update_of_ne (fun h => hii h.symm)]
        exact ⟨Lk, hLk, hA⟩
  intro k hk hi
  obtain ⟨Lk, hLk, -, x, hx, hcase⟩ := hat k hk.le
  obtain ⟨i1, hi1, hzk⟩ := hze k hk
  obtain ⟨i2, L', hi2, hcall, hup⟩ := hstep k hk
  rw [hi] at hi1 hi2
  cases hi1
  cases hi2
  rw [hLk] at hzk
  rw [hLk, AnyLayer.call] at hcall
  obtain ⟨y, hy, hres⟩ := bind_ok_iff.mp hcall
  have hVU : (V (k + 1)).U = y.1 := (congrArg Prod.fst (Except.ok.inj hres)).symm
  have hL' : L' = .zass y.2 := (congrArg (fun z => z.2.2) (Except.ok.inj hres)).symm
  obtain ⟨-, -, -, -, -, -, h4, h8⟩ := zass_call_phase (V := y.1) (L' := y.2) hy
  refine ⟨Lk, y.2, hLk, by rw [hup, Function.update_self, hL'], ?_, ?_⟩
  · intro hS
    have hS' : x < stepsOf r.1 := by rw [hx]; exact hS
    rcases hcase with ⟨-, hq, -⟩ | ⟨hq, -⟩
    · exact ⟨by rw [hzk, AnyLayer.suState, hq], by rw [hVU]; exact (h4 hq).1⟩
    · omega
  · intro hS
    have hS' : ¬ x < stepsOf r.1 := by rw [hx]; exact hS
    rcases hcase with ⟨hq, -⟩ | ⟨-, hq, -⟩
    · omega
    · exact ⟨by rw [hzk, AnyLayer.suState, hq], by rw [hVU]; exact (h8 hq).1⟩

end Oranssi
