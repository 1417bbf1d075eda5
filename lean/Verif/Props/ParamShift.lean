import Verif.Lemmas.Optimizers
import Verif.Lemmas.OneQubit

/-! # C46, C52, C55, C69 for `parameter_shift_optimizer` -/

namespace Oranssi
open Spec
open scoped Matrix

variable {n : ℕ} {P : Type} (gd : ℝ → (P → Py ℝ) → P → Py P) (ret : CircuitRet) (circuit : P → Py (List (NpMat × List ℤ))) (params : P)
  (observables : List Obs) (args : PsArgs) (out : OptOut (PsItem n P))

/-- The value of a computation that did not raise. -/
def okOr0 (x : Py ℝ) : ℝ := match x with | .ok c => c | .error _ => 0

/-- The rules of a run of `parameter_shift_optimizer`. -/
noncomputable def psRules (n : ℕ) (gd : ℝ → (P → Py ℝ) → P → Py P) (circuit : P → Py (List (NpMat × List ℤ))) (observables : List Obs) (N : ℕ) (e : ℝ)
    (t : Tol) (rs : Bool) : Rules P where
  nsteps := N
  first := 3
  lag := 1
  close := Close t.spec
  cost := fun p => okOr0 (psCost n circuit observables p)
  step := fun _ p q => gd e (psCost n circuit observables) p = .ok q ∧ (∃ c, psCost n circuit observables q = .ok c) ∧
    (rs = true → ∃ U, circuitUnitary n circuit q = .ok U)
  kick := none

/-- The values that `parameter_shift_optimizer` can return. -/
structure PsResult (n : ℕ) (P : Type) where
  costs : List ℝ
  states : List (Ket n)
  params : List P

/-- The documented return value. -/
def psOutput (r : PsResult n P) (rs rp : Bool) : OptOut (PsItem n P) :=
  if rs = false ∧ rp = false then .bare r.costs
  else .tuple ([.costs r.costs] ++ (if rs then [.states r.states] else []) ++ (if rp then [.params r.params] else []))

/-- The flag `return_params` as an integer. -/
def boolFlag (b : Bool) : FlagVal := .int (if b then 1 else 0)

theorem psOut_bool (s : PsState n P) (rs rp : Bool) : psOut s rs (boolFlag rp) = .ok (psOutput ⟨s.costs, s.states, s.paramsPerStep⟩ rs rp) := by
  cases rs <;> cases rp <;> simp [psOut, boolFlag, psOutput]

theorem psOut_same {s : PsState n P} {rs : Bool} {f : FlagVal} {o : OptOut (PsItem n P)} (h : psOut s rs f = .ok o) : ∃ k, f = .int k := by
  cases f with
  | int k => exact ⟨k, rfl⟩
  | other b => simp [psOut] at h

/-- The arguments are valid, with the given meaning (`return_params` is not checked). -/
structure PsValid (args : PsArgs) (N : ℕ) (e : ℝ) (t : Tol) (rs : Bool) : Prop where
  nsteps : args.nsteps = .int (N : ℤ)
  pos : 1 ≤ N
  eta : args.eta = .float e
  eta0 : 0 ≤ e
  eta1 : e ≤ 1
  tol : IsTol args.tol t
  flagS : args.returnState = .bool rs

theorem ps_ok_iff : parameterShiftOptimizer gd ret circuit params observables args = .ok out ↔ (∃ ops, circuit params = .ok ops) ∧ ret = .nothing ∧
    ∃ N e t rs, PsValid args N e t rs ∧ ∃ states c s, (if rs then (do let U ← circuitUnitary n circuit params; .ok [stateFromUnitary U]) else .ok [] : Py (List (Ket n))) = .ok states ∧
      psCost n circuit observables params = .ok c ∧
      pyForRange (psBody gd circuit observables e t rs args.returnParams.truthy) 0 N
        { params := params, costs := [c], states := states, paramsPerStep := if args.returnParams.truthy then [params] else [] } = .ok s ∧
      psOut s rs args.returnParams = .ok out := by
  unfold parameterShiftOptimizer
  simp only [bind_ok_iff, validateNsteps_iff, validateEta_iff, validateTol_iff, validateBool_iff]
  constructor
  · rintro ⟨ops, ho, _, hr, N, ⟨hN, hN1⟩, e, ⟨he, he0, he1⟩, t, ht, rs, hrs, states, hst, c, hc, s, hs, hout⟩
    refine ⟨⟨ops, ho⟩, ?_, N, e, t, rs, ⟨hN, hN1, he, he0, he1, ht, hrs⟩, states, c, s, hst, hc, hs, hout⟩
    by_contra h
    rw [if_neg h] at hr
    cases hr
  · rintro ⟨⟨ops, ho⟩, hr, N, e, t, rs, hv, states, c, s, hst, hc, hs, hout⟩
    exact ⟨ops, ho, (), by rw [if_pos hr], N, ⟨hv.nsteps, hv.pos⟩, e, ⟨hv.eta, hv.eta0, hv.eta1⟩, t, hv.tol, rs, hv.flagS, states, hst, c, hc, s, hs, hout⟩

/-- What a step of `parameter_shift_optimizer` appends to the lists. -/
def psLog (circuit : P → Py (List (NpMat × List ℤ))) (rs rp : Bool) (_k : ℕ) (s : PsState n P) (v : P) (s' : PsState n P) : Prop :=
  (rs = true → ∃ U, circuitUnitary n circuit v = .ok U ∧ s'.states = s.states ++ [stateFromUnitary U]) ∧ (rs = false → s'.states = s.states) ∧
  s'.paramsPerStep = (if rp then s.paramsPerStep ++ [v] else s.paramsPerStep)

theorem psBody_step (N : ℕ) (e : ℝ) (t : Tol) (rs rp : Bool) (k : ℕ) (s s' : PsState n P) (b : Bool)
    (h : psBody gd circuit observables e t rs rp k s = .ok (s', b)) (hl : s.costs.length = k + 1) :
    ∃ v, BodyStep (psRules n gd circuit observables N e t rs) PsState.params PsState.costs k s v s' b ∧ psLog circuit rs rp k s v s' := by
  unfold psBody at h
  simp only [bind_ok_iff] at h
  obtain ⟨v, hv, c, hc, states, hst, h⟩ := h
  have hcost : (psRules n gd circuit observables N e t rs).cost v = c := by
    change okOr0 _ = c; rw [hc]; rfl
  have hlogS : (rs = true → ∃ U, circuitUnitary n circuit v = .ok U ∧ states = s.states ++ [stateFromUnitary U]) ∧ (rs = false → states = s.states) := by
    cases rs with
    | true =>
      simp only [if_true, bind_ok_iff] at hst
      obtain ⟨U, hU, hst⟩ := hst
      exact ⟨fun _ => ⟨U, hU, (Except.ok.inj hst).symm⟩, fun h => by simp at h⟩
    | false =>
      simp only [Bool.false_eq_true, if_false] at hst
      exact ⟨fun h => by simp at h, fun _ => (Except.ok.inj hst).symm⟩
  have hstep : (psRules n gd circuit observables N e t rs).step k s.params v :=
    ⟨hv, ⟨c, hc⟩, fun hr => by obtain ⟨U, hU, -⟩ := hlogS.1 hr; exact ⟨U, hU⟩⟩
  have hfl : FlatAt (psRules n gd circuit observables N e t rs) s.costs k v ↔ k > 2 ∧ isCloseTol c ((s.costs ++ [c]).getD k 0) t = true := by
    rw [isCloseTol_iff, FlatAt, hcost]; rfl
  have h1 : pyGetItem (s.costs ++ [c]) (-1) = .ok c := getItem_last
  have h2 : pyGetItem (s.costs ++ [c]) (-2) = .ok ((s.costs ++ [c]).getD k 0) := by
    have := getItem_neg (s.costs ++ [c]) 1 (by simp [hl])
    rw [show (s.costs ++ [c]).length - 1 - 1 = k by simp [hl]] at this
    exact this
  refine ⟨v, ?_⟩
  by_cases h3 : k > 2
  · rw [if_pos h3] at h
    simp only [bind_ok_iff, h1, h2, Except.ok.injEq] at h
    obtain ⟨a, rfl, b', rfl, h⟩ := h
    obtain ⟨rfl, rfl⟩ := Prod.mk.inj h
    refine ⟨⟨hstep, by rw [hcost], fun hn => ⟨rfl, ?_⟩, fun _ f hf => (by cases hf), fun hF _ => ⟨rfl, ?_⟩⟩, hlogS.1, hlogS.2, rfl⟩
    · by_contra hb
      exact hn (hfl.mpr ⟨h3, by simpa using hb⟩)
    · exact (hfl.mp hF).2
  · have hF : ¬ FlatAt (psRules n gd circuit observables N e t rs) s.costs k v := fun hF => h3 (hfl.mp hF).1
    rw [if_neg h3] at h
    obtain ⟨rfl, rfl⟩ := Prod.mk.inj (Except.ok.inj h)
    exact ⟨⟨hstep, by rw [hcost], fun _ => ⟨rfl, rfl⟩, fun hn => absurd hn hF, fun hn => absurd hn hF⟩, hlogS.1, hlogS.2, rfl⟩

/-- Everything about a successful call with a boolean `return_params`. -/
theorem ps_outcome (rp : Bool) (hrp : args.returnParams = boolFlag rp) (h : parameterShiftOptimizer gd ret circuit params observables args = .ok out) :
    ret = .nothing ∧ ∃ N e t rs, PsValid args N e t rs ∧ ∃ V m r, V 0 = params ∧ (psRules n gd circuit observables N e t rs).Run V V m ∧ out = psOutput r rs rp ∧
      r.costs.length = m + 1 ∧ (∀ k ≤ m, ∃ c, psCost n circuit observables (V k) = .ok c ∧ r.costs[k]? = some c) ∧
      (rs = true → r.states.length = m + 1 ∧ ∀ k ≤ m, ∃ U, circuitUnitary n circuit (V k) = .ok U ∧ r.states[k]? = some (stateFromUnitary U)) ∧
      (rp = true → r.params = (List.range (m + 1)).map V) := by
  obtain ⟨-, hr, N, e, t, rs, hv, states, c, s, hst, hc, hs, hout⟩ := (ps_ok_iff ..).mp h
  have htr : args.returnParams.truthy = rp := by rw [hrp]; cases rp <;> simp [boolFlag, FlagVal.truthy]
  rw [htr] at hs
  rw [hrp, psOut_bool] at hout
  obtain ⟨V, S, m, hrun, hV0, hS0, hSm, hL, hcosts⟩ := run_of_loop (psRules n gd circuit observables N e t rs) (psBody gd circuit observables e t rs rp)
    PsState.params PsState.costs (fun _ _ => True) (psLog circuit rs rp) _ s (by simp [psRules, hc, okOr0]) trivial
    (fun k s s' b hb hl _ => ⟨psBody_step gd circuit observables N e t rs rp k s s' b hb hl, trivial⟩) hs
  have hWV : ∀ k ≤ m, (S k).params = V k := by
    intro k hk
    cases k with
    | zero => exact hrun.start
    | succ k => exact hrun.kept k (by omega) (.inr rfl)
  have hrun' : (psRules n gd circuit observables N e t rs).Run V V m := by
    refine ⟨rfl, fun k hk => ?_, fun _ _ _ => rfl, fun k hk hf f hn => (by cases hn), hrun.bounded, hrun.notBefore, hrun.ended⟩
    have := hrun.advance k hk
    simpa only [hWV k hk.le] using this
  simp only at hV0
  refine ⟨hr, N, e, t, rs, hv, V, m, ⟨s.costs, s.states, s.paramsPerStep⟩, hV0, hrun', (Except.ok.inj hout).symm, ?_, ?_, ?_, ?_⟩
  · simp [hcosts]
  · intro k hk
    have hex : ∃ c, psCost n circuit observables (V k) = .ok c := by
      cases k with
      | zero => exact ⟨c, by rw [hV0, hc]⟩
      | succ k => exact (hrun.advance k (by omega)).2.1
    obtain ⟨c', hc'⟩ := hex
    refine ⟨c', hc', ?_⟩
    simp only [hcosts]
    rw [List.getElem?_map, List.getElem?_range (by omega)]
    simp [psRules, hc', okOr0]
  · rintro rfl
    simp only [if_true, bind_ok_iff] at hst
    obtain ⟨U0, hU0, hst⟩ := hst
    obtain rfl := Except.ok.inj hst
    have hUex : ∀ k, ∃ U, k ≤ m → circuitUnitary n circuit (V k) = .ok U := by
      intro k
      by_cases hk : k ≤ m
      · cases k with
        | zero => exact ⟨U0, fun _ => by rw [hV0, hU0]⟩
        | succ k =>
          obtain ⟨U, hU⟩ := (hrun.advance k (by omega)).2.2 rfl
          exact ⟨U, fun _ => hU⟩
      · exact ⟨0, fun h => absurd h hk⟩
    choose Us hUs using hUex
    have hlog := log_append PsState.states S (fun k => stateFromUnitary (Us (k + 1))) m (fun k hk => by
      obtain ⟨U, hU, hs⟩ := (hL k hk).1.1 rfl
      rw [hUs (k + 1) (by omega)] at hU
      rw [hs, Except.ok.inj hU])
    have h0 : Us 0 = U0 := by
      have := hUs 0 (by omega)
      rw [hV0, hU0] at this
      exact (Except.ok.inj this).symm
    have hall : s.states = (List.range (m + 1)).map (fun k => stateFromUnitary (Us k)) := by
      rw [← hSm, hlog, hS0]
      simp [List.range_succ_eq_map, Function.comp_def, h0]
    refine ⟨by simp [hall], fun k hk => ⟨Us k, hUs k hk, ?_⟩⟩
    simp only [hall]
    rw [List.getElem?_map, List.getElem?_range (by omega)]
    rfl
  · rintro rfl
    have hlog := log_append PsState.paramsPerStep S (fun k => V (k + 1)) m (fun k hk => by simpa using (hL k hk).1.2.2)
    simp only
    rw [← hSm, hlog, hS0]
    simp [List.range_succ_eq_map, Function.comp_def, hV0]

/-- The list of costs in the output. -/
def psCosts : OptOut (PsItem n P) → List ℝ
  | .bare c => c
  | .tuple (.costs c :: _) => c
  | .tuple _ => []

/-- The list of states in the output. -/
def psStates : OptOut (PsItem n P) → Option (List (Ket n))
  | .bare _ => none
  | .tuple l => l.findSome? (fun x => match x with | .states s => some s | _ => none)

/-- The list of parameters in the output. -/
def psParams : OptOut (PsItem n P) → Option (List P)
  | .bare _ => none
  | .tuple l => l.findSome? (fun x => match x with | .params s => some s | _ => none)

theorem psOutput_costs (r : PsResult n P) (rs rp : Bool) : psCosts (psOutput r rs rp) = r.costs := by
  cases rs <;> cases rp <;> rfl

theorem psOutput_states (r : PsResult n P) (rs rp : Bool) : psStates (psOutput r rs rp) = if rs then some r.states else none := by
  cases rs <;> cases rp <;> rfl

theorem psOutput_params (r : PsResult n P) (rs rp : Bool) : psParams (psOutput r rs rp) = if rp then some r.params else none := by
  cases rs <;> cases rp <;> rfl

/-- C55.  The costs, states and parameters are those of the parameters after `0, 1, …, m` gradient steps, and the run stops after the first step `k ≥ 3`
whose cost is close to the previous one, or after `nsteps` steps. -/
theorem C55_trace (rp : Bool) (hrp : args.returnParams = boolFlag rp) (h : parameterShiftOptimizer gd ret circuit params observables args = .ok out) :
    ∃ (N : ℕ) (e : ℝ) (t : Tol) (V : ℕ → P) (m : ℕ), args.nsteps = .int (N : ℤ) ∧ args.eta = .float e ∧ IsTol args.tol t ∧ V 0 = params ∧ m ≤ N ∧
      (∀ k < m, gd e (psCost n circuit observables) (V k) = .ok (V (k + 1))) ∧
      (psCosts out).length = m + 1 ∧ (∀ k ≤ m, psCost n circuit observables (V k) = .ok ((psCosts out).getD k 0)) ∧
      (args.returnState = .bool true → ∃ l, psStates out = some l ∧ l.length = m + 1 ∧
        ∀ k ≤ m, ∃ U, circuitUnitary n circuit (V k) = .ok U ∧ l[k]? = some (stateFromUnitary U)) ∧
      (rp = true → psParams out = some ((List.range (m + 1)).map V)) ∧
      (∀ k, 3 ≤ k → k + 1 < m → ¬ Close t.spec ((psCosts out).getD (k + 1) 0) ((psCosts out).getD k 0)) ∧
      (m = N ∨ ∃ k, 3 ≤ k ∧ k < N ∧ m = k + 1 ∧ Close t.spec ((psCosts out).getD (k + 1) 0) ((psCosts out).getD k 0)) := by
  obtain ⟨-, N, e, t, rs, hv, V, m, r, hV0, hrun, rfl, hl, hc, hst, hps⟩ := ps_outcome gd ret circuit params observables args out rp hrp h
  have hg : ∀ k ≤ m, psCost n circuit observables (V k) = .ok (r.costs.getD k 0) := by
    intro k hk
    obtain ⟨c, h1, h2⟩ := hc k hk
    rw [h1, List.getD, h2]; rfl
  have hg' : ∀ k ≤ m, r.costs.getD k 0 = (psRules n gd circuit observables N e t rs).cost (V k) := by
    intro k hk
    change _ = okOr0 _
    rw [hg k hk]; rfl
  rw [psOutput_costs, psOutput_params]
  refine ⟨N, e, t, V, m, hv.nsteps, hv.eta, hv.tol, hV0, hrun.bounded, fun k hk => (hrun.advance k hk).1, hl, hg, ?_, ?_, ?_, ?_⟩
  · intro hr
    rw [hv.flagS] at hr
    obtain rfl := BoolArg.bool.inj hr
    rw [psOutput_states]
    exact ⟨r.states, rfl, hst rfl⟩
  · rintro rfl
    rw [if_pos rfl, hps rfl]
  · intro k hk hkm hcl
    rw [hg' _ (by omega), hg' _ (by omega)] at hcl
    exact hrun.notBefore rfl k hkm ⟨hk, hcl⟩
  · rcases hrun.ended with he | ⟨-, k, rfl, hk3, hcl⟩
    · exact .inl he
    · have hb := hrun.bounded
      refine .inr ⟨k, hk3, hb, rfl, ?_⟩
      rw [hg' _ (by omega), hg' _ (by omega)]
      exact hcl

/-- C52 (parameter shift).  The shape of the return value. -/
theorem C52_parameter_shift (rp : Bool) (hrp : args.returnParams = boolFlag rp) (h : parameterShiftOptimizer gd ret circuit params observables args = .ok out) :
    ∃ rs, args.returnState = .bool rs ∧ ∃ costs states ps, out = (if rs = false ∧ rp = false then OptOut.bare costs
      else .tuple ([.costs costs] ++ (if rs then [.states states] else []) ++ (if rp then [.params ps] else []))) := by
  obtain ⟨-, N, e, t, rs, hv, V, m, r, hV0, hrun, rfl, -⟩ := ps_outcome gd ret circuit params observables args out rp hrp h
  exact ⟨rs, hv.flagS, r.costs, r.states, r.params, rfl⟩

/-- C46, what holds for the parameter-shift optimizer. -/
theorem C46_parameter_shift_bound_partial (rp : Bool) (hrp : args.returnParams = boolFlag rp) (N : ℕ) (t : ℝ) (hN : args.nsteps = .int (N : ℤ))
    (ht : args.tol = .float t) (h : parameterShiftOptimizer gd ret circuit params observables args = .ok out) (hs : (psCosts out).length < N + 1) :
    ∃ k, (psCosts out).length = k + 2 ∧ |(psCosts out).getD (k + 1) 0 - (psCosts out).getD k 0| ≤ t + 1e-5 * |(psCosts out).getD k 0| := by
  obtain ⟨M, e, t', V, m, hM, -, ht', -, -, -, hl, -, -, -, -, hend⟩ := C55_trace gd ret circuit params observables args out rp hrp h
  rw [hN] at hM
  have := NArg.int.inj hM
  rcases hend with he | ⟨k, -, -, rfl, hcl⟩
  · omega
  · refine ⟨k, hl, hcl t ?_⟩
    cases t' with
    | fin y => have h1 := ht'.1; rw [ht] at h1; rw [PyVal.float.inj h1]; rfl
    | inf => rw [IsTol, ht] at ht'; cases ht'

/-- C69 (parameter shift).  The flag `return_params` is not checked: a value that is not a number only raises at the very end, after the whole run. -/
theorem C69_return_params_not_checked (b : Bool) (hf : args.returnParams = .other b)
    (hrun : ∃ out, parameterShiftOptimizer (n := n) gd ret circuit params observables { args with returnParams := boolFlag b } = .ok out) :
    parameterShiftOptimizer (n := n) gd ret circuit params observables args = .error .type := by
  obtain ⟨out, h⟩ := hrun
  obtain ⟨⟨ops, ho⟩, hr, N', e', t', rs', hv', states, c, s, hst, hc, hs, -⟩ := (ps_ok_iff ..).mp h
  have htr : (boolFlag b).truthy = b := by cases b <;> simp [boolFlag, FlagVal.truthy]
  have h1 : validateNsteps args.nsteps = .ok N' := (validateNsteps_iff _ _).mpr ⟨hv'.nsteps, hv'.pos⟩
  have h2 : validateEta args.eta = .ok e' := (validateEta_iff _ _).mpr ⟨hv'.eta, hv'.eta0, hv'.eta1⟩
  have h3 : validateTol args.tol = .ok t' := (validateTol_iff _ _).mpr hv'.tol
  have h4 : validateBool args.returnState = .ok rs' := (validateBool_iff _ _).mpr hv'.flagS
  have h5 : args.returnParams.truthy = b := by rw [hf]; rfl
  simp only [htr] at hs
  unfold parameterShiftOptimizer
  simp only [ho, h1, h2, h3, h4, h5, bind, Except.bind]
  rw [if_pos hr]
  simp only
  cases rs' with
  | true =>
    simp only [if_true, bind_ok_iff] at hst
    obtain ⟨U, hU, hst⟩ := hst
    obtain rfl := Except.ok.inj hst
    simp only [if_true, hU, hc, hs, hf]
    rfl
  | false =>
    simp only [Bool.false_eq_true, if_false] at hst
    obtain rfl := Except.ok.inj hst
    simp only [Bool.false_eq_true, if_false, hc, hs, hf]
    rfl

/-- C69 (parameter shift).  The flag `return_params=-1` is accepted and makes the optimizer return the bare costs. -/
theorem C69_negative_flag (hf : args.returnParams = .int (-1)) (h : parameterShiftOptimizer gd ret circuit params observables args = .ok out) :
    ∃ c, out = .bare c := by
  obtain ⟨-, -, N, e, t, rs, hv, states, c, s, -, -, -, hout⟩ := (ps_ok_iff ..).mp h
  rw [hf] at hout
  cases rs <;> simp [psOut] at hout <;> exact ⟨_, hout.symm⟩

/-- C55, C67 (parameter shift).  With a circuit of valid gates, and a gradient step that does not raise, the call succeeds exactly when the circuit returns
nothing and the arguments are valid. -/
theorem C55_succeeds_iff (C : P → List (Gate n)) (gs : List (Gate n)) (hgd : ∀ e c p, ∃ q, gd e c p = .ok q) (rp : Bool) (hrp : args.returnParams = boolFlag rp) :
    (∃ out, parameterShiftOptimizer (n := n) gd ret (fun p => .ok ((C p).map (fun g => (g.obs.matrix, g.obs.wires)))) params (gs.map Gate.obs) args = .ok out) ↔
      ret = .nothing ∧ ∃ N e t rs, PsValid args N e t rs := by
  constructor
  · rintro ⟨out, h⟩
    obtain ⟨-, hr, N, e, t, rs, hv, -⟩ := (ps_ok_iff ..).mp h
    exact ⟨hr, N, e, t, rs, hv⟩
  · rintro ⟨hr, N, e, t, rs, hv⟩
    have hU : ∀ p, ∃ U, circuitUnitary n (fun p => .ok ((C p).map (fun g => (g.obs.matrix, g.obs.wires)))) p = .ok U := by
      intro p
      have := compileCircuit_gates (C p)
      rw [compileCircuit, List.zip_map'] at this
      exact ⟨_, this⟩
    choose Us hUs using hU
    have hc : ∀ p, psCost n (fun p => .ok ((C p).map (fun g => (g.obs.matrix, g.obs.wires)))) (gs.map Gate.obs) p = .ok (cost (totalObs gs) (Us p)) := by
      intro p
      rw [psCost, hUs]
      exact totalCost_gates _ _
    have hst : ∃ states, (if rs then (do let U ← circuitUnitary n (fun p => .ok ((C p).map (fun g => (g.obs.matrix, g.obs.wires)))) params; .ok [stateFromUnitary U])
        else .ok [] : Py (List (Ket n))) = .ok states := by
      rw [hUs]
      cases rs <;> exact ⟨_, rfl⟩
    obtain ⟨states, hst⟩ := hst
    obtain ⟨s, hs⟩ := forRange_total (psBody gd (fun p => .ok ((C p).map (fun g => (g.obs.matrix, g.obs.wires)))) (gs.map Gate.obs) e t rs args.returnParams.truthy)
      (fun k s => s.costs.length = k + 1) (by
        intro k s hl
        obtain ⟨q, hq⟩ := hgd e (psCost n (fun p => .ok ((C p).map (fun g => (g.obs.matrix, g.obs.wires)))) (gs.map Gate.obs)) s.params
        have hb : ∃ st, (if rs then (do let U ← circuitUnitary n (fun p => .ok ((C p).map (fun g => (g.obs.matrix, g.obs.wires)))) q; .ok (s.states ++ [stateFromUnitary U]))
            else .ok s.states : Py (List (Ket n))) = .ok st := by
          rw [hUs]
          cases rs <;> exact ⟨_, rfl⟩
        obtain ⟨st, hst⟩ := hb
        have h1 : pyGetItem (s.costs ++ [cost (totalObs gs) (Us q)]) (-1) = .ok (cost (totalObs gs) (Us q)) := getItem_last
        have h2 := getItem_neg (s.costs ++ [cost (totalObs gs) (Us q)]) 1 (by simp [hl])
        rw [show (-(((1 : ℕ) : ℤ) + 1)) = -2 by norm_num] at h2
        have hbody : psBody gd (fun p => .ok ((C p).map (fun g => (g.obs.matrix, g.obs.wires)))) (gs.map Gate.obs) e t rs args.returnParams.truthy k s =
            .ok ({ params := q, costs := s.costs ++ [cost (totalObs gs) (Us q)], states := st,
                   paramsPerStep := if args.returnParams.truthy then s.paramsPerStep ++ [q] else s.paramsPerStep },
              if k > 2 then isCloseTol (cost (totalObs gs) (Us q)) ((s.costs ++ [cost (totalObs gs) (Us q)]).getD ((s.costs ++ [cost (totalObs gs) (Us q)]).length - 2) 0) t else false) := by
          unfold psBody
          simp only [bind_ok_iff]
          refine ⟨q, hq, _, hc q, st, hst, ?_⟩
          by_cases hk : k > 2
          · rw [if_pos hk, if_pos hk, h1, h2]
            rfl
          · rw [if_neg hk, if_neg hk]
        exact ⟨_, hbody, by simp [hl]⟩) N 0 { params := params, costs := [cost (totalObs gs) (Us params)], states := states, paramsPerStep := if args.returnParams.truthy then [params] else [] } rfl
    have ho := psOut_bool s rs rp
    rw [← hrp] at ho
    exact ⟨_, (ps_ok_iff ..).mpr ⟨⟨_, rfl⟩, hr, N, e, t, rs, hv, states, _, s, hst, hc params, hs, ho⟩⟩

/-- A successful call: a rotation by the parameter, the observable Z, and a step that subtracts the step size. -/
example : ∃ out : OptOut (PsItem 1 ℝ), parameterShiftOptimizer (fun e _ p => .ok (p - e)) .nothing
    (fun p => .ok ([(⟨[0], rot p, by simp, by simp, by simp⟩ : Gate 1)].map (fun g => (g.obs.matrix, g.obs.wires)))) 1 ([gateZ].map Gate.obs)
    { nsteps := .int (7 : ℕ), eta := .float (1 / 2), tol := .float (1 / 100), returnState := .bool true, returnParams := boolFlag true } = .ok out :=
  (C55_succeeds_iff (n := 1) (fun e _ p => .ok (p - e)) .nothing 1 _ (fun p => [(⟨[0], rot p, by simp, by simp, by simp⟩ : Gate 1)]) [gateZ]
    (fun _ _ _ => ⟨_, rfl⟩) true rfl).mpr ⟨rfl, 7, 1 / 2, .fin (1 / 100), true, ⟨rfl, by norm_num, rfl, by norm_num, by norm_num, ⟨rfl, by norm_num⟩, rfl⟩⟩

end Oranssi
