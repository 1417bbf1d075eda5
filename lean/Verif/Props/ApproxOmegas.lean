import Verif.Props.ApproxTrace

/-! # C54 and total runs of `approximate_lie_optimizer` -/

namespace Oranssi
open Spec
open scoped Matrix

variable {n m : ℕ} (E : LayerEnv n) (eigh : EighFn n) (rnd : ℕ → Matrix (Fin (2 ^ n)) (Fin (2 ^ n)) ℝ) (ret : CircuitRet) (ops : List (NpMat × List ℤ))
  (params : List (List ℝ)) (gs : List (Gate n)) (objs : Fin m → AnyLayer n) (layers : List (Fin m)) (args : ApproxArgs)
  (out : OptOut (ApproxItem n) × (Fin m → AnyLayer n))

/-- The part of a step after the layer was called and the cost and the directions were computed. -/
noncomputable def approxTail (eta : ℝ) (tol : Option Tol) (p : Bool) (step : ℕ) (s' : ApproxState n m) : Py (ApproxState n m × Bool) :=
  match tol with
  | none => .ok (s', false)
  | some t =>
    if step > 8 then do
      let a ← pyGetItem s'.costs (-1)
      let b ← pyGetItem s'.costs (-6)
      if isCloseTol a b t then
        if p then .ok ({ s' with U := perturb eigh eta (rnd step) s'.U, perturbations := s'.perturbations ++ [step] }, false)
        else .ok (s', true)
      else .ok (s', false)
    else .ok (s', false)

/-- The state after the layer was called. -/
noncomputable def approxMid (F : ApproxFlags) (s : ApproxState n m) (nx : Fin m × Cycle (Fin m)) (r : QMat n × List (List ℝ) × AnyLayer n) (costs : List ℝ)
    (om : List (List (String × ℝ))) : ApproxState n m :=
  { U := r.1, params := r.2.1, objs := Function.update s.objs nx.1 r.2.2, cycle := nx.2, costs := costs,
    states := if F.returnState then s.states ++ [stateFromUnitary r.1] else s.states, omegas := om,
    unitaries := if F.returnUnitary then s.unitaries ++ [r.1] else s.unitaries, perturbations := s.perturbations,
    zassenhaus := if F.returnZassenhaus then s.zassenhaus ++ [(s.objs nx.1).suState] else s.zassenhaus }

/-- A step whose parts succeed. -/
theorem approxBody_eq (e : ℝ) (t : Option Tol) (F : ApproxFlags) (k : ℕ) (s : ApproxState n m) (nx : Fin m × Cycle (Fin m)) (r : QMat n × List (List ℝ) × AnyLayer n)
    (hl : s.costs.length = k + 1) (hnx : s.cycle.next = .ok nx) (hr : (s.objs nx.1).call E s.params s.U = .ok r) :
    approxBody E eigh rnd (gs.map Gate.obs) e t F k s = (do
      let om ← (if F.returnOmegas then do let d ← (r.2.2).directionsDict r.1; .ok (s.omegas ++ [d]) else .ok s.omegas : Py (List (List (String × ℝ))))
      approxTail eigh rnd e t F.perturb k (approxMid F s nx r (s.costs ++ [cost (totalObs gs) r.1]) om)) := by
  have hk : ((k : ℤ) + 1) = (s.costs.length : ℤ) := by rw [hl]; push_cast; ring
  unfold approxBody
  rw [hnx]
  simp only [bind, Except.bind]
  rw [hr]
  simp only
  rw [hk, addCosts_gates, zero_add]
  simp only [Function.update_self]
  rfl

/-- The tail does not raise. -/
theorem approxTail_total (e : ℝ) (t : Option Tol) (p : Bool) (k : ℕ) (s : ApproxState n m) (hl : s.costs.length = k + 2) :
    ∃ x, approxTail eigh rnd e t p k s = .ok x ∧ x.1.costs = s.costs ∧ x.1.cycle = s.cycle ∧ x.1.params = s.params ∧ x.1.objs = s.objs := by
  cases t with
  | none => exact ⟨_, rfl, rfl, rfl, rfl, rfl⟩
  | some t =>
    unfold approxTail
    simp only
    by_cases h8 : k > 8
    · rw [if_pos h8]
      have h1 := getItem_neg s.costs 0 (by omega)
      have h2 := getItem_neg s.costs 5 (by omega)
      rw [show (-(((0 : ℕ) : ℤ) + 1)) = -1 by norm_num] at h1
      rw [show (-(((5 : ℕ) : ℤ) + 1)) = -6 by norm_num] at h2
      rw [h1, h2]
      simp only [bind, Except.bind]
      split
      · split <;> exact ⟨_, rfl, rfl, rfl, rfl, rfl⟩
      · exact ⟨_, rfl, rfl, rfl, rfl, rfl⟩
    · rw [if_neg h8]; exact ⟨_, rfl, rfl, rfl, rfl, rfl⟩

/-- The tail does not look at the directions. -/
theorem approxTail_omegas (e : ℝ) (t : Option Tol) (p : Bool) (k : ℕ) (s : ApproxState n m) (om : List (List (String × ℝ))) (x : ApproxState n m × Bool)
    (h : approxTail eigh rnd e t p k s = .ok x) : approxTail eigh rnd e t p k { s with omegas := om } = .ok ({ x.1 with omegas := om }, x.2) := by
  cases t with
  | none => cases h; rfl
  | some t =>
    unfold approxTail at h ⊢
    simp only at h ⊢
    by_cases h8 : k > 8
    · rw [if_pos h8] at h ⊢
      obtain ⟨a, ha, h⟩ := bind_ok_iff.mp h
      obtain ⟨b, hb, h⟩ := bind_ok_iff.mp h
      rw [ha, hb]
      simp only [bind, Except.bind]
      by_cases hcl : isCloseTol a b t = true
      · rw [if_pos hcl] at h ⊢
        cases p with
        | true => rw [if_pos rfl] at h ⊢; cases h; rfl
        | false => rw [if_neg (by simp)] at h ⊢; cases h; rfl
      · rw [if_neg hcl] at h ⊢; cases h; rfl
    · rw [if_neg h8] at h ⊢; cases h; rfl

/-- The loop has layers to call and has recorded one cost per step. -/
def Ready (layers : List (Fin m)) (k : ℕ) (s : ApproxState n m) : Prop := s.costs.length = k + 1 ∧ s.cycle.saved = layers

theorem cycle_next_saved (c : Cycle (Fin m)) (x : Fin m × Cycle (Fin m)) (h : c.next = .ok x) : x.2.saved = c.saved := by
  unfold Cycle.next at h
  split at h
  · cases h; rfl
  · split at h
    · cases h; rfl
    · cases h

/-- C50, C67 (approximate optimizer).  If the calls of the layers do not raise (whatever the circuit), and the directions are not asked for, then the
call of the optimizer succeeds exactly when the circuit returns a state and the arguments are valid. -/
theorem C50_succeeds_iff (cs : List (Gate n)) (hne : layers ≠ []) (J : List (List ℝ) → (Fin m → AnyLayer n) → Prop) (hJ : J params objs)
    (hcall : ∀ ps os U i, J ps os → ∃ r, (os i).call E ps U = .ok r ∧ J r.2.1 (Function.update os i r.2.2))
    (ho : args.returnOmegas = .bool false) :
    (∃ out, approximateLieOptimizer E eigh rnd ret (cs.map (fun g => (g.obs.matrix, g.obs.wires))) params (gs.map Gate.obs) objs layers args = .ok out) ↔
      ret = .state ∧ ∃ N e t F, ApproxValid args N e t F := by
  constructor
  · rintro ⟨out, h⟩
    obtain ⟨hr, N, e, t, F, hv, -⟩ := (approx_ok_iff ..).mp h
    exact ⟨hr, N, e, t, F, hv⟩
  · rintro ⟨hr, N, e, t, F, hv⟩
    have hU : ∃ U, compileLoop n (cs.map (fun g => (g.obs.matrix, g.obs.wires))) 1 = .ok U := by
      have := compileCircuit_gates cs
      rw [compileCircuit, List.zip_map'] at this
      exact ⟨_, this⟩
    obtain ⟨U, hU⟩ := hU
    have hF : F.returnOmegas = false := by
      have := hv.flagO
      rw [ho] at this
      exact (BoolArg.bool.inj this).symm
    obtain ⟨s, hs⟩ := forRange_total (approxBody E eigh rnd (gs.map Gate.obs) e t F) (fun k s => Ready layers k s ∧ J s.params s.objs) (by
      rintro k s ⟨⟨hl, hc⟩, hj⟩
      obtain ⟨nx, hnx⟩ := cycle_next_total layers hne s.cycle hc
      obtain ⟨r, hr, hj'⟩ := hcall s.params s.objs s.U nx.1 hj
      rw [approxBody_eq E eigh rnd gs e t F k s nx r hl hnx hr, if_neg (by simp [hF])]
      obtain ⟨x, hx, h1, h2, h3, h4⟩ := approxTail_total eigh rnd e t F.perturb k (approxMid F s nx r (s.costs ++ [cost (totalObs gs) r.1]) s.omegas)
        (by simp [approxMid, hl])
      refine ⟨x, hx, ⟨by rw [h1]; simp [approxMid, hl], by rw [h2]; exact (cycle_next_saved _ _ hnx).trans hc⟩, ?_⟩
      rw [h3, h4]
      exact hj') N 0 (approxInit gs params objs layers F U) ⟨⟨rfl, rfl⟩, hJ⟩
    exact ⟨_, (approx_ok_iff ..).mpr ⟨hr, N, e, t, F, hv, U, s, hU, hs, rfl⟩⟩

/-! ### C54 -/

/-- The layer's `get_lie_algebra_directions` raises. -/
def NoDirections (L : AnyLayer n) : Prop := ∀ U, L.directionsDict U = .error .attribute

/-- C54 is false.  The local and custom layers hold their observables as matrices, so with at least one observable they cannot report directions. -/
theorem C54_no_directions (hs : List (Gate n)) (hne : hs ≠ []) (la : LayerArgs) :
    (∀ L locality stride D, localLayer n (hs.map Gate.obs) locality la stride D = .ok L → NoDirections (.loc L)) ∧
    (∀ L D, customLayer n (hs.map Gate.obs) (some D) la = .ok L → NoDirections (.custom L)) ∧
    (∀ L, stochasticLayer n (hs.map Gate.obs) la = .ok L → NoDirections (.stochastic L)) := by
  have hm : hs.map (fun g => full n g.ws g.A) ≠ [] := by simpa using hne
  refine ⟨fun L locality stride D h U => ?_, fun L D h U => ?_, fun L h U => ?_⟩
  · obtain ⟨k, e, b, t, -, -, -, -, -, hL⟩ := localLayer_ok hs (localLayer_inv hs h)
    rw [h] at hL
    rw [AnyLayer.directionsDict, if_neg]
    rw [Except.ok.inj hL]
    exact hm
  · obtain ⟨-, -, ho, -⟩ := customLayer_some h
    rw [AnyLayer.directionsDict, if_neg]
    rw [ho]
    exact hm
  · rw [stochasticLayer, promoteAll_gates] at h
    simp only [bind_ok_iff] at h
    obtain ⟨_, -, _, -, o, ho, _, -, _, -, hL⟩ := h
    rw [AnyLayer.directionsDict, if_neg]
    rw [← Except.ok.inj hL]
    rw [← Except.ok.inj ho]
    exact hm

/-- C54 is false.  A run that starts with a local or custom layer and succeeds without `return_omegas` raises `AttributeError` with it. -/
theorem C54_refuted (h : approximateLieOptimizer E eigh rnd ret ops params (gs.map Gate.obs) objs layers { args with returnOmegas := .bool false } = .ok out)
    (i : Fin m) (hi : layers[0]? = some i) (hL : (∃ L, objs i = .loc L) ∨ ∃ L, objs i = .custom L) (hd : NoDirections (objs i)) :
    approximateLieOptimizer E eigh rnd ret ops params (gs.map Gate.obs) objs layers { args with returnOmegas := .bool true } = .error .attribute := by
  obtain ⟨hr, N, e, t, F, hv, U, s, hU, hs, -⟩ := (approx_ok_iff ..).mp h
  have hpos := hv.pos
  obtain ⟨N, rfl⟩ : ∃ N', N = N' + 1 := ⟨N - 1, by omega⟩
  have hnext : (⟨layers, layers⟩ : Cycle (Fin m)).next = .ok (i, ⟨layers.tail, layers⟩) := by
    cases layers with
    | nil => cases hi
    | cons a as => cases hi; rfl
  have hbody : ∃ x, approxBody E eigh rnd (gs.map Gate.obs) e t F 0 (approxInit gs params objs layers F U) = .ok x := by
    rw [pyForRange] at hs
    obtain ⟨x, hx, -⟩ := bind_ok_iff.mp hs
    exact ⟨x, hx⟩
  obtain ⟨x, hx⟩ := hbody
  have hcall : ∃ r, (objs i).call E params U = .ok r ∧ r.2.2 = objs i := by
    unfold approxBody at hx
    simp only [bind_ok_iff] at hx
    obtain ⟨nx, hnx, r, hr, -⟩ := hx
    rw [show (approxInit gs params objs layers F U).cycle = ⟨layers, layers⟩ from rfl, hnext] at hnx
    cases hnx
    refine ⟨r, hr, ?_⟩
    change (objs i).call E params U = .ok r at hr
    rcases hL with ⟨L, hL⟩ | ⟨L, hL⟩
    · rw [hL] at hr ⊢
      obtain ⟨V, -, hr⟩ := bind_ok_iff.mp hr
      rw [← Except.ok.inj hr]
    · rw [hL] at hr ⊢
      obtain ⟨V, -, hr⟩ := bind_ok_iff.mp hr
      rw [← Except.ok.inj hr]
  obtain ⟨r, hcall, hrL⟩ := hcall
  have hF := hv.flagO
  have h1 : validateNsteps args.nsteps = .ok (N + 1) := (validateNsteps_iff _ _).mpr ⟨hv.nsteps, hv.pos⟩
  have h2 : validateEta args.eta = .ok e := (validateEta_iff _ _).mpr ⟨hv.eta, hv.eta0, hv.eta1⟩
  have h3 : validateTolOpt args.tol = .ok t := (tolOpt_iff _ _).mpr hv.tol
  have h4 : pyAssert (args.escapeTol.isFloat = true) = .ok () := pyAssert_ok_iff.mpr hv.escape
  have hc : addCosts U 0 (gs.map Gate.obs) [0] = .ok [cost (totalObs gs) U] := by simpa using addCosts_gates U gs [] 0
  have hfor : pyForRange (approxBody E eigh rnd (gs.map Gate.obs) e t { F with returnOmegas := true }) 0 (N + 1)
      (approxInit gs params objs layers F U) = .error .attribute := by
    rw [pyForRange, approxBody_eq E eigh rnd gs e t { F with returnOmegas := true } 0 _ (i, ⟨layers.tail, layers⟩) r rfl hnext hcall, if_pos rfl, hrL, hd]
    rfl
  unfold approximateLieOptimizer assertState
  rw [hr]
  simp only [h1, h2, h3, h4, (validateBool_iff _ _).mpr hv.flagS, (validateBool_iff _ _).mpr hv.flagU, (validateBool_iff _ _).mpr hv.flagG,
    (validateBool_iff _ _).mpr hv.flagP, (validateBool_iff _ _).mpr hv.flagR, (validateBool_iff _ _).mpr hv.flagZ, hU, hc, bind, Except.bind]
  change (Except.bind (pyForRange (approxBody E eigh rnd (gs.map Gate.obs) e t { F with returnOmegas := true }) 0 (N + 1)
      (approxInit gs params objs layers F U)) _) = _
  rw [hfor]
  rfl

/-- A layer that computes directions from its own observables, given as valid observables. -/
def HasDirections : AnyLayer n → Prop
  | .squared L => ∃ gs : List (Gate n), L.observables = gs.map Gate.obs
  | .adapt L => ∃ gs : List (Gate n), L.observables = gs.map Gate.obs
  | .su8 L => ∃ gs : List (Gate n), L.observables = gs.map Gate.obs
  | .zass L => ∃ gs : List (Gate n), L.observables = gs.map Gate.obs
  | .v2 _ L => ∃ gs : List (Gate n), L.observables = gs.map Gate.obs
  | _ => False

theorem hasDirections_dict (L : AnyLayer n) (h : HasDirections L) (U : QMat n) : ∃ d, L.directionsDict U = .ok d := by
  cases L with
  | loc L => cases h
  | custom L => cases h
  | stochastic L => cases h
  | squared L => obtain ⟨gs, hg⟩ := h; rw [AnyLayer.directionsDict, hg, getAllSuNDirections_eq]; exact ⟨_, rfl⟩
  | adapt L => obtain ⟨gs, hg⟩ := h; rw [AnyLayer.directionsDict, hg, getAllSuNDirections_eq]; exact ⟨_, rfl⟩
  | su8 L => obtain ⟨gs, hg⟩ := h; rw [AnyLayer.directionsDict, hg, getAllSuNDirections_eq]; exact ⟨_, rfl⟩
  | zass L => obtain ⟨gs, hg⟩ := h; rw [AnyLayer.directionsDict, hg, getAllSuNDirections_eq]; exact ⟨_, rfl⟩
  | v2 nm L => obtain ⟨gs, hg⟩ := h; rw [AnyLayer.directionsDict, hg, getAllSuNDirections_eq]; exact ⟨_, rfl⟩

theorem hasDirections_call (L : AnyLayer n) (h : HasDirections L) (ps : List (List ℝ)) (U : QMat n) (r : QMat n × List (List ℝ) × AnyLayer n)
    (hc : L.call E ps U = .ok r) : HasDirections r.2.2 := by
  cases L with
  | loc L => cases h
  | custom L => cases h
  | stochastic L => cases h
  | squared L =>
    obtain ⟨x, hx, hr⟩ := bind_ok_iff.mp hc
    rw [← Except.ok.inj hr]
    unfold SquaredLayer.call at hx
    simp only [bind_ok_iff] at hx
    obtain ⟨_, -, _, -, _, -, hx⟩ := hx
    rw [← Except.ok.inj hx]
    exact h
  | adapt L =>
    obtain ⟨x, hx, hr⟩ := bind_ok_iff.mp hc
    rw [← Except.ok.inj hr]
    unfold AdaptLayer.call at hx
    simp only [bind_ok_iff] at hx
    obtain ⟨_, -, _, -, _, -, _, -, _, -, hx⟩ := hx
    rw [← Except.ok.inj hx]
    exact h
  | su8 L =>
    obtain ⟨x, hx, hr⟩ := bind_ok_iff.mp hc
    rw [← Except.ok.inj hr]
    exact h
  | zass L =>
    obtain ⟨x, hx, hr⟩ := bind_ok_iff.mp hc
    rw [← Except.ok.inj hr]
    obtain ⟨-, -, -, -, ho, -⟩ := zass_call_phase (V := x.1) (L' := x.2) hx
    obtain ⟨gs, hg⟩ := h
    exact ⟨gs, ho.trans hg⟩
  | v2 nm L =>
    obtain ⟨x, hx, hr⟩ := bind_ok_iff.mp hc
    rw [← Except.ok.inj hr]
    unfold ZassV2Layer.call at hx
    simp only [bind_ok_iff] at hx
    obtain ⟨_, -, _, -, hx⟩ := hx
    rw [← Except.ok.inj hx]
    exact h

theorem forRange_sim {σ τ : Type*} (f : ℕ → σ → Py (σ × Bool)) (g : ℕ → τ → Py (τ × Bool)) (R : ℕ → σ → τ → Prop)
    (hfg : ∀ k s t s' b, R k s t → f k s = .ok (s', b) → ∃ t', g k t = .ok (t', b) ∧ R (k + 1) s' t') :
    ∀ (r k : ℕ) (s s' : σ) (t : τ), R k s t → pyForRange f k r s = .ok s' → ∃ t', pyForRange g k r t = .ok t'
  | 0, _, _, _, t, _, _ => ⟨t, rfl⟩
  | r + 1, k, s, s', t, hR, h => by
    rw [pyForRange] at h
    obtain ⟨⟨x, b⟩, hx, h⟩ := bind_ok_iff.mp h
    obtain ⟨y, hy, hR'⟩ := hfg k s t x b hR hx
    rw [pyForRange, hy]
    simp only [bind, Except.bind]
    cases b with
    | true => exact ⟨y, by simp⟩
    | false =>
      simp only [Bool.false_eq_true, if_false] at h ⊢
      exact forRange_sim f g R hfg r (k + 1) x s' y hR' h

/-- C54, what holds: when all layers are squared, Adapt, SU(8) or Zassenhaus layers (of either version) with valid observables, asking for the directions never makes a run fail. -/
theorem C54_greedy_layers_partial
    (h : approximateLieOptimizer E eigh rnd ret ops params (gs.map Gate.obs) objs layers { args with returnOmegas := .bool false } = .ok out)
    (hd : ∀ i, HasDirections (objs i)) :
    ∃ out' l, approximateLieOptimizer E eigh rnd ret ops params (gs.map Gate.obs) objs layers { args with returnOmegas := .bool true } = .ok out' ∧
      approxOmegas out'.1 = some l ∧ l.length + 1 = (approxCosts out'.1).length := by
  obtain ⟨hr, N, e, t, F, hv, U, s, hU, hs, -⟩ := (approx_ok_iff ..).mp h
  have hF : F.returnOmegas = false := (BoolArg.bool.inj hv.flagO).symm
  obtain ⟨s', hs'⟩ := forRange_sim (approxBody E eigh rnd (gs.map Gate.obs) e t F) (approxBody E eigh rnd (gs.map Gate.obs) e t { F with returnOmegas := true })
    (fun k s t => s.costs.length = k + 1 ∧ (∃ om, t = { s with omegas := om }) ∧ ∀ i, HasDirections (s.objs i)) (by
      rintro k s _ s' b ⟨hl, ⟨om, rfl⟩, hH⟩ hb
      have hb' := hb
      unfold approxBody at hb
      simp only [bind_ok_iff] at hb
      obtain ⟨nx, hnx, r, hr, -⟩ := hb
      rw [approxBody_eq E eigh rnd gs e t F k s nx r hl hnx hr, if_neg (by simp [hF])] at hb'
      have hHr := hasDirections_call E _ (hH nx.1) _ _ r hr
      obtain ⟨d, hdd⟩ := hasDirections_dict r.2.2 hHr r.1
      rw [approxBody_eq E eigh rnd gs e t { F with returnOmegas := true } k { s with omegas := om } nx r hl hnx hr, if_pos rfl, hdd]
      have hl' : (approxMid F s nx r (s.costs ++ [cost (totalObs gs) r.1]) s.omegas).costs.length = k + 2 := by simp [approxMid, hl]
      obtain ⟨x, hx, h1, -, -, h4⟩ := approxTail_total eigh rnd e t F.perturb k _ hl'
      have hb'' : approxTail eigh rnd e t F.perturb k (approxMid F s nx r (s.costs ++ [cost (totalObs gs) r.1]) s.omegas) = .ok (s', b) := hb'
      rw [hb''] at hx
      obtain rfl := Except.ok.inj hx
      have := approxTail_omegas eigh rnd e t F.perturb k _ (om ++ [d]) _ hb''
      refine ⟨_, this, by rw [h1]; exact hl', ⟨_, rfl⟩, fun i => ?_⟩
      rw [h4]
      show HasDirections (Function.update s.objs nx.1 r.2.2 i)
      by_cases hi : i = nx.1
      · subst hi; rw [Function.update_self]; exact hHr
      · rw [Function.update_of_ne hi]; exact hH i)
    N 0 (approxInit gs params objs layers F U) s (approxInit gs params objs layers { F with returnOmegas := true } U) ⟨rfl, ⟨[], rfl⟩, hd⟩ hs
  have hv' : ApproxValid { args with returnOmegas := .bool true } N e t { F with returnOmegas := true } :=
    ⟨hv.nsteps, hv.pos, hv.eta, hv.eta0, hv.eta1, hv.tol, hv.escape, hv.flagS, rfl, hv.flagU, hv.flagG, hv.flagP, hv.flagR, hv.flagZ⟩
  have hout := (approx_ok_iff E eigh rnd ret ops params gs objs layers { args with returnOmegas := .bool true } _).mpr ⟨hr, N, e, t, _, hv', U, s', hU, hs', rfl⟩
  obtain ⟨_, -, _, -, _, _, j, -, -, -, -, -, -, -, -, -, -, -, hlen, -, -, -, ho, -⟩ := C50_trace E eigh rnd ret ops params gs objs layers _ _ hout
  obtain ⟨l, hlo, hll, -⟩ := ho rfl
  exact ⟨_, l, hout, hlo, by rw [hlen, hll]⟩

end Oranssi
