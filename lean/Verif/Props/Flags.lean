import Verif.Lemmas.Flags
import Verif.Props.ApproxTotal
import Verif.Props.ExactTrace
import Verif.Props.ParamShift

/-! # C84: asking for more outputs does not change the others; arguments without effect -/

namespace Oranssi
open Spec
open scoped Matrix

variable {n m : ℕ}

/-- The position of an item among the possible return values. -/
def ExactItem.kind : ExactItem n → ℕ
  | .costs _ => 0
  | .states _ => 1
  | .perturbations _ => 2
  | .unitary _ => 3

/-- The position of an item among the possible return values. -/
def ApproxItem.kind : ApproxItem n → ℕ
  | .costs _ => 0
  | .states _ => 1
  | .omegas _ => 2
  | .unitaries _ => 3
  | .gates _ => 4
  | .perturbations _ => 5
  | .zassenhaus _ => 6

/-- The position of an item among the possible return values. -/
def PsItem.kind {P : Type} : PsItem n P → ℕ
  | .costs _ => 0
  | .states _ => 1
  | .params _ => 2

/-- Loop states that agree in what both record. -/
structure AgreeExact (a b : Bool) (s t : ExactState n) : Prop where
  U : s.U = t.U
  costs : s.costs = t.costs
  perturbations : s.perturbations = t.perturbations
  states : a = true → b = true → s.states = t.states

theorem exactBody_flags (eigh : EighFn n) (rnd : ℕ → Matrix (Fin (2 ^ n)) (Fin (2 ^ n)) ℝ) (observables : List Obs) (eta : ℝ) (tol : Tol)
    (a b pt : Bool) (k : ℕ) (s t : ExactState n) (h : AgreeExact a b s t) :
    Refines (fun x y => AgreeExact a b x.1 y.1 ∧ x.2 = y.2) (exactBody eigh rnd observables eta tol a pt k s)
      (exactBody eigh rnd observables eta tol b pt k t) := by
  rw [exactBody, exactBody, h.U]
  refine .bind_eq _ fun V _ => ?_
  dsimp only
  rw [h.costs]
  refine .bind_eq _ fun costs _ => ?_
  have hst : a = true → b = true → (if a = true then s.states ++ [stateFromUnitary V] else s.states) =
      (if b = true then t.states ++ [stateFromUnitary V] else t.states) := by
    intro ha hb
    rw [if_pos ha, if_pos hb, h.states ha hb]
  split
  · refine .bind_eq _ fun x _ => .bind_eq _ fun y _ => ?_
    split
    · split
      · exact .pure ⟨⟨rfl, rfl, by rw [h.perturbations], hst⟩, rfl⟩
      · exact .pure ⟨⟨rfl, rfl, h.perturbations, hst⟩, rfl⟩
    · exact .pure ⟨⟨rfl, rfl, h.perturbations, hst⟩, rfl⟩
  · exact .pure ⟨⟨rfl, rfl, h.perturbations, hst⟩, rfl⟩

/-- **C84** for `exact_lie_optimizer`: if a call succeeds, then so does the call with any other choice of outputs (the perturbations only if
`perturbation=True`), with the same costs, and with equal items where both return one. -/
theorem C84_exact (eigh : EighFn n) (rnd : ℕ → Matrix (Fin (2 ^ n)) (Fin (2 ^ n)) ℝ) (ret : CircuitRet) (ops : List (NpMat × List ℤ))
    (observables : List Obs) (args : ExactArgs) (a r u : Bool) (hr : r = true → args.perturbation = .bool true) (out : OptOut (ExactItem n))
    (h : exactLieOptimizer eigh rnd ret ops observables args = .ok out) :
    ∃ out', exactLieOptimizer eigh rnd ret ops observables
        { args with returnState := .bool a, returnPerturbations := .bool r, returnUnitary := .bool u } = .ok out' ∧
      Agree ExactItem.kind (outItems .costs out) (outItems .costs out') := by
  revert h out
  change Refines _ _ _
  rw [exactLieOptimizer, exactLieOptimizer]
  refine .bind_eq _ fun _ _ => .bind_eq _ fun nsteps _ => .bind_eq _ fun eta _ => .bind_eq _ fun tol _ => .left _ fun rs _ => ?_
  change Refines _ (validateBool args.perturbation >>= _) (validateBool args.perturbation >>= _)
  refine .bind_eq _ fun pt hpt => .left _ fun _ _ => .left _ fun rp _ => .left _ fun ru _ => ?_
  have hneed : (if (BoolArg.bool r) = .bool true then pyAssert (pt = true) else .ok () : Py Unit) = .ok () := by
    cases r with
    | false => simp
    | true =>
      rw [hr rfl] at hpt
      obtain rfl := Except.ok.inj hpt
      simp [pyAssert]
  dsimp only
  rw [hneed]
  change Refines _ (compileLoop n ops 1 >>= _) (compileLoop n ops 1 >>= _)
  refine .bind_eq _ fun U _ => .bind_eq _ fun costs _ => ?_
  refine .bind (Refines.forRange (exactBody_flags eigh rnd observables eta tol rs a pt) nsteps 0 _ _ ⟨rfl, rfl, rfl, ?_⟩) fun s t hst => ?_
  · intro h1 h2
    rw [h1, h2]
  · rw [hst.costs]
    refine .pure (selectOut_agree .costs ExactItem.kind _ _ _ _ _ rfl ?_ ?_ ?_)
    · intro i x hx
      rcases i with _ | _ | _ | i <;> simp at hx <;> subst hx <;> rfl
    · intro i x hx
      rcases i with _ | _ | _ | i <;> simp at hx <;> subst hx <;> rfl
    · intro i x y hx hy hf hg
      rcases i with _ | _ | _ | i <;> simp at hx hy hf hg <;> subst hx <;> subst hy
      · rw [hst.states hf hg]
      · rw [hst.perturbations]
      · rw [hst.U]

/-- Loop states that agree in what both record. -/
structure AgreeApprox (F G : ApproxFlags) (s t : ApproxState n m) : Prop where
  U : s.U = t.U
  params : s.params = t.params
  objs : s.objs = t.objs
  cycle : s.cycle = t.cycle
  costs : s.costs = t.costs
  perturbations : s.perturbations = t.perturbations
  states : F.returnState = true → G.returnState = true → s.states = t.states
  omegas : F.returnOmegas = true → G.returnOmegas = true → s.omegas = t.omegas
  unitaries : F.returnUnitary = true → G.returnUnitary = true → s.unitaries = t.unitaries
  zassenhaus : F.returnZassenhaus = true → G.returnZassenhaus = true → s.zassenhaus = t.zassenhaus

theorem approxBody_flags (E : LayerEnv n) (eigh : EighFn n) (rnd : ℕ → Matrix (Fin (2 ^ n)) (Fin (2 ^ n)) ℝ) (observables : List Obs) (eta : ℝ)
    (tol : Option Tol) (F G : ApproxFlags) (hp : F.perturb = G.perturb) (ho : G.returnOmegas = true → F.returnOmegas = true) (k : ℕ)
    (s t : ApproxState n m) (h : AgreeApprox F G s t) :
    Refines (fun x y => AgreeApprox F G x.1 y.1 ∧ x.2 = y.2) (approxBody E eigh rnd observables eta tol F k s)
      (approxBody E eigh rnd observables eta tol G k t) := by
  rw [approxBody, approxBody, h.cycle, h.objs, h.params, h.costs, h.U]
  refine .bind_eq _ fun nx _ => ?_
  dsimp only
  refine .bind_eq _ fun r _ => ?_
  refine .bind_eq _ fun costs _ => ?_
  refine .bind (R := fun x y => F.returnOmegas = true → G.returnOmegas = true → x = y) ?_ fun om om' hom => ?_
  · by_cases hF : F.returnOmegas = true
    · rw [if_pos hF]
      by_cases hG : G.returnOmegas = true
      · rw [if_pos hG, h.omegas hF hG]
        exact fun a ha => ⟨a, ha, fun _ _ => rfl⟩
      · rw [if_neg hG]
        exact fun a ha => ⟨_, rfl, fun _ h' => absurd h' hG⟩
    · rw [if_neg hF, if_neg (fun h' => hF (ho h'))]
      exact .pure fun h' => absurd h' hF
  have hst : F.returnState = true → G.returnState = true → (if F.returnState = true then s.states ++ [stateFromUnitary r.1] else s.states) =
      (if G.returnState = true then t.states ++ [stateFromUnitary r.1] else t.states) := by
    intro ha hb
    rw [if_pos ha, if_pos hb, h.states ha hb]
  have hun : F.returnUnitary = true → G.returnUnitary = true → (if F.returnUnitary = true then s.unitaries ++ [r.1] else s.unitaries) =
      (if G.returnUnitary = true then t.unitaries ++ [r.1] else t.unitaries) := by
    intro ha hb
    rw [if_pos ha, if_pos hb, h.unitaries ha hb]
  have hz : F.returnZassenhaus = true → G.returnZassenhaus = true →
      (if F.returnZassenhaus = true then s.zassenhaus ++ [(t.objs nx.1).suState] else s.zassenhaus) =
      (if G.returnZassenhaus = true then t.zassenhaus ++ [(t.objs nx.1).suState] else t.zassenhaus) := by
    intro ha hb
    rw [if_pos ha, if_pos hb, h.zassenhaus ha hb]
  cases tol with
  | none => exact .pure ⟨⟨rfl, rfl, rfl, rfl, rfl, h.perturbations, hst, hom, hun, hz⟩, rfl⟩
  | some tl =>
    dsimp only
    rw [hp]
    split
    · refine .bind_eq _ fun x _ => .bind_eq _ fun y _ => ?_
      split
      · split
        · exact .pure ⟨⟨rfl, rfl, rfl, rfl, rfl, by rw [h.perturbations], hst, hom, hun, hz⟩, rfl⟩
        · exact .pure ⟨⟨rfl, rfl, rfl, rfl, rfl, h.perturbations, hst, hom, hun, hz⟩, rfl⟩
      · exact .pure ⟨⟨rfl, rfl, rfl, rfl, rfl, h.perturbations, hst, hom, hun, hz⟩, rfl⟩
    · exact .pure ⟨⟨rfl, rfl, rfl, rfl, rfl, h.perturbations, hst, hom, hun, hz⟩, rfl⟩

/-- **C84** for `approximate_lie_optimizer`, with any layer objects: if a call succeeds, then so does the call with any other choice of outputs
(except that directions are not newly asked for, which can raise, see C54) and any other float as `escape_tol`, with the same costs and final state of the
layers, and with equal items where both return one. -/
theorem C84_approx (E : LayerEnv n) (eigh : EighFn n) (rnd : ℕ → Matrix (Fin (2 ^ n)) (Fin (2 ^ n)) ℝ) (ret : CircuitRet)
    (ops : List (NpMat × List ℤ)) (params : List (List ℝ)) (observables : List Obs) (objs : Fin m → AnyLayer n) (layers : List (Fin m))
    (args : ApproxArgs) (a o u g r z : Bool) (ho : o = true → args.returnOmegas = .bool true) (esc : PyVal) (hesc : esc.isFloat = true)
    (out : OptOut (ApproxItem n) × (Fin m → AnyLayer n))
    (h : approximateLieOptimizer E eigh rnd ret ops params observables objs layers args = .ok out) :
    ∃ out', approximateLieOptimizer E eigh rnd ret ops params observables objs layers
        { args with escapeTol := esc, returnState := .bool a, returnOmegas := .bool o, returnUnitary := .bool u, returnGates := .bool g,
                    returnPerturbations := .bool r, returnZassenhaus := .bool z } = .ok out' ∧
      Agree ApproxItem.kind (outItems .costs out.1) (outItems .costs out'.1) ∧ out.2 = out'.2 := by
  revert h out
  change Refines _ _ _
  rw [approximateLieOptimizer, approximateLieOptimizer]
  refine .bind_eq _ fun _ _ => .bind_eq _ fun nsteps _ => .bind_eq _ fun eta _ => .bind_eq _ fun tol _ => .left _ fun _ _ => .left _ fun rs _ =>
    .left _ fun ro hro => .left _ fun ru _ => .left _ fun rg _ => ?_
  dsimp only
  have hasrt : pyAssert (esc.isFloat = true) = .ok () := by simp [pyAssert, hesc]
  rw [hasrt]
  change Refines _ (validateBool args.perturb >>= _) (validateBool args.perturb >>= _)
  refine .bind_eq _ fun pt _ => .left _ fun rp _ => .left _ fun rz _ => ?_
  change Refines _ (compileLoop n ops 1 >>= _) (compileLoop n ops 1 >>= _)
  refine .bind_eq _ fun U _ => .bind_eq _ fun costs _ => ?_
  have ho' : o = true → ro = true := by
    intro h1
    rw [ho h1] at hro
    exact (Except.ok.inj hro).symm
  refine .bind (Refines.forRange (approxBody_flags E eigh rnd observables eta tol ⟨rs, ro, ru, rg, pt, rp, rz⟩ ⟨a, o, u, g, pt, r, z⟩ rfl ho') nsteps 0 _ _
    ⟨rfl, rfl, rfl, rfl, rfl, rfl, ?_, fun _ _ => rfl, ?_, fun _ _ => rfl⟩) fun s t hst => ?_
  · intro h1 h2
    dsimp only at h1 h2 ⊢
    rw [h1, h2]
  · intro h1 h2
    dsimp only at h1 h2 ⊢
    rw [h1, h2]
  · rw [hst.costs]
    refine .pure ⟨selectOut_agree .costs ApproxItem.kind _ _ _ _ _ rfl ?_ ?_ ?_, hst.objs⟩
    · intro i x hx
      rcases i with _ | _ | _ | _ | _ | _ | i <;> simp at hx <;> subst hx <;> rfl
    · intro i x hx
      rcases i with _ | _ | _ | _ | _ | _ | i <;> simp at hx <;> subst hx <;> rfl
    · intro i x y hx hy hf hg
      rcases i with _ | _ | _ | _ | _ | _ | i <;> simp at hx hy hf hg <;> subst hx <;> subst hy
      · rw [hst.states hf hg]
      · rw [hst.omegas hf hg]
      · rw [hst.unitaries hf hg]
      · rfl
      · rw [hst.perturbations]
      · rw [hst.zassenhaus hf hg]

/-- **C84**: without perturbation the step size given to `approximate_lie_optimizer` has no effect, as long as it is a float in [0, 1]. -/
theorem C84_eta (E : LayerEnv n) (eigh : EighFn n) (rnd : ℕ → Matrix (Fin (2 ^ n)) (Fin (2 ^ n)) ℝ) (ret : CircuitRet)
    (ops : List (NpMat × List ℤ)) (params : List (List ℝ)) (observables : List Obs) (objs : Fin m → AnyLayer n) (layers : List (Fin m))
    (args : ApproxArgs) (hp : args.perturb = .bool false) (e e' : ℝ) (he : 0 ≤ e ∧ e ≤ 1) (he' : 0 ≤ e' ∧ e' ≤ 1) :
    approximateLieOptimizer E eigh rnd ret ops params observables objs layers { args with eta := .float e } =
      approximateLieOptimizer E eigh rnd ret ops params observables objs layers { args with eta := .float e' } := by
  have hv : ∀ x : ℝ, 0 ≤ x ∧ x ≤ 1 → validateEta (.float x) = .ok x := by
    intro x hx
    simp [validateEta, PyVal.between, PyVal.isFloat, PyVal.toReal, pyAssert, hx, bind, Except.bind]
  have hb : ∀ (tol : Option Tol) (F : ApproxFlags), F.perturb = false →
      approxBody (m := m) E eigh rnd observables e tol F = approxBody E eigh rnd observables e' tol F := by
    intro tol F hF
    funext k s
    simp only [approxBody, hF, Bool.false_eq_true, if_false]
  apply SameBehaviour.eq
  rw [approximateLieOptimizer, approximateLieOptimizer]
  dsimp only
  rw [hv e he, hv e' he', hp]
  refine .bind_eq _ fun _ => .bind_eq _ fun nsteps => ?_
  change SameBehaviour _ (validateTolOpt args.tol >>= _) (validateTolOpt args.tol >>= _)
  refine .bind_eq _ fun tol => .bind_eq _ fun _ => .bind_eq _ fun rs =>
    .bind_eq _ fun ro => .bind_eq _ fun ru => .bind_eq _ fun rg => ?_
  change SameBehaviour _ (validateBool args.returnPerturbations >>= _) (validateBool args.returnPerturbations >>= _)
  refine .bind_eq _ fun rp => .bind_eq _ fun rz => .bind_eq _ fun U => .bind_eq _ fun costs => ?_
  rw [hb tol _ rfl]
  exact .refl (fun _ => rfl) _

/-- Loop states that agree in what both record. -/
structure AgreePs {P : Type} (a b r q : Bool) (s t : PsState n P) : Prop where
  params : s.params = t.params
  costs : s.costs = t.costs
  states : a = true → b = true → s.states = t.states
  pps : r = true → q = true → s.paramsPerStep = t.paramsPerStep

theorem circuitUnitary_of_cost {P : Type} {circuit : P → Py (List (NpMat × List ℤ))} {observables : List Obs} {p : P} {c : ℝ}
    (h : psCost n circuit observables p = .ok c) : ∃ U, circuitUnitary n circuit p = .ok U := by
  rw [psCost] at h
  obtain ⟨U, hU, -⟩ := bind_ok_iff.1 h
  exact ⟨U, hU⟩

theorem recordState {P : Type} {circuit : P → Py (List (NpMat × List ℤ))} {observables : List Obs} {p : P} {c : ℝ}
    (h : psCost n circuit observables p = .ok c) (a b : Bool) (l l' : List (Ket n)) (hl : a = true → b = true → l = l') :
    Refines (fun x y => a = true → b = true → x = y)
      (if a then (do let U ← circuitUnitary n circuit p; .ok (l ++ [stateFromUnitary U])) else .ok l : Py (List (Ket n)))
      (if b then (do let U ← circuitUnitary n circuit p; .ok (l' ++ [stateFromUnitary U])) else .ok l') := by
  obtain ⟨U, hU⟩ := circuitUnitary_of_cost h
  rw [hU]
  cases a <;> cases b
  · exact .pure (by simp)
  · exact .pure (by simp)
  · exact .pure (by simp)
  · rw [hl rfl rfl]
    exact .pure (fun _ _ => rfl)

theorem psBody_flags {P : Type} (gd : ℝ → (P → Py ℝ) → P → Py P) (circuit : P → Py (List (NpMat × List ℤ))) (observables : List Obs) (eta : ℝ) (tol : Tol)
    (a b r q : Bool) (k : ℕ) (s t : PsState n P) (h : AgreePs a b r q s t) :
    Refines (fun x y => AgreePs a b r q x.1 y.1 ∧ x.2 = y.2) (psBody gd circuit observables eta tol a r k s)
      (psBody gd circuit observables eta tol b q k t) := by
  rw [psBody, psBody, h.params, h.costs]
  refine .bind_eq _ fun p _ => .bind_eq _ fun c hc => ?_
  dsimp only
  refine .bind (recordState hc a b _ _ h.states) fun st st' hst => ?_
  have hp : r = true → q = true → (if r = true then s.paramsPerStep ++ [p] else s.paramsPerStep) =
      (if q = true then t.paramsPerStep ++ [p] else t.paramsPerStep) := by
    intro hr hq
    rw [if_pos hr, if_pos hq, h.pps hr hq]
  split
  · exact .bind_eq _ fun x _ => .bind_eq _ fun y _ => .pure ⟨⟨rfl, rfl, hst, hp⟩, rfl⟩
  · exact .pure ⟨⟨rfl, rfl, hst, hp⟩, rfl⟩

/-- **C84** for `parameter_shift_optimizer`: if a call succeeds, then so does the call with any other choice of outputs, with the same costs, and with
equal items where both return one. -/
theorem C84_parameter_shift {P : Type} (gd : ℝ → (P → Py ℝ) → P → Py P) (ret : CircuitRet) (circuit : P → Py (List (NpMat × List ℤ))) (params : P)
    (observables : List Obs) (args : PsArgs) (rp : Bool) (hrp : args.returnParams = boolFlag rp) (a q : Bool) (out : OptOut (PsItem n P))
    (h : parameterShiftOptimizer gd ret circuit params observables args = .ok out) :
    ∃ out', parameterShiftOptimizer gd ret circuit params observables { args with returnState := .bool a, returnParams := boolFlag q } = .ok out' ∧
      Agree PsItem.kind (outItems .costs out) (outItems .costs out') := by
  revert h out
  change Refines _ _ _
  have ht : ∀ b, (boolFlag b).truthy = b := by intro b; cases b <;> simp [boolFlag, FlagVal.truthy]
  rw [parameterShiftOptimizer, parameterShiftOptimizer]
  dsimp only
  rw [hrp]
  simp only [ht]
  refine .bind_eq _ fun _ _ => .bind_eq _ fun _ _ => .bind_eq _ fun nsteps _ => .bind_eq _ fun eta _ => .bind_eq _ fun tol _ => .left _ fun rs _ => ?_
  intro o ho
  obtain ⟨st, hst, ho⟩ := bind_ok_iff.1 ho
  obtain ⟨c, hc, ho⟩ := bind_ok_iff.1 ho
  have h1 := recordState hc rs a [] [] (fun _ _ => rfl) st (by simpa using hst)
  obtain ⟨st', h2, h3⟩ := h1
  have h4 : (if a then (do let U ← circuitUnitary n circuit params; .ok [stateFromUnitary U]) else .ok [] : Py (List (Ket n))) = .ok st' := by
    simpa using h2
  have h5 : Refines (fun x y => Agree PsItem.kind (outItems .costs x) (outItems .costs y))
      (pyForRange (psBody gd circuit observables eta tol rs rp) 0 nsteps { params := params, costs := [c], states := st, paramsPerStep := if rp then [params] else [] } >>=
        fun s => psOut s rs (boolFlag rp))
      (pyForRange (psBody gd circuit observables eta tol a q) 0 nsteps { params := params, costs := [c], states := st', paramsPerStep := if q then [params] else [] } >>=
        fun s => psOut s a (boolFlag q)) := by
    refine .bind (Refines.forRange (psBody_flags gd circuit observables eta tol rs a rp q) nsteps 0 _ _ ⟨rfl, rfl, h3, ?_⟩) fun s t hst => ?_
    · intro h6 h7
      dsimp only
      rw [h6, h7]
    · rw [psOut_bool, psOut_bool, hst.costs]
      refine .pure ?_
      have h8 := hst.states
      have h9 := hst.pps
      cases rs <;> cases a <;> cases rp <;> cases q <;>
        refine ⟨by simp [psOutput, outItems], ?_⟩ <;> simp [psOutput, outItems, PsItem.kind] <;> simp_all
  obtain ⟨o', h6, h7⟩ := h5 o ho
  refine ⟨o', ?_, h7⟩
  change ((if a then (do let U ← circuitUnitary n circuit params; .ok [stateFromUnitary U]) else .ok [] : Py (List (Ket n))) >>= _) = _
  rw [h4]
  change (psCost n circuit observables params >>= _) = _
  rw [hc]
  exact h6

/-- Hypotheses of `C84_exact`: a run with perturbation and nothing but the costs returned. -/
example (eigh : EighFn 2) (rnd : ℕ → Matrix (Fin (2 ^ 2)) (Fin (2 ^ 2)) ℝ) : ∃ (args : ExactArgs) (out : OptOut (ExactItem 2)), args.perturbation = .bool true ∧
    exactLieOptimizer eigh rnd .state ([exObsZ].map (fun g => (g.obs.matrix, g.obs.wires))) ([exObsZ].map Gate.obs) args = .ok out := by
  obtain ⟨out, h⟩ := (C44_succeeds_iff eigh rnd .state [exObsZ] { nsteps := .int (12 : ℕ), perturbation := .bool true } [exObsZ]).mpr
    ⟨rfl, 12, 0.1, .fin 1e-3, false, true, false, false, rfl, by norm_num, rfl, by norm_num, by norm_num, ⟨rfl, by norm_num⟩, rfl, rfl, rfl, by simp, rfl⟩
  exact ⟨_, out, rfl, h⟩

/-- Hypotheses of `C84_approx` and `C84_eta`: a run without perturbation in which nothing but the costs is returned. -/
example (rnd : ℕ → Matrix (Fin (2 ^ 2)) (Fin (2 ^ 2)) ℝ) (eigh : EighFn 2) : ∃ (E : LayerEnv 2) (L : SquaredLayer 2) (args : ApproxArgs), args.perturb = .bool false ∧
    ∃ out, approximateLieOptimizer E eigh rnd .state ([exObsZ].map (fun g => (g.obs.matrix, g.obs.wires))) [] ([exObsZ].map Gate.obs) (fun _ : Fin 1 => .squared L) [0]
      args = .ok out := by
  obtain ⟨svd, hsvd⟩ := exists_validSvd 2
  obtain ⟨L, hL⟩ := exSquared
  let E : LayerEnv 2 := ⟨svd, ⟨List.reverse, List.reverse_perm⟩, fun _ _ p => .ok p⟩
  have hE : ValidSvd E.svd := hsvd
  refine ⟨E, L, { nsteps := .int (12 : ℕ) }, rfl, ?_⟩
  exact (C50_total_layers E hE eigh rnd .state [exObsZ] [] [exObsZ] _ [0] _ (List.cons_ne_nil _ _)
    (fun _ => .squared (by norm_num) [exObsZ] {} L hL) rfl).mpr
    ⟨rfl, 12, 0.1, some (.fin 1e-3), _, approxValid_of 12 (by norm_num) (some (.float 1e-3)) (some (.fin 1e-3)) ⟨rfl, by norm_num⟩ ⟨false, false, false, false, false, false, false⟩⟩

/-- Hypotheses of `C84_parameter_shift`. -/
example : ∃ out : OptOut (PsItem 1 ℝ), parameterShiftOptimizer (fun e _ p => .ok (p - e)) .nothing
    (fun p => .ok ([(⟨[0], rot p, by simp, by simp, by simp⟩ : Gate 1)].map (fun g => (g.obs.matrix, g.obs.wires)))) 1 ([gateZ].map Gate.obs)
    { nsteps := .int (7 : ℕ), eta := .float (1 / 2), tol := .float (1 / 100), returnState := .bool false, returnParams := boolFlag true } = .ok out :=
  (C55_succeeds_iff (n := 1) (fun e _ p => .ok (p - e)) .nothing 1 _ (fun p => [(⟨[0], rot p, by simp, by simp, by simp⟩ : Gate 1)]) [gateZ]
    (fun _ _ _ => ⟨_, rfl⟩) true rfl).mpr ⟨rfl, 7, 1 / 2, .fin (1 / 100), false, ⟨rfl, by norm_num, rfl, by norm_num, by norm_num, ⟨rfl, by norm_num⟩, rfl⟩⟩

end Oranssi
