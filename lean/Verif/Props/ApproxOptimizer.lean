import Verif.Lemmas.Optimizers

/-! # The run of `approximate_lie_optimizer` -/

namespace Oranssi
open Spec
open scoped Matrix

/-- What a step of `approximate_lie_optimizer` changes: the circuit, the parameters and the layer objects. -/
structure World (n m : ℕ) where
  U : QMat n
  params : List (List ℝ)
  objs : Fin m → AnyLayer n

def ApproxState.world {n m : ℕ} (s : ApproxState n m) : World n m := ⟨s.U, s.params, s.objs⟩

/-- Step `k` calls the layer `k mod len(layers)`. -/
def LayerStep {n m : ℕ} (E : LayerEnv n) (layers : List (Fin m)) (k : ℕ) (a b : World n m) : Prop :=
  ∃ i L', layers[k % layers.length]? = some i ∧ (a.objs i).call E a.params a.U = .ok (b.U, b.params, L') ∧ b.objs = Function.update a.objs i L'

/-- Two costs count as close: never if there is no tolerance. -/
def CloseOpt (tol : Option Tol) (a b : ℝ) : Prop := ∃ t, tol = some t ∧ Close t.spec a b

/-- The rules of a run of `approximate_lie_optimizer`. -/
noncomputable def approxRules {n m : ℕ} (E : LayerEnv n) (eigh : EighFn n) (rnd : ℕ → Matrix (Fin (2 ^ n)) (Fin (2 ^ n)) ℝ) (gs : List (Gate n))
    (layers : List (Fin m)) (N : ℕ) (e : ℝ) (tol : Option Tol) (p : Bool) : Rules (World n m) where
  nsteps := N
  first := 9
  lag := 5
  close := CloseOpt tol
  cost := fun w => cost (totalObs gs) w.U
  step := LayerStep E layers
  kick := if p then some (fun k w => { w with U := perturb eigh e (rnd k) w.U }) else none

/-- The values that `approximate_lie_optimizer` can return. -/
structure ApproxResult (n : ℕ) where
  costs : List ℝ
  states : List (Ket n)
  omegas : List (List (String × ℝ))
  unitaries : List (QMat n)
  gates : List (List (NpMat × List ℤ))
  perturbations : List ℕ
  zassenhaus : List (Option Phase)

/-- The documented return value: the costs alone, or the tuple of the costs and what was asked for. -/
def approxOutput {n : ℕ} (r : ApproxResult n) (F : ApproxFlags) : OptOut (ApproxItem n) :=
  if F.returnState = false ∧ F.returnOmegas = false ∧ F.returnUnitary = false ∧ F.returnGates = false ∧ F.returnPerturbations = false ∧
    F.returnZassenhaus = false then .bare r.costs
  else .tuple ([.costs r.costs] ++ (if F.returnState then [.states r.states] else []) ++ (if F.returnOmegas then [.omegas r.omegas] else []) ++
    (if F.returnUnitary then [.unitaries r.unitaries] else []) ++ (if F.returnGates then [.gates r.gates] else []) ++
    (if F.returnPerturbations then [.perturbations r.perturbations] else []) ++ (if F.returnZassenhaus then [.zassenhaus r.zassenhaus] else []))

theorem selectOut_approx {n : ℕ} (r : ApproxResult n) (F : ApproxFlags) :
    selectOut r.costs [.costs r.costs, .states r.states, .omegas r.omegas, .unitaries r.unitaries, .gates r.gates, .perturbations r.perturbations,
      .zassenhaus r.zassenhaus] [true, F.returnState, F.returnOmegas, F.returnUnitary, F.returnGates, F.returnPerturbations, F.returnZassenhaus] =
      approxOutput r F := by
  obtain ⟨a, b, c, d, p, e, f⟩ := F
  cases a <;> cases b <;> cases c <;> cases d <;> cases e <;> cases f <;> simp [selectOut, approxOutput]

/-- The tolerance argument is valid, with the given meaning. -/
def IsTolOpt : Option PyVal → Option Tol → Prop
  | none, none => True
  | some v, some t => IsTol v t
  | _, _ => False

/-- The arguments are valid, with the given meaning. -/
structure ApproxValid (args : ApproxArgs) (N : ℕ) (e : ℝ) (t : Option Tol) (F : ApproxFlags) : Prop where
  nsteps : args.nsteps = .int (N : ℤ)
  pos : 1 ≤ N
  eta : args.eta = .float e
  eta0 : 0 ≤ e
  eta1 : e ≤ 1
  tol : IsTolOpt args.tol t
  escape : args.escapeTol.isFloat = true
  flagS : args.returnState = .bool F.returnState
  flagO : args.returnOmegas = .bool F.returnOmegas
  flagU : args.returnUnitary = .bool F.returnUnitary
  flagG : args.returnGates = .bool F.returnGates
  flagP : args.perturb = .bool F.perturb
  flagR : args.returnPerturbations = .bool F.returnPerturbations
  flagZ : args.returnZassenhaus = .bool F.returnZassenhaus

/-- The state of the loop before the first step. -/
noncomputable def approxInit {n m : ℕ} (gs : List (Gate n)) (params : List (List ℝ)) (objs : Fin m → AnyLayer n) (layers : List (Fin m)) (F : ApproxFlags)
    (U : QMat n) : ApproxState n m :=
  { U := U, params := params, objs := objs, cycle := { left := layers, saved := layers }, costs := [cost (totalObs gs) U],
    states := if F.returnState then [stateFromUnitary U] else [], omegas := [], unitaries := if F.returnUnitary then [U] else [],
    perturbations := [], zassenhaus := [] }

theorem tolOpt_iff (v : Option PyVal) (t : Option Tol) :
    validateTolOpt v = .ok t ↔ IsTolOpt v t := by
  unfold validateTolOpt
  cases v with
  | none => cases t <;> simp [IsTolOpt]
  | some v =>
    simp only [bind_ok_iff, validateTol_iff]
    constructor
    · rintro ⟨t', ht, h⟩
      cases h
      exact ht
    · intro h
      cases t with
      | none => cases h
      | some t => exact ⟨t, h, rfl⟩

variable {n m : ℕ} (E : LayerEnv n) (eigh : EighFn n) (rnd : ℕ → Matrix (Fin (2 ^ n)) (Fin (2 ^ n)) ℝ) (ret : CircuitRet) (ops : List (NpMat × List ℤ))
  (params : List (List ℝ)) (gs : List (Gate n)) (objs : Fin m → AnyLayer n) (layers : List (Fin m)) (args : ApproxArgs)
  (out : OptOut (ApproxItem n) × (Fin m → AnyLayer n))

theorem approx_ok_iff : approximateLieOptimizer E eigh rnd ret ops params (gs.map Gate.obs) objs layers args = .ok out ↔
    ret = .state ∧ ∃ N e t F, ApproxValid args N e t F ∧ ∃ U s, compileLoop n ops 1 = .ok U ∧
      pyForRange (approxBody E eigh rnd (gs.map Gate.obs) e t F) 0 N (approxInit gs params objs layers F U) = .ok s ∧
      out = (approxOutput ⟨s.costs, s.states, s.omegas, s.unitaries, [], s.perturbations, s.zassenhaus⟩ F, s.objs) := by
  have hc : ∀ U : QMat n, addCosts U 0 (gs.map Gate.obs) [0] = .ok [cost (totalObs gs) U] := by
    intro U; simpa using addCosts_gates U gs [] 0
  unfold approximateLieOptimizer assertState
  simp only [bind_ok_iff, pyAssert_ok_iff, validateNsteps_iff, validateEta_iff, tolOpt_iff, validateBool_iff, hc, Except.ok.injEq]
  constructor
  · rintro ⟨-, hr, N, ⟨hN, hN1⟩, e, ⟨he, he0, he1⟩, t, ht, -, hesc, f1, h1, f2, h2, f3, h3, f4, h4, f5, h5, f6, h6, f7, h7, U, hU, costs, rfl, s, hs, hout⟩
    refine ⟨hr, N, e, t, ⟨f1, f2, f3, f4, f5, f6, f7⟩, ⟨hN, hN1, he, he0, he1, ht, hesc, h1, h2, h3, h4, h5, h6, h7⟩, U, s, hU, hs, ?_⟩
    rw [← hout, ← selectOut_approx]
  · rintro ⟨hr, N, e, t, F, hv, U, s, hU, hs, rfl⟩
    refine ⟨(), hr, N, ⟨hv.nsteps, hv.pos⟩, e, ⟨hv.eta, hv.eta0, hv.eta1⟩, t, hv.tol, (), hv.escape, _, hv.flagS, _, hv.flagO, _, hv.flagU, _, hv.flagG, _, hv.flagP,
      _, hv.flagR, _, hv.flagZ, U, hU, _, rfl, s, hs, ?_⟩
    rw [← selectOut_approx]

/-- After `k` calls of `next` the cycle is at position `k mod len(layers)`. -/
def CycleAt (layers : List (Fin m)) (k : ℕ) (c : Cycle (Fin m)) : Prop :=
  c.saved = layers ∧ ∃ r ≤ layers.length, c.left = layers.drop r ∧ r % layers.length = k % layers.length

theorem cycle_next (layers : List (Fin m)) (k : ℕ) (c : Cycle (Fin m)) (h : CycleAt layers k c) (x : Fin m × Cycle (Fin m)) (hx : c.next = .ok x) :
    layers[k % layers.length]? = some x.1 ∧ CycleAt layers (k + 1) x.2 := by
  obtain ⟨hs, r, hr, hl, hm⟩ := h
  rw [Cycle.next, hs, hl] at hx
  rcases hr.lt_or_eq with hr | rfl
  · rw [List.drop_eq_getElem_cons hr] at hx
    simp only [Except.ok.injEq] at hx
    subst hx
    rw [Nat.mod_eq_of_lt hr] at hm
    refine ⟨by rw [← hm]; exact List.getElem?_eq_getElem hr, rfl, r + 1, hr, rfl, ?_⟩
    rw [Nat.add_mod, Nat.mod_eq_of_lt hr, hm, ← Nat.add_mod]
  · rw [List.drop_length] at hx
    cases layers with
    | nil => simp at hx
    | cons a as =>
      simp only [Except.ok.injEq] at hx
      subst hx
      rw [Nat.mod_self] at hm
      refine ⟨by rw [← hm]; rfl, rfl, 1, by simp, rfl, ?_⟩
      rw [Nat.add_mod, ← hm]
      simp

theorem cycle_next_total (layers : List (Fin m)) (hl : layers ≠ []) (c : Cycle (Fin m)) (h : c.saved = layers) : ∃ x, c.next = .ok x := by
  rw [Cycle.next, h]
  cases c.left with
  | cons a as => exact ⟨_, rfl⟩
  | nil =>
    cases layers with
    | nil => exact absurd rfl hl
    | cons a as => exact ⟨_, rfl⟩

/-- What a step of `approximate_lie_optimizer` appends to the lists. -/
def approxLog (R : Rules (World n m)) (layers : List (Fin m)) (F : ApproxFlags) (k : ℕ) (s : ApproxState n m) (v : World n m) (s' : ApproxState n m) : Prop :=
  s'.states = (if F.returnState then s.states ++ [stateFromUnitary v.U] else s.states) ∧
  s'.unitaries = (if F.returnUnitary then s.unitaries ++ [v.U] else s.unitaries) ∧
  (F.perturb = true → FlatAt R s.costs k v → s'.perturbations = s.perturbations ++ [k]) ∧
  (F.perturb = false ∨ ¬ FlatAt R s.costs k v → s'.perturbations = s.perturbations) ∧
  ∃ i, layers[k % layers.length]? = some i ∧
    s'.zassenhaus = (if F.returnZassenhaus then s.zassenhaus ++ [(s.objs i).suState] else s.zassenhaus) ∧
    (F.returnOmegas = false → s'.omegas = s.omegas) ∧
    (F.returnOmegas = true → ∃ d, (v.objs i).directionsDict v.U = .ok d ∧ s'.omegas = s.omegas ++ [d])

theorem approxBody_step (N : ℕ) (e : ℝ) (t : Option Tol) (F : ApproxFlags) (k : ℕ) (s s' : ApproxState n m) (b : Bool)
    (h : approxBody E eigh rnd (gs.map Gate.obs) e t F k s = .ok (s', b)) (hl : s.costs.length = k + 1) (hcy : CycleAt layers k s.cycle) :
    (∃ v, BodyStep (approxRules E eigh rnd gs layers N e t F.perturb) ApproxState.world ApproxState.costs k s v s' b ∧
      approxLog (approxRules E eigh rnd gs layers N e t F.perturb) layers F k s v s') ∧ CycleAt layers (k + 1) s'.cycle := by
  unfold approxBody at h
  simp only [bind_ok_iff] at h
  obtain ⟨nx, hnx, r, hr, costs, hcosts, om, hom, h⟩ := h
  obtain ⟨hi, hcy'⟩ := cycle_next layers k _ hcy _ hnx
  have hk : ((k : ℤ) + 1) = (s.costs.length : ℤ) := by rw [hl]; push_cast; ring
  rw [hk, addCosts_gates, zero_add] at hcosts
  obtain rfl := Except.ok.inj hcosts
  have hstep : LayerStep E layers k s.world ⟨r.1, r.2.1, Function.update s.objs nx.1 r.2.2⟩ := ⟨nx.1, r.2.2, hi, hr, rfl⟩
  have hom' : (F.returnOmegas = false → om = s.omegas) ∧
      (F.returnOmegas = true → ∃ d, (Function.update s.objs nx.1 r.2.2 nx.1).directionsDict r.1 = .ok d ∧ om = s.omegas ++ [d]) := by
    constructor
    · intro hf
      rw [if_neg (by simp [hf])] at hom
      exact (Except.ok.inj hom).symm
    · intro hf
      rw [if_pos hf] at hom
      obtain ⟨d, hd, ho⟩ := bind_ok_iff.mp hom
      exact ⟨d, hd, (Except.ok.inj ho).symm⟩
  generalize hv : (⟨r.1, r.2.1, Function.update s.objs nx.1 r.2.2⟩ : World n m) = v at hstep
  have hvU : r.1 = v.U := by rw [← hv]
  have hvp : r.2.1 = v.params := by rw [← hv]
  have hvo : Function.update s.objs nx.1 r.2.2 = v.objs := by rw [← hv]
  rw [hvU, hvp, hvo] at h
  rw [hvU, hvo] at hom'
  rw [hvU] at hom
  have hfl : FlatAt (approxRules E eigh rnd gs layers N e t F.perturb) s.costs k v ↔
      k > 8 ∧ ∃ t', t = some t' ∧ isCloseTol (cost (totalObs gs) v.U) ((s.costs ++ [cost (totalObs gs) v.U]).getD (k + 1 - 5) 0) t' = true := by
    simp only [isCloseTol_iff]; rfl
  have h1 : pyGetItem (s.costs ++ [cost (totalObs gs) v.U]) (-1) = .ok (cost (totalObs gs) v.U) := getItem_last
  refine ⟨⟨v, ?_⟩, ?_⟩
  · cases t with
    | none =>
      have hF : ¬ FlatAt (approxRules E eigh rnd gs layers N e none F.perturb) s.costs k v := by
        rw [hfl]; rintro ⟨-, t', ht, -⟩; cases ht
      obtain ⟨rfl, rfl⟩ := Prod.mk.inj (Except.ok.inj h)
      exact ⟨⟨hstep, rfl, fun _ => ⟨rfl, rfl⟩, fun hn => absurd hn hF, fun hn => absurd hn hF⟩, rfl, rfl, fun _ hn => absurd hn hF, fun _ => rfl, nx.1, hi, rfl, hom'⟩
    | some t =>
      by_cases h3 : k > 8
      · have h2 : pyGetItem (s.costs ++ [cost (totalObs gs) v.U]) (-6) = .ok ((s.costs ++ [cost (totalObs gs) v.U]).getD (k + 1 - 5) 0) := by
          have := getItem_neg (s.costs ++ [cost (totalObs gs) v.U]) 5 (by simp [hl]; omega)
          rw [show (s.costs ++ [cost (totalObs gs) v.U]).length - 1 - 5 = k + 1 - 5 by simp [hl]] at this
          exact this
        simp only at h
        rw [if_pos h3] at h
        simp only [bind_ok_iff, h1, h2, Except.ok.injEq] at h
        obtain ⟨a, rfl, b', rfl, h⟩ := h
        by_cases hcl : isCloseTol (cost (totalObs gs) v.U) ((s.costs ++ [cost (totalObs gs) v.U]).getD (k + 1 - 5) 0) t = true
        · have hF := hfl.mpr ⟨h3, t, rfl, hcl⟩
          rw [if_pos hcl] at h
          cases hp : F.perturb with
          | true =>
            rw [if_pos hp] at h
            obtain ⟨rfl, rfl⟩ := Prod.mk.inj (Except.ok.inj h)
            rw [hp] at hF
            refine ⟨⟨hstep, rfl, fun hn => absurd hF hn, fun _ f hf => ?_, fun _ hn => ?_⟩, rfl, rfl, fun _ _ => rfl, fun hn => ?_, nx.1, hi, rfl, hom'⟩
            · simp only [approxRules, if_true, Option.some.injEq] at hf
              subst hf
              exact ⟨rfl, rfl⟩
            · simp [approxRules] at hn
            · simp [hF, hp] at hn
          | false =>
            rw [if_neg (by simp [hp])] at h
            obtain ⟨rfl, rfl⟩ := Prod.mk.inj (Except.ok.inj h)
            rw [hp] at hF
            refine ⟨⟨hstep, rfl, fun hn => absurd hF hn, fun _ f hf => ?_, fun _ hn => ⟨rfl, rfl⟩⟩, rfl, rfl, fun hn => by simp [hp] at hn, fun _ => rfl, nx.1, hi, rfl, hom'⟩
            simp [approxRules] at hf
        · have hF : ¬ FlatAt (approxRules E eigh rnd gs layers N e (some t) F.perturb) s.costs k v := by
            rw [hfl]; rintro ⟨-, t', ht, h⟩; cases ht; exact hcl h
          rw [if_neg hcl] at h
          obtain ⟨rfl, rfl⟩ := Prod.mk.inj (Except.ok.inj h)
          exact ⟨⟨hstep, rfl, fun _ => ⟨rfl, rfl⟩, fun hn => absurd hn hF, fun hn => absurd hn hF⟩, rfl, rfl, fun _ hn => absurd hn hF, fun _ => rfl, nx.1, hi, rfl, hom'⟩
      · have hF : ¬ FlatAt (approxRules E eigh rnd gs layers N e (some t) F.perturb) s.costs k v := fun hF => h3 (hfl.mp hF).1
        simp only at h
        rw [if_neg h3] at h
        obtain ⟨rfl, rfl⟩ := Prod.mk.inj (Except.ok.inj h)
        exact ⟨⟨hstep, rfl, fun _ => ⟨rfl, rfl⟩, fun hn => absurd hn hF, fun hn => absurd hn hF⟩, rfl, rfl, fun _ hn => absurd hn hF, fun _ => rfl, nx.1, hi, rfl, hom'⟩
  · cases t with
    | none =>
      obtain ⟨rfl, rfl⟩ := Prod.mk.inj (Except.ok.inj h)
      exact hcy'
    | some t =>
      simp only at h
      split at h
      · simp only [bind_ok_iff] at h
        obtain ⟨_, _, _, _, h⟩ := h
        split at h
        · split at h <;> obtain ⟨rfl, rfl⟩ := Prod.mk.inj (Except.ok.inj h) <;> exact hcy'
        · obtain ⟨rfl, rfl⟩ := Prod.mk.inj (Except.ok.inj h); exact hcy'
      · obtain ⟨rfl, rfl⟩ := Prod.mk.inj (Except.ok.inj h); exact hcy'

/-- A list that grows by one element per step, where the element is only known to exist. -/
theorem log_exists {σ β : Type*} (log : σ → List β) (S : ℕ → σ) (P : ℕ → β → Prop) (h0 : log (S 0) = []) : ∀ j : ℕ,
    (∀ k < j, ∃ x, P k x ∧ log (S (k + 1)) = log (S k) ++ [x]) → (log (S j)).length = j ∧ ∀ k < j, ∃ x, P k x ∧ (log (S j))[k]? = some x
  | 0, _ => ⟨by rw [h0]; rfl, fun k hk => absurd hk (by omega)⟩
  | j + 1, h => by
    obtain ⟨hl, ih⟩ := log_exists log S P h0 j (fun k hk => h k (by omega))
    obtain ⟨x, hx, he⟩ := h j (by omega)
    refine ⟨by rw [he]; simp [hl], fun k hk => ?_⟩
    rcases Nat.lt_succ_iff_lt_or_eq.mp hk with hk | rfl
    · obtain ⟨y, hy, hye⟩ := ih k hk
      exact ⟨y, hy, by rw [he, List.getElem?_append_left (by omega)]; exact hye⟩
    · exact ⟨x, hx, by rw [he, List.getElem?_append_right (by omega)]; simp [hl]⟩

open Classical in
/-- Everything about a successful call. -/
theorem approx_outcome (h : approximateLieOptimizer E eigh rnd ret ops params (gs.map Gate.obs) objs layers args = .ok out) :
    ret = .state ∧ ∃ N e t F, ApproxValid args N e t F ∧ ∃ (V W : ℕ → World n m) (j : ℕ) (r : ApproxResult n), compileLoop n ops 1 = .ok (V 0).U ∧
      (V 0).params = params ∧ (V 0).objs = objs ∧ (approxRules E eigh rnd gs layers N e t F.perturb).Run V W j ∧
      out = (approxOutput r F, (W j).objs) ∧
      r.costs = (List.range (j + 1)).map (fun k => cost (totalObs gs) (V k).U) ∧
      r.states = (if F.returnState then (List.range (j + 1)).map (fun k => stateFromUnitary (V k).U) else []) ∧
      r.unitaries = (if F.returnUnitary then (List.range (j + 1)).map (fun k => (V k).U) else []) ∧
      r.perturbations = (if F.perturb then (List.range j).filter (fun k => (approxRules E eigh rnd gs layers N e t F.perturb).Flat V k) else []) ∧
      r.gates = [] ∧
      (F.returnZassenhaus = true → r.zassenhaus.length = j ∧
        ∀ k < j, ∃ x, (∃ i, layers[k % layers.length]? = some i ∧ x = ((W k).objs i).suState) ∧ r.zassenhaus[k]? = some x) ∧
      (F.returnOmegas = true → r.omegas.length = j ∧
        ∀ k < j, ∃ d, (∃ i, layers[k % layers.length]? = some i ∧ ((V (k + 1)).objs i).directionsDict (V (k + 1)).U = .ok d) ∧ r.omegas[k]? = some d) := by
  obtain ⟨hr, N, e, t, F, hv, U, s, hU, hs, hout⟩ := (approx_ok_iff ..).mp h
  obtain ⟨V, S, j, hrun, hV0, hS0, hSj, hL, hcosts⟩ := run_of_loop (approxRules E eigh rnd gs layers N e t F.perturb)
    (approxBody E eigh rnd (gs.map Gate.obs) e t F) ApproxState.world ApproxState.costs (fun k s => CycleAt layers k s.cycle)
    (approxLog (approxRules E eigh rnd gs layers N e t F.perturb) layers F) (approxInit gs params objs layers F U) s rfl
    ⟨rfl, 0, Nat.zero_le _, rfl, rfl⟩
    (fun k s s' b hb hl hI => approxBody_step E eigh rnd gs layers N e t F k s s' b hb hl hI) hs
  refine ⟨hr, N, e, t, F, hv, V, _, j, ⟨s.costs, s.states, s.omegas, s.unitaries, [], s.perturbations, s.zassenhaus⟩, by rw [hV0]; exact hU, by rw [hV0]; rfl,
    by rw [hV0]; rfl, hrun, by rw [hout, hSj]; rfl, hcosts, ?_, ?_, ?_, rfl, ?_, ?_⟩
  · show s.states = _
    rw [← hSj]
    cases hf : F.returnState with
    | true =>
      rw [log_append ApproxState.states S (fun k => stateFromUnitary (V (k + 1)).U) j (fun k hk => by have := (hL k hk).1.1; rw [if_pos hf] at this; exact this), hS0]
      simp [approxInit, List.range_succ_eq_map, hV0, Function.comp_def, hf, ApproxState.world]
    | false =>
      rw [log_const ApproxState.states S j (fun k hk => by have := (hL k hk).1.1; rw [if_neg (by simp [hf])] at this; exact this), hS0]
      simp [approxInit, hf]
  · show s.unitaries = _
    rw [← hSj]
    cases hf : F.returnUnitary with
    | true =>
      rw [log_append ApproxState.unitaries S (fun k => (V (k + 1)).U) j (fun k hk => by have := (hL k hk).1.2.1; rw [if_pos hf] at this; exact this), hS0]
      simp [approxInit, List.range_succ_eq_map, hV0, Function.comp_def, hf, ApproxState.world]
    | false =>
      rw [log_const ApproxState.unitaries S j (fun k hk => by have := (hL k hk).1.2.1; rw [if_neg (by simp [hf])] at this; exact this), hS0]
      simp [approxInit, hf]
  · show s.perturbations = _
    rw [← hSj]
    cases hf : F.perturb with
    | true =>
      rw [hf] at hL
      rw [log_filter ApproxState.perturbations S ((approxRules E eigh rnd gs layers N e t true).Flat V) j, hS0]
      · simp [approxInit]
      · intro k hk
        obtain ⟨hLk, hF⟩ := hL k hk
        by_cases hfl : (approxRules E eigh rnd gs layers N e t true).Flat V k
        · rw [if_pos hfl]; exact hLk.2.2.1 hf (hF.mpr hfl)
        · rw [if_neg hfl]; exact hLk.2.2.2.1 (.inr (fun h => hfl (hF.mp h)))
    | false =>
      rw [log_const ApproxState.perturbations S j (fun k hk => (hL k hk).1.2.2.2.1 (.inl hf)), hS0]
      simp [approxInit]
  · intro hf
    show s.zassenhaus.length = j ∧ _
    rw [← hSj]
    refine log_exists ApproxState.zassenhaus S _ (by rw [hS0]; rfl) j (fun k hk => ?_)
    obtain ⟨-, -, -, -, i, hi, hz, -⟩ := (hL k hk).1
    rw [if_pos hf] at hz
    exact ⟨_, ⟨i, hi, rfl⟩, hz⟩
  · intro hf
    show s.omegas.length = j ∧ _
    rw [← hSj]
    refine log_exists ApproxState.omegas S _ (by rw [hS0]; rfl) j (fun k hk => ?_)
    obtain ⟨-, -, -, -, i, hi, -, -, ho⟩ := (hL k hk).1
    obtain ⟨d, hd, ho⟩ := ho hf
    exact ⟨d, ⟨i, hi, hd⟩, ho⟩

end Oranssi
