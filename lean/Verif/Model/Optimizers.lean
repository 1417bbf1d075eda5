import Verif.Model.ZassenhausV2

/-! # Model of `parameter_shift_optimizer`, `exact_lie_optimizer`, `approximate_lie_optimizer` (oranssi/optimizers.py:13-389)

The `print` calls are left out.  `np.linalg.eigh`, `np.random.randn` and PennyLane's gradient-descent step are parameters.  Keyword
arguments that are not given have the default of `kwargs.get`. -/

namespace Oranssi
open scoped Matrix

/-! ### Argument checks -/

/-- A validated tolerance: a real number or `inf`. -/
inductive Tol where
  | fin (x : ℝ)
  | inf

open Classical in
/-- `lo <= v <= np.inf`. -/
noncomputable def PyVal.atLeast (lo : ℝ) : PyVal → Py Bool
  | .float x => .ok (decide (lo ≤ x))
  | .nan => .ok false
  | .inf pos => .ok pos
  | .number x => .ok (decide (lo ≤ x))
  | .array => .error .value
  | .incomparable => .error .type

/-- optimizers.py:46-47, 138-139, 272-273: `assert (isinstance(tol, float) & (0. <= tol <= np.inf))`. -/
noncomputable def validateTol (v : PyVal) : Py Tol := do
  let b ← v.atLeast 0
  pyAssert ((v.isFloat && b) = true)
  .ok (match v with | .float x => .fin x | _ => .inf)

/-- Values of `nsteps`: an `int` (a `bool` is one) or something else. -/
inductive NArg where
  | int (k : ℤ)
  | other (v : PyVal)

/-- optimizers.py:40-41, 132-133, 265-266: `assert (isinstance(nsteps, int) & (1 <= nsteps <= np.inf))`. -/
noncomputable def validateNsteps : NArg → Py ℕ
  | .int k => do
    pyAssert (1 ≤ k)
    .ok k.toNat
  | .other v => do
    let _ ← v.atLeast 1
    .error .assertion

/-- `np.isclose(a, b, atol=tol)` for finite `a`, `b` (default `rtol=1e-5`). -/
noncomputable def isCloseTol (a b : ℝ) : Tol → Bool
  | .fin t => isCloseTo a b t
  | .inf => true

/-! ### Loops and costs -/

/-- `for step in range(k, k + r): …` where the body returns the new state and whether it executed `break`. -/
def pyForRange {σ : Type _} (body : ℕ → σ → Py (σ × Bool)) : ℕ → ℕ → σ → Py σ
  | _, 0, s => .ok s
  | k, r + 1, s => do
    let x ← body k s
    if x.2 then .ok x.1 else pyForRange body (k + 1) r x.1

/-- `for o in observables: cost[i] += obs_qnode(unitary=U, observable=o)`. -/
noncomputable def addCosts {n : ℕ} (U : Matrix (Fin (2 ^ n)) (Fin (2 ^ n)) ℂ) (i : ℤ) : List Obs → List ℝ → Py (List ℝ)
  | [], costs => .ok costs
  | o :: os, costs => do
    let c ← pyGetItem costs i
    let e ← expvalFromUnitary U o
    let costs' ← pySetItem costs i (c + e)
    addCosts U i os costs'

/-- What the optimizers return: the bare list of costs or a tuple. -/
inductive OptOut (α : Type _) where
  | bare (costs : List ℝ)
  | tuple (items : List α)

/-- optimizers.py:91-97, 220-226, 382-389: the return value, from the list `returnables` and the list `boolean_returnables`, whose first
element is `True`. -/
def selectOut {α : Type _} (costs : List ℝ) (returnables : List α) (flags : List Bool) : OptOut α :=
  if ((flags.tail).map (fun b => if b then 1 else 0)).sum < 1 then .bare costs
  else .tuple (((returnables.zip flags).filter (fun p => p.2)).map Prod.fst)

/-- What `circuit(params)` returns. -/
inductive CircuitRet where
  /-- `qml.state()` -/
  | state
  /-- another PennyLane measurement -/
  | measurement
  /-- something without the attribute `return_type`, for instance `None` -/
  | nothing
  deriving DecidableEq

/-- optimizers.py:121-127 and 250-256: `circuit` must return a state. -/
def assertState (r : CircuitRet) : Py Unit := pyAssert (r = .state)

/-- `S, V = np.linalg.eigh(H)`. -/
abbrev EighFn (n : ℕ) := Matrix (Fin (2 ^ n)) (Fin (2 ^ n)) ℂ → (Fin (2 ^ n) → ℝ) × Matrix (Fin (2 ^ n)) (Fin (2 ^ n)) ℂ

/-- optimizers.py:191-192, 211-212, 373-374: `S, V = eigh(H); V @ diag(exp(-1j * eta / 2 * S)) @ V.conj().T`. -/
noncomputable def eighExp {n : ℕ} (eigh : EighFn n) (eta : ℝ) (H : Matrix (Fin (2 ^ n)) (Fin (2 ^ n)) ℂ) : Matrix (Fin (2 ^ n)) (Fin (2 ^ n)) ℂ :=
  (eigh H).2 * Matrix.diagonal (fun i => Complex.exp (-Complex.I * ((eta / 2 * (eigh H).1 i : ℝ) : ℂ))) * (eigh H).2ᴴ

/-- optimizers.py:207-214, 369-376: the random perturbation; `R` is the result of `np.random.randn`. -/
noncomputable def perturb {n : ℕ} (eigh : EighFn n) (eta : ℝ) (R : Matrix (Fin (2 ^ n)) (Fin (2 ^ n)) ℝ)
    (U : Matrix (Fin (2 ^ n)) (Fin (2 ^ n)) ℂ) : Matrix (Fin (2 ^ n)) (Fin (2 ^ n)) ℂ :=
  eighExp eigh eta ((-Complex.I) • (((0.5 : ℝ) • ((0.1 : ℝ) • R - ((0.1 : ℝ) • R)ᵀ)).map (fun x : ℝ => (x : ℂ)))) * U

/-! ### `exact_lie_optimizer` -/

/-- The keyword arguments of `exact_lie_optimizer`. -/
structure ExactArgs where
  nsteps : NArg := .int 40
  eta : PyVal := .float 0.1
  tol : PyVal := .float 1e-3
  returnState : BoolArg := .bool false
  perturbation : BoolArg := .bool false
  returnPerturbations : BoolArg := .bool false
  returnUnitary : BoolArg := .bool false

/-- The elements of the tuple returned by `exact_lie_optimizer`. -/
inductive ExactItem (n : ℕ) where
  | costs (l : List ℝ)
  | states (l : List (Ket n))
  | perturbations (l : List ℕ)
  | unitary (U : Matrix (Fin (2 ^ n)) (Fin (2 ^ n)) ℂ)

/-- The local variables of the loop. -/
structure ExactState (n : ℕ) where
  U : Matrix (Fin (2 ^ n)) (Fin (2 ^ n)) ℂ
  costs : List ℝ
  states : List (Ket n)
  perturbations : List ℕ

/-- optimizers.py:184-194: one update for one observable. -/
noncomputable def exactUpdate {n : ℕ} (eigh : EighFn n) (eta : ℝ) (o : Obs) (U : Matrix (Fin (2 ^ n)) (Fin (2 ^ n)) ℂ) :
    Py (Matrix (Fin (2 ^ n)) (Fin (2 ^ n)) ℂ) := do
  let rho := Matrix.vecMulVec (stateFromUnitary U) (star (stateFromUnitary U))
  let F ← getFullOperator o.matrix o.wires n
  let H := paramShiftComm rho (fun t => NormedSpace.exp ((-Complex.I * ((t / 2 : ℝ) : ℂ)) • F))
  .ok (eighExp eigh eta H * U)

/-- optimizers.py:183-194: the loop over the observables. -/
noncomputable def exactUpdates {n : ℕ} (eigh : EighFn n) (eta : ℝ) : List Obs → Matrix (Fin (2 ^ n)) (Fin (2 ^ n)) ℂ →
    Py (Matrix (Fin (2 ^ n)) (Fin (2 ^ n)) ℂ)
  | [], U => .ok U
  | o :: os, U => do
    let U' ← exactUpdate eigh eta o U
    exactUpdates eigh eta os U'

/-- optimizers.py:182-218: one step. -/
noncomputable def exactBody {n : ℕ} (eigh : EighFn n) (rnd : ℕ → Matrix (Fin (2 ^ n)) (Fin (2 ^ n)) ℝ) (observables : List Obs)
    (eta : ℝ) (tol : Tol) (returnState perturbation : Bool) (step : ℕ) (s : ExactState n) : Py (ExactState n × Bool) := do
  let costs := s.costs ++ [0]
  let U ← exactUpdates eigh eta observables s.U
  let states := if returnState then s.states ++ [stateFromUnitary U] else s.states
  let costs ← addCosts U ((step : ℤ) + 1) observables costs
  if step > 3 then do
    let a ← pyGetItem costs (-1)
    let b ← pyGetItem costs (-2)
    if isCloseTol a b tol then
      if perturbation then
        .ok ({ U := perturb eigh eta (rnd step) U, costs := costs, states := states, perturbations := s.perturbations ++ [step] }, false)
      else .ok ({ U := U, costs := costs, states := states, perturbations := s.perturbations }, true)
    else .ok ({ U := U, costs := costs, states := states, perturbations := s.perturbations }, false)
  else .ok ({ U := U, costs := costs, states := states, perturbations := s.perturbations }, false)

/-- optimizers.py:100-226 `exact_lie_optimizer(circuit, params, observables, device, **kwargs)`.  `ret` is what `circuit(params)` returns,
`ops` are the gates of the circuit (`get_ops_from_qnode`), `n = len(device.wires)`. -/
noncomputable def exactLieOptimizer {n : ℕ} (eigh : EighFn n) (rnd : ℕ → Matrix (Fin (2 ^ n)) (Fin (2 ^ n)) ℝ) (ret : CircuitRet)
    (ops : List (NpMat × List ℤ)) (observables : List Obs) (args : ExactArgs) : Py (OptOut (ExactItem n)) := do
  assertState ret
  let nsteps ← validateNsteps args.nsteps
  let eta ← validateEta args.eta
  let tol ← validateTol args.tol
  let returnState ← validateBool args.returnState
  let perturbation ← validateBool args.perturbation
  let _ ← (if args.returnPerturbations = .bool true then pyAssert (perturbation = true) else .ok () : Py Unit)
  let returnPerturbations ← validateBool args.returnPerturbations
  let returnUnitary ← validateBool args.returnUnitary
  let U ← compileLoop n ops 1
  let states := if returnState then [stateFromUnitary U] else []
  let costs ← addCosts U 0 observables [0]
  let s ← pyForRange (exactBody eigh rnd observables eta tol returnState perturbation) 0 nsteps
    { U := U, costs := costs, states := states, perturbations := [] }
  .ok (selectOut s.costs [.costs s.costs, .states s.states, .perturbations s.perturbations, .unitary s.U]
    [true, returnState, returnPerturbations, returnUnitary])

/-! ### `parameter_shift_optimizer` -/

/-- Values of the unchecked argument `return_params`: an integer (`True` is 1, `False` is 0) or another value, of which only the truth value matters. -/
inductive FlagVal where
  | int (k : ℤ)
  | other (truthy : Bool)

/-- `bool(v)`. -/
def FlagVal.truthy : FlagVal → Bool
  | .int k => decide (k ≠ 0)
  | .other t => t

/-- The keyword arguments of `parameter_shift_optimizer`. -/
structure PsArgs where
  nsteps : NArg := .int 40
  eta : PyVal := .float 0.1
  tol : PyVal := .float 1e-3
  returnState : BoolArg := .bool false
  returnParams : FlagVal := .int 0

/-- The elements of the tuple returned by `parameter_shift_optimizer`. -/
inductive PsItem (n : ℕ) (P : Type) where
  | costs (l : List ℝ)
  | states (l : List (Ket n))
  | params (l : List P)

/-- The local variables of the loop. -/
structure PsState (n : ℕ) (P : Type) where
  params : P
  costs : List ℝ
  states : List (Ket n)
  paramsPerStep : List P

/-- The state that `qml.QNode(circuit_state, device)` computes for the gates of the circuit (contract). -/
def circuitUnitary {P : Type} (n : ℕ) (circuit : P → Py (List (NpMat × List ℤ))) (p : P) : Py (Matrix (Fin (2 ^ n)) (Fin (2 ^ n)) ℂ) := do
  let ops ← circuit p
  compileLoop n ops 1

/-- optimizers.py:70-71: `cost_fn = qml.ExpvalCost(circuit, H, device)` for the sum `H` of the observables (contract). -/
noncomputable def psCost {P : Type} (n : ℕ) (circuit : P → Py (List (NpMat × List ℤ))) (observables : List Obs) (p : P) : Py ℝ := do
  let U ← circuitUnitary n circuit p
  totalCost U observables

/-- optimizers.py:80-89: one step; `gd eta cost_fn params` are the parameters after `GradientDescentOptimizer(eta).step_and_cost`. -/
noncomputable def psBody {n : ℕ} {P : Type} (gd : ℝ → (P → Py ℝ) → P → Py P) (circuit : P → Py (List (NpMat × List ℤ))) (observables : List Obs)
    (eta : ℝ) (tol : Tol) (returnState returnParams : Bool) (step : ℕ) (s : PsState n P) : Py (PsState n P × Bool) := do
  let params ← gd eta (psCost n circuit observables) s.params
  let c ← psCost n circuit observables params
  let costs := s.costs ++ [c]
  let states ← (if returnState then do
      let U ← circuitUnitary n circuit params
      .ok (s.states ++ [stateFromUnitary U])
    else .ok s.states : Py (List (Ket n)))
  let pps := if returnParams then s.paramsPerStep ++ [params] else s.paramsPerStep
  if step > 2 then do
    let a ← pyGetItem costs (-1)
    let b ← pyGetItem costs (-2)
    .ok ({ params := params, costs := costs, states := states, paramsPerStep := pps }, isCloseTol a b tol)
  else .ok ({ params := params, costs := costs, states := states, paramsPerStep := pps }, false)

/-- optimizers.py:91-97: the return value.  `sum` of a value that is not a number raises `TypeError`. -/
def psOut {n : ℕ} {P : Type} (s : PsState n P) (returnState : Bool) (returnParams : FlagVal) : Py (OptOut (PsItem n P)) :=
  match returnParams with
  | .other _ => .error .type
  | .int k =>
    if (if returnState then 1 else 0) + k < 1 then .ok (.bare s.costs)
    else .ok (.tuple ((([PsItem.costs s.costs, .states s.states, .params s.paramsPerStep].zip [true, returnState, decide (k ≠ 0)]).filter
      (fun p => p.2)).map Prod.fst))

/-- optimizers.py:13-97 `parameter_shift_optimizer(circuit, params, observables, device, **kwargs)`.  `ret` is what `circuit(params)` returns,
`circuit p` are the gates the circuit applies for the parameters `p`. -/
noncomputable def parameterShiftOptimizer {n : ℕ} {P : Type} (gd : ℝ → (P → Py ℝ) → P → Py P) (ret : CircuitRet)
    (circuit : P → Py (List (NpMat × List ℤ))) (params : P) (observables : List Obs) (args : PsArgs) : Py (OptOut (PsItem n P)) := do
  let _ ← circuit params
  let _ ← (if ret = .nothing then .ok () else .error .attribute : Py Unit)
  let nsteps ← validateNsteps args.nsteps
  let eta ← validateEta args.eta
  let tol ← validateTol args.tol
  let returnState ← validateBool args.returnState
  let states ← (if returnState then do
      let U ← circuitUnitary n circuit params
      .ok [stateFromUnitary U]
    else .ok [] : Py (List (Ket n)))
  let pps := if args.returnParams.truthy then [params] else []
  let c ← psCost n circuit observables params
  let s ← pyForRange (psBody gd circuit observables eta tol returnState args.returnParams.truthy) 0 nsteps
    { params := params, costs := [c], states := states, paramsPerStep := pps }
  psOut s returnState args.returnParams

/-! ### `approximate_lie_optimizer` -/

/-- The layer objects.  A `ZassenhausLayerV2` is held with the minimiser that its calls use (`scipy.optimize.minimize`, opt_tools.py:1000). -/
inductive AnyLayer (n : ℕ) where
  | loc (L : LocalLayer n)
  | custom (L : CustomLayer n)
  | stochastic (L : StochasticLayer n)
  | squared (L : SquaredLayer n)
  | adapt (L : AdaptLayer n)
  | su8 (L : SU8Layer n)
  | zass (L : ZassLayer n)
  | v2 (nm : NelderMead) (L : ZassV2Layer n)

/-- The external functions the layers need: `np.linalg.svd`, the iteration order of sets, PennyLane's gradient-descent step. -/
structure LayerEnv (n : ℕ) where
  svd : SvdFn n
  ord : SetOrder ℕ
  gd : ℝ → (List (List ℝ) → Py ℝ) → List (List ℝ) → Py (List (List ℝ))

/-- opt_tools.py:577-578 with `optimizer=parameter_shift_optimizer`: `costs, params_ext = ps_optimizer(circuit_vqe, params_ext,
self.observables, self.dev, return_params=True, eta=0.01, tol=1e-5)`. -/
noncomputable def psForAdapt {n : ℕ} (E : LayerEnv n) (observables : List Obs) : VqeOptimizer := fun circuit params => do
  let r ← parameterShiftOptimizer (n := n) E.gd .nothing circuit params observables { eta := .float 0.01, tol := .float 1e-5, returnParams := .int 1 }
  match r with
  | .tuple [.costs _, .params ps] => .ok ps
  | _ => .error .value

/-- optimizers.py:344-348: the call of a layer, with `commute` not given: the new circuit, the new parameters, the layer's new state. -/
noncomputable def AnyLayer.call {n : ℕ} (E : LayerEnv n) (L : AnyLayer n) (params : List (List ℝ)) (U : Matrix (Fin (2 ^ n)) (Fin (2 ^ n)) ℂ) :
    Py (Matrix (Fin (2 ^ n)) (Fin (2 ^ n)) ℂ × List (List ℝ) × AnyLayer n) :=
  match L with
  | .loc L => do let V ← L.call E.svd U; .ok (V, params, .loc L)
  | .custom L => do let V ← L.call E.svd U; .ok (V, params, .custom L)
  | .stochastic L => do let V ← L.call E.svd U; .ok (V, params, .stochastic L)
  | .squared L => do let r ← L.call U; .ok (r.1, params, .squared r.2)
  | .adapt L => do let r ← L.call (psForAdapt E L.observables) params U; .ok (r.1, r.2.1, .adapt r.2.2)
  | .su8 L => do let r ← L.call U; .ok (r.1, params, .su8 L)
  | .zass L => do let r ← L.call E.ord U; .ok (r.1, params, .zass r.2)
  | .v2 nm L => do let r ← L.call nm U; .ok (r.1, params, .v2 nm r.2)

/-- The attribute `su_state`: `None` except for a `ZassenhausLayer` (opt_tools.py:33, 737). -/
def AnyLayer.suState {n : ℕ} : AnyLayer n → Option Phase
  | .zass L => some L.phase
  | _ => none

/-- opt_tools.py:89-99 `get_lie_algebra_directions`.  In the local, custom and stochastic layers `self.observables` holds numpy arrays,
which have no attribute `matrix`. -/
noncomputable def AnyLayer.directionsDict {n : ℕ} (L : AnyLayer n) (U : Matrix (Fin (2 ^ n)) (Fin (2 ^ n)) ℂ) : Py (List (String × ℝ)) :=
  match L with
  | .loc L => if L.observables = [] then getAllSuNDirections U [] else .error .attribute
  | .custom L => if L.observables = [] then getAllSuNDirections U [] else .error .attribute
  | .stochastic L => if L.observables = [] then getAllSuNDirections U [] else .error .attribute
  | .squared L => getAllSuNDirections U L.observables
  | .adapt L => getAllSuNDirections U L.observables
  | .su8 L => getAllSuNDirections U L.observables
  | .zass L => getAllSuNDirections U L.observables
  | .v2 _ L => getAllSuNDirections U L.observables

/-- The keyword arguments of `approximate_lie_optimizer`; `tol = none` is `tol=None`. -/
structure ApproxArgs where
  nsteps : NArg := .int 40
  eta : PyVal := .float 0.1
  tol : Option PyVal := some (.float 1e-3)
  escapeTol : PyVal := .float 1e-3
  returnState : BoolArg := .bool false
  returnOmegas : BoolArg := .bool false
  returnUnitary : BoolArg := .bool false
  returnGates : BoolArg := .bool false
  perturb : BoolArg := .bool false
  returnPerturbations : BoolArg := .bool false
  returnZassenhaus : BoolArg := .bool false

/-- The elements of the tuple returned by `approximate_lie_optimizer`; `gates` is never appended to. -/
inductive ApproxItem (n : ℕ) where
  | costs (l : List ℝ)
  | states (l : List (Ket n))
  | omegas (l : List (List (String × ℝ)))
  | unitaries (l : List (Matrix (Fin (2 ^ n)) (Fin (2 ^ n)) ℂ))
  | gates (l : List (List (NpMat × List ℤ)))
  | perturbations (l : List ℕ)
  | zassenhaus (l : List (Option Phase))

/-- Python's `itertools.cycle`: what is left of the current pass, and the saved elements. -/
structure Cycle (α : Type) where
  left : List α
  saved : List α

/-- `next(it)`. -/
def Cycle.next {α : Type} (c : Cycle α) : Py (α × Cycle α) :=
  match c.left with
  | a :: as => .ok (a, { left := as, saved := c.saved })
  | [] =>
    match c.saved with
    | a :: as => .ok (a, { left := as, saved := c.saved })
    | [] => .error .stopIteration

/-- The local variables of the loop.  `objs` are the layer objects; the list `layers` holds references to them, and may hold the same
object several times. -/
structure ApproxState (n m : ℕ) where
  U : Matrix (Fin (2 ^ n)) (Fin (2 ^ n)) ℂ
  params : List (List ℝ)
  objs : Fin m → AnyLayer n
  cycle : Cycle (Fin m)
  costs : List ℝ
  states : List (Ket n)
  omegas : List (List (String × ℝ))
  unitaries : List (Matrix (Fin (2 ^ n)) (Fin (2 ^ n)) ℂ)
  perturbations : List ℕ
  zassenhaus : List (Option Phase)

/-- The checked flags of `approximate_lie_optimizer`. -/
structure ApproxFlags where
  returnState : Bool
  returnOmegas : Bool
  returnUnitary : Bool
  returnGates : Bool
  perturb : Bool
  returnPerturbations : Bool
  returnZassenhaus : Bool

/-- optimizers.py:340-380: one step. -/
noncomputable def approxBody {n m : ℕ} (E : LayerEnv n) (eigh : EighFn n) (rnd : ℕ → Matrix (Fin (2 ^ n)) (Fin (2 ^ n)) ℝ)
    (observables : List Obs) (eta : ℝ) (tol : Option Tol) (F : ApproxFlags) (step : ℕ) (s : ApproxState n m) : Py (ApproxState n m × Bool) := do
  let costs := s.costs ++ [0]
  let nx ← s.cycle.next
  let zassenhaus := if F.returnZassenhaus then s.zassenhaus ++ [(s.objs nx.1).suState] else s.zassenhaus
  let r ← (s.objs nx.1).call E s.params s.U
  let objs := Function.update s.objs nx.1 r.2.2
  let costs ← addCosts r.1 ((step : ℤ) + 1) observables costs
  let states := if F.returnState then s.states ++ [stateFromUnitary r.1] else s.states
  let omegas ← (if F.returnOmegas then do
      let d ← (objs nx.1).directionsDict r.1
      .ok (s.omegas ++ [d])
    else .ok s.omegas : Py (List (List (String × ℝ))))
  let unitaries := if F.returnUnitary then s.unitaries ++ [r.1] else s.unitaries
  let s' : ApproxState n m := {
    U := r.1, params := r.2.1, objs := objs, cycle := nx.2, costs := costs, states := states, omegas := omegas, unitaries := unitaries,
    perturbations := s.perturbations, zassenhaus := zassenhaus }
  match tol with
  | none => .ok (s', false)
  | some t =>
    if step > 8 then do
      let a ← pyGetItem costs (-1)
      let b ← pyGetItem costs (-6)
      if isCloseTol a b t then
        if F.perturb then .ok ({ s' with U := perturb eigh eta (rnd step) r.1, perturbations := s.perturbations ++ [step] }, false)
        else .ok (s', true)
      else .ok (s', false)
    else .ok (s', false)

/-- optimizers.py:270-273: `tol` may be `None`. -/
noncomputable def validateTolOpt (v : Option PyVal) : Py (Option Tol) :=
  match v with
  | none => .ok none
  | some v => do let t ← validateTol v; .ok (some t)

/-- optimizers.py:229-389 `approximate_lie_optimizer(circuit, params, observables, device, layers, **kwargs)`; also returns the layer
objects as they are after the run. -/
noncomputable def approximateLieOptimizer {n m : ℕ} (E : LayerEnv n) (eigh : EighFn n) (rnd : ℕ → Matrix (Fin (2 ^ n)) (Fin (2 ^ n)) ℝ)
    (ret : CircuitRet) (ops : List (NpMat × List ℤ)) (params : List (List ℝ)) (observables : List Obs) (objs : Fin m → AnyLayer n)
    (layers : List (Fin m)) (args : ApproxArgs) : Py (OptOut (ApproxItem n) × (Fin m → AnyLayer n)) := do
  assertState ret
  let nsteps ← validateNsteps args.nsteps
  let eta ← validateEta args.eta
  let tol ← validateTolOpt args.tol
  pyAssert (args.escapeTol.isFloat = true)
  let returnState ← validateBool args.returnState
  let returnOmegas ← validateBool args.returnOmegas
  let returnUnitary ← validateBool args.returnUnitary
  let returnGates ← validateBool args.returnGates
  let doPerturb ← validateBool args.perturb
  let returnPerturbations ← validateBool args.returnPerturbations
  let returnZassenhaus ← validateBool args.returnZassenhaus
  let U ← compileLoop n ops 1
  let states := if returnState then [stateFromUnitary U] else []
  let unitaries := if returnUnitary then [U] else []
  let costs ← addCosts U 0 observables [0]
  let s ← pyForRange (approxBody E eigh rnd observables eta tol
      { returnState := returnState, returnOmegas := returnOmegas, returnUnitary := returnUnitary, returnGates := returnGates,
        perturb := doPerturb, returnPerturbations := returnPerturbations, returnZassenhaus := returnZassenhaus }) 0 nsteps
    { U := U, params := params, objs := objs, cycle := { left := layers, saved := layers }, costs := costs, states := states, omegas := [],
      unitaries := unitaries, perturbations := [], zassenhaus := [] }
  .ok (selectOut s.costs [.costs s.costs, .states s.states, .omegas s.omegas, .unitaries s.unitaries, .gates [], .perturbations s.perturbations,
      .zassenhaus s.zassenhaus] [true, returnState, returnOmegas, returnUnitary, returnGates, returnPerturbations, returnZassenhaus], s.objs)

end Oranssi
