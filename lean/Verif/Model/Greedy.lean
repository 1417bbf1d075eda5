import Mathlib.Analysis.SpecialFunctions.Complex.Arg
import Verif.Model.LieLayers
import Verif.Model.EdgeColoring
import Verif.Spec.Gates

/-! # Model of `rotosolve`, `SquaredLieAlgebraLayer`, `AdaptVQELayer` and `SU8_AlgebraLayer`
(oranssi/opt_tools.py:378-681, 1272-1305) -/

namespace Oranssi
open scoped Matrix

/-- opt_tools.py:1286-1290 and optimizers.py:177-179, 200-203, 336-338, 351-354: `for o in observables: H += obs_qnode(unitary, o)`. -/
noncomputable def costLoop {n : ℕ} (U : Matrix (Fin (2 ^ n)) (Fin (2 ^ n)) ℂ) : List Obs → ℝ → Py ℝ
  | [], acc => .ok acc
  | o :: os, acc => do
    let e ← expvalFromUnitary U o
    costLoop U os (acc + e)

/-- The total cost of a circuit. -/
noncomputable def totalCost {n : ℕ} (U : Matrix (Fin (2 ^ n)) (Fin (2 ^ n)) ℂ) (observables : List Obs) : Py ℝ := costLoop U observables 0

/-- `np.arctan2(y, x)` (exact arithmetic has no negative zeros, so `arctan2(0, x) = π` for `x < 0`). -/
noncomputable def arctan2 (y x : ℝ) : ℝ := Complex.arg ⟨x, y⟩

/-- opt_tools.py:1272-1305 `rotosolve(pauli, observables, obs_qnode, circuit_unitary, nqubits)`; `k` is the argument `nqubits`, for
which the layers pass the length of the direction. -/
noncomputable def rotosolve {n : ℕ} (pauli : Matrix (Fin (2 ^ n)) (Fin (2 ^ n)) ℂ) (observables : List Obs)
    (U : Matrix (Fin (2 ^ n)) (Fin (2 ^ n)) ℂ) (k : ℕ) : Py (Matrix (Fin (2 ^ n)) (Fin (2 ^ n)) ℂ × ℝ) := do
  let H0 ← totalCost U observables
  let Hp ← totalCost (NormedSpace.exp ((-Complex.I * ((Real.pi / 2 / 2 ^ k : ℝ) : ℂ)) • pauli) * U) observables
  let Hm ← totalCost (NormedSpace.exp ((Complex.I * ((Real.pi / 2 / 2 ^ k : ℝ) : ℂ)) • pauli) * U) observables
  let eta := -Real.pi / 2 - arctan2 (2 * H0 - Hp - Hm) (Hp - Hm)
  .ok (NormedSpace.exp ((-Complex.I * ((eta / 2 ^ k : ℝ) : ℂ)) • pauli) * U, eta)

/-- opt_tools.py:431-434, 536-538, 657-659, 751-754: `Σ_obs float((phi† @ (pauli @ obs - obs @ pauli) @ phi).imag)`. -/
noncomputable def omegaSum {n : ℕ} (phi : Ket n) (obsFull : List (Matrix (Fin (2 ^ n)) (Fin (2 ^ n)) ℂ))
    (pauli : Matrix (Fin (2 ^ n)) (Fin (2 ^ n)) ℂ) : ℝ :=
  obsFull.foldl (fun acc o => acc + (omegaC phi pauli o).im) 0

/-- opt_tools.py:428-435 and similar: the dictionary `omegas` of absolute gradients. -/
noncomputable def absOmegas {n : ℕ} (phi : Ket n) (obsFull : List (Matrix (Fin (2 ^ n)) (Fin (2 ^ n)) ℂ))
    (fp : List (Key × Matrix (Fin (2 ^ n)) (Fin (2 ^ n)) ℂ)) : List (Key × ℝ) :=
  fp.map (fun e => (e.1, |omegaSum phi obsFull e.2|))

open Classical in
/-- Python's `max(d, key=d.get)`: the first of the keys with the largest value; `ValueError` when the dictionary is empty. -/
noncomputable def pyArgmax {K : Type} : List (K × ℝ) → Py K
  | [] => .error .value
  | e :: es => .ok (es.foldl (fun best x => if x.2 > best.2 then x else best) e).1

/-- The attributes of a `SquaredLieAlgebraLayer` that its calls read or write (`current_pauli` is only written). -/
structure SquaredLayer (n : ℕ) where
  eta : ℝ
  lastate : Algebra n
  observables : List Obs
  observablesFull : List (Matrix (Fin (2 ^ n)) (Fin (2 ^ n)) ℂ)
  check : Bool
  trotterize : Bool
  /-- initially `('Null', 0)`, which is not a key of the dictionary -/
  previousPauli : Key

/-- opt_tools.py:379-422 `SquaredLieAlgebraLayer.__init__`. -/
noncomputable def squaredLayer (n : ℕ) (observables : List Obs) (args : LayerArgs) : Py (SquaredLayer n) := do
  let _ ← promoteAll n observables
  let eta ← validateEta (args.eta.getD (.float 0.1))
  let obsFull ← promoteAll n observables
  let check ← validateBool (args.unitaryErrorCheck.getD (.bool false))
  let trotterize ← validateBool (args.trotterize.getD (.bool false))
  let la ← (algebraSU4 n true).getAll
  .ok { eta := eta, lastate := la, observables := observables, observablesFull := obsFull, check := check, trotterize := trotterize,
        previousPauli := ("Null", [0]) }

/-- opt_tools.py:424-435: the gradients of all directions but the previous one. -/
noncomputable def SquaredLayer.omegas {n : ℕ} (L : SquaredLayer n) (U : Matrix (Fin (2 ^ n)) (Fin (2 ^ n)) ℂ) : List (Key × ℝ) :=
  absOmegas (stateFromUnitary U) L.observablesFull (L.lastate.fullPaulis.filter (fun e => e.1 ≠ L.previousPauli))

/-- opt_tools.py:424-471 `SquaredLieAlgebraLayer.__call__(circuit_unitary)` with `commute=False`: the new circuit and the layer's new state. -/
noncomputable def SquaredLayer.call {n : ℕ} (L : SquaredLayer n) (U : Matrix (Fin (2 ^ n)) (Fin (2 ^ n)) ℂ) :
    Py (Matrix (Fin (2 ^ n)) (Fin (2 ^ n)) ℂ × SquaredLayer n) := do
  let k ← pyArgmax (L.omegas U)
  let p ← dictGet L.lastate.fullPaulis k
  let r ← rotosolve p L.observables U k.1.toList.length
  .ok (r.1, { L with previousPauli := k })

/-- A history of calls of the same layer object on the given circuits: the direction selected by and the circuit returned from each call. -/
noncomputable def SquaredLayer.runAll {n : ℕ} (L : SquaredLayer n) : List (Matrix (Fin (2 ^ n)) (Fin (2 ^ n)) ℂ) →
    Py (List (Key × Matrix (Fin (2 ^ n)) (Fin (2 ^ n)) ℂ) × SquaredLayer n)
  | [] => .ok ([], L)
  | U :: Us => do
    let r ← L.call U
    let rest ← r.2.runAll Us
    .ok ((r.2.previousPauli, r.1) :: rest.1, rest.2)

/-- circuit_tools.py:174-191 `get_commuting_set(edge_list)` for tuples of any length: qubits without repetition are returned as they are;
otherwise the tuples are pairs (a single-letter direction has one tuple per qubit). -/
def commutingEdges (rs : ℕ → ℕ) (fuel : ℕ) (es : List (List ℕ)) : Py (List (List ℕ)) :=
  if es.flatten.length = es.flatten.dedup.length then .ok es
  else do
    let r ← getCommutingSet rs fuel (es.map (fun e => (e.getD 0 0, e.getD 1 0)))
    .ok (r.map (fun e => [e.1, e.2]))

open Classical in
/-- opt_tools.py:439 `np.isclose(v, max_value, atol=1e-3)` with the default `rtol = 1e-5`. -/
noncomputable def isCloseTo (a b atol : ℝ) : Bool := decide (|a - b| ≤ atol + 1e-5 * |b|)

/-- The largest value of a dictionary: `max(d.values())`. -/
noncomputable def pyMaxValue {K : Type} : List (K × ℝ) → Py ℝ
  | [] => .error .value
  | e :: es => .ok (es.foldl (fun best x => max best x.2) e.2)

/-- opt_tools.py:456-459: apply the optimised rotations. -/
noncomputable def applyRotations {n : ℕ} (fp : List (Key × Matrix (Fin (2 ^ n)) (Fin (2 ^ n)) ℂ)) (direction : String) (ps : List ℝ) :
    ℕ → List (List ℕ) → Matrix (Fin (2 ^ n)) (Fin (2 ^ n)) ℂ → Py (Matrix (Fin (2 ^ n)) (Fin (2 ^ n)) ℂ)
  | _, [], U => .ok U
  | i, e :: es, U => do
    let θ ← pyGetItem ps (i : ℤ)
    let p ← dictGet fp (direction, e)
    applyRotations fp direction ps (i + 1) es (NormedSpace.exp ((-Complex.I * ((θ / 2 : ℝ) : ℂ)) • p) * U)

/-- A `qml.RX/RY/RZ` or `qml.PauliRot` gate as recorded by PennyLane: its matrix and its wires. -/
noncomputable def rotGate (θ : ℝ) (d : String) (ws : List ℕ) : NpMat × List ℤ :=
  (⟨2 ^ (Spec.lettersOfStr d).length, 2 ^ (Spec.lettersOfStr d).length, Spec.pauliRot θ (Spec.lettersOfStr d)⟩, ws.map (Nat.cast : ℕ → ℤ))

/-- opt_tools.py:446-449 `circuit_lie(params)`: the gates in the order in which they are applied. -/
noncomputable def circuitLie {n : ℕ} (U : Matrix (Fin (2 ^ n)) (Fin (2 ^ n)) ℂ) (direction : String) (edges : List (List ℕ)) (params : List ℝ) :
    Py (List (NpMat × List ℤ)) := do
  let gs ← edges.zipIdx.mapM (fun e => do
    let θ ← pyGetItem params (e.2 : ℤ)
    .ok (rotGate θ direction e.1))
  .ok (((⟨2 ^ n, 2 ^ n, U⟩ : NpMat), (List.range n).map (Nat.cast : ℕ → ℤ)) :: gs)

/-- The type of the optimizer a `SquaredLieAlgebraLayer` is called with: from the circuit (a function of its parameters) and the initial
parameters to the list of parameters it went through. -/
abbrev LieOptimizer := (List ℝ → Py (List (NpMat × List ℤ))) → List ℝ → Py (List (List ℝ))

/-- opt_tools.py:436-445: the direction and the bonds of the layer of rotations for `commute=True`. -/
noncomputable def SquaredLayer.commuteSelect {n : ℕ} (L : SquaredLayer n) (rs : ℕ → ℕ) (fuel : ℕ) (U : Matrix (Fin (2 ^ n)) (Fin (2 ^ n)) ℂ) :
    Py (String × List (List ℕ)) := do
  let m ← pyMaxValue (L.omegas U)
  let ks := ((L.omegas U).filter (fun e => isCloseTo e.2 m 1e-3)).map Prod.fst
  let k0 ← pyGetItem ks 0
  let edges ← commutingEdges rs fuel ((ks.filter (fun k => k.1 = k0.1)).map Prod.snd)
  .ok (k0.1, edges)

/-- opt_tools.py:424-461 `__call__` with `commute=True`.  `optimizer` is the keyword argument of that name; `None` is not callable.
The method returns a pair, and leaves `previous_pauli` alone. -/
noncomputable def SquaredLayer.callCommute {n : ℕ} (L : SquaredLayer n) (rs : ℕ → ℕ) (fuel : ℕ)
    (optimizer : Option LieOptimizer) (U : Matrix (Fin (2 ^ n)) (Fin (2 ^ n)) ℂ) :
    Py (Matrix (Fin (2 ^ n)) (Fin (2 ^ n)) ℂ × List (Key × ℝ)) := do
  let de ← L.commuteSelect rs fuel U
  let opt ← (match optimizer with
    | none => .error .type
    | some f => f (circuitLie U de.1 de.2) (de.2.map (fun _ => (0.1 : ℝ))) : Py (List (List ℝ)))
  let last ← (if de.2 = [] then .ok [] else pyGetItem opt (-1) : Py (List ℝ))
  let V ← applyRotations L.lastate.fullPaulis de.1 last 0 de.2 U
  let thetas ← de.2.zipIdx.mapM (fun e => pyGetItem last (e.2 : ℤ))
  .ok (V, (de.2.map (fun e => (de.1, e))).zip thetas)

/-- The attributes of an `SU8_AlgebraLayer` that its calls read. -/
structure SU8Layer (n : ℕ) where
  eta : ℝ
  lastate : Algebra8 n
  observables : List Obs
  observablesFull : List (Matrix (Fin (2 ^ n)) (Fin (2 ^ n)) ℂ)
  check : Bool
  trotterize : Bool

/-- opt_tools.py:606-651 `SU8_AlgebraLayer.__init__`. -/
noncomputable def su8Layer (n : ℕ) (observables : List Obs) (args : LayerArgs) (addSu2 addSu4 : Bool := true) : Py (SU8Layer n) := do
  let _ ← promoteAll n observables
  let eta ← validateEta (args.eta.getD (.float 0.1))
  pyAssert (n ≥ 3)
  let la0 ← algebraSU8 n addSu2 addSu4
  let obsFull ← promoteAll n observables
  let check ← validateBool (args.unitaryErrorCheck.getD (.bool false))
  let trotterize ← validateBool (args.trotterize.getD (.bool false))
  let la ← la0.getAll
  .ok { eta := eta, lastate := la, observables := observables, observablesFull := obsFull, check := check, trotterize := trotterize }

/-- opt_tools.py:653-671 `SU8_AlgebraLayer.__call__(circuit_unitary)`: the new circuit and the direction selected (`current_pauli`). -/
noncomputable def SU8Layer.call {n : ℕ} (L : SU8Layer n) (U : Matrix (Fin (2 ^ n)) (Fin (2 ^ n)) ℂ) :
    Py (Matrix (Fin (2 ^ n)) (Fin (2 ^ n)) ℂ × Key) := do
  let k ← pyArgmax (absOmegas (stateFromUnitary U) L.observablesFull L.lastate.fullPaulis)
  let p ← dictGet L.lastate.fullPaulis k
  let r ← rotosolve p L.observables U k.1.toList.length
  .ok (r.1, k)

/-- The second component of a layer name of `AdaptVQELayer`. -/
inductive Parity where
  | single
  | even
  | odd
  deriving DecidableEq

/-- The attributes of an `AdaptVQELayer` that its calls read or write. -/
structure AdaptLayer (n : ℕ) where
  eta : ℝ
  lastate : Algebra n
  observables : List Obs
  observablesFull : List (Matrix (Fin (2 ^ n)) (Fin (2 ^ n)) ℂ)
  check : Bool
  trotterize : Bool
  /-- initially the tuple `('Null', 0)`, which differs from every string -/
  previousDirection : Option String
  layers : List (String × Parity)

/-- opt_tools.py:485-527 `AdaptVQELayer.__init__`. -/
noncomputable def adaptLayer (n : ℕ) (observables : List Obs) (args : LayerArgs) : Py (AdaptLayer n) := do
  let _ ← promoteAll n observables
  let eta ← validateEta (args.eta.getD (.float 0.1))
  let obsFull ← promoteAll n observables
  let check ← validateBool (args.unitaryErrorCheck.getD (.bool false))
  let trotterize ← validateBool (args.trotterize.getD (.bool false))
  let la ← (algebraSU4 n true).getAll
  .ok { eta := eta, lastate := la, observables := observables, observablesFull := obsFull, check := check, trotterize := trotterize,
        previousDirection := none, layers := [] }

/-- `range(start, n - 1, 2)`. -/
def bondStarts (n start : ℕ) : List ℕ := (List.range (n - 1)).filter (fun i => i ≥ start ∧ (i - start) % 2 = 0)

/-- opt_tools.py:544-551: `sum([omegas[key] for key in keys])`. -/
noncomputable def sumLookups (omegas : List (Key × ℝ)) : List Key → Py ℝ
  | [] => .ok 0
  | k :: ks => do
    let v ← dictGet omegas k
    let r ← sumLookups omegas ks
    .ok (v + r)

/-- opt_tools.py:541-551: the loop over the directions. -/
noncomputable def layerOmegas (n : ℕ) (omegas : List (Key × ℝ)) (prev : Option String) : List String → Py (List ((String × Parity) × ℝ))
  | [] => .ok []
  | d :: ds => do
    let here ← (if some d ≠ prev then
        (if d.toList.length = 1 then do
          let s ← sumLookups omegas ((List.range n).map (fun i => (d, [i])))
          .ok [((d, Parity.single), s)]
        else do
          let e ← sumLookups omegas ((bondStarts n 0).map (fun i => (d, [i, i + 1])))
          let o ← sumLookups omegas ((bondStarts n 1).map (fun i => (d, [i, i + 1])))
          let w ← dictGet omegas (d, [0, n - 1])
          .ok [((d, Parity.even), e), ((d, Parity.odd), o + w)])
      else .ok [] : Py (List ((String × Parity) × ℝ)))
    let rest ← layerOmegas n omegas prev ds
    .ok (here ++ rest)

/-- opt_tools.py:562-573: the rotations of one layer with parameters `ps` (the list `params[j]`). -/
noncomputable def layerGates (n : ℕ) (layer : String × Parity) (ps : List ℝ) : Py (List (NpMat × List ℤ)) :=
  if layer.1.toList.length = 1 then
    (List.range n).mapM (fun (i : ℕ) => do
      let θ ← pyGetItem ps (i : ℤ)
      .ok (rotGate θ layer.1 [i]))
  else if layer.2 = .even then
    (bondStarts n 0).zipIdx.mapM (fun e => do
      let θ ← pyGetItem ps (e.2 : ℤ)
      .ok (rotGate θ layer.1 [e.1, e.1 + 1]))
  else do
    let gs ← (bondStarts n 1).zipIdx.mapM (fun e => do
      let θ ← pyGetItem ps (e.2 : ℤ)
      .ok (rotGate θ layer.1 [e.1, e.1 + 1]))
    let θ ← pyGetItem ps (-1)
    .ok (gs ++ [rotGate θ layer.1 [0, n - 1]])

/-- opt_tools.py:558-573 `circuit_vqe(params)`: the gates in the order in which they are applied. -/
noncomputable def circuitVqe (n : ℕ) (layers : List (String × Parity)) (params : List (List ℝ)) : Py (List (NpMat × List ℤ)) := do
  let hs := (List.range n).map (fun (j : ℕ) => ((⟨2, 2, (Spec.hadamard : Matrix (Fin (2 ^ 1)) (Fin (2 ^ 1)) ℂ)⟩ : NpMat), [(j : ℤ)]))
  let gs ← layers.zipIdx.mapM (fun l => do
    let ps ← pyGetItem params (l.2 : ℤ)
    layerGates n l.1 ps)
  .ok (hs ++ gs.flatten)

/-- The type of the optimizer an `AdaptVQELayer` is called with: from the circuit (a function of its parameters) and the initial parameters
to the list of parameters it went through. -/
abbrev VqeOptimizer := (List (List ℝ) → Py (List (NpMat × List ℤ))) → List (List ℝ) → Py (List (List (List ℝ)))

/-- opt_tools.py:530-552: the selection of the next layer, `k_max`. -/
noncomputable def AdaptLayer.select {n : ℕ} (L : AdaptLayer n) (U : Matrix (Fin (2 ^ n)) (Fin (2 ^ n)) ℂ) : Py (String × Parity) := do
  let lo ← layerOmegas n (absOmegas (stateFromUnitary U) L.observablesFull L.lastate.fullPaulis) L.previousDirection L.lastate.directions
  pyArgmax lo

/-- opt_tools.py:529-592 `AdaptVQELayer.__call__(circuit_unitary, optimizer=…, params=…)`: the new circuit, the new parameters and the
layer's new state.  (The caller's list `params` has `[0.1, …]` appended as a side effect.) -/
noncomputable def AdaptLayer.call {n : ℕ} (L : AdaptLayer n) (optimizer : VqeOptimizer) (params : List (List ℝ))
    (U : Matrix (Fin (2 ^ n)) (Fin (2 ^ n)) ℂ) : Py (Matrix (Fin (2 ^ n)) (Fin (2 ^ n)) ℂ × List (List ℝ) × AdaptLayer n) := do
  let k ← L.select U
  let layers := L.layers ++ [k]
  let out ← optimizer (circuitVqe n layers) (params ++ [List.replicate n 0.1])
  let last ← pyGetItem out (-1)
  let gates ← circuitVqe n layers last
  let V ← compileLoop n gates 1
  .ok (V, last, { L with layers := layers, previousDirection := some k.1 })

/-- A history of successful calls of the same `AdaptVQELayer` object, each with its own optimizer, parameters and circuit. -/
noncomputable def AdaptLayer.runAll {n : ℕ} (L : AdaptLayer n) :
    List (VqeOptimizer × List (List ℝ) × Matrix (Fin (2 ^ n)) (Fin (2 ^ n)) ℂ) → Py (AdaptLayer n)
  | [] => .ok L
  | i :: is => do
    let r ← L.call i.1 i.2.1 i.2.2
    r.2.2.runAll is

end Oranssi
