import Mathlib.Analysis.Normed.Algebra.MatrixExponential
import Verif.Model.Algebra
import Verif.Model.Validate

/-! # Model of `LieLayer`, `LocalLieAlgebraLayer`, `CustomDirectionLieAlgebraLayer`, `StochasticLieAlgebraLayer`
(oranssi/opt_tools.py:19-375)

`np.linalg.svd` is a parameter (see `Spec.ValidSvd` for its contract), `scipy.linalg.expm` is the matrix exponential. -/

namespace Oranssi
open scoped Matrix

/-- `P, s, Q = np.linalg.svd(U)`. -/
abbrev SvdFn (n : ℕ) := Matrix (Fin (2 ^ n)) (Fin (2 ^ n)) ℂ →
  Matrix (Fin (2 ^ n)) (Fin (2 ^ n)) ℂ × (Fin (2 ^ n) → ℝ) × Matrix (Fin (2 ^ n)) (Fin (2 ^ n)) ℂ

/-- opt_tools.py:41-58 `_is_unitary(U)`: no entry of `U @ U.conj().T - eye` exceeds `1e-8` in absolute value. -/
def isUnitaryCheck {n : ℕ} (U : Matrix (Fin (2 ^ n)) (Fin (2 ^ n)) ℂ) : Prop := ¬ ∃ i j, ‖(U * Uᴴ - 1) i j‖ > 1e-8

/-- opt_tools.py:60-71 `_project_onto_unitary(U)`. -/
def projectOntoUnitary {n : ℕ} (svd : SvdFn n) (U : Matrix (Fin (2 ^ n)) (Fin (2 ^ n)) ℂ) : Matrix (Fin (2 ^ n)) (Fin (2 ^ n)) ℂ :=
  (svd U).1 * (svd U).2.2

open Classical in
/-- opt_tools.py:187-188, 197-198, 279-280, 291-292, 361-362:
`if (self.unitary_error_check) and (self._is_unitary(U)): U = self._project_onto_unitary(U)`. -/
noncomputable def checkUpdate {n : ℕ} (svd : SvdFn n) (check : Bool) (U : Matrix (Fin (2 ^ n)) (Fin (2 ^ n)) ℂ) :
    Matrix (Fin (2 ^ n)) (Fin (2 ^ n)) ℂ :=
  if check = true ∧ isUnitaryCheck U then projectOntoUnitary svd U else U

/-- opt_tools.py:184, 193, 276, 286, 359: `phi.conj().T @ (pauli @ obs - obs @ pauli) @ phi`, a 1×1 array. -/
noncomputable def omegaC {n : ℕ} (phi : Ket n) (p obs : Matrix (Fin (2 ^ n)) (Fin (2 ^ n)) ℂ) : ℂ :=
  star phi ⬝ᵥ ((p * obs - obs * p) *ᵥ phi)

/-- opt_tools.py:183-190, 273-282: one factor per Pauli. -/
noncomputable def trotterLoop {n : ℕ} (svd : SvdFn n) (eta : ℝ) (check : Bool) (phi : Ket n) (obs : Matrix (Fin (2 ^ n)) (Fin (2 ^ n)) ℂ) :
    List (Matrix (Fin (2 ^ n)) (Fin (2 ^ n)) ℂ) → Matrix (Fin (2 ^ n)) (Fin (2 ^ n)) ℂ → Matrix (Fin (2 ^ n)) (Fin (2 ^ n)) ℂ
  | [], U => U
  | p :: ps, U =>
    trotterLoop svd eta check phi obs ps
      (checkUpdate svd check (NormedSpace.exp ((-(eta / 2 ^ n : ℝ) : ℂ) • (omegaC phi p obs • p))) * U)

/-- opt_tools.py:180-199 and 272-293: the update of one group of Paulis for one observable.  Without trotterization and
with no Pauli in the group, `sum` of nothing is the number `0`, and the product of `expm(0)` with a matrix raises (`ValueError` with
current versions of scipy). -/
noncomputable def groupStep {n : ℕ} (svd : SvdFn n) (eta : ℝ) (check trotterize : Bool) (phi : Ket n)
    (obs : Matrix (Fin (2 ^ n)) (Fin (2 ^ n)) ℂ) (ps : List (Matrix (Fin (2 ^ n)) (Fin (2 ^ n)) ℂ))
    (U : Matrix (Fin (2 ^ n)) (Fin (2 ^ n)) ℂ) : Py (Matrix (Fin (2 ^ n)) (Fin (2 ^ n)) ℂ) :=
  if trotterize then .ok (trotterLoop svd eta check phi obs ps U)
  else if ps = [] then .error .value
  else .ok (checkUpdate svd check (NormedSpace.exp ((-(eta / 2 ^ n : ℝ) : ℂ) • (ps.map (fun p => omegaC phi p obs • p)).sum)) * U)

/-- opt_tools.py:179: the loop over `self.full_paulis`. -/
noncomputable def groupsLoop {n : ℕ} (svd : SvdFn n) (eta : ℝ) (check trotterize : Bool) (phi : Ket n)
    (obs : Matrix (Fin (2 ^ n)) (Fin (2 ^ n)) ℂ) : List (List (Matrix (Fin (2 ^ n)) (Fin (2 ^ n)) ℂ)) →
    Matrix (Fin (2 ^ n)) (Fin (2 ^ n)) ℂ → Py (Matrix (Fin (2 ^ n)) (Fin (2 ^ n)) ℂ)
  | [], U => .ok U
  | g :: gs, U => do
    let U' ← groupStep svd eta check trotterize phi obs g U
    groupsLoop svd eta check trotterize phi obs gs U'

/-- opt_tools.py:178: the loop over `self.observables`. -/
noncomputable def obsLoop {n : ℕ} (svd : SvdFn n) (eta : ℝ) (check trotterize : Bool) (phi : Ket n)
    (groups : List (List (Matrix (Fin (2 ^ n)) (Fin (2 ^ n)) ℂ))) : List (Matrix (Fin (2 ^ n)) (Fin (2 ^ n)) ℂ) →
    Matrix (Fin (2 ^ n)) (Fin (2 ^ n)) ℂ → Py (Matrix (Fin (2 ^ n)) (Fin (2 ^ n)) ℂ)
  | [], U => .ok U
  | o :: os, U => do
    let U' ← groupsLoop svd eta check trotterize phi o groups U
    obsLoop svd eta check trotterize phi groups os U'

/-- The keyword arguments shared by the layers; `none` means not given. -/
structure LayerArgs where
  eta : Option PyVal := none
  unitaryErrorCheck : Option BoolArg := none
  trotterize : Option BoolArg := none

/-- The attributes of a `LocalLieAlgebraLayer` (the scratch matrix `op` is overwritten before every use). -/
structure LocalLayer (n : ℕ) where
  eta : ℝ
  locality : ℤ
  stride : ℤ
  directions : List String
  paulis : List NpMat
  observables : List (Matrix (Fin (2 ^ n)) (Fin (2 ^ n)) ℂ)
  check : Bool
  trotterize : Bool
  fullPaulis : List (List (Matrix (Fin (2 ^ n)) (Fin (2 ^ n)) ℂ))

/-- opt_tools.py:142-153: keep the directions that were asked for. -/
def filterDirections (paulis : List NpMat) (directions : List String) (wanted : Option (List String)) : Py (List NpMat × List String) :=
  match wanted with
  | none => .ok (paulis, directions)
  | some D => do
    pyAssert (∀ d ∈ D, d ∈ directions)
    let kept := (paulis.zip directions).filter (fun e => e.2 ∈ D)
    .ok (kept.map Prod.fst, kept.map Prod.snd)

/-- `[get_full_operator(p, qubits, nqubits) for p in paulis]`. -/
def promotePaulis (n : ℕ) (qubits : List ℕ) : List NpMat → Py (List (Matrix (Fin (2 ^ n)) (Fin (2 ^ n)) ℂ))
  | [] => .ok []
  | p :: ps => do
    let F ← getFullOperator p (qubits.map (Nat.cast : ℕ → ℤ)) n
    let Fs ← promotePaulis n qubits ps
    .ok (F :: Fs)

/-- opt_tools.py:164-173: one group per qubit or pair of qubits. -/
def promoteGroups (n : ℕ) (paulis : List NpMat) : List (List ℕ) → Py (List (List (Matrix (Fin (2 ^ n)) (Fin (2 ^ n)) ℂ)))
  | [] => .ok []
  | q :: qs => do
    let g ← promotePaulis n q paulis
    let gs ← promoteGroups n paulis qs
    .ok (g :: gs)

/-- opt_tools.py:103-174 `LocalLieAlgebraLayer.__init__(device, observables, locality, **kwargs)` with `n = len(device.wires)`.
`locality` and `stride` are integers here (Python would also accept `True` or `1.0` for `1`). -/
noncomputable def localLayer (n : ℕ) (observables : List Obs) (locality : ℤ) (args : LayerArgs) (stride : Option ℤ)
    (directions : Option (List String)) : Py (LocalLayer n) := do
  let _ ← promoteAll n observables
  let eta ← validateEta (args.eta.getD (.float 0.1))
  pyAssert (locality ∈ [1, 2])
  let pd ← (if locality = 2 then do
      pyAssert (n % 2 = 0)
      pyAssert (stride.getD 0 ∈ [0, 1])
      .ok (getSu4Operators false, stride.getD 0)
    else .ok (getSu2Operators false, 0) : Py ((List NpMat × List String) × ℤ))
  let pd' ← filterDirections pd.1.1 pd.1.2 directions
  let obsFull ← promoteAll n observables
  let check ← validateBool (args.unitaryErrorCheck.getD (.bool false))
  let trotterize ← validateBool (args.trotterize.getD (.bool false))
  let groups ← (if locality = 1 then promoteGroups n pd'.1 ((List.range n).map (fun i => [i]))
    else promoteGroups n pd'.1 (combinations (List.range n) 2) : Py (List (List (Matrix (Fin (2 ^ n)) (Fin (2 ^ n)) ℂ))))
  .ok { eta := eta, locality := locality, stride := pd.2, directions := pd'.2, paulis := pd'.1, observables := obsFull,
        check := check, trotterize := trotterize, fullPaulis := groups }

/-- opt_tools.py:79-87 `set_eta(eta)`: no validation. -/
def LocalLayer.setEta {n : ℕ} (L : LocalLayer n) (eta : ℝ) : LocalLayer n := { L with eta := eta }

/-- opt_tools.py:176-201 `LocalLieAlgebraLayer.__call__(circuit_unitary)`; `phi` is computed once, before the loops. -/
noncomputable def LocalLayer.call {n : ℕ} (svd : SvdFn n) (L : LocalLayer n) (U : Matrix (Fin (2 ^ n)) (Fin (2 ^ n)) ℂ) :
    Py (Matrix (Fin (2 ^ n)) (Fin (2 ^ n)) ℂ) :=
  obsLoop svd L.eta L.check L.trotterize (stateFromUnitary U) L.fullPaulis L.observables U

/-- What `CustomDirectionLieAlgebraLayer.full_paulis` holds: matrices or, when no directions are given, the dictionary's keys
(line 256 zips the list of keys with the dictionary itself, and iterating a dictionary yields its keys). -/
inductive CustomVal (n : ℕ) where
  | matrix (m : Matrix (Fin (2 ^ n)) (Fin (2 ^ n)) ℂ)
  | key (k : Key)

/-- The attributes of a `CustomDirectionLieAlgebraLayer`. -/
structure CustomLayer (n : ℕ) where
  eta : ℝ
  directions : List Key
  fullPaulis : List (Key × CustomVal n)
  observables : List (Matrix (Fin (2 ^ n)) (Fin (2 ^ n)) ℂ)
  check : Bool
  trotterize : Bool

/-- opt_tools.py:214-267 `CustomDirectionLieAlgebraLayer.__init__(device, observables, directions, **kwargs)`. -/
noncomputable def customLayer (n : ℕ) (observables : List Obs) (directions : Option (List String)) (args : LayerArgs) :
    Py (CustomLayer n) := do
  let _ ← promoteAll n observables
  let eta ← validateEta (args.eta.getD (.float 0.1))
  let la ← (algebraSU4 n true).getAll
  let dp ← (match directions with
    | none => .ok (la.fullPaulis.map Prod.fst, la.fullPaulis.map (fun e => CustomVal.key e.1))
    | some D => do
      pyAssert (∀ d ∈ D, d ∈ la.directions)
      let kept := la.fullPaulis.filter (fun e => e.1.1 ∈ D)
      .ok (kept.map Prod.fst, kept.map (fun e => CustomVal.matrix e.2)) : Py (List Key × List (CustomVal n)))
  let obsFull ← promoteAll n observables
  let check ← validateBool (args.unitaryErrorCheck.getD (.bool false))
  let trotterize ← validateBool (args.trotterize.getD (.bool false))
  .ok { eta := eta, directions := dp.1, fullPaulis := dictZip dp.1 dp.2, observables := obsFull, check := check, trotterize := trotterize }

/-- opt_tools.py:276, 286: the matrices of `self.full_paulis`; `tuple @ ndarray` raises (a subclass of) `TypeError`. -/
def customMatrices {n : ℕ} : List (Key × CustomVal n) → Py (List (Matrix (Fin (2 ^ n)) (Fin (2 ^ n)) ℂ))
  | [] => .ok []
  | (_, .key _) :: _ => .error .type
  | (_, .matrix m) :: rest => do
    let ms ← customMatrices rest
    .ok (m :: ms)

/-- opt_tools.py:271: the loop over `self.observables`. -/
noncomputable def customObsLoop {n : ℕ} (svd : SvdFn n) (L : CustomLayer n) (phi : Ket n) :
    List (Matrix (Fin (2 ^ n)) (Fin (2 ^ n)) ℂ) → Matrix (Fin (2 ^ n)) (Fin (2 ^ n)) ℂ → Py (Matrix (Fin (2 ^ n)) (Fin (2 ^ n)) ℂ)
  | [], U => .ok U
  | o :: os, U => do
    let ms ← customMatrices L.fullPaulis
    let U' ← groupStep svd L.eta L.check L.trotterize phi o ms U
    customObsLoop svd L phi os U'

/-- opt_tools.py:269-295 `CustomDirectionLieAlgebraLayer.__call__(circuit_unitary)`. -/
noncomputable def CustomLayer.call {n : ℕ} (svd : SvdFn n) (L : CustomLayer n) (U : Matrix (Fin (2 ^ n)) (Fin (2 ^ n)) ℂ) :
    Py (Matrix (Fin (2 ^ n)) (Fin (2 ^ n)) ℂ) :=
  customObsLoop svd L (stateFromUnitary U) L.observables U

/-- The attributes of a `StochasticLieAlgebraLayer`. -/
structure StochasticLayer (n : ℕ) where
  eta : ℝ
  lastate : Algebra n
  observables : List (Matrix (Fin (2 ^ n)) (Fin (2 ^ n)) ℂ)
  check : Bool
  trotterize : Bool

/-- opt_tools.py:308-348 `StochasticLieAlgebraLayer.__init__`. -/
noncomputable def stochasticLayer (n : ℕ) (observables : List Obs) (args : LayerArgs) : Py (StochasticLayer n) := do
  let _ ← promoteAll n observables
  let eta ← validateEta (args.eta.getD (.float 0.1))
  let obsFull ← promoteAll n observables
  let check ← validateBool (args.unitaryErrorCheck.getD (.bool false))
  let trotterize ← validateBool (args.trotterize.getD (.bool false))
  .ok { eta := eta, lastate := algebraSU4 n true, observables := obsFull, check := check, trotterize := trotterize }

/-- opt_tools.py:357-363: the loop over the observables. -/
noncomputable def stochasticLoop {n : ℕ} (svd : SvdFn n) (L : StochasticLayer n) (phi : Ket n) (k : Key) :
    List (Matrix (Fin (2 ^ n)) (Fin (2 ^ n)) ℂ) → Matrix (Fin (2 ^ n)) (Fin (2 ^ n)) ℂ → Py (Matrix (Fin (2 ^ n)) (Fin (2 ^ n)) ℂ)
  | [], U => .ok U
  | o :: os, U => do
    let p ← dictGet L.lastate.fullPaulis k
    stochasticLoop svd L phi k os
      (checkUpdate svd L.check (NormedSpace.exp ((-(L.eta / 2 ^ n : ℝ) : ℂ) • (omegaC phi p o • p))) * U)

/-- opt_tools.py:350-365 `StochasticLieAlgebraLayer.__call__`. -/
noncomputable def StochasticLayer.call {n : ℕ} (svd : SvdFn n) (L : StochasticLayer n) (U : Matrix (Fin (2 ^ n)) (Fin (2 ^ n)) ℂ) :
    Py (Matrix (Fin (2 ^ n)) (Fin (2 ^ n)) ℂ) := do
  let k ← getRandomDirectionAndQubits
  stochasticLoop svd L (stateFromUnitary U) k L.observables U

end Oranssi
