import Verif.Model.ApproxExampleScript

/-! # Model of experiments_paper/zassenhaus.py: the function that the script runs, and the markers of its figures

Left out: printing, the axes (the vertical one is logarithmic), fonts, `plt.show`; `savefig` is assumed to succeed. -/

namespace Oranssi

/-- One call of `axs.scatter(i, y, color=…, label=…)`; the colour is `crimson` for an SU(4) step and `navy` for an SU(8) step. -/
structure Marker where
  x : ℕ
  y : ℝ
  su8 : Bool
  label : Option String

/-- The variables `firstsu4` and `firstsu8`. -/
structure MarkerFlags where
  first4 : Bool := true
  first8 : Bool := true

/-- zassenhaus.py:47-63, 155-168 and 191-208: the loop `for i in range(len(zassenhaus))`, from `i` on; the markers and the flags at its end.
Entries other than `'su4'` and `'su8'` draw nothing. -/
noncomputable def markerLoop (costs : List ℝ) (gs : ℝ) : ℕ → List (Option Phase) → MarkerFlags → Py (List Marker × MarkerFlags)
  | _, [], fl => .ok ([], fl)
  | i, some .su4 :: zs, fl => do
    let c ← pyGetItem costs i
    let (ms, fl') ← markerLoop costs gs (i + 1) zs { fl with first4 := false }
    .ok (⟨i, |(|c - gs|)|, false, if fl.first4 then some "SU(4) layer" else none⟩ :: ms, fl')
  | i, some .su8 :: zs, fl => do
    let c ← pyGetItem costs i
    let (ms, fl') ← markerLoop costs gs (i + 1) zs { fl with first8 := false }
    .ok (⟨i, |c - gs|, true, if fl.first8 then some "Zass. SU(8) layer" else none⟩ :: ms, fl')
  | i, none :: zs, fl => markerLoop costs gs (i + 1) zs fl

/-- A list of strings is expected where the scripts go through `zassenhaus`. -/
def asPhases {n : ℕ} : ApproxItem n → Py (List (Option Phase))
  | .zassenhaus l => .ok l
  | _ => .error .type

/-- zassenhaus.py:17 `[qml.PauliX(0), qml.PauliX(1), qml.PauliY(2), qml.PauliZ(2) @ qml.PauliY(1)]`. -/
def zassObservables : List Obs := [⟨npX, [0]⟩, ⟨npX, [1]⟩, ⟨npY, [2]⟩, ⟨npKron npZ npY, [2, 1]⟩]

/-- zassenhaus.py:23-33 `circuit(params)` with the angles `a = params[0]` and `b = params[1]`. -/
noncomputable def zassCircuit (a b : ℝ) : List (NpMat × List ℤ) :=
  [(⟨2, 2, (Spec.hadamard : Matrix (Fin (2 ^ 1)) (Fin (2 ^ 1)) ℂ)⟩, [0]), (⟨2, 2, (Spec.hadamard : Matrix (Fin (2 ^ 1)) (Fin (2 ^ 1)) ℂ)⟩, [1]),
    (⟨2, 2, (Spec.hadamard : Matrix (Fin (2 ^ 1)) (Fin (2 ^ 1)) ℂ)⟩, [2]),
    rotGate a "Z" [0], rotGate a "Z" [1], rotGate a "Z" [2], rotGate b "Y" [0], rotGate b "Y" [1], rotGate b "Y" [2]]

/-- What the figure shows: the curve, the dashed line `Minimum` and the markers. -/
structure ZassFigure where
  curve : List ℝ
  minimum : List ℝ
  markers : List Marker

/-- zassenhaus.py:12-74 `two_observables_3_qubits_zassenhaus()`, which is what the script runs (line 215).  `params` is handed on to the optimizer; the layer does not read it, and the
model has the empty list. -/
noncomputable def zassMainScript (E : LayerEnv 3) (eigh : EighFn 3) (rnd : ℕ → Matrix (Fin (2 ^ 3)) (Fin (2 ^ 3)) ℝ) : Script ZassFigure := do
  let observables := zassObservables
  let H ← Script.call (getHamiltonianMatrix 3 observables none)
  let gs := minEigenvalue eigh H
  let layer ← Script.call (zassLayer 3 observables {} (ratio := (4, 2)))
  let (out, _) ← Script.call (approximateLieOptimizer E eigh rnd .state (zassCircuit 0.2 1.4) [] observables (fun _ : Fin 1 => .zass layer) [0]
    { eta := .float 0.1, returnZassenhaus := .bool true })
  let (cs, zs) ← Script.call (unpackPair out)
  let costs ← Script.call (asCosts cs)
  let phases ← Script.call (asPhases zs)
  let curve := costs.map (fun c => |c - gs|)
  let minimum := List.replicate costs.length gs
  let (markers, _) ← Script.call (markerLoop costs gs 0 phases {})
  Script.write (.figure "su8_zass_optimizer_multi_obs_3")
  pure ⟨curve, minimum, markers⟩

/-- zassenhaus.py:82 `observables = [qml.PauliX(0), qml.PauliX(1), qml.PauliY(1)]`. -/
def zassV2Observables : List Obs := [⟨npX, [0]⟩, ⟨npX, [1]⟩, ⟨npY, [1]⟩]

/-- zassenhaus.py:77-117 `two_observables_2_qubits_zassenhaus_v2()`, whose call at the end of the script is commented out; the curve and the dashed line `Minimum`.  The circuit
(lines 89-97) has the gates of the ansatz of the layer (opt_tools.py:1003-1011), here with the angles 0.6, 1.8 and 0.4; `ratio` is not read by this layer.  `nm` is
`scipy.optimize.minimize`, `ord` the iteration order of the sets of monomials. -/
noncomputable def zassV2Script (ord : SetOrder SMono) (nm : NelderMead) (E : LayerEnv 2) (eigh : EighFn 2) (rnd : ℕ → Matrix (Fin (2 ^ 2)) (Fin (2 ^ 2)) ℝ) :
    Script (List ℝ × List ℝ) := do
  let observables := zassV2Observables
  let H ← Script.call (getHamiltonianMatrix 2 observables none)
  let gs := minEigenvalue eigh H
  let layer ← Script.call (zassV2Layer ord 2 observables {})
  let (out, _) ← Script.call (approximateLieOptimizer E eigh rnd .state (v2Gates ![0.6, 1.8, 0.4]) [] observables (fun _ : Fin 1 => .v2 nm layer) [0]
    { eta := .float 0.011, returnZassenhaus := .bool true })
  let (cs, _) ← Script.call (unpackPair out)
  let costs ← Script.call (asCosts cs)
  let curve := costs.map (fun c => |c|)
  let minimum := List.replicate costs.length gs
  Script.write (.figure "su8_zass_optimizer_multi_obs_2")
  pure (curve, minimum)

/-- zassenhaus.py:153-168 and 190-208: the markers of both figures of `tfim_zassenhaus`; the flags are set once, before the first loop. -/
noncomputable def tfimZassMarkers (costs : List ℝ) (gs : ℝ) (phases : List (Option Phase)) : Py (List Marker × List Marker) := do
  let (first, fl) ← markerLoop costs gs 0 phases {}
  let (second, _) ← markerLoop costs gs 0 phases fl
  .ok (first, second)

end Oranssi
