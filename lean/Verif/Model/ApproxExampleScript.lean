import Verif.Model.Scripts
import Verif.Spec.Gates

/-! # Model of experiments_paper/approximate_example.py, and of plot_su8_directions_individually of oranssi/plot_utils.py with its drawing

Left out: printing, the axes, colours and fonts, `plt.show`; `savefig` is assumed to succeed (the script does not create the directory `./figures`).  The four numbers `init_params` are
handed to the optimizer; neither the circuit nor the layer reads them, and the model has the empty list. -/

namespace Oranssi
open scoped Matrix

/-- plot_utils.py:188-196: the pairs of `su4_names[i]`, `omegas_su4[i]` (`b = 1`) and of `su8_names[i]`, `omegas_su8[i]` (`b = 0`). -/
def individualRows (omegas : List (List (String × ℝ))) (keys : List String) (b : ℕ) : Py (List (String × List ℝ)) :=
  (keys.filter (fun k => k.toList.count 'I' = b)).mapM (fun k => do
    let v ← plotLookups omegas k
    .ok (k, v))

/-- plot_utils.py:202 and 206 `np.allclose(om, 0)`. -/
noncomputable def allCloseZero (om : List ℝ) : Bool := om.all (fun x => isCloseTo x 0 1e-8)

/-- plot_utils.py:176-211 `plot_su8_directions_individually(unitaries, observables, device)`: the labels and the curves that are drawn, in the order of drawing.  The sums `omegas_length_m` are not used;
that the two loops of lines 188-196 are one loop in the program makes no difference, a missing key is a `KeyError` in both. -/
noncomputable def plotIndividually {n : ℕ} (unitaries : List (Matrix (Fin (2 ^ n)) (Fin (2 ^ n)) ℂ)) (observables : List Obs) : Py (List (String × List ℝ)) := do
  let omegas ← unitaries.mapM (fun U => getAllSuNDirections U observables)
  let _ ← plotLookups omegas "XX"
  let om0 ← pyGetItem omegas 0
  let su4 ← individualRows omegas (om0.map Prod.fst) 1
  let su8 ← individualRows omegas (om0.map Prod.fst) 0
  .ok (su4.filter (fun c => !allCloseZero c.2) ++ su8.filter (fun c => !allCloseZero c.2))

/-- approximate_example.py:17-20: a Hadamard gate on every qubit. -/
noncomputable def approximateCircuit : List (NpMat × List ℤ) :=
  [(⟨2, 2, (Spec.hadamard : Matrix (Fin (2 ^ 1)) (Fin (2 ^ 1)) ℂ)⟩, [0]), (⟨2, 2, (Spec.hadamard : Matrix (Fin (2 ^ 1)) (Fin (2 ^ 1)) ℂ)⟩, [1])]

/-- approximate_example.py:22 `observables=  [qml.PauliX(0), qml.PauliY(0)@qml.PauliZ(1)]`. -/
def approximateObservables : List Obs := [⟨npX, [0]⟩, ⟨npKron npY npZ, [0, 1]⟩]

/-- approximate_example.py:25 and 43: `eigvals = np.linalg.eigvalsh(H)` and `min(eigvals)`; the eigenvalues are those of `eigh`. -/
noncomputable def minEigenvalue {n : ℕ} (eigh : EighFn n) (H : Matrix (Fin (2 ^ n)) (Fin (2 ^ n)) ℂ) : ℝ := Finset.univ.inf' ⟨0, Finset.mem_univ _⟩ (eigh H).1

/-- A list of costs is expected in `np.array(costs_exact) - min(eigvals)`. -/
def asCosts {n : ℕ} : ApproxItem n → Py (List ℝ)
  | .costs l => .ok l
  | _ => .error .type

/-- approximate_example.py:11-62.  The value is what is drawn: the curves with their labels, and the curve of the inset. -/
noncomputable def approximateScript (E : LayerEnv 2) (eigh : EighFn 2) (rnd : ℕ → Matrix (Fin (2 ^ 2)) (Fin (2 ^ 2)) ℝ) : Script (List (String × List ℝ) × List ℝ) := do
  let observables := approximateObservables
  let H ← Script.call (getHamiltonianMatrix 2 observables none)
  let layer ← Script.call (customLayer 2 observables (some ["YY", "ZZ"]) {})
  let (out, _) ← Script.call (approximateLieOptimizer E eigh rnd .state approximateCircuit [] observables (fun _ : Fin 1 => .custom layer) [0]
    { nsteps := .int 50, eta := .float 0.1, tol := some (.float 1e-6), returnUnitary := .bool true })
  let (cs, us) ← Script.call (unpackPair out)
  let unitaries ← Script.call (asUnitaries us)
  let curves ← Script.call (plotIndividually unitaries observables)
  let costs ← Script.call (asCosts cs)
  let inset := costs.map (fun c => |c - minEigenvalue eigh H|)
  Script.write (.figure "simple_approximate_example")
  pure (curves, inset)

end Oranssi
