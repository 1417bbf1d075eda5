import Verif.Model.Tfim
import Verif.Model.TfimVqe
import Verif.Model.Plot
import Verif.Model.Optimizers

/-! # Model of the transverse-field Ising scripts from the first to the last line

A script is a sequence of calls that write files and may raise; what was written before an exception stays written.  Left out: printing, drawing into the figures
(`plot`, `scatter`, labels, legends; none of these raises for the data at hand), `plt.show`, and the directories: writing a file is assumed to succeed, `os.makedirs` as well. -/

namespace Oranssi

/-- A file that a script writes. -/
inductive OutFile where
  /-- `savefig` -/
  | figure (name : String)
  /-- `np.save(f'{dir}/uni_{i}', uni)` -/
  | uni (dir : String) (i : ℕ) {n : ℕ} (content : Matrix (Fin (2 ^ n)) (Fin (2 ^ n)) ℂ)

/-- A computation that writes files and may raise. -/
def Script (α : Type) : Type := List OutFile → Py α × List OutFile

instance : Monad Script where
  pure a := fun fs => (.ok a, fs)
  bind x f := fun fs =>
    match x fs with
    | (.ok a, fs') => f a fs'
    | (.error e, fs') => (.error e, fs')

/-- A call that writes nothing. -/
def Script.call {α : Type} (x : Py α) : Script α := fun fs => (x, fs)

/-- Writing a file. -/
def Script.write (f : OutFile) : Script Unit := fun fs => (.ok (), fs ++ [f])

/-- `a, b = value` for the return value of `approximate_lie_optimizer` (a list of costs is unpacked if it has two elements, which the scripts would not survive; the model
stops with the `ValueError` of any other length). -/
def unpackPair {n : ℕ} : OptOut (ApproxItem n) → Py (ApproxItem n × ApproxItem n)
  | .tuple [a, b] => .ok (a, b)
  | _ => .error .value

/-- A list of unitaries is expected where the script goes through `unitaries`; anything else ends in a `TypeError` or `ValueError` of numpy. -/
def asUnitaries {n : ℕ} : ApproxItem n → Py (List (Matrix (Fin (2 ^ n)) (Fin (2 ^ n)) ℂ))
  | .unitaries l => .ok l
  | _ => .error .type

/-- tfim_su4_linesearch.py:83-85, tfim_su8_linesearch.py:48-50, zassenhaus.py:186-188: `for i, uni in enumerate(unitaries): np.save(…); omegas.append(get_all_su_n_directions(uni, observables, device))`. -/
noncomputable def saveLoop {n : ℕ} (dir : String) (observables : List Obs) : ℕ → List (Matrix (Fin (2 ^ n)) (Fin (2 ^ n)) ℂ) → Script Unit
  | _, [] => pure ()
  | i, U :: Us => do
    Script.write (.uni dir i U)
    let _ ← Script.call (getAllSuNDirections U observables)
    saveLoop dir observables (i + 1) Us

/-- plot_utils.py:96-138 `plot_su16_directions_separate`: the loop calls `get_all_su_n_directions(uni, observables, nqubits, device)` with four arguments, but the function
(circuit_tools.py:147) takes three; without unitaries `omegas[0]` fails. -/
def plotSu16Separate {n : ℕ} : List (Matrix (Fin (2 ^ n)) (Fin (2 ^ n)) ℂ) → Py Unit
  | [] => .error .index
  | _ :: _ => .error .type

/-- tfim_su8_linesearch.py:14-63, for `n` qubits (the script has 6). -/
noncomputable def tfimSu8Script (n : ℕ) (E : LayerEnv n) (eigh : EighFn n) (rnd : ℕ → Matrix (Fin (2 ^ n)) (Fin (2 ^ n)) ℝ) : Script Unit := do
  let observables := tfimObservables n
  let _ ← Script.call (getHamiltonianMatrix n observables none)
  let layer ← Script.call (su8Layer n observables {} true true)
  let (out, _) ← Script.call (approximateLieOptimizer E eigh rnd .state (tfimCircuit n) [] observables (fun _ : Fin 1 => .su8 layer) [0]
    { nsteps := .int 30, eta := .float 1, escapeTol := .float 1e-5, returnUnitary := .bool true })
  let (_, us) ← Script.call (unpackPair out)
  let unitaries ← Script.call (asUnitaries us)
  saveLoop "tfim_su8" observables 0 unitaries
  let _ ← Script.call (plotSu16Directions unitaries observables)
  Script.write (.figure s!"su8_optimizer_tfim_{n}")

/-- tfim_su4_adapt_vqe.py:15-73 `tfim_qubits()`, for `n` qubits (the script has 4). -/
noncomputable def adaptScript (n : ℕ) (E : LayerEnv n) (eigh : EighFn n) (rnd : ℕ → Matrix (Fin (2 ^ n)) (Fin (2 ^ n)) ℝ) : Script Unit := do
  let observables := tfimObservables n
  let _ ← Script.call (getHamiltonianMatrix n observables none)
  let layer ← Script.call (adaptLayer n observables {})
  let (out, _) ← Script.call (approximateLieOptimizer E eigh rnd .state (tfimCircuit n) [] observables (fun _ : Fin 1 => .adapt layer) [0]
    { nsteps := .int 15, eta := .float 1, escapeTol := .float 1e-5, returnUnitary := .bool true })
  let (_, us) ← Script.call (unpackPair out)
  let unitaries ← Script.call (asUnitaries us)
  let _ ← Script.call (unitaries.mapM (fun U => getAllSuNDirections U observables))
  Script.write (.figure "cost_su4_optimizer_tfim")
  Script.call (plotSu16Separate unitaries)
  Script.write (.figure "adapt_su16_optimizer_tfim")
  let _ ← Script.call (plotSu16Directions unitaries observables)
  Script.write (.figure "adapt_su16_abs_optimizer_tfim")

/-- `a, b = value` for the return value of `parameter_shift_optimizer`. -/
def unpackPs {n : ℕ} {P : Type} : OptOut (PsItem n P) → Py (PsItem n P × PsItem n P)
  | .tuple [a, b] => .ok (a, b)
  | _ => .error .value

/-- tfim_su4_linesearch.py:11-98, for `n` qubits (the script has 4).  The script hands its `init_params` to `approximate_lie_optimizer` as well; neither the circuit nor the
layer reads them there, and the model has the empty list. -/
noncomputable def tfimSu4Script (n : ℕ) (E : LayerEnv n) (gd : ℝ → (List ℝ → Py ℝ) → List ℝ → Py (List ℝ)) (eigh : EighFn n)
    (rnd : ℕ → Matrix (Fin (2 ^ n)) (Fin (2 ^ n)) ℝ) : Script Unit := do
  let observables := tfimObservables n
  let vqe ← Script.call (parameterShiftOptimizer (n := n) gd .nothing (tfimVqeCircuit n) [0.1, 0.1, 0.1, 0.1] observables
    { nsteps := .int 100, eta := .float 0.01, tol := .float 1e-5, returnParams := .int 1 })
  let _ ← Script.call (unpackPs vqe)
  let _ ← Script.call (getHamiltonianMatrix n observables none)
  let layer ← Script.call (squaredLayer n observables {})
  let (out, _) ← Script.call (approximateLieOptimizer E eigh rnd .state (tfimCircuit n) [] observables (fun _ : Fin 1 => .squared layer) [0]
    { nsteps := .int 50, eta := .float 0.1, tol := some (.float 1e-6), returnUnitary := .bool true })
  let (_, us) ← Script.call (unpackPair out)
  let unitaries ← Script.call (asUnitaries us)
  Script.write (.figure "tfim_su4_linesearch_comparison")
  saveLoop "tfim_su4" observables 0 unitaries
  let _ ← Script.call (plotSu16Directions unitaries observables)
  Script.write (.figure s!"su4_linesearch_optimizer_tfim_{n}")

/-- `a, b, c = value`. -/
def unpackTriple {n : ℕ} : OptOut (ApproxItem n) → Py (ApproxItem n × ApproxItem n × ApproxItem n)
  | .tuple [a, b, c] => .ok (a, b, c)
  | _ => .error .value

/-- zassenhaus.py:119-210 `tfim_zassenhaus(nqubits)`. -/
noncomputable def tfimZassScript (n : ℕ) (E : LayerEnv n) (eigh : EighFn n) (rnd : ℕ → Matrix (Fin (2 ^ n)) (Fin (2 ^ n)) ℝ) : Script Unit := do
  let observables := tfimObservables n
  let _ ← Script.call (getHamiltonianMatrix n observables none)
  let layer ← Script.call (zassLayer n observables {} (ratio := (4, 2)))
  let (out, _) ← Script.call (approximateLieOptimizer E eigh rnd .state (tfimCircuit n) [] observables (fun _ : Fin 1 => .zass layer) [0]
    { nsteps := .int 50, eta := .float 0.5, tol := none, returnUnitary := .bool true, returnZassenhaus := .bool true })
  let (_, us, _) ← Script.call (unpackTriple out)
  let unitaries ← Script.call (asUnitaries us)
  Script.write (.figure s!"su8_zass_optimizer_tfim_{n}")
  if n ≤ 4 then do
    saveLoop "tfim_su8_zass" observables 0 unitaries
    let _ ← Script.call (plotSu16Directions unitaries observables)
    Script.write (.figure s!"su8_directions_zass_optimizer_tfim_{n}")
  else pure ()

end Oranssi
