import Verif.Model.ToyExample
import Verif.Model.ApproxExampleScript

/-! # Model of experiments_paper/toy_example.py from the first to the last statement

Left out: printing, the axes, colours and fonts, `plt.show`; `savefig` is assumed to succeed (the script does not create the directory `./figures`). -/

namespace Oranssi

/-- toy_example.py:24 `observables = [qml.PauliX(1), qml.PauliX(0), qml.PauliY(1)]`. -/
def toyScriptObservables : List Obs := [⟨npX, [1]⟩, ⟨npX, [0]⟩, ⟨npY, [1]⟩]

/-- The costs are drawn with `axs.plot` and counted with `len`; a tuple would be drawn as several curves, which ends in a `ValueError` for curves of different kinds. -/
def bareCosts {α : Type} : OptOut α → Py (List ℝ)
  | .bare c => .ok c
  | .tuple _ => .error .value

/-- What is drawn: the curves `PS` and `Lie SU(2^n)` and the dashed line `Minimum`. -/
structure ToyFigure where
  ps : List ℝ
  lie : List ℝ
  minimum : List ℝ

/-- toy_example.py:9-57 `two_observables_2_qubits_parameter_shift()`. -/
noncomputable def toyScript (eigh : EighFn 2) (rnd : ℕ → Matrix (Fin (2 ^ 2)) (Fin (2 ^ 2)) ℝ) (gd : ℝ → (List ℝ → Py ℝ) → List ℝ → Py (List ℝ)) : Script ToyFigure := do
  let eta := 0.5
  let observables := toyScriptObservables
  let params := [0.1, 1.2]
  let out ← Script.call (parameterShiftOptimizer (n := 2) gd .nothing toyCircuit params observables { eta := .float eta })
  let ps ← Script.call (bareCosts out)
  let H ← Script.call (getHamiltonianMatrix 2 observables none)
  let ops ← Script.call (toyCircuit params)
  let out ← Script.call (exactLieOptimizer eigh rnd .state ops observables { eta := .float eta })
  let lie ← Script.call (bareCosts out)
  let line := List.replicate (max lie.length ps.length) (minEigenvalue eigh H)
  Script.write (.figure "two_observable_local_lie_optimizers_ps_nq_2_0.500")
  pure ⟨ps, lie, line⟩

end Oranssi
