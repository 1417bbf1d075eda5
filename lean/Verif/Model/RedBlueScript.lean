import Verif.Model.RedBlue
import Verif.Model.Scripts

/-! # Model of experiments_paper/red_blue_comparison.py from the first to the last statement

Left out: the numbers `costs_converted`, which are not used, the axes, labels and colours, `plt.show`; `save_path_creator('./figures', '')` is `./figures/`, writing there is assumed to succeed. -/

namespace Oranssi
open scoped Matrix

/-- red_blue_comparison.py:22 and 54 `observables = [qml.PauliX(0), qml.PauliY(0)]`. -/
def redBlueObservables : List Obs := [⟨npX, [0]⟩, ⟨npY, [0]⟩]

/-- red_blue_comparison.py:36-41 and 66-71: `rho_state = np.outer(state, state.conj()); p, t = state_to_spherical(rho_state)` for every state. -/
noncomputable def sphericalPath (states : List (Ket 1)) : Py (List (ℝ × ℝ)) := states.mapM (fun s => stateToSpherical (Matrix.vecMulVec s (star s)))

/-- red_blue_comparison.py:59 `costs_optimizer, states = exact_lie_optimizer(…)`. -/
def unpackRiemann : OptOut (ExactItem 1) → Py (List ℝ × List (Ket 1))
  | .tuple [.costs c, .states s] => .ok (c, s)
  | _ => .error .value

/-- red_blue_comparison.py:27 `costs_optimizer, states, params = parameter_shift_optimizer(…)`. -/
def unpackShift : OptOut (PsItem 1 (List ℝ)) → Py (List ℝ × List (Ket 1) × List (List ℝ))
  | .tuple [.costs c, .states s, .params p] => .ok (c, s, p)
  | _ => .error .value

/-- red_blue_comparison.py:16-43 `ps_optimization(eta, nsteps, params)`: the points on the sphere, the columns of the parameters, the costs. -/
noncomputable def redBlueShift (gd : ℝ → (List ℝ → Py ℝ) → List ℝ → Py (List ℝ)) (eta : ℝ) (nsteps : ℤ) (params : List ℝ) :
    Py (List (ℝ × ℝ) × (List ℝ × List ℝ) × List ℝ) := do
  let out ← parameterShiftOptimizer (n := 1) gd .nothing plotDifferenceCircuit params redBlueObservables
    { eta := .float eta, returnState := .bool true, returnParams := .int 1, nsteps := .int nsteps }
  let (costs, states, ps) ← unpackShift out
  let path ← sphericalPath states
  let drawn ← redBlueDrawn ps
  .ok (path, drawn, costs)

/-- red_blue_comparison.py:45-73 `riemann_optimization(eta, nsteps, params)`: the points on the sphere and the costs. -/
noncomputable def redBlueRiemann (eigh : EighFn 1) (rnd : ℕ → Matrix (Fin (2 ^ 1)) (Fin (2 ^ 1)) ℝ) (eta : ℝ) (nsteps : ℤ) (params : List ℝ) :
    Py (List (ℝ × ℝ) × List ℝ) := do
  let ops ← plotDifferenceCircuit params
  let out ← exactLieOptimizer eigh rnd .state ops redBlueObservables { eta := .float eta, returnState := .bool true, nsteps := .int nsteps }
  let (costs, states) ← unpackRiemann out
  let path ← sphericalPath states
  .ok (path, costs)

/-- red_blue_comparison.py:92-98: `cost_function(spherical_to_state(p, t)).real` with `np.trace((paulis[0] + paulis[1]) @ rho)`. -/
noncomputable def blueLevel (phi theta : ℝ) : ℝ :=
  ((!![0, 1; 1, 0] + !![0, -Complex.I; Complex.I, 0] : Matrix (Fin 2) (Fin 2) ℂ) * sphericalToState phi theta).trace.re

/-- red_blue_comparison.py:127-133 and 146: `circuit_cost([a, b])`. -/
noncomputable def redLevel (a b : ℝ) : Py ℝ := psCost 1 plotDifferenceCircuit redBlueObservables [a, b]

/-- `np.linspace(0, stop, gran)`: entry number `k`. -/
noncomputable def linspace0 (stop : ℝ) (gran k : ℕ) : ℝ := stop * k / (gran - 1)

/-- What the two figures show. -/
structure RedBlueFigures where
  /-- lines 82-99: the array behind the filled contours of the first figure -/
  blueLevels : List (List ℝ)
  /-- lines 107-108: the solid curve of the first figure -/
  riemann : List (ℝ × ℝ)
  /-- lines 109-110: the dashed curve of the first figure -/
  shift : List (ℝ × ℝ)
  /-- line 119: the number in the label at the last point of the solid curve -/
  blueLabel : ℕ
  /-- lines 113-114, 115-122: the points at which the two dots are drawn -/
  blueDots : (ℝ × ℝ) × (ℝ × ℝ)
  /-- lines 141-147: the array behind the filled contours of the second figure -/
  redLevels : List (List ℝ)
  /-- lines 156-157: the curve of the second figure -/
  params : List ℝ × List ℝ
  /-- line 166: the number in the label at its last point -/
  redLabel : ℕ

/-- red_blue_comparison.py:75-172 `plot()`.  The grids are `np.meshgrid(phi, theta)` and `np.meshgrid(alpha, beta)`: row `i` of the arrays belongs to entry `i` of the second grid, which is
what `contourf(phi, theta, costs)` expects; `flatten` followed by `reshape` keeps this order. -/
noncomputable def redBlueScript (eigh : EighFn 1) (rnd : ℕ → Matrix (Fin (2 ^ 1)) (Fin (2 ^ 1)) ℝ) (gd : ℝ → (List ℝ → Py ℝ) → List ℝ → Py (List ℝ)) :
    Script RedBlueFigures := do
  let blueLevels := (List.range 25).map (fun i : ℕ => (List.range 25).map (fun j : ℕ => blueLevel (linspace0 (2 * Real.pi) 25 j) (linspace0 Real.pi 25 i)))
  let params := [Real.pi / 3, Real.pi / 5]
  let (riemann, costsRiemann) ← Script.call (redBlueRiemann eigh rnd 0.05 100 params)
  let (shift, drawn, costsPs) ← Script.call (redBlueShift gd 0.05 100 params)
  let first ← Script.call (pyGetItem riemann 0)
  let last ← Script.call (pyGetItem riemann (-1))
  Script.write (.figure "bloch_sphere_difference_optimizer_2_obs_blue")
  let redLevels ← Script.call ((List.range 25).mapM (fun i : ℕ => (List.range 25).mapM (fun j : ℕ => redLevel (linspace0 (2 * Real.pi) 25 j) (linspace0 (2 * Real.pi) 25 i))))
  let _ ← Script.call (pyGetItem drawn.1 0)
  let _ ← Script.call (pyGetItem drawn.2 (-1))
  Script.write (.figure "bloch_sphere_difference_optimizer_2_obs_red")
  pure ⟨blueLevels, riemann, shift, costsRiemann.length, (first, last), redLevels, drawn, costsPs.length⟩

end Oranssi
