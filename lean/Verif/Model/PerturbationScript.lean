import Verif.Model.EigenstatePerturbation
import Verif.Model.Scripts

/-! # Model of experiments_paper/eigenstate_perturbation.py from the first to the last statement

Left out: printing, `np.linalg.eigh(H)` for the two horizontal lines of the figures (it does not fail for a Hermitian matrix), the axes and labels, `plt.show`. -/

namespace Oranssi
open scoped Matrix

/-- The operand `H` of `unitary.conj().T @ H @ unitary`: another shape than that of the unitary is a `ValueError` of `matmul`. -/
def asOperand (n : ℕ) (H : NpMat) : Py (Matrix (Fin (2 ^ n)) (Fin (2 ^ n)) ℂ) :=
  if h : H.rows = 2 ^ n ∧ H.cols = 2 ^ n then .ok (fun i j => H.val (i.cast h.1.symm) (j.cast h.2.symm)) else .error .value

/-- eigenstate_perturbation.py:45 and 58, 54 and 61: `(unitary.conj().T @ H @ unitary).real`, the matrix that `matshow` draws. -/
def drawnDiag {n : ℕ} (H U : Matrix (Fin (2 ^ n)) (Fin (2 ^ n)) ℂ) : Matrix (Fin (2 ^ n)) (Fin (2 ^ n)) ℝ := (Uᴴ * H * U).map Complex.re

/-- eigenstate_perturbation.py:75-79 and 104-109: `for i, p in enumerate(perturbations): axs.scatter(p, costs_exact_p[p], …)`. -/
def perturbationMarkers (costs : List ℝ) (ps : List ℕ) : Py (List (ℕ × ℝ)) :=
  ps.mapM (fun p : ℕ => do
    let c ← pyGetItem costs (p : ℤ)
    .ok (p, c))

/-- eigenstate_perturbation.py:41 `costs_exact_unp, unitary_unp = …`; anything but a tuple of a list of costs and a unitary would fail there or in one of the next lines. -/
def unpackUnperturbed {n : ℕ} : OptOut (ExactItem n) → Py (List ℝ × Matrix (Fin (2 ^ n)) (Fin (2 ^ n)) ℂ)
  | .tuple [.costs c, .unitary U] => .ok (c, U)
  | _ => .error .value

/-- eigenstate_perturbation.py:46 `costs_exact_p, perturbations, unitary_p = …`. -/
def unpackPerturbed {n : ℕ} : OptOut (ExactItem n) → Py (List ℝ × List ℕ × Matrix (Fin (2 ^ n)) (Fin (2 ^ n)) ℂ)
  | .tuple [.costs c, .perturbations ps, .unitary U] => .ok (c, ps, U)
  | _ => .error .value

/-- eigenstate_perturbation.py:13-118 `two_observables_2_qubits()`.  The value is what is drawn: the two matrices and the markers of the two figures. -/
noncomputable def perturbationScript (eigh : EighFn 2) (rnd : ℕ → Matrix (Fin (2 ^ 2)) (Fin (2 ^ 2)) ℝ) :
    Script (Matrix (Fin (2 ^ 2)) (Fin (2 ^ 2)) ℝ × Matrix (Fin (2 ^ 2)) (Fin (2 ^ 2)) ℝ × List (ℕ × ℝ) × List (ℕ × ℝ)) := do
  let H ← Script.call perturbationH
  let out ← Script.call (perturbationRun eigh rnd false)
  let (_, unitaryUnp) ← Script.call (unpackUnperturbed out)
  let HQ ← Script.call (asOperand 2 H)
  let out ← Script.call (perturbationRun eigh rnd true)
  let (costs, perturbations, unitaryP) ← Script.call (unpackPerturbed out)
  let markers ← Script.call (perturbationMarkers costs perturbations)
  Script.write (.figure "eigenstate_perturbation")
  let markers' ← Script.call (perturbationMarkers costs perturbations)
  Script.write (.figure "eigenstate_perturbation_only")
  pure (drawnDiag HQ unitaryUnp, drawnDiag HQ unitaryP, markers, markers')

end Oranssi
