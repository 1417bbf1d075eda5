import Verif.Model.Tfim
import Verif.Model.Greedy

/-! # The parameter-shift circuit of tfim_su4_linesearch.py (lines 17-33)

The script has `nqubits = 4`; here `n` is any number. -/

namespace Oranssi

/-- `range(a, b, 2)`. -/
def pyRange2 (a b : ℕ) : List ℕ := (List.range ((b - a + 1) / 2)).map (fun k => a + 2 * k)

/-- tfim_su4_linesearch.py:22-24, 26-28, 29-31: `CNOT(i, j)`, `RZ(θ)` on `j`, `CNOT(i, j)`. -/
noncomputable def zzGates (θ : ℝ) (i j : ℕ) : List (NpMat × List ℤ) :=
  [(⟨2 ^ 2, 2 ^ 2, Spec.cnot⟩, [i, j].map (Nat.cast : ℕ → ℤ)), rotGate θ "Z" [j], (⟨2 ^ 2, 2 ^ 2, Spec.cnot⟩, [i, j].map (Nat.cast : ℕ → ℤ))]

/-- tfim_su4_linesearch.py:21-33: the body of the loop over `d`, with `a = params[0 + d * 2]` and `b = params[1 + d * 2]`. -/
noncomputable def vqeLayerGates (n : ℕ) (a b : ℝ) : List (NpMat × List ℤ) :=
  (pyRange2 0 (n - 1)).flatMap (fun i => zzGates a i (i + 1)) ++ (pyRange2 1 (n - 1)).flatMap (fun i => zzGates a i (i + 1)) ++ zzGates a (n - 1) 0 ++
    (List.range n).map (fun i => rotGate b "X" [i])

/-- tfim_su4_linesearch.py:17-33 `circuit(params)` for at least one qubit: the gates in the order in which they are applied.  Both parameters of a layer are read
before its gates are listed, in the script the second one is read later; a missing one is an `IndexError` in both cases. -/
noncomputable def tfimVqeCircuit (n : ℕ) (params : List ℝ) : Py (List (NpMat × List ℤ)) := do
  let ls ← (List.range (n / 2)).mapM (fun d : ℕ => do
    let a ← pyGetItem params (0 + (d : ℤ) * 2)
    let b ← pyGetItem params (1 + (d : ℤ) * 2)
    .ok (vqeLayerGates n a b))
  .ok (tfimCircuit n ++ ls.flatten)

end Oranssi
