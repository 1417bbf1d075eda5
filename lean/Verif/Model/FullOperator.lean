import Verif.Model.Numpy

/-! # Model of `get_full_operator` (oranssi/circuit_tools.py:25-56) -/

namespace Oranssi

/-- circuit_tools.py:48-49 and 51-52: `for i, w in enumerate(wires): lst[w] = src[i + off]`, where the source list is
`list(range(2*len(wires)))`, i.e. the value written is `i + off`. -/
def assignLabels (off : Nat) : List (Int × Nat) → List Nat → Py (List Nat)
  | [], l => .ok l
  | (w, i) :: rest, l => do
    let l' ← pySetItem l w (i + off)
    assignLabels off rest l'

/-- circuit_tools.py:25-56 `get_full_operator(op, wires, nqubits)`.  `nqubits` is a non-negative int. -/
def getFullOperator (op : NpMat) (wires : List Int) (n : Nat) : Py (Matrix (Fin (2 ^ n)) (Fin (2 ^ n)) ℂ) := do
  -- 38-39: assert max(wires) < nqubits   (max(()) raises ValueError)
  match wires.max? with
  | none => .error .value
  | some m => do
    pyAssert (m < n)
    -- 40-42
    let opsize ← intLog2 op.rows
    pyAssert (opsize = wires.length)
    -- 43
    let eyeT ← (npEye n).reshape2 (2 * n)
    -- 44
    let opT ← op.reshape2 (2 * wires.length)
    -- 45
    let ia := List.range (2 * wires.length)
    -- 46: list(range(2*len(wires), 2*nqubits + 2*len(wires)))
    let ib0 := (List.range (2 * n)).map (· + 2 * wires.length)
    -- 48-49
    let ib ← assignLabels wires.length wires.zipIdx ib0
    -- 50-52
    let io ← assignLabels 0 wires.zipIdx ib
    -- 53-55
    let T ← einsum2 opT ia eyeT ib io
    -- 56
    .ok (T.toMatrix n)

end Oranssi
