import Verif.Spec.Gates
import Verif.Spec.Cost

/-! # Specification: brick-wall layers of rotations -/

namespace Oranssi.Spec

/-- The three kinds of layers. -/
inductive LayerKind where
  | single | even | odd
  deriving DecidableEq

/-- The qubits (tuples) a layer acts on: all single qubits; the bonds `(i, i+1)` with even `i`; the bonds with odd `i`, and `(0, n-1)`. -/
def LayerKind.sites (n : ℕ) : LayerKind → List (List ℕ)
  | .single => (List.range n).map (fun i => [i])
  | .even => ((List.range n).filter (fun i => i % 2 = 0 ∧ i + 1 < n)).map (fun i => [i, i + 1])
  | .odd => ((List.range n).filter (fun i => i % 2 = 1 ∧ i + 1 < n)).map (fun i => [i, i + 1]) ++ [[0, n - 1]]

/-- The sum of the absolute gradients of the cost along the rotations of a layer. -/
noncomputable def layerGrad {n : ℕ} (H U : QMat n) (w : List Letter) (k : LayerKind) : ℝ :=
  ((k.sites n).map (fun q => |grad H U (pauliWord (placed n w q))|)).sum

/-- The candidate layers, in order: one per single letter, an even and an odd one per pair of letters. -/
def candidateLayers : List (List Letter × LayerKind) :=
  [Letter.X, .Y, .Z].map (fun a => ([a], .single)) ++
    [Letter.X, .Y, .Z].flatMap (fun a => [Letter.X, .Y, .Z].flatMap (fun b => [([a, b], .even), ([a, b], .odd)]))

/-- The rotation `exp(-i θ/2 P)` of the register about the word `w` on the qubits `q`. -/
noncomputable def rotOp (n : ℕ) (θ : ℝ) (w : List Letter) (q : List ℕ) : QMat n :=
  (Real.cos (θ / 2) : ℂ) • 1 - (Complex.I * Real.sin (θ / 2)) • pauliWord (placed n w q)

/-- The angles of a layer with parameters `ps`, site by site: in order, except that the bond `(0, n-1)` of an odd layer gets the last one. -/
def LayerKind.angles (n : ℕ) (ps : List ℝ) : LayerKind → List ℝ
  | .odd => ps.take ((LayerKind.odd.sites n).length - 1) ++ [ps.getLastD 0]
  | _ => ps

/-- The rotations of a layer, in the order in which they are applied. -/
noncomputable def layerRots (n : ℕ) (c : List Letter × LayerKind) (ps : List ℝ) : List (QMat n) :=
  List.zipWith (fun θ q => rotOp n θ c.1 q) (c.2.angles n ps) (c.2.sites n)

/-- The operator of a list of operators applied in order. -/
noncomputable def inOrder {n : ℕ} (l : List (QMat n)) : QMat n := l.foldl (fun U R => R * U) 1

/-- The Hadamard gate on every qubit. -/
noncomputable def hadamardAll (n : ℕ) : QMat n := tensor (fun _ => ((1 / Real.sqrt 2 : ℝ) : ℂ) • !![1, 1; 1, -1])

end Oranssi.Spec
