import Verif.Spec.Cost
import Mathlib.Analysis.CStarAlgebra.Matrix
import Mathlib.Analysis.Normed.Algebra.MatrixExponential

/-! # Parametrised circuits: fixed gates, and rotations whose angles are entries of a parameter vector -/

namespace Oranssi.Spec
open scoped Matrix
open scoped Matrix.Norms.L2Operator

variable {n : ℕ}

/-- One piece of a parametrised circuit: a fixed gate, or the evolution under a generator for the time given by parameter `i`. -/
inductive Piece (n : ℕ) : Type
  | fixed (W : QMat n)
  | rot (i : ℕ) (G : QMat n)

/-- The fixed gates are unitary and the generators are skew-Hermitian. -/
def Piece.Valid : Piece n → Prop
  | .fixed W => Wᴴ * W = 1
  | .rot _ G => Gᴴ = -G

/-- The matrix of a piece. -/
noncomputable def Piece.mat (θ : ℕ → ℝ) : Piece n → QMat n
  | .fixed W => W
  | .rot i G => NormedSpace.exp ((θ i : ℂ) • G)

/-- The circuit: the pieces in the order in which they are applied. -/
noncomputable def ansatz (ps : List (Piece n)) (θ : ℕ → ℝ) : QMat n := ps.foldl (fun U p => p.mat θ * U) 1

/-- Which parameter a rotation reads, and the norm of its generator. -/
noncomputable def Piece.rate : Piece n → Option (ℕ × ℝ)
  | .fixed _ => none
  | .rot i G => some (i, ‖G‖)

/-- How fast parameter `i` can turn the state: the norms of the generators that it drives, added. -/
noncomputable def speed (ps : List (Piece n)) (i : ℕ) : ℝ := ((ps.filterMap Piece.rate).map (fun x => if x.1 = i then x.2 else 0)).sum

/-- The circuit reads the parameters below `m` only. -/
def Reads (ps : List (Piece n)) (m : ℕ) : Prop := ∀ x ∈ ps.filterMap Piece.rate, x.1 < m

end Oranssi.Spec
