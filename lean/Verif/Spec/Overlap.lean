import Verif.Spec.Cost
import Mathlib.Analysis.Complex.Basic

/-! # Specification: the overlap of two states -/

namespace Oranssi.Spec
open scoped Matrix

/-- The absolute value of the scalar product of the states that two circuits prepare: the cosine of their distance in the space of states. -/
noncomputable def overlap {n : ℕ} (U V : QMat n) : ℝ := ‖star (fun i => U i 0) ⬝ᵥ (fun i => V i 0)‖

end Oranssi.Spec
