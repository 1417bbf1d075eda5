import Verif.Spec.MonoDen
import Mathlib.Algebra.Lie.OfAssociative
import Mathlib.Algebra.Lie.Subalgebra
import Mathlib.LinearAlgebra.Complex.Module

/-! # Specification: nested commutators of a set of operators -/

namespace Oranssi.Spec
open Oranssi

/-- A generator handed to the graph builders: a monomial on the sites 0, 1, 2 as its constructor makes it, whose total
coefficient is `1`, `-1`, `i` or `-i`. -/
structure Generator (m : Mono) : Prop where
  sites : m.locations = [0, 1, 2]
  consistent : m.Consistent
  unit : m.coeff ^ 4 = 1

/-- The operators reached by at most `d` rounds of commutators: round `0` holds the generators with both signs, and each
further round adds all non-zero halved commutators of what is there. -/
def commDepth {n : ℕ} (S : Set (QMat n)) : ℕ → Set (QMat n)
  | 0 => {A | A ∈ S ∨ -A ∈ S}
  | d + 1 => commDepth S d ∪ {A | A ≠ 0 ∧ ∃ B ∈ commDepth S d, ∃ C ∈ commDepth S d, A = (1 / 2 : ℝ) • (B * C - C * B)}

end Oranssi.Spec
