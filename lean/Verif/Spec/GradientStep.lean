import Mathlib.Analysis.Calculus.Deriv.Basic
import Mathlib.Analysis.Complex.Basic

/-! # Specification: gradient descent on a list of parameters -/

namespace Oranssi.Spec

/-- What `pennylane.GradientDescentOptimizer(eta).step_and_cost(f, p)` guarantees for a list of numbers `p` and a cost `f` that is defined (with the value
`F`) on the lists of this length and differentiable in every entry: every entry is reduced by `eta` times the derivative with respect to it. -/
def ValidGdList {ε : Type} (gd : ℝ → (List ℝ → Except ε ℝ) → List ℝ → Except ε (List ℝ)) : Prop :=
  ∀ (eta : ℝ) (f : List ℝ → Except ε ℝ) (F : List ℝ → ℝ) (p : List ℝ), (∀ p', p'.length = p.length → f p' = .ok (F p')) →
    (∀ i < p.length, DifferentiableAt ℝ (fun t => F (p.set i t)) (p.getD i 0)) →
    ∃ p', gd eta f p = .ok p' ∧ p'.length = p.length ∧
      ∀ i < p.length, p'.getD i 0 = p.getD i 0 - eta * deriv (fun t => F (p.set i t)) (p.getD i 0)

end Oranssi.Spec
