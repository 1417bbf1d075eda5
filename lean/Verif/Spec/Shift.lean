import Verif.Spec.Adapt
import Mathlib.Analysis.Calculus.Deriv.Basic

/-! # Specification: one angle of a table of angles, the parameter-shift rule, gradient descent -/

namespace Oranssi.Spec

/-- The table of angles `θ` with the angle in row `j` and column `i` replaced by `t`. -/
def setAngle (θ : List (List ℝ)) (j i : ℕ) (t : ℝ) : List (List ℝ) := θ.set j ((θ.getD j []).set i t)

/-- The angle in row `j` and column `i`. -/
def angle (θ : List (List ℝ)) (j i : ℕ) : ℝ := (θ.getD j []).getD i 0

/-- A table with `r` rows of `n` angles. -/
def IsTable (θ : List (List ℝ)) (r n : ℕ) : Prop := θ.length = r ∧ ∀ ps ∈ θ, ps.length = n

/-- The parameter-shift rule: half the difference of the values a quarter turn ahead and a quarter turn behind. -/
noncomputable def shiftRule (f : List (List ℝ) → ℝ) (θ : List (List ℝ)) (j i : ℕ) : ℝ :=
  (f (setAngle θ j i (angle θ j i + Real.pi / 2)) - f (setAngle θ j i (angle θ j i - Real.pi / 2))) / 2

/-- What `pennylane.GradientDescentOptimizer(eta).step_and_cost(f, θ)` guarantees for a table of angles `θ` and a cost `f` that is defined (with the value
`F`) on the tables of this shape and differentiable in every angle: every angle is reduced by `eta` times the derivative with respect to it. -/
def ValidGd {ε : Type} (gd : ℝ → (List (List ℝ) → Except ε ℝ) → List (List ℝ) → Except ε (List (List ℝ))) : Prop :=
  ∀ (eta : ℝ) (f : List (List ℝ) → Except ε ℝ) (F : List (List ℝ) → ℝ) (θ : List (List ℝ)) (r n : ℕ), IsTable θ r n →
    (∀ θ', IsTable θ' r n → f θ' = .ok (F θ')) → (∀ j < r, ∀ i < n, DifferentiableAt ℝ (fun t => F (setAngle θ j i t)) (angle θ j i)) →
    ∃ θ', gd eta f θ = .ok θ' ∧ IsTable θ' r n ∧
      ∀ j < r, ∀ i < n, angle θ' j i = angle θ j i - eta * deriv (fun t => F (setAngle θ j i t)) (angle θ j i)

end Oranssi.Spec
