import Mathlib.Data.Real.Basic

/-! # Specification: the first maximal element of a list -/

namespace Oranssi.Spec

/-- `x` is the first of the elements of `l` at which `f` is maximal. -/
def IsFirstMax {α : Type} (f : α → ℝ) (l : List α) (x : α) : Prop :=
  ∃ l₁ l₂, l = l₁ ++ x :: l₂ ∧ (∀ y ∈ l₁, f y < f x) ∧ ∀ y ∈ l₂, f y ≤ f x

end Oranssi.Spec
