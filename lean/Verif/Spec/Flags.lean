import Mathlib.Data.List.Basic

/-! # Specification vocabulary for C84: computations that succeed whenever others do, and return values that agree -/

namespace Oranssi.Spec

/-- Whenever `x` succeeds, so does `y`, with a related value. -/
def Refines {ε α β : Type} (R : α → β → Prop) (x : Except ε α) (y : Except ε β) : Prop := ∀ a, x = .ok a → ∃ b, y = .ok b ∧ R a b

/-- Two lists of returned items agree: they begin with the same item (the costs), and items of the same kind are equal. -/
structure Agree {α κ : Type} (kind : α → κ) (l l' : List α) : Prop where
  first : l.head? = l'.head?
  items : ∀ x ∈ l, ∀ y ∈ l', kind x = kind y → x = y

end Oranssi.Spec
