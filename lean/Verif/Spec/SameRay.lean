import Mathlib.Analysis.Complex.Norm

/-! # When two state vectors are the same physical state, and when two computations behave in the same way -/

namespace Oranssi.Spec

/-- Equal up to a phase factor. -/
def SameRay {ι : Type*} (φ ψ : ι → ℂ) : Prop := ∃ c : ℂ, ‖c‖ = 1 ∧ φ = fun i => c * ψ i

/-- Two computations that may fail behave in the same way: either both fail with the same error, or both succeed, and their results are
related by `R`. -/
inductive SameBehaviour {ε α β : Type*} (R : α → β → Prop) : Except ε α → Except ε β → Prop
  | ok {a b} (h : R a b) : SameBehaviour R (.ok a) (.ok b)
  | error (e : ε) : SameBehaviour R (.error e) (.error e)

end Oranssi.Spec
