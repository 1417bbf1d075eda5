import Verif.Spec.Layers

/-! # Specification: cost of a circuit, gradient along a direction -/

namespace Oranssi.Spec
open scoped Matrix

/-- The cost of the circuit `V` for the Hamiltonian `H`: the expectation of `H` in the state `V|0…0⟩`. -/
noncomputable def cost {n : ℕ} (H V : QMat n) : ℝ := (star (fun i => V i 0) ⬝ᵥ (H *ᵥ (fun i => V i 0))).re

/-- The gradient of the circuit `V` along the direction `P`: the imaginary part of the expectation of `[P, H]`. -/
noncomputable def grad {n : ℕ} (H V P : QMat n) : ℝ := (star (fun i => V i 0) ⬝ᵥ ((P * H - H * P) *ᵥ (fun i => V i 0))).im

end Oranssi.Spec
