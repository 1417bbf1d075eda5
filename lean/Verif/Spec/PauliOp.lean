import Verif.Spec.Pauli

/-! # Specification: operators denoted by Pauli monomials -/

namespace Oranssi.Spec

/-- Index 0,1,2,3 to letter. -/
def letterOf : Fin 4 → Letter := ![.I, .X, .Y, .Z]

/-- The 2×2 matrix `c σ_γ` as an operator of a one-qubit register. -/
def oneSite (c : ℂ) (g : Fin 4) : QMat 1 := c • pauliWord (fun _ : Fin 1 => letterOf g)

/-- The operator on `n` qubits of a list of `(site, γ, c)`: the product of the single-site operators `c σ_γ`, each acting on
its own site. -/
def opOf (n : ℕ) (l : List (ℕ × Fin 4 × ℂ)) : QMat n := (l.map (fun p => full n [p.1] (oneSite p.2.2 p.2.1))).prod

end Oranssi.Spec
