import Mathlib.Analysis.Complex.Basic

/-! # Specification: runs of an iterative optimizer with early stopping or perturbation -/

namespace Oranssi.Spec

/-- A cost `a` is close to an earlier cost `b`: within the tolerance plus `1e-5` of the earlier cost; an infinite tolerance (`none`) admits everything. -/
def Close (tol : Option ℝ) (a b : ℝ) : Prop := ∀ t, tol = some t → |a - b| ≤ t + 1e-5 * |b|

/-- The rules of a run on circuits (or whatever else is optimized) of type `α`. -/
structure Rules (α : Type*) where
  /-- maximal number of steps -/
  nsteps : ℕ
  /-- the first step after which the cost is tested -/
  first : ℕ
  /-- the number of steps over which the cost is compared -/
  lag : ℕ
  /-- when two costs count as close -/
  close : ℝ → ℝ → Prop
  cost : α → ℝ
  /-- what a step may do -/
  step : ℕ → α → α → Prop
  /-- what to do when the cost is flat: stop (`none`) or perturb and go on -/
  kick : Option (ℕ → α → α)

/-- The cost is flat after step `k`, where `V j` is the result of the first `j` steps. -/
def Rules.Flat {α : Type*} (R : Rules α) (V : ℕ → α) (k : ℕ) : Prop :=
  R.first ≤ k ∧ R.close (R.cost (V (k + 1))) (R.cost (V (k + 1 - R.lag)))

/-- A run of `m` steps: `V j` is the result of the first `j` steps and `W j` is what step `j` starts from. -/
structure Rules.Run {α : Type*} (R : Rules α) (V W : ℕ → α) (m : ℕ) : Prop where
  start : W 0 = V 0
  advance : ∀ k < m, R.step k (W k) (V (k + 1))
  kept : ∀ k < m, ¬ R.Flat V k ∨ R.kick = none → W (k + 1) = V (k + 1)
  kicked : ∀ k < m, R.Flat V k → ∀ f, R.kick = some f → W (k + 1) = f k (V (k + 1))
  bounded : m ≤ R.nsteps
  notBefore : R.kick = none → ∀ k, k + 1 < m → ¬ R.Flat V k
  ended : m = R.nsteps ∨ (R.kick = none ∧ ∃ k, m = k + 1 ∧ R.Flat V k)

end Oranssi.Spec
