import Verif.Model.Py
import Mathlib.Analysis.Complex.Basic

/-! # Model of the argument checks in opt_tools.py and optimizers.py -/

namespace Oranssi

/-- Python values as far as the check of `eta` can tell them apart. -/
inductive PyVal where
  /-- a finite `float` (or a subclass such as `numpy.float64`) -/
  | float (x : ℝ)
  /-- the float `nan` -/
  | nan
  /-- the floats `inf` (`true`) and `-inf` (`false`) -/
  | inf (pos : Bool)
  /-- a value that is not a `float` but compares with floats like the number `x`: `int`, `bool`, `numpy.float32`, `Fraction`, a numpy
  array with one element -/
  | number (x : ℝ)
  /-- a numpy array whose truth value is ambiguous -/
  | array
  /-- a value that cannot be compared with a float: `None`, a string, a list, a `complex` -/
  | incomparable

/-- `isinstance(v, float)`. -/
def PyVal.isFloat : PyVal → Bool
  | .float _ => true
  | .nan => true
  | .inf _ => true
  | _ => false

open Classical in
/-- `lo <= v <= hi` with float bounds. -/
noncomputable def PyVal.between (lo hi : ℝ) : PyVal → Py Bool
  | .float x => .ok (decide (lo ≤ x ∧ x ≤ hi))
  | .nan => .ok false
  | .inf _ => .ok false
  | .number x => .ok (decide (lo ≤ x ∧ x ≤ hi))
  | .array => .error .value
  | .incomparable => .error .type

/-- The real number a validated value stands for. -/
def PyVal.toReal : PyVal → ℝ
  | .float x => x
  | .number x => x
  | _ => 0

/-- opt_tools.py:125-126 (and 235-236, 329-333, 403-407, 507-511, 628-632, 707-711), optimizers.py:135-136, 268-269:
`assert (isinstance(eta, float) & (0. <= eta <= 1.))`.  The operator `&` evaluates both sides, so comparing comes first. -/
noncomputable def validateEta (v : PyVal) : Py ℝ := do
  let b ← v.between 0 1
  pyAssert ((v.isFloat && b) = true)
  .ok v.toReal

/-- Python values as far as `isinstance(v, bool)` can tell them apart. -/
inductive BoolArg where
  | bool (b : Bool)
  | other
  deriving DecidableEq

/-- opt_tools.py:158-163 and similar: `assert isinstance(flag, bool)`. -/
def validateBool : BoolArg → Py Bool
  | .bool b => .ok b
  | .other => .error .assertion

end Oranssi
