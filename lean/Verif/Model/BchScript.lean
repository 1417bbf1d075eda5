import Verif.Model.Pauli
import Mathlib.Data.Nat.Factorial.Basic

/-! # Model of `bch_recusion` (experiments_paper/BCH.py:118-132)

The coefficients of the script are sympy expressions in the symbols `x` and `y`; here they are complex numbers, the values of the expressions for some
values of the symbols.  The `print` call is left out. -/

namespace Oranssi

open Classical in
/-- BCH.py:123-127 and 128-132: append a commutator, remove it again if its coefficient is 0, divide the coefficient otherwise. -/
noncomputable def bchAppend (c : Mono) (d : ℂ) (acc : List Mono) : List Mono :=
  if c.coeff = 0 then acc else acc ++ [{ c with coeff := c.coeff / d }]

/-- BCH.py:122-132: the loop over the terms of the order before. -/
noncomputable def bchLevel (ord : SetOrder ℕ) (X Y : Mono) (n : ℕ) : List Mono → List Mono → Py (List Mono)
  | [], acc => .ok acc
  | t :: ts, acc => do
    let c ← X.commutator ord t
    let acc := bchAppend c (n.factorial : ℂ) acc
    let c ← Y.commutator ord t
    bchLevel ord X Y n ts (bchAppend c (-1 * (n.factorial : ℂ)) acc)

/-- BCH.py:118-132 `bch_recusion(X, Y, terms)`: the new value of `terms`. -/
noncomputable def bchRecursion (ord : SetOrder ℕ) (X Y : Mono) (terms : List (List Mono)) : Py (List (List Mono)) :=
  match terms.getLast? with
  | none => .error .index
  | some last => do
    let l ← bchLevel ord X Y (terms.length + 1) last []
    .ok (terms ++ [l])

/-- BCH.py:147-149: `terms = [[p1, p2]]`, then `r` calls. -/
noncomputable def bchTerms (ord : SetOrder ℕ) (X Y : Mono) : ℕ → Py (List (List Mono))
  | 0 => .ok [[X, Y]]
  | r + 1 => do
    let terms ← bchTerms ord X Y r
    bchRecursion ord X Y terms

end Oranssi
