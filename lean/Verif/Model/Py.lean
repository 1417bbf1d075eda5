/-!
# Python run-time conventions used by the model

Exceptions are values.  One constructor per Python exception class that the modelled code can raise.
-/

namespace Oranssi

/-- The Python exception classes that occur in `/repo/oranssi`. -/
inductive PyErr where
  | assertion        -- `AssertionError` (failed `assert`, or raised explicitly)
  | value            -- `ValueError`
  | index            -- `IndexError`
  | key              -- `KeyError`
  | attribute        -- `AttributeError`
  | type             -- `TypeError`
  | overflow         -- `OverflowError`
  | zeroDivision     -- `ZeroDivisionError`
  | notImplemented   -- `NotImplementedError`
  | unboundLocal     -- `UnboundLocalError`
  | stopIteration    -- `StopIteration`
  | fileExists       -- `FileExistsError`
  | diverge          -- no Python exception: a `while` loop of the model ran out of its iteration budget
  | nonFinite        -- no Python exception: a division by zero of numpy floats gives inf or nan, which the model does not represent
  deriving DecidableEq, Repr

/-- A computation that may raise. -/
abbrev Py (α : Type _) := Except PyErr α

/-- Python's `assert c`. -/
def pyAssert (c : Prop) [Decidable c] : Py Unit :=
  if c then .ok () else .error .assertion

/-- Position in a list of length `len` that Python's index `w` denotes (negative indices count from the end);
`none` means `IndexError`. -/
def pyIndex (len : Nat) (w : Int) : Option Nat :=
  if 0 ≤ w then (if w.toNat < len then some w.toNat else none)
  else if 0 ≤ w + len then some (w + len).toNat
  else none

/-- `l[w] = v` on a Python list. -/
def pySetItem {α : Type _} (l : List α) (w : Int) (v : α) : Py (List α) :=
  match pyIndex l.length w with
  | some j => .ok (l.set j v)
  | none => .error .index

/-- `l[w]` on a Python list. -/
def pyGetItem {α : Type _} (l : List α) (w : Int) : Py α :=
  match (pyIndex l.length w).bind (l[·]?) with
  | some v => .ok v
  | none => .error .index

end Oranssi
