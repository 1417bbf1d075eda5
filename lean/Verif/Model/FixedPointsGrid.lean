import Verif.Model.FixedPoints
import Verif.Model.Greedy

/-! # Model of the loop of experiments_paper/fixed_points.py over its grid (lines 18-44 and 49-52)

Arithmetic is exact.  `np.unravel_index(.., dims=..)` is the call of the numpy versions that know the keyword `dims`. -/

namespace Oranssi

/-- fixed_points.py:19 `grid = np.linspace(-1., 1., gran)`: entry number `k`. -/
noncomputable def fpGrid (gran k : ℕ) : ℝ := -1 + 2 * k / (gran - 1)

/-- fixed_points.py:20-21 and 33: the point number `i` of `zip(*rr)`.  `np.meshgrid` has the default `indexing='xy'`: the first of its arrays varies
along the second axis and the second array along the first axis. -/
noncomputable def fpPoint (gran i : ℕ) : Fin 3 → ℝ := ![fpGrid gran (i / gran % gran), fpGrid gran (i / gran ^ 2), fpGrid gran (i % gran)]

/-- fixed_points.py:28-44: the arrays `gradients` and `costs`, row by row. -/
noncomputable def fpRows (gran : ℕ) : Py (List ((Fin 3 → ℝ) × ℝ)) := (List.range (gran ^ 3)).mapM (fun i => fixedPointsRow (fpPoint gran i))

/-- `np.argmin(l)` of an array, flattened: the first index of a smallest entry, `ValueError` for an empty array. -/
noncomputable def npArgmin (l : List ℝ) : Py ℕ := pyArgmax ((List.range l.length).map (fun i => (i, -(l.getD i 0))))

/-- fixed_points.py:50-52: the list that is printed. -/
noncomputable def fpMinimum (gran : ℕ) : Py (Fin 3 → ℝ) := do
  let rows ← fpRows gran
  let m ← npArgmin (rows.map Prod.snd)
  .ok ![fpGrid gran (m / gran ^ 2), fpGrid gran (m / gran % gran), fpGrid gran (m % gran)]

end Oranssi
