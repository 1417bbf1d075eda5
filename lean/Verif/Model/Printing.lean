import Verif.Model.Optimizers

/-! # The table of layers that `approximate_lie_optimizer` prints

optimizers.py:323-328 and the `__repr__` of the eight layers.  Strings are lists of characters here. -/

namespace Oranssi

/-- Python's `'{:^w}'.format(s)`: at least `w` characters, the text in the middle, the larger half of an odd number of spaces on the
right; a longer text is not cut. -/
def pyCenter (w : ℕ) (s : List Char) : List Char :=
  List.replicate ((w - s.length) / 2) ' ' ++ s ++ List.replicate (w - s.length - (w - s.length) / 2) ' '

/-- `("{:^25}|" * 3).format(a, b, c)` (opt_tools.py:204 and the other layers, optimizers.py:324). -/
def rowFormat (a b c : List Char) : List Char :=
  pyCenter 25 a ++ '|' :: (pyCenter 25 b ++ '|' :: (pyCenter 25 c ++ ['|']))

/-- An integer in a format field. -/
def pyInt (i : ℤ) : List Char := if i < 0 then '-' :: Nat.toDigits 10 i.natAbs else Nat.toDigits 10 i.natAbs

/-- A `bool` in a format field with a non-empty format specification: `bool` inherits `int.__format__`, which prints the number. -/
def pyBool (b : Bool) : List Char := if b then ['1'] else ['0']

/-- `", ".join(ds)`. -/
def pyJoin (ds : List String) : List Char := [',', ' '].intercalate (ds.map String.toList)

/-- The common form of the `__repr__` methods: `"| " + row_format.format(name, stride, trotterize) + " directions -> " + text`. -/
def layerRow (name stride : List Char) (trotterize : Bool) (text : List Char) : List Char :=
  '|' :: ' ' :: (rowFormat name stride (pyBool trotterize) ++ (" directions -> ".toList ++ text))

/-- `f'…SU({2 ** k})'`. -/
def suName (pre : String) (k : ℕ) : List Char := pre.toList ++ ("SU(".toList ++ (Nat.toDigits 10 (2 ^ k) ++ [')']))

/-- opt_tools.py:203-207 `LocalLieAlgebraLayer.__repr__` (the constructor only lets the localities 1 and 2 pass, for which `2 ** locality`
is an integer). -/
def LocalLayer.repr {n : ℕ} (L : LocalLayer n) : List Char :=
  layerRow (suName "Local Lie Algebra Layer " L.locality.toNat) (pyInt L.stride) L.trotterize (pyJoin L.directions)

/-- opt_tools.py:297-301 `CustomDirectionLieAlgebraLayer.__repr__`. -/
def CustomLayer.repr {n : ℕ} (L : CustomLayer n) : List Char :=
  layerRow (suName "Lie Algebra Layer " n) "NaN".toList L.trotterize (pyJoin (L.directions.map Prod.fst))

/-- opt_tools.py:367-372 `StochasticLieAlgebraLayer.__repr__`. -/
def StochasticLayer.repr {n : ℕ} (L : StochasticLayer n) : List Char :=
  layerRow (suName "Stoch. Algebra Layer " n) "NaN".toList L.trotterize (pyJoin L.lastate.directions)

/-- opt_tools.py:473-478 `SquaredLieAlgebraLayer.__repr__`. -/
def SquaredLayer.repr {n : ℕ} (L : SquaredLayer n) : List Char :=
  layerRow (suName "Stoch. Algebra Layer " n) "NaN".toList L.trotterize (pyJoin L.lastate.directions)

/-- opt_tools.py:594-599 `AdaptVQELayer.__repr__`. -/
def AdaptLayer.repr {n : ℕ} (L : AdaptLayer n) : List Char :=
  layerRow "Adapt VQE Layer".toList "NaN".toList L.trotterize (pyJoin L.lastate.directions)

/-- opt_tools.py:673-678 `SU8_AlgebraLayer.__repr__`. -/
def SU8Layer.repr {n : ℕ} (L : SU8Layer n) : List Char :=
  layerRow (suName "SU(8) Layer " n) "NaN".toList L.trotterize (pyJoin L.lastate.directions)

/-- opt_tools.py:886-890 `ZassenhausLayer.__repr__`. -/
def ZassLayer.repr {n : ℕ} (L : ZassLayer n) : List Char :=
  layerRow (suName "Zassenhaus Layer " n) "NaN".toList L.trotterize "SU(2), SU(4), SU(8) by Zassenhaus ".toList

/-- opt_tools.py:1020-1024 `ZassenhausLayerV2.__repr__`. -/
def ZassV2Layer.repr {n : ℕ} (L : ZassV2Layer n) : List Char :=
  layerRow (suName "Zassenhaus Layer " n) "NaN".toList L.trotterize "SU(2), SU(4), SU(8) by Zassenhaus ".toList

/-- `print(l)` (optimizers.py:327). -/
def AnyLayer.repr {n : ℕ} : AnyLayer n → List Char
  | .loc L => L.repr
  | .custom L => L.repr
  | .stochastic L => L.repr
  | .squared L => L.repr
  | .adapt L => L.repr
  | .su8 L => L.repr
  | .zass L => L.repr
  | .v2 _ L => L.repr

/-- optimizers.py:324: `print` puts a space between its arguments. -/
def tableHeader : List Char := '|' :: ' ' :: rowFormat "name".toList "stride".toList "Trotterize".toList

/-- optimizers.py:323-328: the lines printed. -/
def layerTable {n : ℕ} (layers : List (AnyLayer n)) : List (List Char) :=
  [List.replicate 80 '-', tableHeader] ++ layers.flatMap (fun l => [List.replicate 80 '-', l.repr, List.replicate 80 '-'])

end Oranssi
