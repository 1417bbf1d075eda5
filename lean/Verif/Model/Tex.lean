import Verif.Model.Printing
import Verif.Model.Pauli

/-! # The TeX labels of Pauli operators

pauli.py:62-73, 89-91, 188-193 and 210-215; algebra_graphs.py:105.  `fmt` is Python's formatting of coefficients. -/

namespace Oranssi

/-- pauli.py:70-73 `Pauli.__tex__(coeff=False)`. -/
def Pauli.texBare (p : Pauli) : List Char :=
  if p.gamma = 0 then "I_{".toList ++ (Nat.toDigits 10 p.alpha ++ ['}'])
  else "\\sigma_{".toList ++ (Nat.toDigits 10 p.alpha ++ ("}^{".toList ++ [pauliInt2Str p.gamma, '}']))

/-- pauli.py:62-69 `Pauli.__tex__()` and pauli.py:89-91 `Pauli.tex()`. -/
def Pauli.tex (fmt : ℂ → List Char) (p : Pauli) : List Char :=
  if p.gamma = 0 then fmt p.coeff ++ " I".toList
  else fmt p.coeff ++ (" \\sigma_{".toList ++ (Nat.toDigits 10 p.alpha ++ ("}^{".toList ++ [pauliInt2Str p.gamma, '}'])))

/-- pauli.py:193 `PauliMonomial.__tex__(coeff=False)`. -/
def Mono.texBare (m : Mono) : List Char := [' '].intercalate (m.monomial.map Pauli.texBare)

/-- pauli.py:188-191 `PauliMonomial.__tex__()` and pauli.py:210-213 `PauliMonomial.tex()`. -/
def Mono.tex (fmt : ℂ → List Char) (m : Mono) : List Char := fmt m.coeff ++ (' ' :: m.texBare)

/-- algebra_graphs.py:105: the label of a node. -/
def nodeLabel (fmt : ℂ → List Char) (m : Mono) : List Char := '$' :: (m.tex fmt ++ ['$'])

end Oranssi
