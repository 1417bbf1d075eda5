import Verif.Lemmas.LieLayers

/-! # How a reader takes the printed table apart -/

namespace Oranssi.Spec

/-- Without the spaces at both ends. -/
def strip (s : List Char) : List Char := ((s.dropWhile (· = ' ')).reverse.dropWhile (· = ' ')).reverse

/-- What stands between the bars of a line. -/
def cells (row : List Char) : List (List Char) := row.splitOn '|'

/-- The names listed behind the arrow, which stands in the cell behind the fourth bar. -/
def readDirections (row : List Char) : List (List Char) := ((((cells row).getD 4 []).drop " directions -> ".toList.length).splitOn ',').map strip

/-- The first four bars of the two lines stand one below the other. -/
def Aligned (row header : List Char) : Prop := ((cells row).take 4).map List.length = ((cells header).take 4).map List.length

end Oranssi.Spec
