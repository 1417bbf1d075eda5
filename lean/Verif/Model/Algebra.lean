import Verif.Model.CircuitTools

/-! # Model of the classes `AlgebraSU2`, `AlgebraSU4`, `AlgebraSU8` (oranssi/opt_tools.py:1028-1269) -/

namespace Oranssi

/-- `d[k] = v` on a Python dict kept as an association list in insertion order. -/
def dictSet {K V : Type} [DecidableEq K] (d : List (K × V)) (k : K) (v : V) : List (K × V) :=
  if k ∈ d.map Prod.fst then d.map (fun e => if e.1 = k then (k, v) else e) else d ++ [(k, v)]

/-- `d[k]`; a missing key raises `KeyError`. -/
def dictGet {K V : Type} [DecidableEq K] (d : List (K × V)) (k : K) : Py V :=
  match d.find? (fun e => e.1 = k) with
  | some e => .ok e.2
  | none => .error .key

/-- `dict(zip(ks, vs))`. -/
def dictZip {K V : Type} [DecidableEq K] (ks : List K) (vs : List V) : List (K × V) :=
  (ks.zip vs).foldl (fun d e => dictSet d e.1 e.2) []

/-- `itertools.combinations(l, r)`. -/
def combinations {α : Type} : List α → ℕ → List (List α)
  | _, 0 => [[]]
  | [], _ + 1 => []
  | a :: l, r + 1 => (combinations l r).map (a :: ·) ++ combinations l (r + 1)

/-- A dictionary key `(direction, *qubits)`. -/
abbrev Key := String × List ℕ

/-- The attributes of `AlgebraSU2` and `AlgebraSU4` that the code reads.  `directions_left`, `add_su2` and `FIRST_CALL` are never
read (the code after `raise NotImplementedError` is unreachable). -/
structure Algebra (n : ℕ) where
  directions : List String
  paulis : List (String × NpMat)
  qubitsLeft : List ℕ
  fullPaulis : List (Key × Matrix (Fin (2 ^ n)) (Fin (2 ^ n)) ℂ)

/-- opt_tools.py:1030-1050 `AlgebraSU2.__init__`; the flag `add_su2` has no effect. -/
def algebraSU2 (n : ℕ) : Algebra n where
  directions := (getSu2Operators false).2
  paulis := dictZip (getSu2Operators false).2 (getSu2Operators false).1
  qubitsLeft := List.replicate n 0
  fullPaulis := []

/-- opt_tools.py:1124-1151 `AlgebraSU4.__init__`. -/
def algebraSU4 (n : ℕ) (addSu2 : Bool) : Algebra n :=
  let ps := if addSu2 then (getSu2Operators false).1 ++ (getSu4Operators false).1 else (getSu4Operators false).1
  let ds := if addSu2 then (getSu2Operators false).2 ++ (getSu4Operators false).2 else (getSu4Operators false).2
  { directions := ds, paulis := dictZip ds ps, qubitsLeft := List.replicate n 0, fullPaulis := [] }

/-- opt_tools.py:1110-1113, 1211-1214, 1266-1269 `add_pauli(direction, qubits)`. -/
def addPauli {n : ℕ} (paulis : List (String × NpMat)) (direction : String) (qubits : List ℕ)
    (fp : List (Key × Matrix (Fin (2 ^ n)) (Fin (2 ^ n)) ℂ)) : Py (List (Key × Matrix (Fin (2 ^ n)) (Fin (2 ^ n)) ℂ)) :=
  if (direction, qubits) ∈ fp.map Prod.fst then .ok fp
  else do
    let p ← dictGet paulis direction
    let F ← getFullOperator p (qubits.map (Nat.cast : ℕ → ℤ)) n
    .ok (dictSet fp (direction, qubits) F)

/-- opt_tools.py:1106-1108, 1207-1209: the inner loop over `qubits`. -/
def addLoop {n : ℕ} (paulis : List (String × NpMat)) (direction : String) : List (List ℕ) →
    List (Key × Matrix (Fin (2 ^ n)) (Fin (2 ^ n)) ℂ) → Py (List (Key × Matrix (Fin (2 ^ n)) (Fin (2 ^ n)) ℂ))
  | [], fp => .ok fp
  | q :: qs, fp => do
    let fp' ← (if q.length = direction.toList.length then addPauli paulis direction q fp else .ok fp :
      Py (List (Key × Matrix (Fin (2 ^ n)) (Fin (2 ^ n)) ℂ)))
    addLoop paulis direction qs fp'

/-- opt_tools.py:1105-1108, 1206-1209: the loop over the directions. -/
def addAllLoop {n : ℕ} (paulis : List (String × NpMat)) (qubits : List (List ℕ)) : List String →
    List (Key × Matrix (Fin (2 ^ n)) (Fin (2 ^ n)) ℂ) → Py (List (Key × Matrix (Fin (2 ^ n)) (Fin (2 ^ n)) ℂ))
  | [], fp => .ok fp
  | d :: ds, fp => do
    let fp' ← addLoop paulis d qubits fp
    addAllLoop paulis qubits ds fp'

/-- `np.where(qubits_left == 0)[0].tolist()`. -/
def freeQubits (l : List ℕ) : List ℕ := (l.zipIdx.filter (fun e => e.1 = 0)).map Prod.snd

/-- opt_tools.py:1088-1108, 1189-1209 `get_all_directions_and_qubits`. -/
def Algebra.getAll {n : ℕ} (a : Algebra n) : Py (Algebra n) := do
  let left := if freeQubits a.qubitsLeft = [] then List.replicate n 0 else a.qubitsLeft
  let idx := freeQubits left
  let qubits := if idx.length > 1 then idx.map (fun q => [q]) ++ combinations idx 2 else idx.map (fun q => [q])
  let fp ← addAllLoop a.paulis qubits a.directions a.fullPaulis
  .ok { a with qubitsLeft := left, fullPaulis := fp }

/-- opt_tools.py:1059, 1160, 1258: `get_random_direction_and_qubits` always raises. -/
def getRandomDirectionAndQubits : Py Key := .error .notImplemented

/-- The attributes of `AlgebraSU8`. -/
structure Algebra8 (n : ℕ) where
  directions : List String
  paulis : List (String × NpMat)
  qubits : List (ℕ × List (List ℕ))
  fullPaulis : List (Key × Matrix (Fin (2 ^ n)) (Fin (2 ^ n)) ℂ)

/-- opt_tools.py:1227-1255 `AlgebraSU8.__init__`. -/
def algebraSU8 (n : ℕ) (addSu2 addSu4 : Bool) : Py (Algebra8 n) := do
  let su8 ← getSuNOperators 8 false
  let pd := (if addSu2 then [getSu2Operators false] else []) ++ (if addSu4 then [getSu4Operators false] else []) ++ [su8]
  let ps := pd.flatMap Prod.fst
  let ds := pd.flatMap Prod.snd
  let q3 := [(3, combinations (List.range n) 3)]
  let q1 := if addSu2 then dictSet q3 1 ((List.range n).map (fun i => [i])) else q3
  let q2 := if addSu4 then dictSet q1 2 (combinations (List.range n) 2) else q1
  .ok { directions := ds, paulis := dictZip ds ps, qubits := q2, fullPaulis := [] }

/-- opt_tools.py:1263-1264: the inner loop. -/
def addLoop8 {n : ℕ} (paulis : List (String × NpMat)) (direction : String) : List (List ℕ) →
    List (Key × Matrix (Fin (2 ^ n)) (Fin (2 ^ n)) ℂ) → Py (List (Key × Matrix (Fin (2 ^ n)) (Fin (2 ^ n)) ℂ))
  | [], fp => .ok fp
  | q :: qs, fp => do
    let fp' ← addPauli paulis direction q fp
    addLoop8 paulis direction qs fp'

/-- opt_tools.py:1262-1264: the outer loop; `self.qubits[len(direction)]` may raise `KeyError`. -/
def addAllLoop8 {n : ℕ} (paulis : List (String × NpMat)) (qubits : List (ℕ × List (List ℕ))) : List String →
    List (Key × Matrix (Fin (2 ^ n)) (Fin (2 ^ n)) ℂ) → Py (List (Key × Matrix (Fin (2 ^ n)) (Fin (2 ^ n)) ℂ))
  | [], fp => .ok fp
  | d :: ds, fp => do
    let qs ← dictGet qubits d.toList.length
    let fp' ← addLoop8 paulis d qs fp
    addAllLoop8 paulis qubits ds fp'

/-- opt_tools.py:1260-1264 `AlgebraSU8.get_all_directions_and_qubits`. -/
def Algebra8.getAll {n : ℕ} (a : Algebra8 n) : Py (Algebra8 n) := do
  let fp ← addAllLoop8 a.paulis a.qubits a.directions a.fullPaulis
  .ok { a with fullPaulis := fp }

end Oranssi
