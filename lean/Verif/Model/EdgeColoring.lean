import Verif.Model.Py
import Mathlib.Data.List.Dedup
import Mathlib.Data.Int.Notation

/-!
# `edge_coloring.py` and `get_commuting_set`

Vertices are natural numbers.  `random.choice` and `random.randint` read an arbitrary stream `rs : ℕ → ℕ` of numbers (theorems
quantify over all streams, so the order in which Python lists a set does not matter).  `while` loops carry an iteration budget
`fuel`; running out of it is the value `PyErr.diverge`, and C57 shows that this never happens when the budget is large enough.
-/

namespace Oranssi

/-- An undirected networkx `Graph`: node keys and, per node, the keys of `G[u]`, both in insertion order.  Edges carry no
attribute but `color`. -/
structure Graph where
  nodes : List ℕ
  adj : ℕ → List ℕ

/-- `G[u][v]` and `G[v][u]` are the same attribute dictionary. -/
def ekey (u v : ℕ) : ℕ × ℕ := (min u v, max u v)

/-- networkx `G.degree(u)`: a self-loop counts twice. -/
def Graph.degree (G : Graph) (u : ℕ) : ℕ := (G.adj u).length + if u ∈ G.adj u then 1 else 0

/-- networkx `G.edges()`: neighbours of earlier nodes are skipped. -/
def edgesAux (adj : ℕ → List ℕ) : List ℕ → List ℕ → List (ℕ × ℕ)
  | [], _ => []
  | u :: us, seen => ((adj u).filter (· ∉ seen)).map (fun v => (u, v)) ++ edgesAux adj us (u :: seen)

/-- networkx `G.edges()`. -/
def Graph.edges (G : Graph) : List (ℕ × ℕ) := edgesAux G.adj G.nodes []

/-- Adding a key to a dict keeps the position of an existing key. -/
def insertKey (l : List ℕ) (a : ℕ) : List ℕ := if a ∈ l then l else l ++ [a]

/-- networkx `add_edge`. -/
def Graph.addEdge (G : Graph) (u v : ℕ) : Graph where
  nodes := insertKey (insertKey G.nodes u) v
  adj := fun x =>
    let a := if x = u then insertKey (G.adj x) v else G.adj x
    if x = v then insertKey a u else a

/-- networkx `from_edgelist`. -/
def fromEdgelist (l : List (ℕ × ℕ)) : Graph := l.foldl (fun G e => G.addEdge e.1 e.2) ⟨[], fun _ => []⟩

/-- `conflict_dictionary`: keys `1 .. bound-1`, each with a set of vertices. -/
structure ConflictDict where
  bound : ℕ
  sets : ℕ → List ℕ

/-- Mutable state: the `color` attributes, and the number of random draws so far. -/
structure EC where
  col : ℕ × ℕ → Option ℕ
  rng : ℕ

/-- The colours in `G[u].values()`. -/
def colorsAt (G : Graph) (col : ℕ × ℕ → Option ℕ) (u : ℕ) : List (Option ℕ) := (G.adj u).map (fun v => col (ekey u v))

/-- `random.choice`. -/
def choice {α : Type} (rs : ℕ → ℕ) (k : ℕ) (l : List α) : Py (α × ℕ) :=
  match l[rs k % l.length]? with
  | some a => .ok (a, k + 1)
  | none => .error .index

/-- `random.randint(0, D - 1)`. -/
def randint0 (rs : ℕ → ℕ) (k D : ℕ) : Py (ℕ × ℕ) :=
  if D = 0 then .error .value else .ok (rs k % D, k + 1)

/-- edge_coloring.py:20-21 `properlyColored`. -/
def properlyColored (G : Graph) (col : ℕ × ℕ → Option ℕ) (u D : ℕ) : Bool :=
  decide ((colorsAt G col u).dedup.length = G.degree u) &&
    (colorsAt G col u).all (fun c => decide (c ∈ (List.range D).map some))

/-- edge_coloring.py:24-25 `checkEdgeColoring`. -/
def checkEdgeColoring (G : Graph) (col : ℕ × ℕ → Option ℕ) (D : ℕ) : Bool := G.nodes.all (fun u => properlyColored G col u D)

/-- edge_coloring.py:28-29 `conflictLevel` (never negative: there are at most `degree` colours). -/
def conflictLevel (G : Graph) (col : ℕ × ℕ → Option ℕ) (u : ℕ) : ℕ := G.degree u - (colorsAt G col u).dedup.length

/-- `conflict_dictionary[lvl].add(u)`. -/
def ConflictDict.addAt (cd : ConflictDict) (lvl u : ℕ) : Py ConflictDict :=
  if 1 ≤ lvl ∧ lvl < cd.bound then
    .ok { cd with sets := fun l => if l = lvl then insertKey (cd.sets l) u else cd.sets l }
  else .error .key

/-- `conflict_dictionary[lvl].remove(u)`. -/
def ConflictDict.removeAt (cd : ConflictDict) (lvl u : ℕ) : Py ConflictDict :=
  if 1 ≤ lvl ∧ lvl < cd.bound ∧ u ∈ cd.sets lvl then
    .ok { cd with sets := fun l => if l = lvl then (cd.sets l).filter (· ≠ u) else cd.sets l }
  else .error .key

/-- edge_coloring.py:34-36, the loop of `createConflictDictionary`. -/
def createLoop (G : Graph) (col : ℕ × ℕ → Option ℕ) : List ℕ → ConflictDict → Py ConflictDict
  | [], cd => .ok cd
  | u :: us, cd => do
    let cd' ← (if conflictLevel G col u > 0 then cd.addAt (conflictLevel G col u) u else .ok cd : Py ConflictDict)
    createLoop G col us cd'

/-- edge_coloring.py:32-37 `createConflictDictionary`. -/
def createConflictDictionary (G : Graph) (col : ℕ × ℕ → Option ℕ) (D : ℕ) : Py ConflictDict :=
  createLoop G col G.nodes ⟨D, fun _ => []⟩

/-- edge_coloring.py:40-46 `updateConflictDictionary`: the new dictionary and the variation. -/
def updateConflictDictionary (G : Graph) (col : ℕ × ℕ → Option ℕ) (u : ℕ) (cd : ConflictDict) (old : ℕ) :
    Py (ConflictDict × ℤ) := do
  let cd1 ← (if old > 0 then cd.removeAt old u else .ok cd : Py ConflictDict)
  let cd2 ← (if conflictLevel G col u > 0 then cd1.addAt (conflictLevel G col u) u else .ok cd1 : Py ConflictDict)
  .ok (cd2, (conflictLevel G col u : ℤ) - old)

/-- The keys `1 .. bound-1`. -/
def ConflictDict.levels (cd : ConflictDict) : List ℕ := (List.range cd.bound).filter (· ≠ 0)

/-- edge_coloring.py:49-51 `maxConflictLevel`; `max([])` raises `ValueError`. -/
def maxConflictLevel (cd : ConflictDict) : Py ℕ :=
  match (cd.levels.filter (fun l => (cd.sets l).length > 0)).max? with
  | some m => .ok m
  | none => .error .value

/-- edge_coloring.py:54-55 `totalNumberOfConflicts`. -/
def totalNumberOfConflicts (cd : ConflictDict) : ℕ := (cd.levels.map (fun l => l * (cd.sets l).length)).sum

/-- `G[u][v]['color'] = G[v][u]['color'] = color`. -/
def setColor (col : ℕ × ℕ → Option ℕ) (u v : ℕ) (c : Option ℕ) : ℕ × ℕ → Option ℕ :=
  fun k => if k = ekey u v then c else col k

/-- edge_coloring.py:58-63 `colorEdgeAndUpdate`: returns the variation of `v`. -/
def colorEdgeAndUpdate (G : Graph) (st : EC) (u v : ℕ) (c : Option ℕ) (cd : ConflictDict) : Py (EC × ConflictDict × ℤ) := do
  let oldU := conflictLevel G st.col u
  let oldV := conflictLevel G st.col v
  let col' := setColor st.col u v c
  let (cd1, _) ← updateConflictDictionary G col' u cd oldU
  let (cd2, var) ← updateConflictDictionary G col' v cd1 oldV
  .ok ({ st with col := col' }, cd2, var)

/-- edge_coloring.py:66-74 `KempeNext`: variation, old colour and next node.  `G[last][node]` raises `KeyError` when there is no
such edge. -/
def kempeNext (G : Graph) (rs : ℕ → ℕ) (st : EC) (last node : ℕ) (newColor : Option ℕ) (cd : ConflictDict) :
    Py (EC × ConflictDict × ℤ × Option ℕ × Option ℕ) := do
  let available := (G.adj node).filter (fun w => w ≠ last ∧ st.col (ekey node w) = newColor)
  let (next, k) ← (if available = [] then .ok (none, st.rng) else do
    let (w, k) ← choice rs st.rng available
    .ok (some w, k) : Py (Option ℕ × ℕ))
  if node ∈ G.adj last then do
    let oldColor := st.col (ekey last node)
    let (st', cd', var) ← colorEdgeAndUpdate G { st with rng := k } last node newColor cd
    .ok (st', cd', var, oldColor, next)
  else .error .key

/-- edge_coloring.py:77-81 `KempeStep`: the new `last`, and the new `node` and `new_color` unless these are `None`. -/
def kempeStep (G : Graph) (rs : ℕ → ℕ) (st : EC) (last node : ℕ) (newColor : Option ℕ) (cd : ConflictDict) :
    Py (EC × ConflictDict × ℕ × Option (ℕ × Option ℕ)) := do
  let (st', cd', var, oldColor, next) ← kempeNext G rs st last node newColor cd
  match next with
  | none => .ok (st', cd', node, none)
  | some w => if var < 0 then .ok (st', cd', node, none) else .ok (st', cd', node, some (w, oldColor))

/-- edge_coloring.py:84-88 `KempeProcess`, the `while` loop with its set `Kempe_chain`. -/
def kempeProcess (G : Graph) (rs : ℕ → ℕ) : ℕ → EC → ConflictDict → List ℕ → ℕ → Option (ℕ × Option ℕ) → Py (EC × ConflictDict)
  | 0, _, _, _, _, _ => .error .diverge
  | fuel + 1, st, cd, chain, last, nxt =>
    match nxt with
    | some (node, some c) =>
      if last ∈ chain then .ok (st, cd)
      else do
        let (st', cd', last', nxt') ← kempeStep G rs st last node (some c) cd
        kempeProcess G rs fuel st' cd' (last :: chain) last' nxt'
    | _ => .ok (st, cd)

/-- edge_coloring.py:92-99, the loop of `KempeStart`: remaining colours and `next_node`. -/
def kempeScan (G : Graph) (col : ℕ × ℕ → Option ℕ) (D node : ℕ) : List ℕ × Option ℕ :=
  (G.adj node).foldl (fun s a =>
    match col (ekey node a) with
    | some c => if c ∈ s.1 then (s.1.filter (· ≠ c), s.2) else (s.1, some a)
    | none => (s.1, some a)) (List.range D, none)

/-- edge_coloring.py:91-101 `KempeStart`. -/
def kempeStart (G : Graph) (rs : ℕ → ℕ) (fuel : ℕ) (st : EC) (D node : ℕ) (cd : ConflictDict) : Py (EC × ConflictDict) :=
  match (kempeScan G st.col D node).2 with
  | none => .ok (st, cd)
  | some a => do
    let (c, k) ← choice rs st.rng (kempeScan G st.col D node).1
    kempeProcess G rs fuel { st with rng := k } cd [] node (some (a, some c))

/-- edge_coloring.py:105-106, the first loop of `preColoring`. -/
def clearColors (G : Graph) (col : ℕ × ℕ → Option ℕ) : ℕ × ℕ → Option ℕ :=
  G.edges.foldl (fun col e => setColor col e.1 e.2 none) col

/-- edge_coloring.py:108-110 `available_colors`. -/
def availableColors (G : Graph) (col : ℕ × ℕ → Option ℕ) (D : ℕ) (e : ℕ × ℕ) : List ℕ :=
  (List.range D).filter (fun c => some c ∉ colorsAt G col e.1 ∧ some c ∉ colorsAt G col e.2)

/-- edge_coloring.py:107-114, the second loop of `preColoring`. -/
def greedyLoop (G : Graph) (rs : ℕ → ℕ) (D : ℕ) : List (ℕ × ℕ) → EC → Py EC
  | [], st => .ok st
  | e :: es, st => do
    let (c, k) ← (if availableColors G st.col D e = [] then randint0 rs st.rng D
      else choice rs st.rng (availableColors G st.col D e) : Py (ℕ × ℕ))
    greedyLoop G rs D es ⟨setColor st.col e.1 e.2 (some c), k⟩

/-- edge_coloring.py:104-114 `preColoring`. -/
def preColoring (G : Graph) (rs : ℕ → ℕ) (D : ℕ) (st : EC) : Py EC :=
  greedyLoop G rs D G.edges { st with col := clearColors G st.col }

/-- edge_coloring.py:121-135, the `while` loop of `heuristic`. -/
def heuristicLoop (G : Graph) (rs : ℕ → ℕ) (pfuel : ℕ) (D : ℕ) (rl : ℤ) :
    ℕ → EC → ConflictDict → ℕ → ℕ → Py (Bool × EC)
  | 0, _, _, _, _ => .error .diverge
  | fuel + 1, st, cd, rep, previous =>
    if previous > 0 then do
      let m ← maxConflictLevel cd
      let (node, k) ← choice rs st.rng (cd.sets m)
      let (st', cd') ← kempeStart G rs pfuel { st with rng := k } D node cd
      let current := totalNumberOfConflicts cd'
      if current = 0 then .ok (true, st')
      else if current ≥ previous then
        if ((rep + 1 : ℕ) : ℤ) > rl then .ok (false, st')
        else heuristicLoop G rs pfuel D rl fuel st' cd' (rep + 1) (min previous current)
      else heuristicLoop G rs pfuel D rl fuel st' cd' 0 (min previous current)
    else .ok (true, st)

/-- edge_coloring.py:117-135 `heuristic`. -/
def heuristic (G : Graph) (rs : ℕ → ℕ) (pfuel hfuel : ℕ) (D : ℕ) (rl : ℤ) (st : EC) : Py (Bool × EC) := do
  let cd ← createConflictDictionary G st.col D
  heuristicLoop G rs pfuel D rl hfuel st cd 0 (totalNumberOfConflicts cd)

/-- edge_coloring.py:141-145, the `while` loop of `applyHeuristic`. -/
def applyLoop (G : Graph) (rs : ℕ → ℕ) (pfuel hfuel : ℕ) (D : ℕ) (rl il : ℤ) : ℕ → ℕ → EC → Py EC
  | 0, _, _ => .error .diverge
  | fuel + 1, iters, st => do
    let (ok, st') ← heuristic G rs pfuel hfuel D rl st
    if ok then .ok st'
    else if (iters : ℤ) > il then .ok st'
    else do
      let st'' ← preColoring G rs D st'
      applyLoop G rs pfuel hfuel D rl il fuel (iters + 1) st''

/-- edge_coloring.py:138-148 `applyHeuristic`; `fuel` bounds every loop.  Printing is not modelled. -/
def applyHeuristic (G : Graph) (rs : ℕ → ℕ) (fuel : ℕ) (D : ℕ) (rl il : ℤ) (st : EC) : Py (Bool × EC) := do
  let st1 ← preColoring G rs D st
  let st2 ← applyLoop G rs fuel fuel D rl il fuel 1 st1
  .ok (checkEdgeColoring G st2.col D, st2)

/-- circuit_tools.py:174-191 `get_commuting_set`. -/
def getCommutingSet (rs : ℕ → ℕ) (fuel : ℕ) (l : List (ℕ × ℕ)) : Py (List (ℕ × ℕ)) :=
  let unrolled := l.flatMap (fun e => [e.1, e.2])
  if unrolled.length = unrolled.dedup.length then .ok l
  else do
    let g := fromEdgelist l
    let (_, st) ← applyHeuristic g rs fuel 2 50 50 ⟨fun _ => none, 0⟩
    .ok (g.edges.filter (fun e => st.col (ekey e.1 e.2) = some 0))

end Oranssi
