import Verif.Model.Pauli
import Verif.Model.Algebra

/-! # Model of experiments_paper/algebra_graphs.py

The graphs of networkx are a list of nodes in insertion order (with their attribute `depth`, if set) and a list of edges.
Simplifications: a node is found in a graph by `PauliMonomial.__eq__` alone, that is Python's `hash` is taken to separate
monomials which differ in length (`__eq__` raises for those); printing and drawing are not modelled; coefficients are exact. -/

namespace Oranssi

/-- Two monomials are the same key of a dictionary (pauli.py:147-158, 205-208). -/
noncomputable def Mono.same (a b : Mono) : Bool := a.monomial.length == b.monomial.length && a.eqCore b

/-- The graph of nodes with attribute `depth` and edges. -/
structure AGraph where
  nodes : List (Mono × Option ℕ)
  edges : List (Mono × Mono)

/-- `m in graph.nodes`. -/
noncomputable def AGraph.hasNode (g : AGraph) (m : Mono) : Bool := g.nodes.any (fun x => x.1.same m)

/-- `graph.add_node(m)` (no attribute) and `graph.add_node(m, depth=d)`: an existing node keeps its place and its key, and
its attribute is overwritten if one is given. -/
noncomputable def AGraph.addNode (g : AGraph) (m : Mono) (d : Option ℕ) : AGraph :=
  if g.hasNode m then { g with nodes := g.nodes.map (fun x => if x.1.same m then (x.1, d <|> x.2) else x) }
  else { g with nodes := g.nodes ++ [(m, d)] }

/-- `graph.add_edge(u, v)`: missing end points are added without attributes. -/
noncomputable def AGraph.addEdge (g : AGraph) (u v : Mono) : AGraph :=
  let g := (g.addNode u none).addNode v none
  { g with edges := g.edges ++ [(u, v)] }

/-- `graph.has_edge(u, v)` of a `MultiDiGraph`. -/
noncomputable def AGraph.hasEdge (g : AGraph) (u v : Mono) : Bool := g.edges.any (fun e => e.1.same u && e.2.same v)

/-- `graph.has_edge(u, v)` of a `Graph`. -/
noncomputable def AGraph.hasEdgeU (g : AGraph) (u v : Mono) : Bool := g.hasEdge u v || g.hasEdge v u

/-- algebra_graphs.py:22, 52 `identity = PauliMonomial([Pauli(loc, 0) for loc in range(3)])`. -/
noncomputable def threeIdentity : Py Mono := do
  let ps ← (List.range 3).mapM (fun loc : ℕ => Pauli.new loc (.inl 0) 1)
  Mono.new ps

/-- algebra_graphs.py:24, 55 `it.product(graph.nodes, graph.nodes)`, which copies the nodes before the loop starts. -/
def AGraph.pairs (g : AGraph) : List (Mono × Mono) :=
  (g.nodes.map (·.1)).flatMap (fun a => (g.nodes.map (·.1)).map (fun b => (a, b)))

/-- algebra_graphs.py:25-27, 56-58 `for p in comb: if not p in graph.nodes: graph.add_node(comb[0], …)`. -/
noncomputable def AGraph.addComb (g : AGraph) (comb : Mono × Mono) (d : Option ℕ) : AGraph :=
  let g := if g.hasNode comb.1 then g else g.addNode comb.1 d
  if g.hasNode comb.2 then g else g.addNode comb.1 d

/-- algebra_graphs.py:28-29, 59, 62 `p_a_comm_b = comb[0].commutator(comb[1]); p_a_comm_b.coeff *= -0.5`. -/
noncomputable def halfComm (ord : SetOrder ℕ) (a b : Mono) : Py Mono := do
  let c ← a.commutator ord b
  .ok { c with coeff := c.coeff * (-1 / 2) }

/-- algebra_graphs.py:33-35 and the other three places: `if not graph.has_edge(u, v): graph.add_edge(u, v);
connections_added += 1`. -/
noncomputable def connect (has : AGraph → Mono → Mono → Bool) (s : AGraph × ℕ) (u v : Mono) : AGraph × ℕ :=
  if has s.1 u v then s else (s.1.addEdge u v, s.2 + 1)

/-- algebra_graphs.py:25-45, the body of the loop of `dynamic_algebra`; `keepCoeff c` is `not np.isclose(c, 0.0)`. -/
noncomputable def dynBody (ord : SetOrder ℕ) (identity : Mono) (s : AGraph × ℕ) (comb : Mono × Mono) : Py (AGraph × ℕ) := do
  let g := s.1.addComb comb none
  let p ← halfComm ord comb.1 comb.2
  let g := if !g.hasNode p && keepCoeff p.coeff then g.addNode p none else g
  if ← p.eq identity then
    .ok (connect AGraph.hasEdgeU (connect AGraph.hasEdgeU (g, s.2) comb.1 identity) comb.2 identity)
  else if keepCoeff p.coeff then
    .ok (connect AGraph.hasEdgeU (connect AGraph.hasEdgeU (g, s.2) comb.1 p) comb.2 p)
  else .ok (g, s.2)

/-- algebra_graphs.py:21-47 `dynamic_algebra`. -/
noncomputable def dynamicAlgebra (ord : SetOrder ℕ) (g : AGraph) : Py (AGraph × ℕ) := do
  let identity ← threeIdentity
  g.pairs.foldlM (dynBody ord identity) (g, 0)

/-- algebra_graphs.py:50 `max(nx.get_node_attributes(graph, 'depth').values())`; the maximum of nothing is a `ValueError`. -/
def AGraph.maxDepth (g : AGraph) : Py ℕ :=
  match g.nodes.filterMap (·.2) with
  | [] => .error .value
  | d :: ds => .ok (ds.foldl max d)

/-- algebra_graphs.py:56-80, the body of the loop of `dynamic_algebra_directed`. -/
noncomputable def dynBodyD (ord : SetOrder ℕ) (identity : Mono) (maxDepth : ℕ) (s : AGraph × ℕ) (comb : Mono × Mono) :
    Py (AGraph × ℕ) := do
  let g := s.1.addComb comb (some (maxDepth + 1))
  let p ← halfComm ord comb.1 comb.2
  if !g.hasNode p && keepCoeff p.coeff then do
    let g := ((g.addEdge comb.1 comb.2).addEdge comb.2 comb.1).addNode p (some (maxDepth + 1))
    if ← p.eq identity then
      .ok (connect AGraph.hasEdge (connect AGraph.hasEdge (g, s.2) comb.1 identity) comb.2 identity)
    else if keepCoeff p.coeff then
      .ok (connect AGraph.hasEdge (connect AGraph.hasEdge (g, s.2) comb.1 p) comb.2 p)
    else .ok (g, s.2)
  else .ok (g, s.2)

/-- algebra_graphs.py:49-82 `dynamic_algebra_directed`. -/
noncomputable def dynamicAlgebraDirected (ord : SetOrder ℕ) (g : AGraph) : Py (AGraph × ℕ) := do
  let maxDepth ← g.maxDepth
  let identity ← threeIdentity
  g.pairs.foldlM (dynBodyD ord identity maxDepth) (g, 0)

/-- algebra_graphs.py:89-90, 99-100 `while step(G): pass`, with an iteration budget. -/
def closeLoop (step : AGraph → Py (AGraph × ℕ)) : ℕ → AGraph → Py AGraph
  | 0, _ => .error .diverge
  | fuel + 1, g => do
    let (g', k) ← step g
    if k ≠ 0 then closeLoop step fuel g' else .ok g'

/-- algebra_graphs.py:84-92 `generate_product_algebra_graph`. -/
noncomputable def generateProductAlgebraGraph (ord : SetOrder ℕ) (fuel : ℕ) (algebra : List Mono) : Py AGraph :=
  closeLoop (dynamicAlgebra ord) fuel (algebra.foldl (fun g p => g.addNode p none) ⟨[], []⟩)

/-- algebra_graphs.py:94-102 `generate_product_algebra_digraph`. -/
noncomputable def generateProductAlgebraDigraph (ord : SetOrder ℕ) (fuel : ℕ) (algebra : List Mono) : Py AGraph :=
  closeLoop (dynamicAlgebraDirected ord) fuel (algebra.foldl (fun g p => g.addNode p (some 0)) ⟨[], []⟩)

/-- algebra_graphs.py:8-19 `SU4_to_SU8_algebra`. -/
noncomputable def su4ToSu8Algebra (ord : SetOrder ℕ) : Py (List Mono × List Mono) := do
  let algebra ← (algebraSU4 3 false).getAll
  let paulis ← (algebra.fullPaulis.map (·.1)).mapM monoOfKey
  let identity ← threeIdentity
  let paulisA ← (paulis.filter (fun p => p.locations.all (· ∈ [0, 1]))).mapM (fun p => p.mul ord identity)
  let paulisB ← (paulis.filter (fun p => p.locations.all (· ∈ [1, 2]))).mapM (fun p => p.mul ord identity)
  .ok (paulisA, paulisB)

/-- algebra_graphs.py:110-114 `main` up to the drawing; `i` and `j` are the results of the two calls of
`np.random.randint(0, len(paulis_A))`. -/
noncomputable def algebraGraphsMain (ord : SetOrder ℕ) (fuel : ℕ) (i j : ℕ) : Py AGraph := do
  let (paulisA, paulisB) ← su4ToSu8Algebra ord
  let a ← pyGetItem paulisA i
  let b ← pyGetItem paulisB j
  generateProductAlgebraDigraph ord fuel [a, b]

end Oranssi
