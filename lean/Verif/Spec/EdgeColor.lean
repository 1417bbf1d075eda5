import Verif.Model.EdgeColoring

/-! # Specification: simple graphs, proper edge colourings, matchings -/

namespace Oranssi.Spec

/-- Every neighbour is a node. -/
def Closed (G : Graph) : Prop := ∀ u, ∀ v ∈ G.adj u, v ∈ G.nodes

/-- A finite simple undirected graph. -/
structure Simple (G : Graph) : Prop where
  nodes_nodup : G.nodes.Nodup
  adj_nodup : ∀ u, (G.adj u).Nodup
  symm : ∀ u v, v ∈ G.adj u → u ∈ G.adj v
  loopless : ∀ u, u ∉ G.adj u
  closed : Closed G

/-- All edges are coloured with `0 .. D-1`. -/
def InRange (G : Graph) (col : ℕ × ℕ → Option ℕ) (D : ℕ) : Prop :=
  ∀ u, ∀ v ∈ G.adj u, ∃ c, c < D ∧ col (ekey u v) = some c

/-- A proper edge colouring with `D` colours: edges that share a vertex differ. -/
def Proper (G : Graph) (col : ℕ × ℕ → Option ℕ) (D : ℕ) : Prop :=
  InRange G col D ∧ ∀ u, ∀ v ∈ G.adj u, ∀ w ∈ G.adj u, v ≠ w → col (ekey u v) ≠ col (ekey u w)

/-- Two edges share no vertex. -/
def DisjointEdges (e f : ℕ × ℕ) : Prop := e.1 ≠ f.1 ∧ e.1 ≠ f.2 ∧ e.2 ≠ f.1 ∧ e.2 ≠ f.2

/-- The edges are pairwise vertex-disjoint. -/
def Matching (l : List (ℕ × ℕ)) : Prop := l.Pairwise DisjointEdges

end Oranssi.Spec

namespace Oranssi.Spec

/-- The other endpoints of the edges at `x`, without repetition. -/
def neighbours (l : List (ℕ × ℕ)) (x : ℕ) : List ℕ :=
  (l.flatMap (fun e => if e.1 = x then [e.2] else if e.2 = x then [e.1] else [])).dedup

/-- Edges between distinct qubits. -/
def NoLoops (l : List (ℕ × ℕ)) : Prop := ∀ e ∈ l, e.1 ≠ e.2

/-- The edges connect two classes of vertices (no odd cycle). -/
def Bipartite (l : List (ℕ × ℕ)) : Prop := ∃ side : ℕ → Bool, ∀ e ∈ l, side e.2 = !side e.1

/-- `e` is one of the edges, up to orientation. -/
def IsEdge (l : List (ℕ × ℕ)) (e : ℕ × ℕ) : Prop := e ∈ l ∨ (e.2, e.1) ∈ l

end Oranssi.Spec
