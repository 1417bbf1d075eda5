import Verif.Lemmas.AlgebraGraphs

/-! # Rounds of the directed algebra graph -/

namespace Oranssi
open Spec
open scoped Matrix

theorem hasNode_iff (g : AGraph) (m : Mono) : g.hasNode m = true ↔ ∃ x ∈ g.nodes, x.1.same m = true := by
  rw [AGraph.hasNode, List.any_eq_true]

theorem hasNode_self {g : AGraph} {x : Mono × Option ℕ} (h : x ∈ g.nodes) : g.hasNode x.1 = true :=
  (hasNode_iff _ _).2 ⟨x, h, same_refl _⟩

theorem addNode_none {g : AGraph} {m : Mono} (h : g.hasNode m = true) : g.addNode m none = g := by
  rw [AGraph.addNode, if_pos h]
  have : (fun x : Mono × Option ℕ => if x.1.same m then (x.1, (none : Option ℕ) <|> x.2) else x) = id := by
    funext x
    obtain ⟨x, d⟩ := x
    simp
  rw [this, List.map_id]

theorem addNode_fresh {g : AGraph} {m : Mono} (h : g.hasNode m = false) (d : Option ℕ) :
    g.addNode m d = { g with nodes := g.nodes ++ [(m, d)] } := by
  rw [AGraph.addNode, h]; rfl

theorem addEdge_has {g : AGraph} {u v : Mono} (hu : g.hasNode u = true) (hv : g.hasNode v = true) :
    g.addEdge u v = { g with edges := g.edges ++ [(u, v)] } := by
  simp only [AGraph.addEdge, addNode_none hu, addNode_none hv]

theorem addComb_has {g : AGraph} {c : Mono × Mono} (hu : g.hasNode c.1 = true) (hv : g.hasNode c.2 = true) (d : Option ℕ) :
    g.addComb c d = g := by
  simp only [AGraph.addComb, hu, hv, if_true]

/-- Both end points of every edge are nodes. -/
def AGraph.Ends (g : AGraph) : Prop := ∀ e ∈ g.edges, g.hasNode e.1 = true ∧ g.hasNode e.2 = true

/-- All nodes satisfy `AlgNode`, no two are the same key. -/
structure AGraph.Good (g : AGraph) : Prop where
  node : ∀ x ∈ g.nodes, AlgNode x.1
  distinct : g.nodes.Pairwise (fun x y => x.1.same y.1 = false)
  ends : g.Ends

theorem hasEdge_fresh {g : AGraph} (he : g.Ends) {u p : Mono} (hp : g.hasNode p = false) : g.hasEdge u p = false := by
  by_contra h
  have h : g.hasEdge u p = true := by simpa using h
  rw [AGraph.hasEdge, List.any_eq_true] at h
  obtain ⟨e, he', h⟩ := h
  rw [Bool.and_eq_true] at h
  obtain ⟨x, hx, h2⟩ := (hasNode_iff _ _).1 (he e he').2
  rw [(hasNode_iff _ _).2 ⟨x, hx, same_trans h2 h.2⟩] at hp
  cases hp

/-- What a graph with more nodes still has. -/
theorem hasNode_mono {g g' : AGraph} (h : ∀ x ∈ g.nodes, x ∈ g'.nodes) {m : Mono} (hm : g.hasNode m = true) :
    g'.hasNode m = true := by
  obtain ⟨x, hx, h2⟩ := (hasNode_iff _ _).1 hm
  exact (hasNode_iff _ _).2 ⟨x, h x hx, h2⟩

theorem good_append {g : AGraph} (hg : g.Good) {p : Mono} (hp : AlgNode p) (hf : g.hasNode p = false) (d : Option ℕ)
    (es : List (Mono × Mono)) (hes : ∀ e ∈ es, (g.hasNode e.1 = true ∨ e.1 = p) ∧ (g.hasNode e.2 = true ∨ e.2 = p)) :
    AGraph.Good ⟨g.nodes ++ [(p, d)], g.edges ++ es⟩ := by
  have hmono : ∀ m, g.hasNode m = true ∨ m = p → AGraph.hasNode ⟨g.nodes ++ [(p, d)], g.edges ++ es⟩ m = true := by
    intro m hm
    rcases hm with hm | rfl
    · exact hasNode_mono (fun x hx => List.mem_append_left _ hx) hm
    · exact hasNode_self (x := (m, d)) (List.mem_append_right _ (List.mem_singleton.2 rfl))
  refine ⟨?_, ?_, ?_⟩
  · intro x hx
    rcases List.mem_append.1 hx with h | h
    · exact hg.node x h
    · rw [List.mem_singleton] at h; rw [h]; exact hp
  · rw [List.pairwise_append]
    refine ⟨hg.distinct, List.pairwise_singleton _ _, ?_⟩
    intro x hx y hy
    rw [List.mem_singleton] at hy
    rw [hy]
    by_contra h
    rw [(hasNode_iff _ _).2 ⟨x, hx, by simpa using h⟩] at hf
    cases hf
  · intro e he
    rcases List.mem_append.1 he with h | h
    · exact ⟨hmono _ (Or.inl (hg.ends e h).1), hmono _ (Or.inl (hg.ends e h).2)⟩
    · exact ⟨hmono _ (hes e h).1, hmono _ (hes e h).2⟩

/-- The state of the loop of one directed round, `pre` being the pairs done so far. -/
structure RoundInv (ord : SetOrder ℕ) (g : AGraph) (r : ℕ) (pre : List (Mono × Mono)) (s : AGraph × ℕ) (new : List Mono) : Prop where
  nodes : s.1.nodes = g.nodes ++ new.map (fun m => (m, some (r + 1)))
  good : s.1.Good
  origin : ∀ m ∈ new, ∃ x ∈ g.nodes, ∃ y ∈ g.nodes,
    m.den 3 = (1 / 2 : ℝ) • (x.1.den 3 * y.1.den 3 - y.1.den 3 * x.1.den 3) ∨
      m.den 3 = -((1 / 2 : ℝ) • (x.1.den 3 * y.1.den 3 - y.1.den 3 * x.1.den 3))
  count : s.2 = 0 ↔ new = []
  done : ∀ c ∈ pre, ∃ p, halfComm ord c.1 c.2 = .ok p ∧ (p.coeff = 0 ∨ s.1.hasNode p = true)
  idle : new = [] → s.1 = g

theorem connect_ne_zero (has : AGraph → Mono → Mono → Bool) (s : AGraph × ℕ) (u v : Mono) (h : s.2 ≠ 0 ∨ has s.1 u v = false) :
    (connect has s u v).2 ≠ 0 := by
  unfold connect
  rcases h with h | h
  · split
    · exact h
    · exact Nat.succ_ne_zero _
  · rw [h]; exact Nat.succ_ne_zero _

/-- Connecting two nodes of a graph only adds an edge between them. -/
theorem connect_nodes (has : AGraph → Mono → Mono → Bool) {s : AGraph × ℕ} {u v : Mono} (hu : s.1.hasNode u = true)
    (hv : s.1.hasNode v = true) : ∃ es, (connect has s u v).1 = ⟨s.1.nodes, s.1.edges ++ es⟩ ∧ ∀ e ∈ es, e = (u, v) := by
  unfold connect
  split
  · exact ⟨[], by simp, by simp⟩
  · exact ⟨[(u, v)], by rw [addEdge_has hu hv], by simp⟩

theorem dynBodyD_step (ord : SetOrder ℕ) {g : AGraph} (hg : g.Good) (r : ℕ) {pre : List (Mono × Mono)} {s : AGraph × ℕ}
    {new : List Mono} (inv : RoundInv ord g r pre s new) {x y : Mono × Option ℕ} (hx : x ∈ g.nodes) (hy : y ∈ g.nodes) :
    ∃ s' new', dynBodyD ord idMono r s (x.1, y.1) = .ok s' ∧ RoundInv ord g r (pre ++ [(x.1, y.1)]) s' new' := by
  have hsub : ∀ z ∈ g.nodes, z ∈ s.1.nodes := fun z hz => by rw [inv.nodes]; exact List.mem_append_left _ hz
  have hx' := hasNode_self (hsub x hx)
  have hy' := hasNode_self (hsub y hy)
  obtain ⟨p, hp, sp, cases⟩ := halfComm_node ord (hg.node x hx) (hg.node y hy)
  have hcomb : s.1.addComb (x.1, y.1) (some (r + 1)) = s.1 := addComb_has hx' hy' _
  by_cases hcond : (!s.1.hasNode p && keepCoeff p.coeff) = true
  · rw [Bool.and_eq_true] at hcond
    have hf : s.1.hasNode p = false := by simpa using hcond.1
    rcases cases with ⟨h0, -⟩ | ⟨np, dp⟩
    · rw [h0, keepCoeff_zero] at hcond; exact absurd hcond.2 (by simp)
    have hid : p.same idMono = false := by
      rcases dp with h | h
      · exact same_id_false np h
      · rw [← neg_smul] at h; exact same_id_false np h
    -- the graph after the first additions
    set g1 : AGraph := ⟨s.1.nodes ++ [(p, some (r + 1))], s.1.edges ++ [(x.1, y.1), (y.1, x.1)]⟩ with hg1
    have e1 : ((s.1.addEdge x.1 y.1).addEdge y.1 x.1).addNode p (some (r + 1)) = g1 := by
      rw [addEdge_has hx' hy', addEdge_has (g := ⟨s.1.nodes, s.1.edges ++ [(x.1, y.1)]⟩) hy' hx',
        addNode_fresh (g := ⟨s.1.nodes, s.1.edges ++ [(x.1, y.1)] ++ [(y.1, x.1)]⟩) hf]
      simp [hg1]
    have hxg : g1.hasNode x.1 = true := hasNode_mono (g := s.1) (fun z hz => List.mem_append_left _ hz) hx'
    have hyg : g1.hasNode y.1 = true := hasNode_mono (g := s.1) (fun z hz => List.mem_append_left _ hz) hy'
    have hpg : g1.hasNode p = true := hasNode_self (x := (p, some (r + 1))) (List.mem_append_right _ (List.mem_singleton.2 rfl))
    have hne1 : g1.hasEdge x.1 p = false := by
      have h1 : (⟨s.1.nodes, s.1.edges ++ [(x.1, y.1), (y.1, x.1)]⟩ : AGraph).Ends := by
        intro e he
        rcases List.mem_append.1 he with h | h
        · exact inv.good.ends e h
        · simp only [List.mem_cons, List.not_mem_nil, or_false] at h
          rcases h with rfl | rfl
          · exact ⟨hx', hy'⟩
          · exact ⟨hy', hx'⟩
      exact hasEdge_fresh (g := ⟨s.1.nodes, s.1.edges ++ [(x.1, y.1), (y.1, x.1)]⟩) h1 hf
    obtain ⟨es1, c1, hes1⟩ := connect_nodes AGraph.hasEdge (s := (g1, s.2)) hxg hpg
    have hy2 : (connect AGraph.hasEdge (g1, s.2) x.1 p).1.hasNode y.1 = true := by rw [c1]; exact hyg
    have hp2 : (connect AGraph.hasEdge (g1, s.2) x.1 p).1.hasNode p = true := by rw [c1]; exact hpg
    obtain ⟨es2, c2, hes2⟩ := connect_nodes AGraph.hasEdge hy2 hp2
    have hn := connect_ne_zero AGraph.hasEdge (connect AGraph.hasEdge (g1, s.2) x.1 p) y.1 p
      (Or.inl (connect_ne_zero AGraph.hasEdge (g1, s.2) x.1 p (Or.inr hne1)))
    rw [c1] at c2
    simp only [hg1, List.append_assoc] at c2
    refine ⟨connect AGraph.hasEdge (connect AGraph.hasEdge (g1, s.2) x.1 p) y.1 p, new ++ [p], ?_, ?_⟩
    · rw [dynBodyD]
      simp only [hcomb, hp, bind, Except.bind]
      rw [if_pos (by rw [Bool.and_eq_true]; exact hcond)]
      simp only [e1, np.eq_same idMono_node, hid]
      simp only [hcond.2]
      rfl
    · refine ⟨?_, ?_, ?_, ?_, ?_, ?_⟩
      · rw [c2]
        simp only [inv.nodes, List.map_append, List.map_cons, List.map_nil, List.append_assoc]
      · rw [c2]
        refine good_append inv.good np hf (some (r + 1)) _ ?_
        intro e he
        simp only [List.mem_append, List.mem_cons, List.not_mem_nil, or_false] at he
        rcases he with (rfl | rfl) | h | h
        · exact ⟨Or.inl hx', Or.inl hy'⟩
        · exact ⟨Or.inl hy', Or.inl hx'⟩
        · rw [hes1 e h]; exact ⟨Or.inl hx', Or.inr rfl⟩
        · rw [hes2 e h]; exact ⟨Or.inl hy', Or.inr rfl⟩
      · intro m hm
        rcases List.mem_append.1 hm with h | h
        · exact inv.origin m h
        · rw [List.mem_singleton] at h
          rw [h]; exact ⟨x, hx, y, hy, dp⟩
      · exact ⟨fun h => absurd h hn, fun h => absurd h (by simp)⟩
      · intro c hc
        rcases List.mem_append.1 hc with h | h
        · obtain ⟨q, hq, h⟩ := inv.done c h
          refine ⟨q, hq, h.imp id (fun h => ?_)⟩
          rw [c2]
          exact hasNode_mono (fun z hz => List.mem_append_left _ hz) h
        · rw [List.mem_singleton] at h
          rw [h]
          refine ⟨p, hp, Or.inr ?_⟩
          rw [c2]
          exact hasNode_self (x := (p, some (r + 1))) (List.mem_append_right _ (List.mem_singleton.2 rfl))
      · intro h; exact absurd h (by simp)
  · refine ⟨s, new, ?_, ?_⟩
    · rw [dynBodyD]
      simp only [hcomb, hp, bind, Except.bind]
      rw [if_neg hcond]
    · refine ⟨inv.nodes, inv.good, inv.origin, inv.count, ?_, inv.idle⟩
      intro c hc
      rcases List.mem_append.1 hc with h | h
      · exact inv.done c h
      · rw [List.mem_singleton] at h
        rw [h]
        refine ⟨p, hp, ?_⟩
        rcases cases with ⟨h0, -⟩ | ⟨np, -⟩
        · exact Or.inl h0
        · right
          by_contra hn
          exact hcond (by rw [Bool.and_eq_true]; exact ⟨by simpa using hn, keepCoeff_unit np.coeff_unit⟩)

theorem mem_pairs {g : AGraph} {c : Mono × Mono} : c ∈ g.pairs ↔ ∃ x ∈ g.nodes, ∃ y ∈ g.nodes, c = (x.1, y.1) := by
  simp only [AGraph.pairs, List.mem_flatMap, List.mem_map, exists_exists_and_eq_and]
  constructor
  · rintro ⟨x, hx, y, hy, rfl⟩; exact ⟨x, hx, y, hy, rfl⟩
  · rintro ⟨x, hx, y, hy, rfl⟩; exact ⟨x, hx, y, hy, rfl⟩

theorem roundD_fold (ord : SetOrder ℕ) {g : AGraph} (hg : g.Good) (r : ℕ) : ∀ (suf pre : List (Mono × Mono)) (s : AGraph × ℕ)
    (new : List Mono), (∀ c ∈ suf, c ∈ g.pairs) → RoundInv ord g r pre s new →
    ∃ s' new', suf.foldlM (dynBodyD ord idMono r) s = .ok s' ∧ RoundInv ord g r (pre ++ suf) s' new'
  | [], pre, s, new, _, inv => ⟨s, new, rfl, by rw [List.append_nil]; exact inv⟩
  | c :: suf, pre, s, new, hs, inv => by
    obtain ⟨x, hx, y, hy, rfl⟩ := mem_pairs.1 (hs c List.mem_cons_self)
    obtain ⟨s1, new1, h1, inv1⟩ := dynBodyD_step ord hg r inv hx hy
    obtain ⟨s2, new2, h2, inv2⟩ := roundD_fold ord hg r suf _ s1 new1 (fun c hc => hs c (List.mem_cons_of_mem _ hc)) inv1
    refine ⟨s2, new2, ?_, by rw [List.append_assoc] at inv2; exact inv2⟩
    rw [List.foldlM_cons, h1]
    exact h2

/-- One directed round. -/
theorem dynamicAlgebraDirected_round (ord : SetOrder ℕ) {g : AGraph} (hg : g.Good) {r : ℕ} (hr : g.maxDepth = .ok r) :
    ∃ s new, dynamicAlgebraDirected ord g = .ok s ∧ RoundInv ord g r g.pairs s new := by
  have h0 : RoundInv ord g r [] (g, 0) [] :=
    ⟨by simp, hg, by simp, by simp, by simp, fun _ => rfl⟩
  obtain ⟨s, new, h, inv⟩ := roundD_fold ord hg r g.pairs [] (g, 0) [] (fun _ h => h) h0
  refine ⟨s, new, ?_, inv⟩
  simp only [dynamicAlgebraDirected, hr, threeIdentity_eq, bind, Except.bind]
  exact h

end Oranssi
