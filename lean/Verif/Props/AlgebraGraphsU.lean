import Verif.Lemmas.AlgebraRoundsU

/-! # C90: the undirected graph of nested commutators -/

namespace Oranssi
open Spec
open scoped Matrix

attribute [local instance 100] LieRing.ofAssociativeRing

theorem eq_neg_zero {A : QMat 3} (h : A = -A) : A = 0 := by
  have h2 : (2 : ℂ) • A = 0 := by rw [two_smul]; nth_rewrite 2 [h]; exact add_neg_cancel A
  exact (smul_eq_zero.1 h2).resolve_left two_ne_zero

/-- What holds before every round. -/
structure UInv (S : Set (QMat 3)) (algebra : List Mono) (g : AGraph) : Prop where
  good : g.Good
  sound : ∀ e ∈ g.edges, EdgeSound e
  inside : ∀ x ∈ g.nodes, x.1.den 3 ∈ LieSubalgebra.lieSpan ℝ (QMat 3) (insert 1 S)
  has : ∀ m ∈ algebra, g.hasNode m = true
  start : algebra = [] → g.nodes = []

theorem UInv.next {S : Set (QMat 3)} {algebra : List Mono} {ord : SetOrder ℕ} {g : AGraph} (h : UInv S algebra g) {s : AGraph × ℕ}
    {new : List Mono} (inv : RoundU ord g g.pairs s new) (hne : algebra ≠ []) : UInv S algebra s.1 := by
  refine ⟨inv.good, inv.sound, ?_, ?_, fun h => absurd h hne⟩
  · intro x hx
    rw [inv.nodes] at hx
    rcases List.mem_append.1 hx with hx | hx
    · exact h.inside x hx
    · obtain ⟨m, hm, rfl⟩ := List.mem_map.1 hx
      have half : ∀ A : QMat 3, (2 : ℝ) • m.den 3 = A → A ∈ LieSubalgebra.lieSpan ℝ (QMat 3) (insert 1 S) →
          m.den 3 ∈ LieSubalgebra.lieSpan ℝ (QMat 3) (insert 1 S) := by
        intro A hA hm'
        have : m.den 3 = (1 / 2 : ℝ) • A := by rw [← hA, smul_smul]; norm_num
        rw [this]
        exact LieSubalgebra.smul_mem _ _ hm'
      rcases inv.origin m hm with e | ⟨x, hx, y, hy, e | e⟩
      · rw [e]; exact LieSubalgebra.subset_lieSpan (Set.mem_insert _ _)
      · have := LieSubalgebra.lie_mem _ (h.inside x hx) (h.inside y hy)
        rw [Ring.lie_def] at this
        exact half _ e.symm this
      · have := LieSubalgebra.lie_mem _ (h.inside y hy) (h.inside x hx)
        rw [Ring.lie_def] at this
        exact half _ e.symm this
  · intro m hm
    exact hasNode_mono (fun x hx => by rw [inv.nodes]; exact List.mem_append_left _ hx) (h.has m hm)

/-- The loop ends. -/
theorem closeLoopU (ord : SetOrder ℕ) (S : Set (QMat 3)) (algebra : List Mono) (hne : algebra ≠ []) : ∀ (k : ℕ) (g : AGraph),
    UInv S algebra g → 129 < g.nodes.length + k →
    ∃ G, UInv S algebra G ∧ (∀ fuel, k ≤ fuel → closeLoop (dynamicAlgebra ord) fuel g = .ok G) ∧ ∀ c ∈ G.pairs, PairDone ord G c
  | 0, g, h, hk => absurd h.good.length_le (by omega)
  | k + 1, g, h, hk => by
    obtain ⟨s, new, hs, inv⟩ := dynamicAlgebra_round ord h.good h.sound
    have hlen := h.good.length_le
    by_cases hn : new = []
    · subst hn
      have hnodes : s.1.nodes = g.nodes := by rw [inv.nodes]; simp
      have hpairs : s.1.pairs = g.pairs := by rw [AGraph.pairs, AGraph.pairs, hnodes]
      have hdone : ∀ c ∈ s.1.pairs, PairDone ord s.1 c := by rw [hpairs]; exact inv.done
      refine ⟨s.1, h.next inv hne, ?_, hdone⟩
      intro fuel hf
      obtain ⟨f, rfl⟩ : ∃ f, fuel = f + 2 := ⟨fuel - 2, by omega⟩
      simp only [closeLoop, hs, bind, Except.bind]
      by_cases h0 : s.2 = 0
      · rw [if_neg (by simpa using h0)]
      · rw [if_pos h0]
        simp only [dynamicAlgebra_idle ord inv.good hdone]
        simp
    · have hk0 : s.2 ≠ 0 := fun h0 => hn (inv.count h0)
      have hlt : g.nodes.length < s.1.nodes.length := by
        rw [inv.nodes, List.length_append, List.length_map]
        have := List.length_pos_iff.2 hn
        omega
      obtain ⟨G, h1, h2, h3⟩ := closeLoopU ord S algebra hne k s.1 (h.next inv hne) (by omega)
      refine ⟨G, h1, ?_, h3⟩
      intro fuel hf
      obtain ⟨f, rfl⟩ : ∃ f, fuel = f + 1 := ⟨fuel - 1, by omega⟩
      simp only [closeLoop, hs, bind, Except.bind]
      rw [if_pos hk0]
      exact h2 f (by omega)

/-- C90.  `generate_product_algebra_graph` on a non-empty list of generators ends (130 iterations of its `while` loop are
enough).  The nodes of the graph are a basis of the real Lie algebra generated by the generators and the identity, and two
nodes are joined by an edge exactly if they do not commute or one of them is the identity. -/
theorem C90_graph (ord : SetOrder ℕ) (algebra : List Mono) (hne : algebra ≠ []) (h : ∀ m ∈ algebra, Generator m) :
    ∃ G, (∀ fuel, 130 ≤ fuel → generateProductAlgebraGraph ord fuel algebra = .ok G) ∧
      LinearIndependent ℝ G.den ∧
      Submodule.span ℝ (Set.range G.den) = (LieSubalgebra.lieSpan ℝ (QMat 3) (insert 1 (genOps algebra))).toSubmodule ∧
      Module.finrank ℝ (LieSubalgebra.lieSpan ℝ (QMat 3) (insert 1 (genOps algebra))) = G.nodes.length ∧
      (∀ x ∈ G.nodes, ∀ y ∈ G.nodes, G.hasEdgeU x.1 y.1 = true ↔
        (x.1.den 3 * y.1.den 3 ≠ y.1.den 3 * x.1.den 3 ∨ (x.1.den 3 = 1 ∨ x.1.den 3 = -1) ∨ (y.1.den 3 = 1 ∨ y.1.den 3 = -1))) := by
  have hs := start_graph none algebra (fun m hm => (h m hm).node)
  have hedges : ∀ (l : List Mono) (g : AGraph), g.edges = [] → (l.foldl (fun g p => g.addNode p none) g).edges = [] := by
    intro l
    induction l with
    | nil => exact fun g hg => hg
    | cons m l ih =>
      intro g hg
      refine ih _ ?_
      change (if g.hasNode m then _ else _ : AGraph).edges = []
      split <;> exact hg
  obtain ⟨G, hG, hF, hD⟩ := closeLoopU ord (genOps algebra) algebra hne 130 _
    ⟨hs.good, by rw [hedges algebra _ rfl]; simp,
      fun x hx => LieSubalgebra.subset_lieSpan (Set.mem_insert_of_mem _ ⟨_, (hs.from_list x hx).1, rfl⟩), hs.has,
      fun h => absurd h hne⟩ (by omega)
  have hdone : ∀ x ∈ G.nodes, ∀ y ∈ G.nodes, PairDone ord G (x.1, y.1) := fun x hx y hy => hD _ (mem_pairs.2 ⟨x, hx, y, hy, rfl⟩)
  -- every node is joined to the identity
  have hid : ∀ x ∈ G.nodes, G.hasEdgeU x.1 idMono = true := by
    intro x hx
    obtain ⟨p, hp, -, h2⟩ := hdone x hx x hx
    obtain ⟨q, hq, -, hc⟩ := halfComm_cases ord (hG.good.node x hx) (hG.good.node x hx)
    obtain rfl : p = q := Except.ok.inj (hp.symm.trans hq)
    rcases hc with ⟨-, -, hw⟩ | ⟨-, -, hanti, -⟩
    · exact (h2 (hw.2 rfl)).1
    · exfalso
      have hz : x.1.den 3 * x.1.den 3 = 0 := eq_neg_zero hanti
      rcases (hG.good.node x hx).sq with e | e <;> rw [e] at hz
      · exact one_ne_zero hz
      · exact one_ne_zero (neg_eq_zero.1 hz)
  -- the product of two anticommuting nodes is a node, joined to both
  have hanti : ∀ x ∈ G.nodes, ∀ y ∈ G.nodes, x.1.den 3 * y.1.den 3 ≠ y.1.den 3 * x.1.den 3 →
      y.1.den 3 * x.1.den 3 = -(x.1.den 3 * y.1.den 3) ∧ ∃ z ∈ G.nodes, G.hasEdgeU x.1 z.1 = true ∧ G.hasEdgeU y.1 z.1 = true ∧
        (z.1.den 3 = x.1.den 3 * y.1.den 3 ∨ z.1.den 3 = -(x.1.den 3 * y.1.den 3)) := by
    intro x hx y hy hxy
    obtain ⟨p, hp, h1, -⟩ := hdone x hx y hy
    obtain ⟨q, hq, -, hc⟩ := halfComm_cases ord (hG.good.node x hx) (hG.good.node y hy)
    obtain rfl : p = q := Except.ok.inj (hp.symm.trans hq)
    rcases hc with ⟨-, hc, -⟩ | ⟨np, -, ha, dp⟩
    · exact absurd hc hxy
    · have h0 : p.coeff ≠ 0 := by intro h0; have := np.coeff_unit; rw [h0] at this; norm_num at this
      obtain ⟨hn, e1, e2⟩ := h1 h0
      obtain ⟨z, hz, hsame⟩ := (hasNode_iff _ _).1 hn
      refine ⟨ha, z, hz, hasEdgeU_same e1 (same_symm hsame), hasEdgeU_same e2 (same_symm hsame), ?_⟩
      rcases (same_den (hG.good.node z hz) np).1 hsame with e | e <;> rw [e]
      · exact dp
      · exact dp.symm.imp (fun e => by rw [e, neg_neg]) (fun e => by rw [e])
  have hidnode : ∃ z ∈ G.nodes, z.1.same idMono = true := by
    obtain ⟨m, hm⟩ := List.exists_mem_of_ne_nil _ hne
    obtain ⟨x, hx, -⟩ := (hasNode_iff _ _).1 (hG.has m hm)
    exact (hasNode_iff _ _).1 (hasEdgeU_node hG.good.ends (hid x hx))
  have hspan : Submodule.span ℝ (Set.range G.den) = (LieSubalgebra.lieSpan ℝ (QMat 3) (insert 1 (genOps algebra))).toSubmodule := by
    refine span_closed ?_ hG.inside ?_
    · rintro A (rfl | ⟨m, hm, rfl⟩)
      · obtain ⟨z, hz, hsame⟩ := hidnode
        refine ⟨z, hz, ?_⟩
        have := (same_den idMono_node (hG.good.node z hz)).1 (same_symm hsame)
        rwa [idMono_den] at this
      · obtain ⟨x, hx, hsame⟩ := (hasNode_iff _ _).1 (hG.has m hm)
        exact ⟨x, hx, (same_den (h m hm).node (hG.good.node x hx)).1 (same_symm hsame)⟩
    · intro x hx y hy
      by_cases hc : x.1.den 3 * y.1.den 3 = y.1.den 3 * x.1.den 3
      · rw [hc, sub_self]; exact zero_mem _
      · obtain ⟨ha, z, hz, -, -, dz⟩ := hanti x hx y hy hc
        have hz' : z.1.den 3 ∈ Submodule.span ℝ (Set.range G.den) := Submodule.subset_span ((G.mem_den _).2 ⟨z, hz, rfl⟩)
        have hxy : x.1.den 3 * y.1.den 3 ∈ Submodule.span ℝ (Set.range G.den) := by
          rcases dz with e | e
          · rwa [e] at hz'
          · have := neg_mem hz'; rwa [e, neg_neg] at this
        rw [ha, sub_neg_eq_add]
        exact add_mem hxy hxy
  refine ⟨G, hF, hG.good.independent, hspan, ?_, ?_⟩
  · have h1 := finrank_span_eq_card hG.good.independent
    rw [hspan, Fintype.card_fin] at h1
    exact h1
  · -- which edges there are
    have hone : ∀ {a : Mono}, AlgNode a → (a.den 3 = 1 ∨ a.den 3 = -1) → idMono.same a = true := by
      intro a ha hd
      refine (same_den idMono_node ha).2 ?_
      rw [idMono_den]
      exact hd.imp (fun e => e.symm) (fun e => by rw [e, neg_neg])
    have hsound : ∀ x ∈ G.nodes, ∀ y ∈ G.nodes, G.hasEdge x.1 y.1 = true →
        x.1.den 3 * y.1.den 3 ≠ y.1.den 3 * x.1.den 3 ∨ (y.1.den 3 = 1 ∨ y.1.den 3 = -1) := by
      intro x hx y hy he
      obtain ⟨e, he, s1, s2⟩ := (hasEdge_iff _ _ _).1 he
      have nx := hG.good.node x hx
      have ny := hG.good.node y hy
      obtain ⟨n1, n2, e1 | ha⟩ := hG.sound e he
      · right
        have := (same_den ny n2).1 (same_symm s2)
        rwa [e1] at this
      · left
        intro hc
        have d1 := (same_den nx n1).1 (same_symm s1)
        have d2 := (same_den ny n2).1 (same_symm s2)
        have hc' : e.1.den 3 * e.2.den 3 = e.2.den 3 * e.1.den 3 := by
          rcases d1 with d1 | d1 <;> rcases d2 with d2 | d2 <;> rw [d1, d2] at hc <;> simpa using hc
        rw [← hc'] at ha
        have hz : e.1.den 3 * e.2.den 3 = 0 := eq_neg_zero ha
        rcases n1.sq with q | q
        · apply n2.den_ne_zero
          rw [← Matrix.one_mul (e.2.den 3), ← q, Matrix.mul_assoc, hz, Matrix.mul_zero]
        · apply n2.den_ne_zero
          rw [← neg_neg (e.2.den 3), ← Matrix.one_mul (e.2.den 3), ← Matrix.neg_mul, ← q, Matrix.mul_assoc, hz, Matrix.mul_zero, neg_zero]
    intro x hx y hy
    have nx := hG.good.node x hx
    have ny := hG.good.node y hy
    constructor
    · intro he
      rcases (hasEdgeU_iff _ _ _).1 he with he | he
      · exact (hsound x hx y hy he).imp id Or.inr
      · rcases hsound y hy x hx he with h1 | h1
        · exact Or.inl (Ne.symm h1)
        · exact Or.inr (Or.inl h1)
    · rintro (hxy | hxo | hyo)
      · obtain ⟨ha, z, hz, -, -, dz⟩ := hanti x hx y hy hxy
        -- the product of `x` with the node `x y` is `y` again
        have hxx : x.1.den 3 * (x.1.den 3 * y.1.den 3) = y.1.den 3 ∨ x.1.den 3 * (x.1.den 3 * y.1.den 3) = -y.1.den 3 := by
          rw [← Matrix.mul_assoc]
          rcases nx.sq with q | q <;> rw [q]
          · left; exact Matrix.one_mul _
          · right; rw [Matrix.neg_mul, Matrix.one_mul]
        have hxw : x.1.den 3 * z.1.den 3 = y.1.den 3 ∨ x.1.den 3 * z.1.den 3 = -y.1.den 3 := by
          rcases dz with e | e <;> rw [e]
          · exact hxx
          · rw [Matrix.mul_neg]
            exact hxx.symm.imp (fun e => by rw [e, neg_neg]) (fun e => by rw [e])
        have hzx : z.1.den 3 * x.1.den 3 = -(x.1.den 3 * z.1.den 3) := by
          have : x.1.den 3 * y.1.den 3 * x.1.den 3 = -(x.1.den 3 * (x.1.den 3 * y.1.den 3)) := by
            rw [Matrix.mul_assoc, ha, Matrix.mul_neg]
          rcases dz with e | e <;> rw [e]
          · exact this
          · rw [Matrix.neg_mul, this, Matrix.mul_neg]
        have hxz : x.1.den 3 * z.1.den 3 ≠ z.1.den 3 * x.1.den 3 := by
          intro hc
          rw [hzx] at hc
          have hz := eq_neg_zero hc
          rcases hxw with e | e <;> rw [e] at hz
          · exact ny.den_ne_zero hz
          · exact ny.den_ne_zero (neg_eq_zero.1 hz)
        obtain ⟨-, w, hw, hew, -, dw⟩ := hanti x hx z hz hxz
        refine hasEdgeU_same hew ?_
        refine (same_den (hG.good.node w hw) ny).2 ?_
        rcases dw with e | e <;> rw [e]
        · exact hxw
        · exact hxw.symm.imp (fun e => by rw [e, neg_neg]) (fun e => by rw [e])
      · exact hasEdgeU_symm (hasEdgeU_same (hid y hy) (hone nx hxo))
      · exact hasEdgeU_same (hid x hx) (hone ny hyo)

/-- Four words on three sites meet the hypotheses. -/
example : ∃ algebra : List Mono, algebra.length = 4 ∧ ∀ m ∈ algebra, Generator m := by
  have hg : ∀ a b c : Fin 4, Generator ⟨[⟨0, a, 1⟩, ⟨1, b, 1⟩, ⟨2, c, 1⟩], 1⟩ :=
    fun a b c => ⟨rfl, by simp [Mono.Consistent], by simp⟩
  refine ⟨[⟨[⟨0, 1, 1⟩, ⟨1, 2, 1⟩, ⟨2, 0, 1⟩], 1⟩, ⟨[⟨0, 0, 1⟩, ⟨1, 1, 1⟩, ⟨2, 1, 1⟩], 1⟩,
    ⟨[⟨0, 3, 1⟩, ⟨1, 0, 1⟩, ⟨2, 0, 1⟩], 1⟩, ⟨[⟨0, 0, 1⟩, ⟨1, 3, 1⟩, ⟨2, 0, 1⟩], 1⟩], rfl, ?_⟩
  simp [hg]

/-- Without generators there is nothing to do. -/
theorem C90_graph_empty (ord : SetOrder ℕ) (fuel : ℕ) : generateProductAlgebraGraph ord (fuel + 1) [] = .ok ⟨[], []⟩ := by
  simp [generateProductAlgebraGraph, closeLoop, dynamicAlgebra, threeIdentity_eq, bind, Except.bind, AGraph.pairs, pure, Except.pure]

/-- A first word that does not have exactly three letters (identities included) raises `AssertionError`: its commutator with
itself is compared with the identity on three sites. -/
theorem C90_graph_other_length (ord : SetOrder ℕ) (fuel : ℕ) (m : Mono) (hm : m.WF) (hl : m.monomial.length ≠ 3) (rest : List Mono) :
    generateProductAlgebraGraph ord (fuel + 1) (m :: rest) = .error .assertion := by
  have hstart : ∀ (l : List Mono) (g : AGraph), (∃ t, g.nodes = (m, none) :: t) →
      ∃ t, (l.foldl (fun g p => g.addNode p none) g).nodes = (m, none) :: t := by
    intro l
    induction l with
    | nil => exact fun g hg => hg
    | cons a l ih =>
      rintro g ⟨t, ht⟩
      refine ih _ ?_
      by_cases ha : g.hasNode a = true
      · change ∃ t, (g.addNode a none).nodes = _
        rw [addNode_none ha]; exact ⟨t, ht⟩
      · change ∃ t, (g.addNode a none).nodes = _
        rw [addNode_fresh (by simpa using ha)]
        exact ⟨t ++ [(a, none)], by simp [ht]⟩
  obtain ⟨t, ht⟩ := hstart rest (AGraph.addNode ⟨[], []⟩ m none) ⟨[], by
    rw [addNode_fresh (by simp [AGraph.hasNode])]; rfl⟩
  set g : AGraph := rest.foldl (fun g p => g.addNode p none) (AGraph.addNode ⟨[], []⟩ m none) with hg
  have hmem : g.hasNode m = true := hasNode_self (x := (m, none)) (by rw [ht]; exact List.mem_cons_self)
  obtain ⟨l, hl', wl, ll, -⟩ := mul_spec ord hm hm
  have hloc : l.locations = m.locations := sorted_ext wl.sorted hm.sorted (fun i => by rw [ll, or_self])
  have hlen : l.monomial.length ≠ 3 := by
    have := congrArg List.length hloc
    simp only [Mono.locations, List.length_map] at this
    rw [this]; exact hl
  have hbody : dynBody ord idMono (g, 0) (m, m) = .error .assertion := by
    rw [dynBody]
    have hh : halfComm ord m m = .ok ⟨l.monomial, 0⟩ := by
      simp only [halfComm, Mono.commutator, hl', bind, Except.bind, sub_self, zero_mul]
    have hc : g.addComb (m, m) none = g := addComb_has hmem hmem _
    have he : (⟨l.monomial, 0⟩ : Mono).eq idMono = .error .assertion := by
      rw [Mono.eq, if_pos (by rw [idMono_node.length]; simpa using hlen)]
    simp only [hc, hh, bind, Except.bind, he]
  have hround : dynamicAlgebra ord g = .error .assertion := by
    have hp : ∃ ps, g.pairs = (m, m) :: ps := by
      rw [AGraph.pairs, ht]
      exact ⟨_, rfl⟩
    obtain ⟨ps, hp⟩ := hp
    simp only [dynamicAlgebra, threeIdentity_eq, bind, Except.bind, hp, List.foldlM_cons, hbody]
  rw [generateProductAlgebraGraph, List.foldl_cons]
  change closeLoop (dynamicAlgebra ord) (fuel + 1) g = _
  simp only [closeLoop, hround, bind, Except.bind]

/-- Two letters are a word of another length. -/
example : Mono.WF ⟨[⟨0, 1, 1⟩, ⟨1, 2, 1⟩], 1⟩ ∧ ([⟨0, 1, 1⟩, ⟨1, 2, 1⟩] : List Pauli).length ≠ 3 := by
  refine ⟨⟨by simp [Mono.locations]⟩, by decide⟩

end Oranssi
