import Verif.Lemmas.AlgebraRounds
import Mathlib.LinearAlgebra.LinearIndependent.Lemmas
import Mathlib.LinearAlgebra.Dimension.Constructions
import Mathlib.Order.Bounds.Basic

/-! # C87: the directed graph of nested commutators -/

namespace Oranssi
open Spec
open scoped Matrix

attribute [local instance 100] LieRing.ofAssociativeRing

/-! ### Nested commutators -/

theorem commDepth_neg {n : ℕ} (S : Set (QMat n)) : ∀ (d : ℕ) {A : QMat n}, A ∈ commDepth S d → -A ∈ commDepth S d
  | 0, A, h => by
    rcases h with h | h
    · exact Or.inr (by rw [neg_neg]; exact h)
    · exact Or.inl h
  | d + 1, A, h => by
    rcases h with h | ⟨h0, B, hB, C, hC, rfl⟩
    · exact Or.inl (commDepth_neg S d h)
    · refine Or.inr ⟨neg_ne_zero.2 h0, C, hC, B, hB, ?_⟩
      rw [← smul_neg, neg_sub]

theorem commDepth_mono {n : ℕ} (S : Set (QMat n)) {d e : ℕ} (h : d ≤ e) : commDepth S d ⊆ commDepth S e := by
  induction e, h using Nat.le_induction with
  | base => exact fun _ h => h
  | succ e _ ih => exact fun A hA => Or.inl (ih hA)

theorem commDepth_lieSpan {n : ℕ} (S : Set (QMat n)) : ∀ (d : ℕ) {A : QMat n}, A ∈ commDepth S d → A ∈ LieSubalgebra.lieSpan ℝ (QMat n) S
  | 0, A, h => by
    rcases h with h | h
    · exact LieSubalgebra.subset_lieSpan h
    · rw [← neg_neg A]; exact neg_mem (LieSubalgebra.subset_lieSpan h)
  | d + 1, A, h => by
    rcases h with h | ⟨-, B, hB, C, hC, rfl⟩
    · exact commDepth_lieSpan S d h
    · have := LieSubalgebra.lie_mem _ (commDepth_lieSpan S d hB) (commDepth_lieSpan S d hC)
      rw [Ring.lie_def] at this
      exact (LieSubalgebra.lieSpan ℝ (QMat n) S).smul_mem _ this

/-! ### Rounds -/

/-- The operators of a list of generators. -/
def genOps (algebra : List Mono) : Set (QMat 3) := {A | ∃ m ∈ algebra, A = m.den 3}

/-- The graph after `r` rounds: its nodes are the commutators of depth at most `r`, each labelled with its depth. -/
structure DepthInv (S : Set (QMat 3)) (g : AGraph) (r : ℕ) : Prop where
  good : g.Good
  ops : ∀ A, A ∈ commDepth S r ↔ ∃ x ∈ g.nodes, A = x.1.den 3 ∨ A = -x.1.den 3
  depth : ∀ x ∈ g.nodes, ∃ d, x.2 = some d ∧ d ≤ r ∧ IsLeast {e | x.1.den 3 ∈ commDepth S e} d
  last : ∃ x ∈ g.nodes, x.2 = some r

theorem foldl_max_eq : ∀ (ds : List ℕ) (d r : ℕ), r ∈ d :: ds → (∀ e ∈ d :: ds, e ≤ r) → ds.foldl max d = r
  | [], d, r, hm, _ => by
    rw [List.mem_singleton] at hm
    exact hm.symm
  | e :: ds, d, r, hm, hle => by
    rw [List.foldl_cons]
    apply foldl_max_eq ds
    · simp only [List.mem_cons] at hm hle ⊢
      have h1 := hle d (Or.inl rfl)
      have h2 := hle e (Or.inr (Or.inl rfl))
      rcases hm with rfl | rfl | h
      · left; omega
      · left; omega
      · right; exact h
    · intro f hf
      simp only [List.mem_cons] at hf hle
      rcases hf with rfl | h
      · exact max_le (hle d (Or.inl rfl)) (hle e (Or.inr (Or.inl rfl)))
      · exact hle f (Or.inr (Or.inr h))

theorem DepthInv.maxDepth {S : Set (QMat 3)} {g : AGraph} {r : ℕ} (h : DepthInv S g r) : g.maxDepth = .ok r := by
  have hmem : r ∈ g.nodes.filterMap (·.2) := by
    obtain ⟨x, hx, hr⟩ := h.last
    exact List.mem_filterMap.2 ⟨x, hx, hr⟩
  have hle : ∀ e ∈ g.nodes.filterMap (·.2), e ≤ r := by
    intro e he
    obtain ⟨x, hx, hr⟩ := List.mem_filterMap.1 he
    obtain ⟨d, hd, hdr, -⟩ := h.depth x hx
    rw [hd] at hr
    exact (Option.some.inj hr) ▸ hdr
  rw [AGraph.maxDepth]
  cases hl : g.nodes.filterMap (·.2) with
  | nil => rw [hl] at hmem; simp at hmem
  | cons d ds =>
    rw [hl] at hmem hle
    change Except.ok (ds.foldl max d) = _
    rw [foldl_max_eq ds d r hmem hle]

/-- The non-zero commutators of nodes are nodes of the next graph. -/
theorem RoundInv.complete {ord : SetOrder ℕ} {g : AGraph} (hg : g.Good) {r : ℕ} {s : AGraph × ℕ} {new : List Mono}
    (inv : RoundInv ord g r g.pairs s new) {x y : Mono × Option ℕ} (hx : x ∈ g.nodes) (hy : y ∈ g.nodes)
    (hne : x.1.den 3 * y.1.den 3 - y.1.den 3 * x.1.den 3 ≠ 0) : ∃ z ∈ s.1.nodes,
      (1 / 2 : ℝ) • (x.1.den 3 * y.1.den 3 - y.1.den 3 * x.1.den 3) = z.1.den 3 ∨
      (1 / 2 : ℝ) • (x.1.den 3 * y.1.den 3 - y.1.den 3 * x.1.den 3) = -z.1.den 3 := by
  obtain ⟨p, hp, -, hcase⟩ := halfComm_node ord (hg.node x hx) (hg.node y hy)
  obtain ⟨q, hq, hd⟩ := inv.done (x.1, y.1) (mem_pairs.2 ⟨x, hx, y, hy, rfl⟩)
  obtain rfl : p = q := Except.ok.inj (hp.symm.trans hq)
  rcases hcase with ⟨-, h⟩ | ⟨np, dp⟩
  · exact absurd h hne
  rcases hd with h | h
  · have := np.coeff_unit
    rw [h] at this
    norm_num at this
  · obtain ⟨z, hz, hs⟩ := (hasNode_iff _ _).1 h
    refine ⟨z, hz, ?_⟩
    rcases (same_den (inv.good.node z hz) np).1 hs with e | e <;> rcases dp with e' | e' <;> rw [e, e']
    · left; rfl
    · right; rw [neg_neg]
    · right; rw [neg_neg]
    · left; rw [neg_neg]

theorem DepthInv.step {S : Set (QMat 3)} {ord : SetOrder ℕ} {g : AGraph} {r : ℕ} (h : DepthInv S g r) {s : AGraph × ℕ} {new : List Mono}
    (inv : RoundInv ord g r g.pairs s new) :
    ∀ A, A ∈ commDepth S (r + 1) ↔ ∃ x ∈ s.1.nodes, A = x.1.den 3 ∨ A = -x.1.den 3 := by
  intro A
  have hsub : ∀ z ∈ g.nodes, z ∈ s.1.nodes := fun z hz => by rw [inv.nodes]; exact List.mem_append_left _ hz
  constructor
  · rintro (hA | ⟨h0, B, hB, C, hC, rfl⟩)
    · obtain ⟨x, hx, hA⟩ := (h.ops A).1 hA
      exact ⟨x, hsub x hx, hA⟩
    · obtain ⟨x, hx, hB⟩ := (h.ops B).1 hB
      obtain ⟨y, hy, hC⟩ := (h.ops C).1 hC
      have hBC : B * C - C * B = x.1.den 3 * y.1.den 3 - y.1.den 3 * x.1.den 3 ∨
          B * C - C * B = -(x.1.den 3 * y.1.den 3 - y.1.den 3 * x.1.den 3) := by
        rcases hB with rfl | rfl <;> rcases hC with rfl | rfl
        · left; rfl
        · right; noncomm_ring
        · right; noncomm_ring
        · left; noncomm_ring
      have hne : x.1.den 3 * y.1.den 3 - y.1.den 3 * x.1.den 3 ≠ 0 := by
        intro h1
        apply h0
        rcases hBC with e | e <;> rw [e, h1] <;> simp
      obtain ⟨z, hz, hd⟩ := inv.complete h.good hx hy hne
      refine ⟨z, hz, ?_⟩
      rcases hBC with e | e
      · rw [e]; exact hd
      · rw [e, smul_neg]
        rcases hd with e' | e' <;> rw [e']
        · right; rfl
        · left; rw [neg_neg]
  · rintro ⟨x, hx, hA⟩
    have hx' : x.1.den 3 ∈ commDepth S (r + 1) := by
      have hx2 := hx
      rw [inv.nodes] at hx2
      rcases List.mem_append.1 hx2 with hx2 | hx2
      · exact Or.inl ((h.ops _).2 ⟨x, hx2, Or.inl rfl⟩)
      · obtain ⟨m, hm, rfl⟩ := List.mem_map.1 hx2
        obtain ⟨a, ha, b, hb, hd⟩ := inv.origin m hm
        have ha' := (h.ops (a.1.den 3)).2 ⟨a, ha, Or.inl rfl⟩
        have hb' := (h.ops (b.1.den 3)).2 ⟨b, hb, Or.inl rfl⟩
        refine Or.inr ⟨(inv.good.node _ hx).den_ne_zero, ?_⟩
        rcases hd with hd | hd
        · exact ⟨_, ha', _, hb', hd⟩
        · exact ⟨_, hb', _, ha', by rw [hd, ← smul_neg, neg_sub]⟩
    rcases hA with rfl | rfl
    · exact hx'
    · exact commDepth_neg S _ hx'

theorem DepthInv.next {S : Set (QMat 3)} {ord : SetOrder ℕ} {g : AGraph} {r : ℕ} (h : DepthInv S g r) {s : AGraph × ℕ} {new : List Mono}
    (inv : RoundInv ord g r g.pairs s new) (hn : new ≠ []) : DepthInv S s.1 (r + 1) := by
  have hops := h.step inv
  refine ⟨inv.good, hops, ?_, ?_⟩
  · intro x hx
    have hx2 := hx
    rw [inv.nodes] at hx2
    rcases List.mem_append.1 hx2 with hx2 | hx2
    · obtain ⟨d, h1, h2, h3⟩ := h.depth x hx2
      exact ⟨d, h1, by omega, h3⟩
    · obtain ⟨m, hm, rfl⟩ := List.mem_map.1 hx2
      refine ⟨r + 1, rfl, le_rfl, (hops _).2 ⟨_, hx, Or.inl rfl⟩, ?_⟩
      intro e he
      by_contra hlt
      have h1 : m.den 3 ∈ commDepth S r := commDepth_mono S (by omega) he
      obtain ⟨z, hz, hd⟩ := (h.ops _).1 h1
      have hpw := inv.good.distinct
      rw [inv.nodes, List.pairwise_append] at hpw
      have h2 := hpw.2.2 z hz _ hx2
      have nm : AlgNode m := inv.good.node _ hx
      have nz : AlgNode z.1 := h.good.node z hz
      have h3 : m.same z.1 = true := (same_den nm nz).2 hd
      rw [same_symm h3] at h2
      cases h2
  · obtain ⟨m, hm⟩ := List.exists_mem_of_ne_nil new hn
    refine ⟨(m, some (r + 1)), ?_, rfl⟩
    rw [inv.nodes]
    exact List.mem_append_right _ (List.mem_map.2 ⟨m, hm, rfl⟩)

/-- No more than 128 different nodes exist. -/
theorem AGraph.Good.length_le {g : AGraph} (h : g.Good) : g.nodes.length ≤ 128 := by
  have hn : (g.nodes.map (fun x => ((fun q : Fin 3 => gAt x.1 q), isReal x.1.coeff))).Nodup := by
    rw [List.Nodup, List.pairwise_map]
    refine (List.Pairwise.and_mem.1 h.distinct).imp ?_
    rintro x y ⟨hx, hy, hs⟩ he
    obtain ⟨h1, h2⟩ := Prod.mk.inj he
    have hw : x.1.word = y.1.word := (word_gAt (h.node x hx).sites (h.node y hy).sites).2 (by
      funext q; exact congrArg letterOf (congrFun h1 q))
    rw [(same_iff _ _).2 ⟨by rw [(h.node x hx).length, (h.node y hy).length], h2, hw⟩] at hs
    cases hs
  have := hn.length_le_card
  rw [List.length_map] at this
  refine this.trans_eq ?_
  simp

/-- The loop ends. -/
theorem closeLoopD (ord : SetOrder ℕ) (S : Set (QMat 3)) : ∀ (k : ℕ) (g : AGraph) (r : ℕ), DepthInv S g r → 128 < g.nodes.length + k →
    ∃ G R, DepthInv S G R ∧ (∀ fuel, k ≤ fuel → closeLoop (dynamicAlgebraDirected ord) fuel g = .ok G) ∧
      RoundInv ord G R G.pairs (G, 0) []
  | 0, g, r, h, hk => absurd h.good.length_le (by omega)
  | k + 1, g, r, h, hk => by
    obtain ⟨s, new, hs, inv⟩ := dynamicAlgebraDirected_round ord h.good h.maxDepth
    by_cases hn : new = []
    · subst hn
      have hk0 : s.2 = 0 := inv.count.2 rfl
      have hg : s.1 = g := inv.idle rfl
      refine ⟨g, r, h, ?_, ?_⟩
      · intro fuel hf
        obtain ⟨f, rfl⟩ : ∃ f, fuel = f + 1 := ⟨fuel - 1, by omega⟩
        simp only [closeLoop, hs, bind, Except.bind]
        rw [if_neg (by simpa using hk0), hg]
      · have : s = (g, 0) := Prod.ext hg hk0
        rw [this] at inv
        exact inv
    · have hk0 : s.2 ≠ 0 := fun h0 => hn (inv.count.1 h0)
      have hlen : g.nodes.length < s.1.nodes.length := by
        rw [inv.nodes, List.length_append, List.length_map]
        have := List.length_pos_iff.2 hn
        omega
      obtain ⟨G, R, h1, h2, h3⟩ := closeLoopD ord S k s.1 (r + 1) (h.next inv hn) (by omega)
      refine ⟨G, R, h1, ?_, h3⟩
      intro fuel hf
      obtain ⟨f, rfl⟩ : ∃ f, fuel = f + 1 := ⟨fuel - 1, by omega⟩
      simp only [closeLoop, hs, bind, Except.bind]
      rw [if_pos hk0]
      exact h2 f (by omega)

/-! ### The start -/

/-- The graph of the generators. -/
structure StartInv (d : Option ℕ) (done : List Mono) (g : AGraph) : Prop where
  good : g.Good
  from_list : ∀ x ∈ g.nodes, x.1 ∈ done ∧ x.2 = d
  has : ∀ m ∈ done, g.hasNode m = true

theorem start_step {d : Option ℕ} {done : List Mono} {g : AGraph} (h : StartInv d done g) {m : Mono} (hm : AlgNode m) :
    StartInv d (done ++ [m]) (g.addNode m d) := by
  by_cases hn : g.hasNode m = true
  · have e : g.addNode m d = g := by
      rw [AGraph.addNode, if_pos hn]
      have : g.nodes.map (fun x => if x.1.same m then (x.1, d <|> x.2) else x) = g.nodes := by
        apply map_eq_self
        intro x hx
        have := (h.from_list x hx).2
        split
        · obtain ⟨x, e⟩ := x
          simp only at this
          rw [this]
          cases d <;> rfl
        · rfl
      rw [this]
    rw [e]
    refine ⟨h.good, fun x hx => ⟨List.mem_append_left _ (h.from_list x hx).1, (h.from_list x hx).2⟩, ?_⟩
    intro m' hm'
    rcases List.mem_append.1 hm' with h' | h'
    · exact h.has m' h'
    · rw [List.mem_singleton] at h'; rw [h']; exact hn
  · have hn : g.hasNode m = false := by simpa using hn
    rw [addNode_fresh hn]
    have hg := good_append h.good hm hn d [] (by simp)
    rw [List.append_nil] at hg
    refine ⟨hg, ?_, ?_⟩
    · intro x hx
      rcases List.mem_append.1 hx with h' | h'
      · exact ⟨List.mem_append_left _ (h.from_list x h').1, (h.from_list x h').2⟩
      · rw [List.mem_singleton] at h'
        rw [h']; exact ⟨List.mem_append_right _ (List.mem_singleton.2 rfl), rfl⟩
    · intro m' hm'
      rcases List.mem_append.1 hm' with h' | h'
      · exact hasNode_mono (g := g) (fun x hx => List.mem_append_left _ hx) (h.has m' h')
      · rw [List.mem_singleton] at h'
        rw [h']
        exact hasNode_self (x := (m, d)) (List.mem_append_right _ (List.mem_singleton.2 rfl))

theorem start_fold (d : Option ℕ) : ∀ (l done : List Mono) (g : AGraph), StartInv d done g → (∀ m ∈ l, AlgNode m) →
    StartInv d (done ++ l) (l.foldl (fun g p => g.addNode p d) g)
  | [], done, g, h, _ => by rw [List.append_nil]; exact h
  | m :: l, done, g, h, hl => by
    have := start_fold d l _ _ (start_step h (hl m List.mem_cons_self)) (fun m' hm' => hl m' (List.mem_cons_of_mem _ hm'))
    rw [List.append_assoc] at this
    exact this

theorem start_graph (d : Option ℕ) (algebra : List Mono) (h : ∀ m ∈ algebra, AlgNode m) :
    StartInv d algebra (algebra.foldl (fun g p => g.addNode p d) ⟨[], []⟩) :=
  start_fold d algebra [] ⟨[], []⟩ ⟨⟨by simp, by simp, by simp [AGraph.Ends]⟩, by simp, by simp⟩ h

theorem start_depth {algebra : List Mono} (hne : algebra ≠ []) (h : ∀ m ∈ algebra, AlgNode m) :
    DepthInv (genOps algebra) (algebra.foldl (fun g p => g.addNode p (some 0)) ⟨[], []⟩) 0 := by
  have hs := start_graph (some 0) algebra h
  set g : AGraph := algebra.foldl (fun g p => g.addNode p (some 0)) ⟨[], []⟩
  have hops : ∀ A, A ∈ commDepth (genOps algebra) 0 ↔ ∃ x ∈ g.nodes, A = x.1.den 3 ∨ A = -x.1.den 3 := by
    intro A
    have key : ∀ A, A ∈ genOps algebra → ∃ x ∈ g.nodes, A = x.1.den 3 ∨ A = -x.1.den 3 := by
      rintro A ⟨m, hm, rfl⟩
      obtain ⟨x, hx, hd⟩ := (hasNode_iff _ _).1 (hs.has m hm)
      exact ⟨x, hx, (same_den (h m hm) (hs.good.node x hx)).1 (same_symm hd)⟩
    constructor
    · rintro (hA | hA)
      · exact key A hA
      · obtain ⟨x, hx, hd⟩ := key _ hA
        refine ⟨x, hx, hd.symm.imp (fun h => neg_injective h) (fun h => by rw [← h, neg_neg])⟩
    · rintro ⟨x, hx, hd⟩
      have hx' := (hs.from_list x hx).1
      rcases hd with rfl | rfl
      · exact Or.inl ⟨_, hx', rfl⟩
      · exact Or.inr ⟨_, hx', neg_neg _⟩
  refine ⟨hs.good, hops, ?_, ?_⟩
  · intro x hx
    exact ⟨0, (hs.from_list x hx).2, le_rfl, (hops _).2 ⟨x, hx, Or.inl rfl⟩, fun e _ => Nat.zero_le e⟩
  · obtain ⟨m, hm⟩ := List.exists_mem_of_ne_nil _ hne
    obtain ⟨x, hx, -⟩ := (hasNode_iff _ _).1 (hs.has m hm)
    exact ⟨x, hx, (hs.from_list x hx).2⟩

/-! ### The theorems -/

/-- The operators of the nodes of a graph. -/
noncomputable def AGraph.den (g : AGraph) (i : Fin g.nodes.length) : QMat 3 := (g.nodes[i]).1.den 3

theorem AGraph.Good.independent {g : AGraph} (h : g.Good) : LinearIndependent ℝ g.den := by
  refine LinearIndependent.of_pairwise_dual_eq_zero_one _ (fun i => pairing (g.nodes[i]).1) ?_ ?_
  · intro i j hij
    refine pairing_other (h.node _ (List.getElem_mem _)) (h.node _ (List.getElem_mem _)) ?_
    have hp := List.pairwise_iff_getElem.1 h.distinct
    rcases lt_or_gt_of_ne hij with hlt | hlt
    · exact hp i j i.2 j.2 hlt
    · by_contra hs
      have hs : ((g.nodes[i]).1.same (g.nodes[j]).1) = true := by simpa using hs
      have := hp j i j.2 i.2 hlt
      rw [show (g.nodes[(j : ℕ)]).1.same (g.nodes[(i : ℕ)]).1 = true from same_symm hs] at this
      cases this
  · intro i
    exact pairing_self (h.node _ (List.getElem_mem _))

theorem AGraph.mem_den (g : AGraph) (A : QMat 3) : A ∈ Set.range g.den ↔ ∃ x ∈ g.nodes, A = x.1.den 3 := by
  constructor
  · rintro ⟨i, rfl⟩; exact ⟨_, List.getElem_mem i.2, rfl⟩
  · rintro ⟨x, hx, rfl⟩
    obtain ⟨i, hi, rfl⟩ := List.getElem_of_mem hx
    exact ⟨⟨i, hi⟩, rfl⟩

/-- A set of nodes that is closed under commutators spans a Lie algebra. -/
theorem span_closed {g : AGraph} {S : Set (QMat 3)} (hS : ∀ A ∈ S, ∃ x ∈ g.nodes, A = x.1.den 3 ∨ A = -x.1.den 3)
    (hL : ∀ x ∈ g.nodes, x.1.den 3 ∈ LieSubalgebra.lieSpan ℝ (QMat 3) S)
    (hc : ∀ x ∈ g.nodes, ∀ y ∈ g.nodes, x.1.den 3 * y.1.den 3 - y.1.den 3 * x.1.den 3 ∈ Submodule.span ℝ (Set.range g.den)) :
    Submodule.span ℝ (Set.range g.den) = (LieSubalgebra.lieSpan ℝ (QMat 3) S).toSubmodule := by
  apply le_antisymm
  · rw [Submodule.span_le]
    rintro A hA
    obtain ⟨x, hx, rfl⟩ := (g.mem_den A).1 hA
    exact hL x hx
  · have hlie : ∀ {A B : QMat 3}, A ∈ Submodule.span ℝ (Set.range g.den) → B ∈ Submodule.span ℝ (Set.range g.den) →
        ⁅A, B⁆ ∈ Submodule.span ℝ (Set.range g.den) := by
      intro A B hA hB
      induction hA, hB using Submodule.span_induction₂ with
      | mem_mem A B hA hB =>
        obtain ⟨x, hx, rfl⟩ := (g.mem_den A).1 hA
        obtain ⟨y, hy, rfl⟩ := (g.mem_den B).1 hB
        rw [Ring.lie_def]
        exact hc x hx y hy
      | zero_left y hy => rw [zero_lie]; exact zero_mem _
      | zero_right x hx => rw [lie_zero]; exact zero_mem _
      | add_left x y z hx hy hz h1 h2 => rw [add_lie]; exact add_mem h1 h2
      | add_right x y z hx hy hz h1 h2 => rw [lie_add]; exact add_mem h1 h2
      | smul_left r x y hx hy h => rw [smul_lie]; exact Submodule.smul_mem _ r h
      | smul_right r x y hx hy h => rw [lie_smul]; exact Submodule.smul_mem _ r h
    let K : LieSubalgebra ℝ (QMat 3) := { Submodule.span ℝ (Set.range g.den) with lie_mem' := hlie }
    have hK : LieSubalgebra.lieSpan ℝ (QMat 3) S ≤ K := by
      rw [LieSubalgebra.lieSpan_le]
      intro A hA
      obtain ⟨x, hx, hd⟩ := hS A hA
      have hx' : x.1.den 3 ∈ Submodule.span ℝ (Set.range g.den) := Submodule.subset_span ((g.mem_den _).2 ⟨x, hx, rfl⟩)
      rcases hd with rfl | rfl
      · exact hx'
      · exact neg_mem hx'
    exact hK

/-- C87.  `generate_product_algebra_digraph` on a non-empty list of generators ends (129 iterations of its `while` loop are
enough) and returns a graph whose nodes are a basis of the real Lie algebra generated by the generators: they denote
linearly independent operators that span it, so their number is its dimension.  The attribute `depth` of every node is the
least number of rounds of commutators in which its operator, up to a sign, can be reached, and whatever can be reached is a
node. -/
theorem C87_digraph (ord : SetOrder ℕ) (algebra : List Mono) (hne : algebra ≠ []) (h : ∀ m ∈ algebra, Generator m) :
    ∃ G, (∀ fuel, 129 ≤ fuel → generateProductAlgebraDigraph ord fuel algebra = .ok G) ∧
      LinearIndependent ℝ G.den ∧
      Submodule.span ℝ (Set.range G.den) = (LieSubalgebra.lieSpan ℝ (QMat 3) (genOps algebra)).toSubmodule ∧
      Module.finrank ℝ (LieSubalgebra.lieSpan ℝ (QMat 3) (genOps algebra)) = G.nodes.length ∧
      (∀ x ∈ G.nodes, ∃ d, x.2 = some d ∧ IsLeast {e | x.1.den 3 ∈ commDepth (genOps algebra) e} d) ∧
      (∀ d, ∀ A ∈ commDepth (genOps algebra) d, ∃ x ∈ G.nodes, A = x.1.den 3 ∨ A = -x.1.den 3) := by
  obtain ⟨G, R, hD, hF, hI⟩ := closeLoopD ord (genOps algebra) 129 _ 0 (start_depth hne (fun m hm => (h m hm).node)) (by omega)
  have hspan : Submodule.span ℝ (Set.range G.den) = (LieSubalgebra.lieSpan ℝ (QMat 3) (genOps algebra)).toSubmodule := by
    apply span_closed
    · intro A hA
      exact (hD.ops A).1 (commDepth_mono _ (Nat.zero_le R) (Or.inl hA))
    · intro x hx
      exact commDepth_lieSpan _ R ((hD.ops _).2 ⟨x, hx, Or.inl rfl⟩)
    · intro x hx y hy
      by_cases h0 : x.1.den 3 * y.1.den 3 - y.1.den 3 * x.1.den 3 = 0
      · rw [h0]; exact zero_mem _
      · obtain ⟨z, hz, hd⟩ := hI.complete hD.good hx hy h0
        have hz' : z.1.den 3 ∈ Submodule.span ℝ (Set.range G.den) := Submodule.subset_span ((G.mem_den _).2 ⟨z, hz, rfl⟩)
        have e : x.1.den 3 * y.1.den 3 - y.1.den 3 * x.1.den 3 =
            (2 : ℝ) • ((1 / 2 : ℝ) • (x.1.den 3 * y.1.den 3 - y.1.den 3 * x.1.den 3)) := by
          rw [smul_smul]; norm_num
        rw [e]
        apply Submodule.smul_mem
        rcases hd with hd | hd <;> rw [hd]
        · exact hz'
        · exact neg_mem hz'
  refine ⟨G, hF, hD.good.independent, hspan, ?_, ?_, ?_⟩
  · have h1 := finrank_span_eq_card hD.good.independent
    rw [hspan, Fintype.card_fin] at h1
    exact h1
  · intro x hx
    obtain ⟨d, h1, -, h2⟩ := hD.depth x hx
    exact ⟨d, h1, h2⟩
  · intro d A hA
    have hstep := hD.step hI
    have hall : ∀ e, commDepth (genOps algebra) (R + e) ⊆ commDepth (genOps algebra) R := by
      intro e
      induction e with
      | zero => exact fun _ h => h
      | succ e ih =>
        rintro B (hB | ⟨h0, X, hX, Y, hY, rfl⟩)
        · exact ih hB
        · exact (hD.ops _).2 ((hstep _).1 (Or.inr ⟨h0, X, ih hX, Y, ih hY, rfl⟩))
    exact (hD.ops A).1 (hall d (commDepth_mono _ (by omega) hA))

/-- The hypotheses hold for the transverse field Ising chain on three qubits. -/
example : ∃ algebra : List Mono, algebra.length = 5 ∧ ∀ m ∈ algebra, Generator m := by
  have hg : ∀ a b c : Fin 4, Generator ⟨[⟨0, a, 1⟩, ⟨1, b, 1⟩, ⟨2, c, 1⟩], 1⟩ :=
    fun a b c => ⟨rfl, by simp [Mono.Consistent], by simp⟩
  refine ⟨[⟨[⟨0, 1, 1⟩, ⟨1, 1, 1⟩, ⟨2, 0, 1⟩], 1⟩, ⟨[⟨0, 0, 1⟩, ⟨1, 1, 1⟩, ⟨2, 1, 1⟩], 1⟩,
    ⟨[⟨0, 3, 1⟩, ⟨1, 0, 1⟩, ⟨2, 0, 1⟩], 1⟩, ⟨[⟨0, 0, 1⟩, ⟨1, 3, 1⟩, ⟨2, 0, 1⟩], 1⟩,
    ⟨[⟨0, 0, 1⟩, ⟨1, 0, 1⟩, ⟨2, 3, 1⟩], 1⟩], rfl, ?_⟩
  simp [hg]

/-- C87.  Without generators the first round takes the maximum of nothing and raises `ValueError`. -/
theorem C87_digraph_empty (ord : SetOrder ℕ) (fuel : ℕ) : generateProductAlgebraDigraph ord (fuel + 1) [] = .error .value := by
  simp [generateProductAlgebraDigraph, closeLoop, dynamicAlgebraDirected, AGraph.maxDepth, bind, Except.bind]

/-! ### Two generators, as in `main` -/

theorem AlgNode.sq {a : Mono} (ha : AlgNode a) : a.den 3 * a.den 3 = 1 ∨ a.den 3 * a.den 3 = -1 := by
  have h : a.den 3 * a.den 3 = (a.coeff * a.coeff) • (1 : QMat 3) := by
    rw [Mono.den, wordOp_pauliWord (wf_of_sites ha.sites) (fits_of_sites ha.sites), smul_mul_smul_comm, pauliWord_sq]
  rw [h]
  rcases unit_cases ha.coeff_unit with e | e | e | e <;> rw [e] <;> simp

theorem AlgNode.comm_or_anti {a b : Mono} (ha : AlgNode a) (hb : AlgNode b) :
    a.den 3 * b.den 3 = b.den 3 * a.den 3 ∨ b.den 3 * a.den 3 = -(a.den 3 * b.den 3) := by
  have e1 := pauliWord_mul (fun q : Fin 3 => gAt a q) (fun q : Fin 3 => gAt b q)
  have e2 := pauliWord_mul (fun q : Fin 3 => gAt b q) (fun q : Fin 3 => gAt a q)
  have h2 : ∏ q : Fin 3, phase (gAt b q) (gAt a q) = (starRingEnd ℂ) (∏ q : Fin 3, phase (gAt a q) (gAt b q)) := by
    rw [map_prod]; exact Finset.prod_congr rfl (fun q _ => phase_symm _ _)
  have h3 : (fun q : Fin 3 => letterOf (gammaProd (gAt b q) (gAt a q))) = fun q : Fin 3 => letterOf (gammaProd (gAt a q) (gAt b q)) := by
    funext q; rw [gammaProd_comm]
  have h4 : (∏ q : Fin 3, phase (gAt a q) (gAt b q)) ^ 4 = 1 := by rw [← Finset.prod_pow]; simp [phase_pow]
  rw [Mono.den, Mono.den, wordOp_pauliWord (wf_of_sites ha.sites) (fits_of_sites ha.sites),
    wordOp_pauliWord (wf_of_sites hb.sites) (fits_of_sites hb.sites), smul_mul_smul_comm, smul_mul_smul_comm, e1, e2, h2, h3,
    mul_comm b.coeff]
  rcases unit_cases h4 with e | e | e | e <;> rw [e] <;> simp

/-- The graph of two nodes. -/
theorem good_two {a b : Mono} (ha : AlgNode a) (hb : AlgNode b) (hab : a.same b = false) :
    AGraph.Good ⟨[(a, none), (b, none)], []⟩ :=
  ⟨by simp [ha, hb], by simp [hab], by simp [AGraph.Ends]⟩

theorem den_two (a b : Mono) : Set.range (AGraph.den ⟨[(a, none), (b, none)], []⟩) = {a.den 3, b.den 3} := by
  ext A
  rw [AGraph.mem_den]
  simp

theorem den_three (a b c : Mono) : Set.range (AGraph.den ⟨[(a, none), (b, none), (c, none)], []⟩) = {a.den 3, b.den 3, c.den 3} := by
  ext A
  rw [AGraph.mem_den]
  simp

/-- C87.  The graph that `main` (algebra_graphs.py:110-114) builds from two generators on different words has two nodes when
they commute and three nodes when they do not; from two equal words with one kind of coefficient it has one. -/
theorem C87_two_generators (ord : SetOrder ℕ) (a b : Mono) (ha : Generator a) (hb : Generator b) :
    ∃ G, (∀ fuel, 129 ≤ fuel → generateProductAlgebraDigraph ord fuel [a, b] = .ok G) ∧
      (a.same b = true → G.nodes.length = 1) ∧
      (a.same b = false → a.den 3 * b.den 3 = b.den 3 * a.den 3 → G.nodes.length = 2) ∧
      (a.den 3 * b.den 3 ≠ b.den 3 * a.den 3 → G.nodes.length = 3) := by
  obtain ⟨G, h1, -, -, h2, -⟩ := C87_digraph ord [a, b] (by simp) (by simp [ha, hb])
  have na := ha.node
  have nb := hb.node
  have hSa : a.den 3 ∈ genOps [a, b] := ⟨a, by simp, rfl⟩
  have hSb : b.den 3 ∈ genOps [a, b] := ⟨b, by simp, rfl⟩
  have hLa := LieSubalgebra.subset_lieSpan (R := ℝ) hSa
  have hLb := LieSubalgebra.subset_lieSpan (R := ℝ) hSb
  have count : ∀ g : AGraph, g.Good →
      Submodule.span ℝ (Set.range g.den) = (LieSubalgebra.lieSpan ℝ (QMat 3) (genOps [a, b])).toSubmodule →
      G.nodes.length = g.nodes.length := by
    intro g hg hspan
    have h3 := finrank_span_eq_card hg.independent
    rw [hspan, Fintype.card_fin] at h3
    exact h2.symm.trans h3
  refine ⟨G, h1, ?_, ?_, ?_⟩
  · intro hs
    have hg : AGraph.Good ⟨[(a, none)], []⟩ := ⟨by simp [na], by simp, by simp [AGraph.Ends]⟩
    refine count _ hg (span_closed ?_ ?_ ?_)
    · rintro A ⟨m, hm, rfl⟩
      simp only [List.mem_cons, List.not_mem_nil, or_false] at hm
      refine ⟨(a, none), by simp, ?_⟩
      rcases hm with rfl | rfl
      · exact Or.inl rfl
      · exact (same_den nb na).1 (same_symm hs)
    · intro x hx
      simp only [List.mem_singleton] at hx
      rw [hx]; exact hLa
    · intro x hx y hy
      simp only [List.mem_singleton] at hx hy
      rw [hx, hy, sub_self]; exact zero_mem _
  · intro hs hc
    refine count _ (good_two na nb hs) (span_closed ?_ ?_ ?_)
    · rintro A ⟨m, hm, rfl⟩
      exact ⟨(m, none), by simpa using hm, Or.inl rfl⟩
    · intro x hx
      simp only [List.mem_cons, List.not_mem_nil, or_false] at hx
      rcases hx with rfl | rfl
      · exact hLa
      · exact hLb
    · intro x hx y hy
      simp only [List.mem_cons, List.not_mem_nil, or_false] at hx hy
      have h0 : x.1.den 3 * y.1.den 3 - y.1.den 3 * x.1.den 3 = 0 := by
        rcases hx with rfl | rfl <;> rcases hy with rfl | rfl
        · exact sub_self _
        · exact sub_eq_zero.2 hc
        · exact sub_eq_zero.2 hc.symm
        · exact sub_self _
      rw [h0]; exact zero_mem _
  · intro hc
    have hanti := (na.comm_or_anti nb).resolve_left hc
    obtain ⟨p, -, -, hcase⟩ := halfComm_node ord na nb
    rcases hcase with ⟨-, h0⟩ | ⟨np, hp⟩
    · exact absurd (sub_eq_zero.1 h0) hc
    have hp' : p.den 3 = a.den 3 * b.den 3 ∨ p.den 3 = -(a.den 3 * b.den 3) := by
      have e : (1 / 2 : ℝ) • (a.den 3 * b.den 3 - b.den 3 * a.den 3) = a.den 3 * b.den 3 := by
        rw [hanti, sub_neg_eq_add, ← two_smul ℝ, smul_smul]; norm_num
      rw [e] at hp; exact hp
    -- commutators of the three operators
    have hAB : a.den 3 * b.den 3 - b.den 3 * a.den 3 = (2 : ℝ) • (a.den 3 * b.den 3) := by
      rw [hanti, sub_neg_eq_add, two_smul]
    have hA : a.den 3 * (a.den 3 * b.den 3) - a.den 3 * b.den 3 * a.den 3 = (2 : ℝ) • (a.den 3 * a.den 3 * b.den 3) := by
      rw [Matrix.mul_assoc (a.den 3) (b.den 3) (a.den 3), hanti, Matrix.mul_neg, sub_neg_eq_add, two_smul, Matrix.mul_assoc]
    have hB : b.den 3 * (a.den 3 * b.den 3) - a.den 3 * b.den 3 * b.den 3 = (-2 : ℝ) • (a.den 3 * (b.den 3 * b.den 3)) := by
      rw [← Matrix.mul_assoc, hanti, Matrix.neg_mul, Matrix.mul_assoc, neg_smul, two_smul]; abel
    have hab : a.same b = false := by
      by_contra h
      rcases (same_den na nb).1 (by simpa using h) with e | e
      · exact hc (by rw [e])
      · exact hc (by rw [e, Matrix.neg_mul, Matrix.mul_neg])
    have hap : a.same p = false := by
      by_contra h
      have : a.den 3 * (a.den 3 * b.den 3) - a.den 3 * b.den 3 * a.den 3 = 0 := by
        rcases (same_den na np).1 (by simpa using h) with e | e <;> rcases hp' with e' | e' <;> rw [e'] at e <;>
          [rw [← e]; rw [← neg_eq_iff_eq_neg.2 e]; rw [← neg_eq_iff_eq_neg.2 e]; rw [neg_neg] at e] <;>
          first
            | (rw [← e]; exact sub_self _)
            | (simp only [Matrix.mul_neg, Matrix.neg_mul, sub_self])
            | exact sub_self _
      rw [hA] at this
      have h1 : a.den 3 * a.den 3 * b.den 3 = 0 := (smul_eq_zero.1 this).resolve_left (by norm_num)
      rcases na.sq with e | e <;> rw [e] at h1
      · rw [Matrix.one_mul] at h1; exact nb.den_ne_zero h1
      · rw [Matrix.neg_mul, Matrix.one_mul, neg_eq_zero] at h1; exact nb.den_ne_zero h1
    have hbp : b.same p = false := by
      by_contra h
      have : b.den 3 * (a.den 3 * b.den 3) - a.den 3 * b.den 3 * b.den 3 = 0 := by
        rcases (same_den nb np).1 (by simpa using h) with e | e <;> rcases hp' with e' | e' <;> rw [e'] at e <;>
          [rw [← e]; rw [← neg_eq_iff_eq_neg.2 e]; rw [← neg_eq_iff_eq_neg.2 e]; rw [neg_neg] at e] <;>
          first
            | (rw [← e]; exact sub_self _)
            | (simp only [Matrix.mul_neg, Matrix.neg_mul, sub_self])
            | exact sub_self _
      rw [hB] at this
      have h1 : a.den 3 * (b.den 3 * b.den 3) = 0 := (smul_eq_zero.1 this).resolve_left (by norm_num)
      rcases nb.sq with e | e <;> rw [e] at h1
      · rw [Matrix.mul_one] at h1; exact na.den_ne_zero h1
      · rw [Matrix.mul_neg, Matrix.mul_one, neg_eq_zero] at h1; exact na.den_ne_zero h1
    have hg : AGraph.Good ⟨[(a, none), (b, none), (p, none)], []⟩ :=
      ⟨by simp [na, nb, np], by simp [hab, hap, hbp], by simp [AGraph.Ends]⟩
    have hLp : p.den 3 ∈ LieSubalgebra.lieSpan ℝ (QMat 3) (genOps [a, b]) := by
      have h1 : a.den 3 * b.den 3 ∈ LieSubalgebra.lieSpan ℝ (QMat 3) (genOps [a, b]) := by
        have h2 := LieSubalgebra.lie_mem _ hLa hLb
        rw [Ring.lie_def, hAB] at h2
        have h3 := (LieSubalgebra.lieSpan ℝ (QMat 3) (genOps [a, b])).smul_mem (1 / 2 : ℝ) h2
        rw [smul_smul] at h3
        norm_num at h3
        exact h3
      rcases hp' with e | e <;> rw [e]
      · exact h1
      · exact neg_mem h1
    refine count _ hg (span_closed ?_ ?_ ?_)
    · rintro A ⟨m, hm, rfl⟩
      simp only [List.mem_cons, List.not_mem_nil, or_false] at hm
      rcases hm with rfl | rfl
      · exact ⟨(m, none), by simp, Or.inl rfl⟩
      · exact ⟨(m, none), by simp, Or.inl rfl⟩
    · intro x hx
      simp only [List.mem_cons, List.not_mem_nil, or_false] at hx
      rcases hx with rfl | rfl | rfl
      · exact hLa
      · exact hLb
      · exact hLp
    · rw [den_three]
      have ia : a.den 3 ∈ Submodule.span ℝ ({a.den 3, b.den 3, p.den 3} : Set (QMat 3)) := Submodule.subset_span (by simp)
      have ib : b.den 3 ∈ Submodule.span ℝ ({a.den 3, b.den 3, p.den 3} : Set (QMat 3)) := Submodule.subset_span (by simp)
      have ip : a.den 3 * b.den 3 ∈ Submodule.span ℝ ({a.den 3, b.den 3, p.den 3} : Set (QMat 3)) := by
        have h1 : p.den 3 ∈ Submodule.span ℝ ({a.den 3, b.den 3, p.den 3} : Set (QMat 3)) := Submodule.subset_span (by simp)
        rcases hp' with e | e
        · exact e ▸ h1
        · have : a.den 3 * b.den 3 = -p.den 3 := by rw [e, neg_neg]
          rw [this]; exact neg_mem h1
      generalize Submodule.span ℝ ({a.den 3, b.den 3, p.den 3} : Set (QMat 3)) = V at ia ib ip ⊢
      have c1 : a.den 3 * b.den 3 - b.den 3 * a.den 3 ∈ V := by
        rw [hAB]; exact Submodule.smul_mem _ _ ip
      have c2 : a.den 3 * p.den 3 - p.den 3 * a.den 3 ∈ V := by
        have h1 : a.den 3 * (a.den 3 * b.den 3) - a.den 3 * b.den 3 * a.den 3 ∈
            V := by
          rw [hA]
          apply Submodule.smul_mem
          rcases na.sq with e | e <;> rw [e]
          · rw [Matrix.one_mul]; exact ib
          · rw [Matrix.neg_mul, Matrix.one_mul]; exact neg_mem ib
        rcases hp' with e | e <;> rw [e]
        · exact h1
        · have := neg_mem h1
          simpa [Matrix.mul_neg, Matrix.neg_mul, sub_eq_add_neg, add_comm] using this
      have c3 : b.den 3 * p.den 3 - p.den 3 * b.den 3 ∈ V := by
        have h1 : b.den 3 * (a.den 3 * b.den 3) - a.den 3 * b.den 3 * b.den 3 ∈
            V := by
          rw [hB]
          apply Submodule.smul_mem
          rcases nb.sq with e | e <;> rw [e]
          · rw [Matrix.mul_one]; exact ia
          · rw [Matrix.mul_neg, Matrix.mul_one]; exact neg_mem ia
        rcases hp' with e | e <;> rw [e]
        · exact h1
        · have := neg_mem h1
          simpa [Matrix.mul_neg, Matrix.neg_mul, sub_eq_add_neg, add_comm] using this
      intro x hx y hy
      simp only [List.mem_cons, List.not_mem_nil, or_false] at hx hy
      rcases hx with rfl | rfl | rfl <;> rcases hy with rfl | rfl | rfl <;> simp only
      · rw [sub_self]; exact zero_mem _
      · exact c1
      · exact c2
      · rw [← neg_sub]; exact neg_mem c1
      · rw [sub_self]; exact zero_mem _
      · exact c3
      · rw [← neg_sub]; exact neg_mem c2
      · rw [← neg_sub]; exact neg_mem c3
      · rw [sub_self]; exact zero_mem _

end Oranssi
