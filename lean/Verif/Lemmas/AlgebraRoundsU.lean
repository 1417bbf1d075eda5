import Verif.Props.AlgebraGraphs

/-! # Rounds of the undirected algebra graph -/

namespace Oranssi
open Spec
open scoped Matrix

/-! ### Edges -/

theorem hasEdge_iff (g : AGraph) (u v : Mono) :
    g.hasEdge u v = true ↔ ∃ e ∈ g.edges, e.1.same u = true ∧ e.2.same v = true := by
  simp only [AGraph.hasEdge, List.any_eq_true, Bool.and_eq_true]

theorem hasEdgeU_iff (g : AGraph) (u v : Mono) : g.hasEdgeU u v = true ↔ g.hasEdge u v = true ∨ g.hasEdge v u = true := by
  rw [AGraph.hasEdgeU, Bool.or_eq_true]

theorem hasEdgeU_symm {g : AGraph} {u v : Mono} (h : g.hasEdgeU u v = true) : g.hasEdgeU v u = true :=
  (hasEdgeU_iff _ _ _).2 ((hasEdgeU_iff _ _ _).1 h).symm

theorem hasEdgeU_same {g : AGraph} {u v w : Mono} (h : g.hasEdgeU u v = true) (hs : v.same w = true) : g.hasEdgeU u w = true := by
  rw [hasEdgeU_iff, hasEdge_iff, hasEdge_iff] at h ⊢
  rcases h with ⟨e, he, h1, h2⟩ | ⟨e, he, h1, h2⟩
  · exact Or.inl ⟨e, he, h1, same_trans h2 hs⟩
  · exact Or.inr ⟨e, he, same_trans h1 hs, h2⟩

theorem hasEdgeU_mono {g g' : AGraph} (h : ∀ e ∈ g.edges, e ∈ g'.edges) {u v : Mono} (he : g.hasEdgeU u v = true) :
    g'.hasEdgeU u v = true := by
  rw [hasEdgeU_iff, hasEdge_iff, hasEdge_iff] at he ⊢
  rcases he with ⟨e, he, h1⟩ | ⟨e, he, h1⟩
  · exact Or.inl ⟨e, h e he, h1⟩
  · exact Or.inr ⟨e, h e he, h1⟩

/-- The end points of an edge that is found are nodes. -/
theorem hasEdgeU_node {g : AGraph} (hg : g.Ends) {u v : Mono} (he : g.hasEdgeU u v = true) : g.hasNode v = true := by
  have key : ∀ {a b : Mono}, g.hasNode a = true → a.same b = true → g.hasNode b = true := by
    intro a b ha hab
    obtain ⟨x, hx, h⟩ := (hasNode_iff _ _).1 ha
    exact (hasNode_iff _ _).2 ⟨x, hx, same_trans h hab⟩
  rw [hasEdgeU_iff, hasEdge_iff, hasEdge_iff] at he
  rcases he with ⟨e, he, h1, h2⟩ | ⟨e, he, h1, h2⟩
  · exact key (hg e he).2 h2
  · exact key (hg e he).1 h1

/-! ### Half commutators -/

theorem halfComm_ok (ord : SetOrder ℕ) {a b p : Mono} (ha : AlgNode a) (hb : AlgNode b) (h : halfComm ord a b = .ok p) :
    p.locations = [0, 1, 2] ∧ (p.word = idMono.word ↔ a.word = b.word) := by
  have wa := wf_of_sites ha.sites
  have wb := wf_of_sites hb.sites
  obtain ⟨l, hl, wl, ll, -, -, gl⟩ := mul_spec ord wa wb
  obtain ⟨r, hr, -⟩ := mul_spec ord wb wa
  have sl : l.locations = [0, 1, 2] := by
    refine sorted_ext wl.sorted (by decide) (fun i => ?_)
    rw [ll, ha.sites, hb.sites]; simp
  simp only [halfComm, Mono.commutator, hl, hr, bind, Except.bind] at h
  obtain rfl := Except.ok.inj h
  refine ⟨sl, ?_⟩
  change l.word = idMono.word ↔ _
  rw [word_gAt sl rfl, word_gAt ha.sites hb.sites]
  have hid : ∀ q : Fin 3, gAt idMono q = 0 := by
    intro q
    fin_cases q <;> simp [gAt, idMono, Mono.locations, siteOf]
  have hprod : ∀ g g' : Fin 4, letterOf (gammaProd g g') = letterOf 0 ↔ letterOf g = letterOf g' := by decide
  constructor
  · intro h
    funext q
    have := congrFun h q
    simp only [gl, hid] at this
    exact (hprod _ _).1 this
  · intro h
    funext q
    simp only [gl, hid]
    exact (hprod _ _).2 (congrFun h q)

/-- The two ways a pair of nodes is treated. -/
theorem halfComm_cases (ord : SetOrder ℕ) {a b : Mono} (ha : AlgNode a) (hb : AlgNode b) :
    ∃ p, halfComm ord a b = .ok p ∧ p.eq idMono = .ok (p.same idMono) ∧
      ((p.coeff = 0 ∧ a.den 3 * b.den 3 = b.den 3 * a.den 3 ∧ (p.same idMono = true ↔ a.word = b.word)) ∨
        (AlgNode p ∧ p.same idMono = false ∧ b.den 3 * a.den 3 = -(a.den 3 * b.den 3) ∧
          (p.den 3 = a.den 3 * b.den 3 ∨ p.den 3 = -(a.den 3 * b.den 3)))) := by
  obtain ⟨p, hp, sp, hcase⟩ := halfComm_node ord ha hb
  obtain ⟨-, hw⟩ := halfComm_ok ord ha hb hp
  have hlen : p.monomial.length = 3 := by
    have := congrArg List.length sp
    simpa [Mono.locations] using this
  refine ⟨p, hp, ?_, ?_⟩
  · rw [Mono.eq, if_neg (by rw [hlen, idMono_node.length]; simp), Mono.same, hlen, idMono_node.length]
    simp
  rcases hcase with ⟨h0, hc⟩ | ⟨np, dp⟩
  · left
    refine ⟨h0, sub_eq_zero.1 hc, ?_⟩
    rw [same_iff, hw, hlen, idMono_node.length, h0]
    have : isReal 0 = isReal idMono.coeff := by simp [isReal, idMono]
    simp [this]
  · right
    have hid : p.same idMono = false := by
      rcases dp with h | h
      · exact same_id_false np h
      · rw [← neg_smul] at h; exact same_id_false np h
    have hanti : b.den 3 * a.den 3 = -(a.den 3 * b.den 3) := by
      refine (ha.comm_or_anti hb).resolve_left (fun h => np.den_ne_zero ?_)
      rw [h, sub_self, smul_zero, neg_zero, or_self] at dp
      exact dp
    have e : (1 / 2 : ℝ) • (a.den 3 * b.den 3 - b.den 3 * a.den 3) = a.den 3 * b.den 3 := by
      rw [hanti, sub_neg_eq_add, ← two_smul ℝ, smul_smul]; norm_num
    rw [e] at dp
    exact ⟨np, hid, hanti, dp⟩

/-! ### One round -/

/-- What the loop body leaves behind for a pair. -/
def PairDone (ord : SetOrder ℕ) (g : AGraph) (c : Mono × Mono) : Prop := ∃ p, halfComm ord c.1 c.2 = .ok p ∧
  (p.coeff ≠ 0 → g.hasNode p = true ∧ g.hasEdgeU c.1 p = true ∧ g.hasEdgeU c.2 p = true) ∧
  (p.same idMono = true → g.hasEdgeU c.1 idMono = true ∧ g.hasEdgeU c.2 idMono = true)

/-- What an edge tells. -/
def EdgeSound (e : Mono × Mono) : Prop :=
  AlgNode e.1 ∧ AlgNode e.2 ∧ (e.2.den 3 = 1 ∨ e.2.den 3 * e.1.den 3 = -(e.1.den 3 * e.2.den 3))

/-- `g'` extends `g`. -/
structure AGraph.Ext (g g' : AGraph) : Prop where
  nodes : ∀ x ∈ g.nodes, x ∈ g'.nodes
  edges : ∀ e ∈ g.edges, e ∈ g'.edges

theorem AGraph.Ext.refl (g : AGraph) : g.Ext g := ⟨fun _ h => h, fun _ h => h⟩

theorem AGraph.Ext.trans {g g' g'' : AGraph} (h : g.Ext g') (h' : g'.Ext g'') : g.Ext g'' :=
  ⟨fun x hx => h'.nodes x (h.nodes x hx), fun x hx => h'.edges x (h.edges x hx)⟩

theorem PairDone.mono {ord : SetOrder ℕ} {g g' : AGraph} (h : g.Ext g') {c : Mono × Mono} (hd : PairDone ord g c) :
    PairDone ord g' c := by
  obtain ⟨p, hp, h1, h2⟩ := hd
  exact ⟨p, hp, fun h0 => ⟨hasNode_mono h.nodes (h1 h0).1, hasEdgeU_mono h.edges (h1 h0).2.1, hasEdgeU_mono h.edges (h1 h0).2.2⟩,
    fun h0 => ⟨hasEdgeU_mono h.edges (h2 h0).1, hasEdgeU_mono h.edges (h2 h0).2⟩⟩

/-- The state of the loop of one round. -/
structure RoundU (ord : SetOrder ℕ) (g : AGraph) (pre : List (Mono × Mono)) (s : AGraph × ℕ) (new : List Mono) : Prop where
  nodes : s.1.nodes = g.nodes ++ new.map (fun m => (m, none))
  edges : ∀ e ∈ g.edges, e ∈ s.1.edges
  good : s.1.Good
  sound : ∀ e ∈ s.1.edges, EdgeSound e
  origin : ∀ m ∈ new, m.den 3 = 1 ∨ ∃ x ∈ g.nodes, ∃ y ∈ g.nodes,
    x.1.den 3 * y.1.den 3 - y.1.den 3 * x.1.den 3 = (2 : ℝ) • m.den 3 ∨
      y.1.den 3 * x.1.den 3 - x.1.den 3 * y.1.den 3 = (2 : ℝ) • m.den 3
  count : s.2 = 0 → new = []
  done : ∀ c ∈ pre, PairDone ord s.1 c

/-- Connecting two nodes, or a node and a new node, of the undirected graph. -/
theorem connectU {s : AGraph × ℕ} (hg : s.1.Good) {u v : Mono} (hu : s.1.hasNode u = true) (hv : AlgNode v)
    (hs : EdgeSound (u, v)) (hse : ∀ e ∈ s.1.edges, EdgeSound e) :
    ∃ new : List Mono, (connect AGraph.hasEdgeU s u v).1.nodes = s.1.nodes ++ new.map (fun m => (m, none)) ∧
      (∀ m ∈ new, m = v) ∧ (∀ e ∈ s.1.edges, e ∈ (connect AGraph.hasEdgeU s u v).1.edges) ∧
      (connect AGraph.hasEdgeU s u v).1.Good ∧ (∀ e ∈ (connect AGraph.hasEdgeU s u v).1.edges, EdgeSound e) ∧
      (connect AGraph.hasEdgeU s u v).1.hasEdgeU u v = true ∧
      (connect AGraph.hasEdgeU s u v).1.hasNode v = true ∧ s.2 ≤ (connect AGraph.hasEdgeU s u v).2 ∧
      (new ≠ [] → (connect AGraph.hasEdgeU s u v).2 ≠ 0) ∧ (s.1.hasNode v = true → new = []) := by
  by_cases he : s.1.hasEdgeU u v = true
  · have e : connect AGraph.hasEdgeU s u v = s := by rw [connect, if_pos he]
    rw [e]
    exact ⟨[], by simp, by simp, fun _ h => h, hg, hse, he, hasEdgeU_node hg.ends he, le_rfl, by simp, fun _ => rfl⟩
  · have e : connect AGraph.hasEdgeU s u v = (s.1.addEdge u v, s.2 + 1) := by rw [connect, if_neg he]
    rw [e]
    have hedge : ∀ g : AGraph, (⟨g.nodes, g.edges ++ [(u, v)]⟩ : AGraph).hasEdgeU u v = true := by
      intro g
      rw [hasEdgeU_iff, hasEdge_iff]
      exact Or.inl ⟨(u, v), List.mem_append_right _ (List.mem_singleton.2 rfl), same_refl _, same_refl _⟩
    have hsound : ∀ e ∈ s.1.edges ++ [(u, v)], EdgeSound e := by
      intro e he
      rcases List.mem_append.1 he with h | h
      · exact hse e h
      · rw [List.mem_singleton] at h; rw [h]; exact hs
    by_cases hn : s.1.hasNode v = true
    · have e2 : s.1.addEdge u v = ⟨s.1.nodes, s.1.edges ++ [(u, v)]⟩ := addEdge_has hu hn
      rw [e2]
      refine ⟨[], by simp, by simp, fun _ h => List.mem_append_left _ h, ⟨hg.node, hg.distinct, ?_⟩, hsound, hedge _, hn,
        Nat.le_succ _, by simp, fun _ => rfl⟩
      intro e he
      rcases List.mem_append.1 he with h | h
      · exact hg.ends e h
      · rw [List.mem_singleton] at h; rw [h]; exact ⟨hu, hn⟩
    · have hn' : s.1.hasNode v = false := by simpa using hn
      have e2 : s.1.addEdge u v = ⟨s.1.nodes ++ [(v, none)], s.1.edges ++ [(u, v)]⟩ := by
        simp only [AGraph.addEdge, addNode_none hu, addNode_fresh hn']
      rw [e2]
      refine ⟨[v], by simp, by simp, fun _ h => List.mem_append_left _ h, ?_, hsound, hedge ⟨s.1.nodes ++ [(v, none)], s.1.edges⟩,
        hasNode_self (x := (v, none)) (List.mem_append_right _ (List.mem_singleton.2 rfl)), Nat.le_succ _,
        fun _ => Nat.succ_ne_zero _, fun h => absurd h hn⟩
      refine good_append hg hv hn' none _ ?_
      intro e he
      rw [List.mem_singleton] at he
      rw [he]; exact ⟨Or.inl hu, Or.inr rfl⟩

/-- Adding the node before connecting to it makes no difference. -/
theorem connect_addNode {g : AGraph} (hg : g.Ends) {u v : Mono} (hu : g.hasNode u = true) (hf : g.hasNode v = false) (k : ℕ) :
    connect AGraph.hasEdgeU (g.addNode v none, k) u v = connect AGraph.hasEdgeU (g, k) u v := by
  have h1 : ¬ g.hasEdgeU u v = true := fun h => by rw [hasEdgeU_node hg h] at hf; cases hf
  have e : g.addNode v none = { g with nodes := g.nodes ++ [(v, none)] } := addNode_fresh hf none
  have h2 : ¬ (g.addNode v none).hasEdgeU u v = true := by rw [e]; exact h1
  have hu' : (g.addNode v none).hasNode u = true := by
    rw [e]; exact hasNode_mono (g := g) (fun x hx => List.mem_append_left _ hx) hu
  have hv' : (g.addNode v none).hasNode v = true := by
    rw [e]; exact hasNode_self (x := (v, none)) (List.mem_append_right _ (List.mem_singleton.2 rfl))
  rw [connect, connect, if_neg h1, if_neg h2, addEdge_has hu' hv']
  simp only [AGraph.addEdge, addNode_none hu]

/-- The loop body, by cases. -/
theorem dynBody_cases (ord : SetOrder ℕ) {s : AGraph × ℕ} (hg : s.1.Good) {a b : Mono} (ha : AlgNode a) (hb : AlgNode b)
    (ha' : s.1.hasNode a = true) (hb' : s.1.hasNode b = true) :
    (PairDone ord s.1 (a, b) ∧ dynBody ord idMono s (a, b) = .ok s) ∨
    ∃ v, dynBody ord idMono s (a, b) = .ok (connect AGraph.hasEdgeU (connect AGraph.hasEdgeU s a v) b v) ∧ AlgNode v ∧
      EdgeSound (a, v) ∧ EdgeSound (b, v) ∧
      (v.den 3 = 1 ∨ a.den 3 * b.den 3 - b.den 3 * a.den 3 = (2 : ℝ) • v.den 3 ∨
        b.den 3 * a.den 3 - a.den 3 * b.den 3 = (2 : ℝ) • v.den 3) ∧
      ∀ g : AGraph, g.hasNode v = true → g.hasEdgeU a v = true → g.hasEdgeU b v = true → PairDone ord g (a, b) := by
  obtain ⟨p, hp, heq, hcase⟩ := halfComm_cases ord ha hb
  have hcomb : s.1.addComb (a, b) none = s.1 := addComb_has ha' hb' _
  rcases hcase with ⟨h0, hc, hw⟩ | ⟨np, hid, hanti, dp⟩
  · have hbody : dynBody ord idMono s (a, b) = (if p.same idMono = true then
        .ok (connect AGraph.hasEdgeU (connect AGraph.hasEdgeU s a idMono) b idMono) else .ok s) := by
      rw [dynBody]
      simp only [hcomb, hp, bind, Except.bind]
      rw [if_neg (by rw [h0, keepCoeff_zero]; simp)]
      simp only [heq, h0, keepCoeff_zero, Bool.false_eq_true, if_false]
    by_cases hs : p.same idMono = true
    · right
      refine ⟨idMono, by rw [hbody, if_pos hs], idMono_node, ⟨ha, idMono_node, Or.inl idMono_den⟩,
        ⟨hb, idMono_node, Or.inl idMono_den⟩, Or.inl idMono_den, ?_⟩
      intro g _ h1 h2
      exact ⟨p, hp, fun h => absurd h0 h, fun _ => ⟨h1, h2⟩⟩
    · left
      exact ⟨⟨p, hp, fun h => absurd h0 h, fun h => absurd h hs⟩, by rw [hbody, if_neg hs]⟩
  · right
    have hk : keepCoeff p.coeff = true := keepCoeff_unit np.coeff_unit
    have hbody : dynBody ord idMono s (a, b) = .ok (connect AGraph.hasEdgeU (connect AGraph.hasEdgeU s a p) b p) := by
      rw [dynBody]
      simp only [hcomb, hp, bind, Except.bind]
      by_cases hf : s.1.hasNode p = true
      · rw [if_neg (by rw [hf]; simp)]
        simp only [heq, hid, hk]
        rfl
      · have hf : s.1.hasNode p = false := by simpa using hf
        rw [if_pos (by rw [hf, hk]; rfl)]
        simp only [heq, hid, hk, connect_addNode hg.ends ha' hf]
        rfl
    have sqa := ha.sq
    have hab : a.den 3 * b.den 3 * a.den 3 = -(a.den 3 * (a.den 3 * b.den 3)) := by
      rw [Matrix.mul_assoc, hanti, Matrix.mul_neg]
    have hbb : a.den 3 * b.den 3 * b.den 3 = -(b.den 3 * (a.den 3 * b.den 3)) := by
      rw [← Matrix.mul_assoc (b.den 3), hanti, Matrix.neg_mul, neg_neg]
    have h2 : a.den 3 * b.den 3 - b.den 3 * a.den 3 = (2 : ℝ) • (a.den 3 * b.den 3) := by
      rw [hanti, sub_neg_eq_add, two_smul]
    refine ⟨p, hbody, np, ⟨ha, np, Or.inr ?_⟩, ⟨hb, np, Or.inr ?_⟩, Or.inr ?_, ?_⟩
    · change p.den 3 * a.den 3 = -(a.den 3 * p.den 3)
      rcases dp with e | e <;> rw [e]
      · exact hab
      · rw [Matrix.neg_mul, hab, Matrix.mul_neg]
    · change p.den 3 * b.den 3 = -(b.den 3 * p.den 3)
      rcases dp with e | e <;> rw [e]
      · exact hbb
      · rw [Matrix.neg_mul, hbb, Matrix.mul_neg]
    · rcases dp with e | e <;> rw [e]
      · left; exact h2
      · right; rw [← neg_sub, h2, smul_neg]
    · intro g hn e1 e2
      exact ⟨p, hp, fun _ => ⟨hn, e1, e2⟩, fun h => by rw [hid] at h; cases h⟩

/-- A pair that is done already changes nothing. -/
theorem dynBody_idle (ord : SetOrder ℕ) {s : AGraph × ℕ} {a b : Mono} (ha : AlgNode a) (hb : AlgNode b)
    (ha' : s.1.hasNode a = true) (hb' : s.1.hasNode b = true) (hd : PairDone ord s.1 (a, b)) :
    dynBody ord idMono s (a, b) = .ok s := by
  obtain ⟨p, hp, heq, hcase⟩ := halfComm_cases ord ha hb
  obtain ⟨q, hq, h1, h2⟩ := hd
  obtain rfl : p = q := Except.ok.inj (hp.symm.trans hq)
  have hcomb : s.1.addComb (a, b) none = s.1 := addComb_has ha' hb' _
  rw [dynBody]
  simp only [hcomb, hp, bind, Except.bind]
  have hif : ¬ ((!s.1.hasNode p && keepCoeff p.coeff) = true) := by
    by_cases h0 : p.coeff = 0
    · rw [h0, keepCoeff_zero]; simp
    · rw [(h1 h0).1]; simp
  rw [if_neg hif]
  simp only [heq]
  have hcon : ∀ v, s.1.hasEdgeU a v = true → s.1.hasEdgeU b v = true →
      connect AGraph.hasEdgeU (connect AGraph.hasEdgeU s a v) b v = s := by
    intro v e1 e2
    have : connect AGraph.hasEdgeU s a v = s := by rw [connect, if_pos e1]
    rw [this, connect, if_pos e2]
  by_cases hs : p.same idMono = true
  · rw [if_pos hs]
    exact congrArg Except.ok (hcon _ (h2 hs).1 (h2 hs).2)
  · rw [if_neg hs]
    by_cases hk : keepCoeff p.coeff = true
    · have h0 : p.coeff ≠ 0 := by rintro h0; rw [h0, keepCoeff_zero] at hk; cases hk
      rw [if_pos hk]
      exact congrArg Except.ok (hcon _ (h1 h0).2.1 (h1 h0).2.2)
    · rw [if_neg hk]

theorem dynBody_step (ord : SetOrder ℕ) {g : AGraph} (hg : g.Good) {pre : List (Mono × Mono)} {s : AGraph × ℕ}
    {new : List Mono} (inv : RoundU ord g pre s new) {x y : Mono × Option ℕ} (hx : x ∈ g.nodes) (hy : y ∈ g.nodes) :
    ∃ s' new', dynBody ord idMono s (x.1, y.1) = .ok s' ∧ RoundU ord g (pre ++ [(x.1, y.1)]) s' new' := by
  have hsub : ∀ z ∈ g.nodes, z ∈ s.1.nodes := fun z hz => by rw [inv.nodes]; exact List.mem_append_left _ hz
  have hx' := hasNode_self (hsub x hx)
  have hy' := hasNode_self (hsub y hy)
  rcases dynBody_cases ord inv.good (hg.node x hx) (hg.node y hy) hx' hy' with ⟨hd, hb⟩ | ⟨v, hb, nv, sa, sb, ho, hd⟩
  · refine ⟨s, new, hb, inv.nodes, inv.edges, inv.good, inv.sound, inv.origin, inv.count, ?_⟩
    intro c hc
    rcases List.mem_append.1 hc with h | h
    · exact inv.done c h
    · rw [List.mem_singleton] at h; rw [h]; exact hd
  · obtain ⟨n1, a1, a2, a3, a4, a5, a6, a7, a8, a9, a10⟩ := connectU inv.good hx' nv sa inv.sound
    set s1 := connect AGraph.hasEdgeU s x.1 v
    have hy1 : s1.1.hasNode y.1 = true := hasNode_mono (g := s.1) (fun z hz => by rw [a1]; exact List.mem_append_left _ hz) hy'
    obtain ⟨n2, b1, b2, b3, b4, b5, b6, b7, b8, b9, b10⟩ := connectU a4 hy1 nv sb a5
    set s2 := connect AGraph.hasEdgeU s1 y.1 v
    obtain rfl := b10 a7
    rw [a1] at b1
    simp only [List.map_nil, List.append_nil] at b1
    refine ⟨s2, new ++ n1, hb, ?_, ?_, b4, b5, ?_, ?_, ?_⟩
    · rw [b1, inv.nodes, List.map_append, List.append_assoc]
    · exact fun e he => b3 e (a3 e (inv.edges e he))
    · intro m hm
      rcases List.mem_append.1 hm with h | h
      · exact inv.origin m h
      · rw [a2 m h]
        exact ho.imp id (fun h => ⟨x, hx, y, hy, h⟩)
    · intro h0
      have h1 : s1.2 = 0 := by omega
      have h2 : s.2 = 0 := by omega
      rw [inv.count h2]
      by_contra hn
      exact a9 (by simpa using hn) h1
    · intro c hc
      have hext : s.1.Ext s2.1 := ⟨fun z hz => by rw [b1]; exact List.mem_append_left _ hz, fun e he => b3 e (a3 e he)⟩
      rcases List.mem_append.1 hc with h | h
      · exact (inv.done c h).mono hext
      · rw [List.mem_singleton] at h
        rw [h]
        exact hd s2.1 b7 (hasEdgeU_mono b3 a6) b6

theorem roundU_fold (ord : SetOrder ℕ) {g : AGraph} (hg : g.Good) : ∀ (suf pre : List (Mono × Mono)) (s : AGraph × ℕ)
    (new : List Mono), (∀ c ∈ suf, c ∈ g.pairs) → RoundU ord g pre s new →
    ∃ s' new', suf.foldlM (dynBody ord idMono) s = .ok s' ∧ RoundU ord g (pre ++ suf) s' new'
  | [], pre, s, new, _, inv => ⟨s, new, rfl, by rw [List.append_nil]; exact inv⟩
  | c :: suf, pre, s, new, hs, inv => by
    obtain ⟨x, hx, y, hy, rfl⟩ := mem_pairs.1 (hs c List.mem_cons_self)
    obtain ⟨s1, new1, h1, inv1⟩ := dynBody_step ord hg inv hx hy
    obtain ⟨s2, new2, h2, inv2⟩ := roundU_fold ord hg suf _ s1 new1 (fun c hc => hs c (List.mem_cons_of_mem _ hc)) inv1
    refine ⟨s2, new2, ?_, by rw [List.append_assoc] at inv2; exact inv2⟩
    rw [List.foldlM_cons, h1]
    exact h2

/-- One round. -/
theorem dynamicAlgebra_round (ord : SetOrder ℕ) {g : AGraph} (hg : g.Good) (hs : ∀ e ∈ g.edges, EdgeSound e) :
    ∃ s new, dynamicAlgebra ord g = .ok s ∧ RoundU ord g g.pairs s new := by
  have h0 : RoundU ord g [] (g, 0) [] := ⟨by simp, fun _ h => h, hg, hs, by simp, by simp, by simp⟩
  obtain ⟨s, new, h, inv⟩ := roundU_fold ord hg g.pairs [] (g, 0) [] (fun _ h => h) h0
  refine ⟨s, new, ?_, inv⟩
  simp only [dynamicAlgebra, threeIdentity_eq, bind, Except.bind]
  exact h

theorem fold_idle (ord : SetOrder ℕ) {g : AGraph} (hg : g.Good) : ∀ (suf : List (Mono × Mono)),
    (∀ c ∈ suf, c ∈ g.pairs) → (∀ c ∈ suf, PairDone ord g c) → suf.foldlM (dynBody ord idMono) (g, 0) = .ok (g, 0)
  | [], _, _ => rfl
  | c :: suf, hs, hd => by
    obtain ⟨x, hx, y, hy, rfl⟩ := mem_pairs.1 (hs c List.mem_cons_self)
    rw [List.foldlM_cons, dynBody_idle ord (hg.node x hx) (hg.node y hy) (hasNode_self hx) (hasNode_self hy)
      (hd _ List.mem_cons_self)]
    exact fold_idle ord hg suf (fun c hc => hs c (List.mem_cons_of_mem _ hc)) (fun c hc => hd c (List.mem_cons_of_mem _ hc))

/-- A closed graph is left alone. -/
theorem dynamicAlgebra_idle (ord : SetOrder ℕ) {g : AGraph} (hg : g.Good) (hd : ∀ c ∈ g.pairs, PairDone ord g c) :
    dynamicAlgebra ord g = .ok (g, 0) := by
  simp only [dynamicAlgebra, threeIdentity_eq, bind, Except.bind]
  exact fold_idle ord hg g.pairs (fun _ h => h) hd

end Oranssi
