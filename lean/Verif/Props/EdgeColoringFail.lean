import Verif.Props.EdgeColoring
import Mathlib.Data.List.Pairwise

/-! # C62 fails for qubits with three or more neighbours -/

namespace Oranssi

open Spec

theorem createLoop_key {G : Graph} {col : ℕ × ℕ → Option ℕ} {D : ℕ} : ∀ (us : List ℕ) (cd : ConflictDict), cd.bound = D →
    (∃ u ∈ us, 0 < conflictLevel G col u ∧ D ≤ conflictLevel G col u) → createLoop G col us cd = .error .key := by
  intro us
  induction us with
  | nil => rintro cd _ ⟨u, hu, _⟩; simp at hu
  | cons x us ih =>
    rintro cd hb ⟨u, hu, h0, hD⟩
    unfold createLoop
    by_cases hx0 : 0 < conflictLevel G col x
    · rw [if_pos hx0]
      by_cases hxD : D ≤ conflictLevel G col x
      · rw [ConflictDict.addAt, if_neg (by rw [hb]; omega)]; rfl
      · rw [ConflictDict.addAt, if_pos (by rw [hb]; omega)]
        simp only [bind, Except.bind]
        apply ih _ (by exact hb)
        rcases List.mem_cons.1 hu with rfl | hu
        · exact absurd hD hxD
        · exact ⟨u, hu, h0, hD⟩
    · rw [if_neg hx0]
      simp only [bind, Except.bind]
      apply ih _ hb
      rcases List.mem_cons.1 hu with rfl | hu
      · exact absurd h0 hx0
      · exact ⟨u, hu, h0, hD⟩

theorem colours_le {G : Graph} {col : ℕ × ℕ → Option ℕ} (hr : InRange G col 2) (u : ℕ) : (colorsAt G col u).dedup.length ≤ 2 := by
  have hsub : (colorsAt G col u).dedup ⊆ [some 0, some 1] := by
    intro c hc
    obtain ⟨v, hv, rfl⟩ := List.mem_map.1 (List.mem_dedup.1 hc)
    obtain ⟨c, hc, e⟩ := hr u v hv
    rw [e]
    have : c = 0 ∨ c = 1 := by omega
    rcases this with rfl | rfl <;> simp
  exact (List.subperm_of_subset (List.nodup_dedup _) hsub).length_le

/-- The scan removes every colour it meets. -/
theorem scan_colors (G : Graph) (col : ℕ × ℕ → Option ℕ) (D node c : ℕ) (h : c ∈ (kempeScan G col D node).1) :
    some c ∉ colorsAt G col node := by
  have key : ∀ (l : List ℕ) (s : List ℕ × Option ℕ),
      c ∈ (l.foldl (fun s a =>
        match col (ekey node a) with
        | some c => if c ∈ s.1 then (s.1.filter (· ≠ c), s.2) else (s.1, some a)
        | none => (s.1, some a)) s).1 → c ∈ s.1 ∧ ∀ a ∈ l, col (ekey node a) ≠ some c := by
    intro l
    induction l with
    | nil => intro s h; exact ⟨h, by simp⟩
    | cons a l ih =>
      intro s h
      rw [List.foldl_cons] at h
      obtain ⟨h1, h2⟩ := ih _ h
      have : c ∈ s.1 ∧ col (ekey node a) ≠ some c := by
        cases hc : col (ekey node a) with
        | none => rw [hc] at h1; exact ⟨h1, by simp⟩
        | some d =>
          rw [hc] at h1
          dsimp only at h1
          split at h1
          · obtain ⟨q1, q2⟩ := List.mem_filter.1 h1
            refine ⟨q1, ?_⟩
            simp only [ne_eq, decide_not, Bool.not_eq_eq_eq_not, Bool.not_true, decide_eq_false_iff_not] at q2
            simp only [ne_eq, Option.some.injEq]
            exact fun e => q2 e.symm
          · rename_i hd
            refine ⟨h1, ?_⟩
            simp only [ne_eq, Option.some.injEq]
            rintro rfl
            exact hd h1
      refine ⟨this.1, ?_⟩
      intro b hb
      rcases List.mem_cons.1 hb with rfl | hb
      · exact this.2
      · exact h2 b hb
  intro hc
  obtain ⟨v, hv, e⟩ := List.mem_map.1 hc
  exact (key _ _ h).2 v hv e

/-- With more edges than colours the scan finds a vertex to start from. -/
theorem scan_some (G : Graph) (col : ℕ × ℕ → Option ℕ) (D node : ℕ) (h : D < (G.adj node).length) :
    (kempeScan G col D node).2 ≠ none := by
  have key : ∀ (l : List ℕ) (s : List ℕ × Option ℕ), s.1.Nodup →
      (l.foldl (fun s a =>
        match col (ekey node a) with
        | some c => if c ∈ s.1 then (s.1.filter (· ≠ c), s.2) else (s.1, some a)
        | none => (s.1, some a)) s).2 = none → s.2 = none ∧ l.length ≤ s.1.length := by
    intro l
    induction l with
    | nil => intro s _ h; exact ⟨h, by simp⟩
    | cons a l ih =>
      intro s hn h
      rw [List.foldl_cons] at h
      cases hc : col (ekey node a) with
      | none =>
        rw [hc] at h
        have := (ih (s.1, some a) hn h).1
        cases this
      | some d =>
        rw [hc] at h
        dsimp only at h
        by_cases hd : d ∈ s.1
        · rw [if_pos hd] at h
          obtain ⟨q1, q2⟩ := ih (s.1.filter (· ≠ d), s.2) (hn.filter _) h
          refine ⟨q1, ?_⟩
          have : (s.1.filter (fun x => decide (x ≠ d))).length = s.1.length - 1 := by
            rw [← List.length_erase_of_mem hd, hn.erase_eq_filter]
            congr 1
            apply List.filter_congr
            intro x _
            by_cases h : x = d <;> simp [h]
          have hp : 0 < s.1.length := List.length_pos_iff.2 (List.ne_nil_of_mem hd)
          simp only [this] at q2
          rw [List.length_cons]
          omega
        · rw [if_neg hd] at h
          have := (ih (s.1, some a) hn h).1
          cases this
  intro hc
  have := (key _ _ List.nodup_range hc).2
  simp only [List.length_range] at this
  omega

theorem not_nodup_of_neighbours {l : List (ℕ × ℕ)} (hl : NoLoops l) {x : ℕ} (h : 2 ≤ (neighbours l x).length) :
    ¬ (l.flatMap (fun e => [e.1, e.2])).Nodup := by
  intro hn
  have hm := matching_of_nodup hn
  have hnn : (neighbours l x).Nodup := List.nodup_dedup _
  obtain ⟨y, z, t, e⟩ : ∃ y z t, neighbours l x = y :: z :: t := by
    match hq : neighbours l x with
    | [] => rw [hq] at h; simp at h
    | [_] => rw [hq] at h; simp at h
    | y :: z :: t => exact ⟨y, z, t, rfl⟩
  have hyz : y ≠ z := by
    rw [e] at hnn
    simp only [List.nodup_cons, List.mem_cons, not_or] at hnn
    exact hnn.1.1
  have hy := (mem_neighbours hl x y).1 (by rw [e]; simp)
  have hz := (mem_neighbours hl x z).1 (by rw [e]; simp)
  have hsym : ∀ a ∈ l, ∀ b ∈ l, a ≠ b → DisjointEdges a b := by
    intro a ha b hb hab
    have : Std.Symm DisjointEdges := ⟨fun p q ⟨h1, h2, h3, h4⟩ => ⟨h1.symm, h3.symm, h2.symm, h4.symm⟩⟩
    exact List.Pairwise.forall hm ha hb hab
  rcases hy with hy | hy <;> rcases hz with hz | hz
  · have := hsym _ hy _ hz (by simp [hyz]); exact this.1 rfl
  · have hne := hl _ hy
    have := hsym _ hy _ hz (by simp only [ne_eq, Prod.mk.injEq, not_and]; intro h1 h2; exact hne h2.symm)
    exact this.2.1 rfl
  · have hne := hl _ hy
    have := hsym _ hy _ hz (by simp only [ne_eq, Prod.mk.injEq, not_and]; intro h1 h2; exact hne h1)
    exact this.2.2.1 rfl
  · have := hsym _ hy _ hz (by simp [hyz]); exact this.2.2.2 rfl

/-- How a failure of the first call of `heuristic` reaches the caller. -/
theorem getCommutingSet_error {l : List (ℕ × ℕ)} (hl : NoLoops l) {x : ℕ} (hx : 2 ≤ (neighbours l x).length) (rs : ℕ → ℕ) (fuel : ℕ)
    (hf : 1 ≤ fuel) (P : PyErr → Prop)
    (h : ∀ st : EC, InRange (fromEdgelist l) st.col 2 → ∃ e, P e ∧ heuristic (fromEdgelist l) rs fuel fuel 2 50 st = .error e) :
    ∃ e, P e ∧ getCommutingSet rs fuel l = .error e := by
  unfold getCommutingSet
  simp only
  rw [if_neg (fun hc => not_nodup_of_neighbours hl hx (dedup_length_eq.1 hc))]
  obtain ⟨st1, e1, r1⟩ := preColoring_ok' (fromEdgelist_simple hl) (D := 2) (fun _ => by decide) rs ⟨fun _ => none, 0⟩
  obtain ⟨e, he, eh⟩ := h st1 r1
  obtain ⟨f, rfl⟩ : ∃ f, fuel = f + 1 := ⟨fuel - 1, by omega⟩
  refine ⟨e, he, ?_⟩
  simp only [applyHeuristic, e1, bind, Except.bind, applyLoop, eh]

/-- C62 is false, first case: a qubit with four or more neighbours always makes the call raise `KeyError`. -/
theorem C62_degree_four_fails (l : List (ℕ × ℕ)) (hl : NoLoops l) (x : ℕ) (hx : 4 ≤ (neighbours l x).length) (rs : ℕ → ℕ) (fuel : ℕ)
    (hf : 1 ≤ fuel) : getCommutingSet rs fuel l = .error .key := by
  have h : ∃ e, e = PyErr.key ∧ getCommutingSet rs fuel l = .error e := by
    apply getCommutingSet_error hl (by omega : 2 ≤ (neighbours l x).length) rs fuel hf
    intro st hr
    refine ⟨_, rfl, ?_⟩
    have hlen : 4 ≤ ((fromEdgelist l).adj x).length := by rw [(adj_perm hl x).length_eq]; exact hx
    have hG := fromEdgelist_simple hl
    obtain ⟨v, hv⟩ := List.exists_mem_of_length_pos (l := (fromEdgelist l).adj x) (by omega)
    have hc := colours_le hr x
    have hlev : 2 ≤ conflictLevel (fromEdgelist l) st.col x := by
      rw [conflictLevel, Simple.degree hG]; omega
    unfold heuristic
    rw [createConflictDictionary, createLoop_key (D := 2) _ _ rfl ⟨x, Simple.mem_nodes hG hv, by omega, hlev⟩]
    rfl
  obtain ⟨e, rfl, h⟩ := h
  exact h

/-- C62 is false, second case: if some qubit has three or more neighbours and none has exactly two (for example a star), every call
raises `KeyError` or `IndexError`, whatever the random choices. -/
theorem C62_degree_three_fails (l : List (ℕ × ℕ)) (hl : NoLoops l) (x : ℕ) (hx : 3 ≤ (neighbours l x).length)
    (h2 : ∀ y, (neighbours l y).length ≠ 2) (rs : ℕ → ℕ) (fuel : ℕ) (hf : 1 ≤ fuel) :
    ∃ e, (e = .key ∨ e = .index) ∧ getCommutingSet rs fuel l = .error e := by
  apply getCommutingSet_error hl (by omega : 2 ≤ (neighbours l x).length) rs fuel hf
  intro st hr
  have hG := fromEdgelist_simple hl
  have hlen : ∀ y, ((fromEdgelist l).adj y).length = (neighbours l y).length := fun y => (adj_perm hl y).length_eq
  have hlev : ∀ y, 0 < conflictLevel (fromEdgelist l) st.col y → 3 ≤ ((fromEdgelist l).adj y).length := by
    intro y hy
    by_contra hc
    have h1 : ((fromEdgelist l).adj y).length ≤ 1 := by
      have := h2 y
      have := hlen y
      omega
    rcases level_lt hG (D := 1) y h1 st.col with h | h <;> omega
  have hxlev : 0 < conflictLevel (fromEdgelist l) st.col x := by
    have := colours_le hr x
    have := hlen x
    rw [conflictLevel, Simple.degree hG]; omega
  have hxn : x ∈ (fromEdgelist l).nodes := by
    obtain ⟨v, hv⟩ := List.exists_mem_of_length_pos (l := (fromEdgelist l).adj x) (by rw [hlen]; omega)
    exact Simple.mem_nodes hG hv
  unfold heuristic
  by_cases hbig : ∃ u ∈ (fromEdgelist l).nodes, 2 ≤ conflictLevel (fromEdgelist l) st.col u
  · obtain ⟨u, hu, hlu⟩ := hbig
    refine ⟨_, Or.inl rfl, ?_⟩
    rw [createConflictDictionary, createLoop_key (D := 2) _ _ rfl ⟨u, hu, by omega, hlu⟩]
    rfl
  · push Not at hbig
    refine ⟨_, Or.inr rfl, ?_⟩
    obtain ⟨cd, ec, rep⟩ := CDRep.create (G := fromEdgelist l) (col := st.col) (D := 2) (fun u hu => Or.inl (hbig u hu))
    have ht : totalNumberOfConflicts cd ≠ 0 := by
      rw [rep.total hG.nodes_nodup (fun u hu => Or.inl (hbig u hu))]
      intro hz
      have := List.sum_eq_zero_iff.1 hz _ (List.mem_map.2 ⟨x, hxn, rfl⟩)
      omega
    obtain ⟨m, em, hne, hm⟩ := max_ok ⟨hr, rep⟩ ht
    obtain ⟨node, hnode, en⟩ := choice_ok rs st.rng hne
    obtain ⟨n1, n2, n3⟩ := hm node hnode
    have h3 := hlev node (by omega)
    have hcol : (colorsAt (fromEdgelist l) st.col node).dedup.length = 2 := by
      have q1 := colours_le hr node
      have q2 := hbig node n1
      rw [conflictLevel, Simple.degree hG] at q2
      omega
    have hall : ∀ c < 2, some c ∈ colorsAt (fromEdgelist l) st.col node := by
      intro c hc
      by_contra hcon
      have hsub : (colorsAt (fromEdgelist l) st.col node).dedup ⊆ [some (1 - c)] := by
        intro d hd
        obtain ⟨v, hv, rfl⟩ := List.mem_map.1 (List.mem_dedup.1 hd)
        obtain ⟨d, hd2, e⟩ := hr node v hv
        have hdc : d ≠ c := by
          rintro rfl
          exact hcon (List.mem_map.2 ⟨v, hv, e⟩)
        rw [e]
        have : d = 1 - c := by omega
        simp [this]
      have := (List.subperm_of_subset (List.nodup_dedup _) hsub).length_le
      simp only [List.length_singleton] at this
      omega
    have hscan : (kempeScan (fromEdgelist l) st.col 2 node).1 = [] := by
      rw [List.eq_nil_iff_forall_not_mem]
      intro c hc
      exact scan_colors _ _ _ _ _ hc (hall c ((scan_spec _ _ _ _).2.1 c hc))
    obtain ⟨a, ha⟩ := Option.ne_none_iff_exists'.1 (scan_some (fromEdgelist l) st.col 2 node (by omega))
    obtain ⟨f, rfl⟩ : ∃ f, fuel = f + 1 := ⟨fuel - 1, by omega⟩
    simp only [ec, bind, Except.bind, heuristicLoop]
    rw [if_pos (by omega)]
    simp only [em, en, kempeStart, ha, hscan]
    rfl

/-- Instance of the first case: one qubit bonded to four others. -/
example : NoLoops [(0, 1), (0, 2), (0, 3), (0, 4)] ∧ 4 ≤ (neighbours [(0, 1), (0, 2), (0, 3), (0, 4)] 0).length := by
  unfold NoLoops; decide

/-- Instance of the second case: one qubit bonded to three others. -/
example : NoLoops [(0, 1), (0, 2), (0, 3)] ∧ 3 ≤ (neighbours [(0, 1), (0, 2), (0, 3)] 0).length ∧
    ∀ y, (neighbours [(0, 1), (0, 2), (0, 3)] y).length ≠ 2 := by
  refine ⟨by unfold NoLoops; decide, by decide, ?_⟩
  intro x
  by_cases hx : x < 4
  · interval_cases x <;> decide
  · have : neighbours [(0, 1), (0, 2), (0, 3)] x = [] := by
      simp only [neighbours, List.flatMap_cons, List.flatMap_nil]
      rw [if_neg (by omega), if_neg (by omega), if_neg (by omega), if_neg (by omega), if_neg (by omega), if_neg (by omega)]
      rfl
    simp [this]

end Oranssi
