import Verif.Lemmas.ConflictDict
import Verif.Lemmas.EdgeColoringFuel

/-! # Invariants of the edge colouring heuristic -/

namespace Oranssi
open Spec

theorem ekey_comm (u v : ℕ) : ekey u v = ekey v u := by rw [ekey, ekey, min_comm, max_comm]

theorem ekey_eq_iff {u v x y : ℕ} : ekey u v = ekey x y ↔ (u = x ∧ v = y) ∨ (u = y ∧ v = x) := by
  simp only [ekey, Prod.mk.injEq]
  omega

theorem ekey_left_inj {u v w : ℕ} : ekey u v = ekey u w ↔ v = w := by
  rw [ekey_eq_iff]; omega

theorem setColor_self (col : ℕ × ℕ → Option ℕ) (u v : ℕ) (c : Option ℕ) : setColor col u v c (ekey u v) = c := by
  simp [setColor]

theorem setColor_other {col : ℕ × ℕ → Option ℕ} {u v : ℕ} {c : Option ℕ} {k : ℕ × ℕ} (h : k ≠ ekey u v) :
    setColor col u v c k = col k := by simp [setColor, h]

theorem Simple.degree {G : Graph} (hG : Simple G) (u : ℕ) : G.degree u = (G.adj u).length := by
  simp [Graph.degree, hG.loopless u]

theorem Simple.adj_ne {G : Graph} (hG : Simple G) {u v : ℕ} (h : v ∈ G.adj u) : u ≠ v := by
  rintro rfl; exact hG.loopless u h

theorem Simple.mem_nodes {G : Graph} (hG : Simple G) {u v : ℕ} (h : v ∈ G.adj u) : u ∈ G.nodes :=
  hG.closed v u (hG.symm u v h)

theorem level_lt {G : Graph} (hG : Simple G) {D : ℕ} (u : ℕ) (hd : (G.adj u).length ≤ D) (col : ℕ × ℕ → Option ℕ) :
    conflictLevel G col u < D ∨ conflictLevel G col u = 0 := by
  rw [conflictLevel, Simple.degree hG]
  by_cases h : G.adj u = []
  · right; simp [h]
  · left
    have h1 : 0 < (colorsAt G col u).dedup.length := by
      rw [List.length_pos_iff]
      intro hc
      obtain ⟨v, hv⟩ := List.exists_mem_of_ne_nil _ h
      have : col (ekey u v) ∈ (colorsAt G col u).dedup := List.mem_dedup.2 (List.mem_map.2 ⟨v, hv, rfl⟩)
      rw [hc] at this
      simp at this
    have h2 : 0 < (G.adj u).length := List.length_pos_iff.2 h
    omega

theorem colorsAt_setColor_other {G : Graph} {col : ℕ × ℕ → Option ℕ} {u v x : ℕ} {c : Option ℕ} (hu : x ≠ u) (hv : x ≠ v) :
    colorsAt G (setColor col u v c) x = colorsAt G col x := by
  apply List.map_congr_left
  intro w _
  apply setColor_other
  rw [Ne, ekey_eq_iff]
  omega

theorem level_setColor_other {G : Graph} {col : ℕ × ℕ → Option ℕ} {u v x : ℕ} {c : Option ℕ} (hu : x ≠ u) (hv : x ≠ v) :
    conflictLevel G (setColor col u v c) x = conflictLevel G col x := by
  rw [conflictLevel, conflictLevel, colorsAt_setColor_other hu hv]

/-- The invariant: all edges coloured, and the dictionary up to date. -/
structure Inv (G : Graph) (D : ℕ) (col : ℕ × ℕ → Option ℕ) (cd : ConflictDict) : Prop where
  range : InRange G col D
  rep : CDRep D G.nodes (conflictLevel G col) cd

section
variable {G : Graph} (hG : Simple G) {D : ℕ} (hD : ∀ u, (G.adj u).length ≤ D)
include hG hD

theorem D_pos {u v : ℕ} (h : v ∈ G.adj u) : 0 < D := by
  have := List.length_pos_iff.2 (List.ne_nil_of_mem h)
  have := hD u
  omega

theorem colorEdge_ok {st : EC} {cd : ConflictDict} (hi : CDRep D G.nodes (conflictLevel G st.col) cd) {u v : ℕ} (h : v ∈ G.adj u)
    (c : Option ℕ) : ∃ cd', colorEdgeAndUpdate G st u v c cd =
        .ok ({ st with col := setColor st.col u v c }, cd', (conflictLevel G (setColor st.col u v c) v : ℤ) - conflictLevel G st.col v) ∧
      CDRep D G.nodes (conflictLevel G (setColor st.col u v c)) cd' := by
  have hne := Simple.adj_ne hG h
  have hun := Simple.mem_nodes hG h
  have hvn := hG.closed u v h
  have hp := D_pos hG hD h
  have lt : ∀ x col, conflictLevel G col x < D := fun x col => by
    rcases level_lt hG x (hD x) col with h | h
    · exact h
    · omega
  obtain ⟨cd1, e1, r1⟩ := hi.update (G := G) (col := setColor st.col u v c) (u := u) hun (lt _ _) (Or.inl (lt _ _))
  have hv : (if v = u then conflictLevel G (setColor st.col u v c) u else conflictLevel G st.col v) =
      conflictLevel G st.col v := by
    simp [Ne.symm hne]
  obtain ⟨cd2, e2, r2⟩ := r1.update (G := G) (col := setColor st.col u v c) (u := v) hvn (by rw [hv]; exact lt _ _) (Or.inl (lt _ _))
  rw [hv] at e2
  refine ⟨cd2, ?_, ?_⟩
  · simp only [colorEdgeAndUpdate, e1, e2, bind, Except.bind]
  · refine ⟨r2.bound, r2.nodup, ?_⟩
    intro l h1 h2 x
    rw [r2.mem l h1 h2]
    by_cases hxv : x = v
    · subst hxv; simp
    · by_cases hxu : x = u
      · subst hxu; simp [hne]
      · simp [hxv, hxu, level_setColor_other hxu hxv]

omit hG hD in
theorem inRange_setColor {col : ℕ × ℕ → Option ℕ} (h : InRange G col D) (u v : ℕ) {c : ℕ} (hc : c < D) :
    InRange G (setColor col u v (some c)) D := by
  intro x y hy
  by_cases hk : ekey x y = ekey u v
  · exact ⟨c, hc, by rw [hk, setColor_self]⟩
  · rw [setColor_other hk]; exact h x y hy

omit hG hD in
theorem choice_ok {α : Type} (rs : ℕ → ℕ) (k : ℕ) {l : List α} (h : l ≠ []) : ∃ a ∈ l, choice rs k l = .ok (a, k + 1) := by
  have hlt : rs k % l.length < l.length := Nat.mod_lt _ (List.length_pos_iff.2 h)
  refine ⟨l[rs k % l.length], List.getElem_mem hlt, ?_⟩
  simp [choice, List.getElem?_eq_getElem hlt]

theorem kempeStep_ok (rs : ℕ → ℕ) {st : EC} {cd : ConflictDict} (hi : Inv G D st.col cd) {last node c : ℕ} (h : node ∈ G.adj last)
    (hc : c < D) : ∃ st' cd' nxt, kempeStep G rs st last node (some c) cd = .ok (st', cd', node, nxt) ∧
      st'.col = setColor st.col last node (some c) ∧ Inv G D st'.col cd' ∧
      (nxt = none → conflictLevel G st'.col node < conflictLevel G st.col node ∨
        ∀ w ∈ G.adj node, w ≠ last → st.col (ekey node w) ≠ some c) ∧
      (∀ w d, nxt = some (w, d) → conflictLevel G st.col node ≤ conflictLevel G st'.col node ∧ d = st.col (ekey last node) ∧
        (∃ d', d' < D ∧ d = some d') ∧ w ∈ G.adj node ∧ w ≠ last ∧ st.col (ekey node w) = some c) := by
  have hnext : ∃ st' cd' var old next, kempeNext G rs st last node (some c) cd = .ok (st', cd', var, old, next) := by
    unfold kempeNext
    simp only [bind, Except.bind]
    split
    · rename_i e he
      exfalso
      split at he
      · cases he
      · rename_i hne
        obtain ⟨a, -, ha⟩ := choice_ok rs st.rng hne
        rw [ha] at he
        cases he
    · rename_i x hx
      obtain ⟨nx, k⟩ := x
      simp only [if_pos h]
      obtain ⟨cd', e, -⟩ := colorEdge_ok hG hD (st := { st with rng := k }) hi.rep h (some c)
      rw [e]
      exact ⟨_, _, _, _, _, rfl⟩
  obtain ⟨st', cd', var, old, next, e⟩ := hnext
  have hstep : ∃ nxt, kempeStep G rs st last node (some c) cd = .ok (st', cd', node, nxt) := by
    unfold kempeStep
    simp only [e, bind, Except.bind]
    cases next with
    | none => exact ⟨_, rfl⟩
    | some w =>
      simp only
      split
      · exact ⟨_, rfl⟩
      · exact ⟨_, rfl⟩
  obtain ⟨nxt, es⟩ := hstep
  obtain ⟨-, -, var', k, ec, p1, p2⟩ := kempeStep_spec es
  obtain ⟨cd2, ec2, r2⟩ := colorEdge_ok hG hD (st := { st with rng := k }) hi.rep h (some c)
  rw [ec2] at ec
  simp only [Except.ok.injEq, Prod.mk.injEq] at ec
  obtain ⟨e1, e2, e3⟩ := ec
  subst e1 e2 e3
  refine ⟨_, _, nxt, es, rfl, ⟨inRange_setColor hi.range _ _ hc, r2⟩, ?_, ?_⟩
  · intro hn
    rcases p1 hn with hv | hv
    · left; simp only at hv ⊢; omega
    · right; exact hv
  · intro w d hwd
    obtain ⟨q1, q2, q3, q4, q5⟩ := p2 w d hwd
    refine ⟨by simp only at q1 ⊢; omega, q2, ?_, q3, q4, q5⟩
    obtain ⟨d', hd', ed⟩ := hi.range last node h
    exact ⟨d', hd', by rw [q2, ed]⟩

theorem process_ok (rs : ℕ → ℕ) : ∀ (fuel : ℕ) (st : EC) (cd : ConflictDict) (chain : List ℕ) (last : ℕ) (nxt : Option (ℕ × Option ℕ)),
    Inv G D st.col cd → (∀ p, nxt = some p → p.1 ∈ G.adj last ∧ ∃ c, c < D ∧ p.2 = some c) →
    NoDiv (kempeProcess G rs fuel st cd chain last nxt) →
    ∃ st' cd', kempeProcess G rs fuel st cd chain last nxt = .ok (st', cd') ∧ Inv G D st'.col cd' := by
  intro fuel
  induction fuel with
  | zero => intro st cd chain last nxt _ _ h; exact absurd rfl h
  | succ fuel ih =>
    intro st cd chain last nxt hi hn hdiv
    rcases nxt with _ | ⟨node, _ | c⟩
    · exact ⟨st, cd, rfl, hi⟩
    · exact ⟨st, cd, rfl, hi⟩
    · simp only [kempeProcess] at hdiv ⊢
      split
      · exact ⟨st, cd, rfl, hi⟩
      · rename_i hl
        rw [if_neg hl] at hdiv
        obtain ⟨hadj, c', hc', ec⟩ := hn _ rfl
        simp only [Option.some.injEq] at ec
        subst ec
        obtain ⟨st', cd', nxt', e, -, hi', -, p2⟩ := kempeStep_ok hG hD rs hi hadj hc'
        simp only [e, bind, Except.bind] at hdiv ⊢
        apply ih _ _ _ _ _ hi' _ hdiv
        rintro ⟨w, d⟩ rfl
        obtain ⟨-, -, q3, q4, -⟩ := p2 w d rfl
        exact ⟨q4, q3⟩

end

/-- The scan of `KempeStart`: remaining colours. -/
theorem scan_spec (G : Graph) (col : ℕ × ℕ → Option ℕ) (D node : ℕ) :
    (kempeScan G col D node).1.Nodup ∧ (∀ c ∈ (kempeScan G col D node).1, c < D) ∧
      (D + (if (kempeScan G col D node).2.isSome then 1 else 0) ≤ (kempeScan G col D node).1.length + (G.adj node).length) := by
  have key : ∀ (l : List ℕ) (s : List ℕ × Option ℕ) (m : ℕ), s.1.Nodup → (∀ c ∈ s.1, c < D) →
      D + (if s.2.isSome then 1 else 0) ≤ s.1.length + m →
      let r := l.foldl (fun s a =>
        match col (ekey node a) with
        | some c => if c ∈ s.1 then (s.1.filter (· ≠ c), s.2) else (s.1, some a)
        | none => (s.1, some a)) s
      r.1.Nodup ∧ (∀ c ∈ r.1, c < D) ∧ D + (if r.2.isSome then 1 else 0) ≤ r.1.length + (m + l.length) := by
    intro l
    induction l with
    | nil => intro s m h1 h2 h3; exact ⟨h1, h2, by simpa using h3⟩
    | cons a l ih =>
      intro s m h1 h2 h3
      simp only [List.foldl_cons, List.length_cons]
      rw [show m + (l.length + 1) = (m + 1) + l.length by omega]
      apply ih
      · split
        · split
          · exact h1.filter _
          · exact h1
        · exact h1
      · split
        · split
          · intro c hc; exact h2 c (List.mem_of_mem_filter hc)
          · exact h2
        · exact h2
      · split
        · split
          · rename_i c _ hc
            have : (s.1.filter (fun x => decide (x ≠ c))).length = s.1.length - 1 := by
              rw [← List.length_erase_of_mem hc, h1.erase_eq_filter]
              congr 1
              apply List.filter_congr
              intro x _
              by_cases h : x = c <;> simp [h]
            have hp : 0 < s.1.length := List.length_pos_iff.2 (List.ne_nil_of_mem hc)
            simp only [this]
            omega
          · simp only [Option.isSome_some, if_true]
            split at h3 <;> omega
        · simp only [Option.isSome_some, if_true]
          split at h3 <;> omega
  have := key (G.adj node) (List.range D, none) 0 List.nodup_range (by simp) (by simp)
  rw [Nat.zero_add] at this
  exact this

section
variable {G : Graph} (hG : Simple G) {D : ℕ} (hD : ∀ u, (G.adj u).length ≤ D)
include hG hD

theorem start_ok (rs : ℕ → ℕ) (fuel : ℕ) (hf : G.nodes.length + 2 ≤ fuel) {st : EC} {cd : ConflictDict} (hi : Inv G D st.col cd)
    (node : ℕ) : ∃ st' cd', kempeStart G rs fuel st D node cd = .ok (st', cd') ∧ Inv G D st'.col cd' := by
  have hdiv := start_noDiv G hG.closed rs fuel hf st D node cd
  unfold kempeStart at hdiv ⊢
  obtain ⟨s1, s2, s3⟩ := scan_spec G st.col D node
  cases hs : (kempeScan G st.col D node).2 with
  | none => exact ⟨st, cd, rfl, hi⟩
  | some a =>
    rw [hs] at s3
    simp only [hs] at hdiv ⊢
    have hne : (kempeScan G st.col D node).1 ≠ [] := by
      intro hc
      rw [hc] at s3
      simp only [Option.isSome_some, if_true, List.length_nil] at s3
      have := hD node
      omega
    obtain ⟨c, hc, e⟩ := choice_ok rs st.rng hne
    simp only [e, bind, Except.bind] at hdiv ⊢
    apply process_ok hG hD rs fuel { st with rng := st.rng + 1 } _ _ _ _ hi _ hdiv
    rintro p hp
    cases hp
    exact ⟨scan_next_mem _ _ _ _ _ hs, c, s2 c hc, rfl⟩

theorem Inv.total {col : ℕ × ℕ → Option ℕ} {cd : ConflictDict} (hi : Inv G D col cd) :
    totalNumberOfConflicts cd = (G.nodes.map (conflictLevel G col)).sum :=
  hi.rep.total hG.nodes_nodup (fun u _ => level_lt hG u (hD u) col)

omit hG hD in
theorem max_ok {col : ℕ × ℕ → Option ℕ} {cd : ConflictDict} (hi : Inv G D col cd) (ht : totalNumberOfConflicts cd ≠ 0) :
    ∃ m, maxConflictLevel cd = .ok m ∧ cd.sets m ≠ [] ∧ ∀ u ∈ cd.sets m, u ∈ G.nodes ∧ conflictLevel G col u = m ∧ 0 < m := by
  have hne : cd.levels.filter (fun l => (cd.sets l).length > 0) ≠ [] := by
    intro hc
    apply ht
    rw [totalNumberOfConflicts]
    apply List.sum_eq_zero
    intro x hx
    obtain ⟨l, hl, rfl⟩ := List.mem_map.1 hx
    have := List.filter_eq_nil_iff.1 hc l hl
    simp only [gt_iff_lt, decide_eq_true_eq, not_lt, Nat.le_zero] at this
    rw [this, Nat.mul_zero]
  cases hm : (cd.levels.filter (fun l => (cd.sets l).length > 0)).max? with
  | none => rw [List.max?_eq_none_iff] at hm; exact absurd hm hne
  | some m =>
    have hmem := List.max?_mem hm
    obtain ⟨h1, h2⟩ := List.mem_filter.1 hmem
    have h3 : cd.sets m ≠ [] := by
      intro hc
      rw [hc] at h2
      simp at h2
    refine ⟨m, by simp [maxConflictLevel, hm], h3, ?_⟩
    intro u hu
    obtain ⟨l1, l2⟩ := List.mem_filter.1 h1
    rw [List.mem_range, hi.rep.bound] at l1
    have l2 : 1 ≤ m := by simp at l2; omega
    obtain ⟨q1, q2⟩ := (hi.rep.mem m l2 l1 u).1 hu
    exact ⟨q1, q2, l2⟩

theorem heuristicLoop_ok (rs : ℕ → ℕ) (pfuel : ℕ) (hp : G.nodes.length + 2 ≤ pfuel) (rl : ℤ) :
    ∀ (fuel : ℕ) (st : EC) (cd : ConflictDict) (rep prev : ℕ), Inv G D st.col cd → (prev = 0 ∨ totalNumberOfConflicts cd ≠ 0) →
      NoDiv (heuristicLoop G rs pfuel D rl fuel st cd rep prev) →
      ∃ b st', heuristicLoop G rs pfuel D rl fuel st cd rep prev = .ok (b, st') ∧ InRange G st'.col D := by
  intro fuel
  induction fuel with
  | zero => intro st cd rep prev _ _ h; exact absurd rfl h
  | succ fuel ih =>
    intro st cd rep prev hi ht hdiv
    unfold heuristicLoop at hdiv ⊢
    by_cases h0 : prev > 0
    · rw [if_pos h0] at hdiv ⊢
      obtain ⟨m, e1, hne, -⟩ := max_ok hi (by omega)
      obtain ⟨node, -, e2⟩ := choice_ok rs st.rng hne
      simp only [e1, e2, bind, Except.bind] at hdiv ⊢
      obtain ⟨st', cd', e3, hi'⟩ := start_ok hG hD rs pfuel hp (st := { st with rng := st.rng + 1 }) hi node
      simp only [e3] at hdiv ⊢
      split
      · exact ⟨true, st', rfl, hi'.range⟩
      · rename_i c0
        rw [if_neg c0] at hdiv
        split
        · rename_i c1
          rw [if_pos c1] at hdiv
          split
          · exact ⟨false, st', rfl, hi'.range⟩
          · rename_i c2
            rw [if_neg c2] at hdiv
            exact ih _ _ _ _ hi' (Or.inr c0) hdiv
        · rename_i c1
          rw [if_neg c1] at hdiv
          exact ih _ _ _ _ hi' (Or.inr c0) hdiv
    · rw [if_neg h0]
      exact ⟨true, st, rfl, hi.range⟩

theorem create_ok {col : ℕ × ℕ → Option ℕ} (hr : InRange G col D) :
    ∃ cd, createConflictDictionary G col D = .ok cd ∧ Inv G D col cd := by
  obtain ⟨cd, e, r⟩ := CDRep.create (G := G) (col := col) (D := D) (fun u _ => level_lt hG u (hD u) col)
  exact ⟨cd, e, hr, r⟩

theorem heuristic_ok (rs : ℕ → ℕ) (pfuel hfuel : ℕ) (hp : G.nodes.length + 2 ≤ pfuel) (rl : ℤ) (st : EC) (hr : InRange G st.col D)
    (hdiv : NoDiv (heuristic G rs pfuel hfuel D rl st)) :
    ∃ b st', heuristic G rs pfuel hfuel D rl st = .ok (b, st') ∧ InRange G st'.col D := by
  obtain ⟨cd, e, hi⟩ := create_ok hG hD hr
  unfold heuristic at hdiv ⊢
  simp only [e, bind, Except.bind] at hdiv ⊢
  refine heuristicLoop_ok hG hD rs pfuel hp rl hfuel st cd 0 _ hi ?_ hdiv
  omega

end

/-! ### Edges -/

theorem mem_edgesAux {adj : ℕ → List ℕ} : ∀ {us seen : List ℕ} {e : ℕ × ℕ}, e ∈ edgesAux adj us seen →
    e.1 ∈ us ∧ e.2 ∈ adj e.1 ∧ e.2 ∉ seen := by
  intro us
  induction us with
  | nil => intro seen e h; simp [edgesAux] at h
  | cons u us ih =>
    intro seen e h
    rw [edgesAux, List.mem_append] at h
    rcases h with h | h
    · obtain ⟨v, hv, rfl⟩ := List.mem_map.1 h
      obtain ⟨h1, h2⟩ := List.mem_filter.1 hv
      exact ⟨List.mem_cons_self, h1, by simpa using h2⟩
    · obtain ⟨h1, h2, h3⟩ := ih h
      exact ⟨List.mem_cons_of_mem _ h1, h2, fun hc => h3 (List.mem_cons_of_mem _ hc)⟩

theorem edgesAux_cover {adj : ℕ → List ℕ} {u v : ℕ} (huv : v ∈ adj u) (hvu : u ∈ adj v) : ∀ {us seen : List ℕ},
    u ∈ us → v ∈ us → u ∉ seen → v ∉ seen → (u, v) ∈ edgesAux adj us seen ∨ (v, u) ∈ edgesAux adj us seen := by
  intro us
  induction us with
  | nil => intro seen h; simp at h
  | cons x us ih =>
    intro seen hu hv hus hvs
    rw [edgesAux, List.mem_append, List.mem_append]
    by_cases hxu : x = u
    · subst hxu
      exact Or.inl (Or.inl (List.mem_map.2 ⟨v, List.mem_filter.2 ⟨huv, by simpa using hvs⟩, rfl⟩))
    · by_cases hxv : x = v
      · subst hxv
        exact Or.inr (Or.inl (List.mem_map.2 ⟨u, List.mem_filter.2 ⟨hvu, by simpa using hus⟩, rfl⟩))
      · rcases ih (seen := x :: seen) ((List.mem_cons.1 hu).resolve_left (Ne.symm hxu)) ((List.mem_cons.1 hv).resolve_left (Ne.symm hxv))
          (by simp [Ne.symm hxu, hus]) (by simp [Ne.symm hxv, hvs]) with h | h
        · exact Or.inl (Or.inr h)
        · exact Or.inr (Or.inr h)

theorem edges_cover {G : Graph} (hG : Simple G) {u v : ℕ} (h : v ∈ G.adj u) : (u, v) ∈ G.edges ∨ (v, u) ∈ G.edges :=
  edgesAux_cover h (hG.symm u v h) (Simple.mem_nodes hG h) (hG.closed u v h) (by simp) (by simp)

theorem mem_edges {G : Graph} {e : ℕ × ℕ} (h : e ∈ G.edges) : e.1 ∈ G.nodes ∧ e.2 ∈ G.adj e.1 :=
  ⟨(mem_edgesAux h).1, (mem_edgesAux h).2.1⟩

section
variable {G : Graph} (hG : Simple G) {D : ℕ} (hD : ∀ u, (G.adj u).length ≤ D)
include hG hD

omit hG hD in
theorem greedy_ok (rs : ℕ → ℕ) : ∀ (es : List (ℕ × ℕ)) (st : EC), (es ≠ [] → 0 < D) →
    ∃ st', greedyLoop G rs D es st = .ok st' ∧
      (∀ k, (∃ c, c < D ∧ st.col k = some c) → ∃ c, c < D ∧ st'.col k = some c) ∧
      ∀ e ∈ es, ∃ c, c < D ∧ st'.col (ekey e.1 e.2) = some c := by
  intro es
  induction es with
  | nil => intro st _; exact ⟨st, rfl, fun k h => h, by simp⟩
  | cons e es ih =>
    intro st h0
    have hpos := h0 (by simp)
    obtain ⟨c, k, hc, e1⟩ : ∃ c k, c < D ∧ (if availableColors G st.col D e = [] then randint0 rs st.rng D
        else choice rs st.rng (availableColors G st.col D e) : Py (ℕ × ℕ)) = .ok (c, k) := by
      split
      · exact ⟨_, _, Nat.mod_lt _ hpos, by rw [randint0, if_neg (by omega)]⟩
      · rename_i hne
        obtain ⟨a, ha, ea⟩ := choice_ok rs st.rng hne
        exact ⟨a, _, List.mem_range.1 (List.mem_of_mem_filter ha), ea⟩
    obtain ⟨st', e2, keep, all⟩ := ih ⟨setColor st.col e.1 e.2 (some c), k⟩ (fun _ => hpos)
    have keep' : ∀ k, (∃ c, c < D ∧ st.col k = some c) → ∃ c, c < D ∧ st'.col k = some c := by
      intro k' hk
      apply keep
      by_cases hkk : k' = ekey e.1 e.2
      · exact ⟨c, hc, by rw [hkk]; exact setColor_self _ _ _ _⟩
      · obtain ⟨c', hc', ec'⟩ := hk
        exact ⟨c', hc', by rw [← ec']; exact setColor_other hkk⟩
    refine ⟨st', ?_, keep', ?_⟩
    · unfold greedyLoop
      rw [e1]
      exact e2
    · intro f hf
      rcases List.mem_cons.1 hf with rfl | hf
      · exact keep _ ⟨c, hc, setColor_self _ _ _ _⟩
      · exact all f hf

omit hD in
theorem preColoring_ok' (h0 : G.edges ≠ [] → 0 < D) (rs : ℕ → ℕ) (st : EC) :
    ∃ st', preColoring G rs D st = .ok st' ∧ InRange G st'.col D := by
  obtain ⟨st', e, -, all⟩ := greedy_ok (D := D) rs G.edges { st with col := clearColors G st.col } h0
  refine ⟨st', e, ?_⟩
  intro u v huv
  rcases edges_cover hG huv with h | h
  · exact all _ h
  · rw [ekey_comm]; exact all _ h

theorem preColoring_ok (rs : ℕ → ℕ) (st : EC) : ∃ st', preColoring G rs D st = .ok st' ∧ InRange G st'.col D :=
  preColoring_ok' hG (fun hne => by
    obtain ⟨e, he⟩ := List.exists_mem_of_ne_nil _ hne
    exact D_pos hG hD (mem_edges he).2) rs st

theorem applyLoop_ok (rs : ℕ → ℕ) (pfuel hfuel : ℕ) (hp : G.nodes.length + 2 ≤ pfuel) (rl il : ℤ) : ∀ (fuel iters : ℕ) (st : EC),
    InRange G st.col D → NoDiv (applyLoop G rs pfuel hfuel D rl il fuel iters st) →
    ∃ st', applyLoop G rs pfuel hfuel D rl il fuel iters st = .ok st' ∧ InRange G st'.col D := by
  intro fuel
  induction fuel with
  | zero => intro iters st _ h; exact absurd rfl h
  | succ fuel ih =>
    intro iters st hr hdiv
    unfold applyLoop at hdiv ⊢
    obtain ⟨b, st', e, hr'⟩ := heuristic_ok hG hD rs pfuel hfuel hp rl st hr (noDiv_left hdiv)
    simp only [e, bind, Except.bind] at hdiv ⊢
    split
    · exact ⟨st', rfl, hr'⟩
    · rename_i c0
      rw [if_neg c0] at hdiv
      split
      · exact ⟨st', rfl, hr'⟩
      · rename_i c1
        rw [if_neg c1] at hdiv
        obtain ⟨st2, e2, hr2⟩ := preColoring_ok hG hD rs st'
        simp only [e2] at hdiv ⊢
        exact ih _ _ hr2 hdiv

end

end Oranssi
