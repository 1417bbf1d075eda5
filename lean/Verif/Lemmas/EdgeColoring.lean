import Verif.Spec.EdgeColor
import Mathlib.Tactic.Ring
import Mathlib.Tactic.Linarith
import Mathlib.Algebra.BigOperators.Group.List.Basic
import Mathlib.Algebra.Order.BigOperators.Group.List

/-! # Lemmas on the edge colouring heuristic -/

namespace Oranssi
open Spec

/-! ### Loops do not run out of budget -/

/-- The result is not "out of budget". -/
def NoDiv {α : Type} (x : Py α) : Prop := x ≠ .error .diverge

theorem NoDiv.ok {α : Type} (a : α) : NoDiv (.ok a : Py α) := by intro h; cases h

theorem NoDiv.bind {α β : Type} {x : Py α} {f : α → Py β} (hx : NoDiv x) (hf : ∀ a, x = .ok a → NoDiv (f a)) :
    NoDiv (x >>= f) := by
  cases x with
  | error e => intro h; apply hx; cases h; rfl
  | ok a => exact hf a rfl

theorem choice_noDiv {α : Type} (rs : ℕ → ℕ) (k : ℕ) (l : List α) : NoDiv (choice rs k l) := by
  unfold choice NoDiv
  split <;> simp

theorem addAt_noDiv (cd : ConflictDict) (l u : ℕ) : NoDiv (cd.addAt l u) := by
  unfold ConflictDict.addAt NoDiv
  split <;> simp

theorem removeAt_noDiv (cd : ConflictDict) (l u : ℕ) : NoDiv (cd.removeAt l u) := by
  unfold ConflictDict.removeAt NoDiv
  split <;> simp

theorem update_noDiv (G : Graph) (col : ℕ × ℕ → Option ℕ) (u : ℕ) (cd : ConflictDict) (old : ℕ) :
    NoDiv (updateConflictDictionary G col u cd old) := by
  unfold updateConflictDictionary
  refine NoDiv.bind ?_ (fun a _ => NoDiv.bind ?_ (fun b _ => NoDiv.ok _))
  · split
    · exact removeAt_noDiv _ _ _
    · exact NoDiv.ok _
  · split
    · exact addAt_noDiv _ _ _
    · exact NoDiv.ok _

theorem colorEdge_noDiv (G : Graph) (st : EC) (u v : ℕ) (c : Option ℕ) (cd : ConflictDict) :
    NoDiv (colorEdgeAndUpdate G st u v c cd) := by
  unfold colorEdgeAndUpdate
  exact NoDiv.bind (update_noDiv _ _ _ _ _) (fun a _ => NoDiv.bind (update_noDiv _ _ _ _ _) (fun b _ => NoDiv.ok _))

theorem kempeNext_noDiv (G : Graph) (rs : ℕ → ℕ) (st : EC) (last node : ℕ) (c : Option ℕ) (cd : ConflictDict) :
    NoDiv (kempeNext G rs st last node c cd) := by
  unfold kempeNext
  refine NoDiv.bind ?_ (fun a _ => ?_)
  · split
    · exact NoDiv.ok _
    · exact NoDiv.bind (choice_noDiv _ _ _) (fun _ _ => NoDiv.ok _)
  · dsimp only
    split
    · exact NoDiv.bind (colorEdge_noDiv _ _ _ _ _ _) (fun _ _ => NoDiv.ok _)
    · intro h; cases h

theorem kempeStep_noDiv (G : Graph) (rs : ℕ → ℕ) (st : EC) (last node : ℕ) (c : Option ℕ) (cd : ConflictDict) :
    NoDiv (kempeStep G rs st last node c cd) := by
  unfold kempeStep
  refine NoDiv.bind (kempeNext_noDiv _ _ _ _ _ _ _) (fun a _ => ?_)
  split
  split
  · exact NoDiv.ok _
  · split <;> exact NoDiv.ok _

theorem choice_mem {α : Type} {rs : ℕ → ℕ} {k : ℕ} {l : List α} {a : α} {k' : ℕ} (h : choice rs k l = .ok (a, k')) : a ∈ l := by
  unfold choice at h
  split at h
  · rename_i b hb
    cases h
    exact List.mem_of_getElem? hb
  · cases h

/-- What a `KempeNext` returns as next node is a neighbour, other than `last`, along an edge of the new colour. -/
theorem kempeNext_next {G : Graph} {rs : ℕ → ℕ} {st : EC} {last node : ℕ} {c : Option ℕ} {cd : ConflictDict}
    {st' : EC} {cd' : ConflictDict} {var : ℤ} {old : Option ℕ} {next : Option ℕ}
    (h : kempeNext G rs st last node c cd = .ok (st', cd', var, old, next)) :
    node ∈ G.adj last ∧ old = st.col (ekey last node) ∧
      (∀ w, next = some w → w ∈ G.adj node ∧ w ≠ last ∧ st.col (ekey node w) = c) ∧
      (next = none → ∀ w ∈ G.adj node, w ≠ last → st.col (ekey node w) ≠ c) ∧
      ∃ k, colorEdgeAndUpdate G { st with rng := k } last node c cd = .ok (st', cd', var) := by
  unfold kempeNext at h
  simp only [bind, Except.bind] at h
  split at h
  · cases h
  · rename_i x hx
    obtain ⟨nx, k⟩ := x
    simp only at h
    split at h
    · rename_i hmem
      split at h
      · cases h
      · rename_i y hy
        obtain ⟨st1, cd1, var1⟩ := y
        simp only [Except.ok.injEq, Prod.mk.injEq] at h
        obtain ⟨rfl, rfl, rfl, rfl, rfl⟩ := h
        refine ⟨hmem, rfl, ?_, ?_, k, hy⟩
        · rintro w rfl
          split at hx
          · simp at hx
          · split at hx
            · cases hx
            · rename_i z hz
              simp only [Except.ok.injEq, Prod.mk.injEq, Option.some.injEq] at hx
              have := choice_mem (a := z.1) (k' := z.2) hz
              rw [hx.1] at this
              have := List.mem_filter.1 this
              exact ⟨this.1, by simpa using this.2⟩
        · rintro rfl w hw hwl hc
          split at hx
          · rename_i he
            have : w ∈ (G.adj node).filter (fun w => w ≠ last ∧ st.col (ekey node w) = c) :=
              List.mem_filter.2 ⟨hw, by simp [hwl, hc]⟩
            rw [he] at this
            simp at this
          · split at hx
            · cases hx
            · simp at hx
    · cases h

theorem kempeStep_spec {G : Graph} {rs : ℕ → ℕ} {st : EC} {last node : ℕ} {c : Option ℕ} {cd : ConflictDict}
    {st' : EC} {cd' : ConflictDict} {last' : ℕ} {nxt : Option (ℕ × Option ℕ)}
    (h : kempeStep G rs st last node c cd = .ok (st', cd', last', nxt)) :
    last' = node ∧ node ∈ G.adj last ∧ ∃ var k, colorEdgeAndUpdate G { st with rng := k } last node c cd = .ok (st', cd', var) ∧
      (nxt = none → var < 0 ∨ ∀ w ∈ G.adj node, w ≠ last → st.col (ekey node w) ≠ c) ∧
      (∀ w d, nxt = some (w, d) → 0 ≤ var ∧ d = st.col (ekey last node) ∧ w ∈ G.adj node ∧ w ≠ last ∧ st.col (ekey node w) = c) := by
  unfold kempeStep at h
  simp only [bind, Except.bind] at h
  split at h
  · cases h
  · rename_i x hx
    obtain ⟨st1, cd1, var, old, next⟩ := x
    obtain ⟨h1, h2, h3, h4, k, h5⟩ := kempeNext_next hx
    simp only at h
    split at h
    · simp only [Except.ok.injEq, Prod.mk.injEq] at h
      obtain ⟨rfl, rfl, rfl, rfl⟩ := h
      exact ⟨rfl, h1, var, k, h5, fun _ => Or.inr (h4 rfl), by simp⟩
    · rename_i w
      split at h
      · rename_i hv
        simp only [Except.ok.injEq, Prod.mk.injEq] at h
        obtain ⟨rfl, rfl, rfl, rfl⟩ := h
        exact ⟨rfl, h1, var, k, h5, fun _ => Or.inl hv, by simp⟩
      · rename_i hv
        simp only [Except.ok.injEq, Prod.mk.injEq] at h
        obtain ⟨rfl, rfl, rfl, rfl⟩ := h
        refine ⟨rfl, h1, var, k, h5, by simp, ?_⟩
        rintro w' d hwd
        simp only [Option.some.injEq, Prod.mk.injEq] at hwd
        obtain ⟨rfl, rfl⟩ := hwd
        exact ⟨by omega, h2, h3 w rfl⟩

theorem process_noDiv (G : Graph) (hG : Closed G) (rs : ℕ → ℕ) : ∀ (fuel : ℕ) (st : EC) (cd : ConflictDict) (chain : List ℕ)
    (last : ℕ) (nxt : Option (ℕ × Option ℕ)), (∀ p, nxt = some p → p.1 ∈ G.nodes) → last ∈ G.nodes →
    (G.nodes.dedup.filter (· ∉ chain)).length < fuel → NoDiv (kempeProcess G rs fuel st cd chain last nxt) := by
  intro fuel
  induction fuel with
  | zero => intro st cd chain last nxt _ _ h; omega
  | succ fuel ih =>
    intro st cd chain last nxt hn hl hf
    unfold kempeProcess
    split
    · rename_i node c
      split
      · exact NoDiv.ok _
      · rename_i hlc
        refine NoDiv.bind (kempeStep_noDiv _ _ _ _ _ _ _) ?_
        rintro ⟨st', cd', last', nxt'⟩ h
        obtain ⟨rfl, hadj, var, k, -, -, h3⟩ := kempeStep_spec h
        apply ih
        · rintro ⟨w, d⟩ rfl
          exact hG _ _ (h3 w d rfl).2.2.1
        · exact hG _ _ hadj
        · have hmem : last ∈ G.nodes.dedup.filter (· ∉ chain) := List.mem_filter.2 ⟨List.mem_dedup.2 hl, by simpa using hlc⟩
          have hsub : (G.nodes.dedup.filter (· ∉ last :: chain)).length < (G.nodes.dedup.filter (· ∉ chain)).length := by
            have e : G.nodes.dedup.filter (· ∉ last :: chain) = (G.nodes.dedup.filter (· ∉ chain)).filter (· ≠ last) := by
              rw [List.filter_filter]
              apply List.filter_congr
              intro x _
              simp
            rw [e]
            apply List.length_filter_lt_length_iff_exists.2
            exact ⟨last, hmem, by simp⟩
          omega
    · exact NoDiv.ok _

theorem scan_next_mem (G : Graph) (col : ℕ × ℕ → Option ℕ) (D node a : ℕ) (h : (kempeScan G col D node).2 = some a) :
    a ∈ G.adj node := by
  have key : ∀ (l : List ℕ) (s : List ℕ × Option ℕ), (l.foldl (fun s a =>
      match col (ekey node a) with
      | some c => if c ∈ s.1 then (s.1.filter (· ≠ c), s.2) else (s.1, some a)
      | none => (s.1, some a)) s).2 = some a → s.2 = some a ∨ a ∈ l := by
    intro l
    induction l with
    | nil => intro s h; exact Or.inl h
    | cons b l ih =>
      intro s h
      rw [List.foldl_cons] at h
      rcases ih _ h with h | h
      · split at h
        · split at h
          · exact Or.inl h
          · simp only [Option.some.injEq] at h; exact Or.inr (by simp [h])
        · simp only [Option.some.injEq] at h; exact Or.inr (by simp [h])
      · exact Or.inr (List.mem_cons_of_mem _ h)
  rcases key _ _ h with h | h
  · cases h
  · exact h

theorem start_noDiv (G : Graph) (hG : Closed G) (rs : ℕ → ℕ) (fuel : ℕ) (hf : G.nodes.length + 2 ≤ fuel) (st : EC) (D node : ℕ)
    (cd : ConflictDict) : NoDiv (kempeStart G rs fuel st D node cd) := by
  unfold kempeStart
  split
  · exact NoDiv.ok _
  · rename_i a ha
    have hadj := scan_next_mem _ _ _ _ _ ha
    refine NoDiv.bind (choice_noDiv _ _ _) ?_
    rintro ⟨c, k⟩ -
    obtain ⟨fuel, rfl⟩ : ∃ f, fuel = f + 1 := ⟨fuel - 1, by omega⟩
    have hlen : ∀ chain : List ℕ, (G.nodes.dedup.filter (· ∉ chain)).length ≤ G.nodes.length := fun chain =>
      (List.length_filter_le _ _).trans (List.Sublist.length_le (List.dedup_sublist _))
    simp only [kempeProcess]
    rw [if_neg (by simp)]
    refine NoDiv.bind (kempeStep_noDiv _ _ _ _ _ _ _) ?_
    rintro ⟨st', cd', last', nxt'⟩ h
    obtain ⟨rfl, hadj, var, k, -, -, h3⟩ := kempeStep_spec h
    apply process_noDiv G hG
    · rintro ⟨w, d⟩ rfl
      exact hG _ _ (h3 w d rfl).2.2.1
    · exact hG _ _ hadj
    · have := hlen [node]; omega

theorem maxConflictLevel_noDiv (cd : ConflictDict) : NoDiv (maxConflictLevel cd) := by
  unfold maxConflictLevel NoDiv
  split <;> simp

theorem heuristicLoop_noDiv (G : Graph) (hG : Closed G) (rs : ℕ → ℕ) (pfuel : ℕ) (hp : G.nodes.length + 2 ≤ pfuel) (D : ℕ) (rl : ℤ) :
    ∀ (fuel : ℕ) (st : EC) (cd : ConflictDict) (rep prev : ℕ), rep ≤ rl.toNat →
      prev * (rl.toNat + 1) + (rl.toNat + 1 - rep) < fuel → NoDiv (heuristicLoop G rs pfuel D rl fuel st cd rep prev) := by
  intro fuel
  induction fuel with
  | zero => intro st cd rep prev _ h; omega
  | succ fuel ih =>
    intro st cd rep prev hr hf
    unfold heuristicLoop
    split
    · rename_i hpos
      refine NoDiv.bind (maxConflictLevel_noDiv _) (fun m _ => NoDiv.bind (choice_noDiv _ _ _) ?_)
      rintro ⟨node, k⟩ -
      refine NoDiv.bind (start_noDiv G hG rs pfuel hp _ _ _ _) ?_
      rintro ⟨st', cd'⟩ -
      simp only
      split
      · exact NoDiv.ok _
      · split
        · rename_i hge
          split
          · exact NoDiv.ok _
          · rename_i hle
            apply ih
            · omega
            · rw [min_eq_left hge]; omega
        · rename_i hlt
          apply ih
          · omega
          · have hm : min prev (totalNumberOfConflicts cd') + 1 ≤ prev := by omega
            have := Nat.mul_le_mul_right (rl.toNat + 1) hm
            rw [Nat.add_mul] at this
            omega
    · exact NoDiv.ok _

theorem insertKey_length (l : List ℕ) (a : ℕ) : (insertKey l a).length ≤ l.length + 1 := by
  unfold insertKey; split <;> simp

theorem total_addAt {cd cd' : ConflictDict} {lvl u : ℕ} (h : cd.addAt lvl u = .ok cd') :
    totalNumberOfConflicts cd' ≤ totalNumberOfConflicts cd + lvl := by
  unfold ConflictDict.addAt at h
  split at h
  · cases h
    have hn : cd.levels.Nodup := List.nodup_range.filter _
    simp only [totalNumberOfConflicts]
    have key : ∀ l : List ℕ, l.Nodup → (l.map (fun l => l * (if l = lvl then insertKey (cd.sets l) u else cd.sets l).length)).sum ≤
        (l.map (fun l => l * (cd.sets l).length)).sum + if lvl ∈ l then lvl else 0 := by
      intro l
      induction l with
      | nil => intro _; simp
      | cons x l ih =>
        intro hn
        obtain ⟨hx, hl⟩ := List.nodup_cons.1 hn
        have ih := ih hl
        simp only [List.map_cons, List.sum_cons, List.mem_cons]
        by_cases hxl : x = lvl
        · subst hxl
          rw [if_neg hx] at ih
          simp only [if_true, true_or]
          have := Nat.mul_le_mul_left x (insertKey_length (cd.sets x) u)
          rw [Nat.mul_add] at this
          omega
        · rw [if_neg hxl]
          have : (lvl = x ∨ lvl ∈ l) ↔ lvl ∈ l := by
            constructor
            · rintro (h | h)
              · exact absurd h.symm hxl
              · exact h
            · exact Or.inr
          simp only [this]
          omega
    refine (key _ hn).trans ?_
    split <;> omega
  · cases h

theorem total_createLoop (G : Graph) (col : ℕ × ℕ → Option ℕ) : ∀ (us : List ℕ) (cd cd' : ConflictDict),
    createLoop G col us cd = .ok cd' → totalNumberOfConflicts cd' ≤ totalNumberOfConflicts cd + (us.map G.degree).sum := by
  intro us
  induction us with
  | nil => intro cd cd' h; simp only [createLoop, Except.ok.injEq] at h; simp [h]
  | cons u us ih =>
    intro cd cd' h
    simp only [createLoop, bind, Except.bind] at h
    split at h
    · cases h
    · rename_i x hx
      have := ih _ _ h
      have h2 : totalNumberOfConflicts x ≤ totalNumberOfConflicts cd + G.degree u := by
        split at hx
        · have := total_addAt hx
          have : conflictLevel G col u ≤ G.degree u := Nat.sub_le _ _
          omega
        · cases hx; omega
      simp only [List.map_cons, List.sum_cons]
      omega

theorem createLoop_noDiv (G : Graph) (col : ℕ × ℕ → Option ℕ) : ∀ (us : List ℕ) (cd : ConflictDict),
    NoDiv (createLoop G col us cd) := by
  intro us
  induction us with
  | nil => intro cd; exact NoDiv.ok _
  | cons u us ih =>
    intro cd
    unfold createLoop
    refine NoDiv.bind ?_ (fun a _ => ih a)
    split
    · exact addAt_noDiv _ _ _
    · exact NoDiv.ok _

theorem heuristic_noDiv (G : Graph) (hG : Closed G) (rs : ℕ → ℕ) (pfuel hfuel : ℕ) (hp : G.nodes.length + 2 ≤ pfuel) (D : ℕ) (rl : ℤ)
    (hh : (G.nodes.map G.degree).sum * (rl.toNat + 1) + (rl.toNat + 1) < hfuel) (st : EC) :
    NoDiv (heuristic G rs pfuel hfuel D rl st) := by
  unfold heuristic
  refine NoDiv.bind (createLoop_noDiv _ _ _ _) ?_
  intro cd hcd
  apply heuristicLoop_noDiv G hG rs pfuel hp
  · omega
  · have := total_createLoop G st.col _ _ _ hcd
    have h0 : totalNumberOfConflicts ⟨D, fun _ => []⟩ = 0 := by simp [totalNumberOfConflicts]
    rw [h0, Nat.zero_add] at this
    have := Nat.mul_le_mul_right (rl.toNat + 1) this
    omega

theorem greedyLoop_noDiv (G : Graph) (rs : ℕ → ℕ) (D : ℕ) : ∀ (es : List (ℕ × ℕ)) (st : EC), NoDiv (greedyLoop G rs D es st) := by
  intro es
  induction es with
  | nil => intro st; exact NoDiv.ok _
  | cons e es ih =>
    intro st
    unfold greedyLoop
    refine NoDiv.bind ?_ (fun a _ => ih _)
    split
    · unfold randint0 NoDiv; split <;> simp
    · exact choice_noDiv _ _ _

theorem applyLoop_noDiv (G : Graph) (hG : Closed G) (rs : ℕ → ℕ) (pfuel hfuel : ℕ) (hp : G.nodes.length + 2 ≤ pfuel) (D : ℕ) (rl il : ℤ)
    (hh : (G.nodes.map G.degree).sum * (rl.toNat + 1) + (rl.toNat + 1) < hfuel) : ∀ (fuel iters : ℕ) (st : EC),
    il.toNat + 1 < fuel + iters → 0 < fuel → NoDiv (applyLoop G rs pfuel hfuel D rl il fuel iters st) := by
  intro fuel
  induction fuel with
  | zero => intro iters st _ h; omega
  | succ fuel ih =>
    intro iters st hf _
    unfold applyLoop
    refine NoDiv.bind (heuristic_noDiv G hG rs pfuel hfuel hp D rl hh st) ?_
    rintro ⟨ok, st'⟩ -
    simp only
    split
    · exact NoDiv.ok _
    · split
      · exact NoDiv.ok _
      · refine NoDiv.bind (greedyLoop_noDiv _ _ _ _ _) ?_
        intro st'' _
        apply ih <;> omega

end Oranssi
