import Verif.Lemmas.EdgeColoring

/-! # The conflict dictionary represents the conflict levels -/

namespace Oranssi
open Spec

/-- The dictionary lists, for each level, exactly the nodes of that level. -/
structure CDRep (D : ℕ) (nodes : List ℕ) (lv : ℕ → ℕ) (cd : ConflictDict) : Prop where
  bound : cd.bound = D
  nodup : ∀ l, (cd.sets l).Nodup
  mem : ∀ l, 1 ≤ l → l < D → ∀ u, u ∈ cd.sets l ↔ u ∈ nodes ∧ lv u = l

theorem insertKey_nodup {l : List ℕ} (h : l.Nodup) (a : ℕ) : (insertKey l a).Nodup := by
  unfold insertKey
  split
  · exact h
  · rename_i ha
    rw [List.nodup_append]
    exact ⟨h, by simp, by intro x hx y hy; simp at hy; subst hy; intro e; subst e; exact ha hx⟩

theorem mem_insertKey {l : List ℕ} {a x : ℕ} : x ∈ insertKey l a ↔ x ∈ l ∨ x = a := by
  unfold insertKey
  split
  · constructor
    · exact Or.inl
    · rintro (h | rfl) <;> assumption
  · simp

theorem CDRep.update {D : ℕ} {nodes : List ℕ} {lv : ℕ → ℕ} {cd : ConflictDict} (h : CDRep D nodes lv cd) {G : Graph}
    {col : ℕ × ℕ → Option ℕ} {u : ℕ} (hu : u ∈ nodes) (hold : lv u < D) (hnew : conflictLevel G col u < D ∨ conflictLevel G col u = 0) :
    ∃ cd', updateConflictDictionary G col u cd (lv u) = .ok (cd', (conflictLevel G col u : ℤ) - lv u) ∧
      CDRep D nodes (fun x => if x = u then conflictLevel G col u else lv x) cd' := by
  set new := conflictLevel G col u with hnewdef
  -- removal
  obtain ⟨cd1, e1, b1, n1, m1⟩ : ∃ cd1, (if lv u > 0 then cd.removeAt (lv u) u else .ok cd : Py ConflictDict) = .ok cd1 ∧
      cd1.bound = D ∧ (∀ l, (cd1.sets l).Nodup) ∧
      ∀ l, 1 ≤ l → l < D → ∀ x, x ∈ cd1.sets l ↔ x ∈ nodes ∧ lv x = l ∧ x ≠ u := by
    by_cases h0 : lv u > 0
    · have hmem : u ∈ cd.sets (lv u) := (h.mem _ h0 hold u).2 ⟨hu, rfl⟩
      refine ⟨{ cd with sets := fun l => if l = lv u then (cd.sets l).filter (· ≠ u) else cd.sets l },
        by rw [if_pos h0, ConflictDict.removeAt, if_pos ⟨h0, by rw [h.bound]; exact hold, hmem⟩], h.bound, ?_, ?_⟩
      · intro l
        dsimp only
        split
        · exact (h.nodup l).filter _
        · exact h.nodup l
      · intro l h1 h2 x
        dsimp only
        split
        · rename_i hl
          subst hl
          rw [List.mem_filter, h.mem _ h1 h2]
          simp [and_assoc]
        · rename_i hl
          rw [h.mem _ h1 h2]
          constructor
          · rintro ⟨a, b⟩
            exact ⟨a, b, fun e => hl (by rw [← b, e])⟩
          · rintro ⟨a, b, _⟩; exact ⟨a, b⟩
    · refine ⟨cd, by rw [if_neg h0], h.bound, h.nodup, ?_⟩
      intro l h1 h2 x
      rw [h.mem _ h1 h2]
      constructor
      · rintro ⟨a, b⟩
        exact ⟨a, b, fun e => by subst e; omega⟩
      · rintro ⟨a, b, _⟩; exact ⟨a, b⟩
  by_cases hn : new > 0
  · have hnD : new < D := by rcases hnew with h | h <;> omega
    refine ⟨{ cd1 with sets := fun l => if l = new then insertKey (cd1.sets l) u else cd1.sets l }, ?_, b1, ?_, ?_⟩
    · unfold updateConflictDictionary
      rw [e1]
      simp only [bind, Except.bind]
      rw [← hnewdef, if_pos hn, ConflictDict.addAt, if_pos ⟨hn, by rw [b1]; exact hnD⟩]
    · intro l
      dsimp only
      split
      · exact insertKey_nodup (n1 l) u
      · exact n1 l
    · intro l h1 h2 x
      dsimp only
      split
      · rename_i hl
        subst hl
        rw [mem_insertKey, m1 _ h1 h2]
        by_cases hx : x = u
        · subst hx; simp [hu]
        · simp [hx]
      · rename_i hl
        rw [m1 _ h1 h2]
        by_cases hx : x = u
        · subst hx; simp [Ne.symm hl]
        · simp [hx]
  · refine ⟨cd1, ?_, b1, n1, ?_⟩
    · unfold updateConflictDictionary
      rw [e1]
      simp only [bind, Except.bind]
      rw [← hnewdef, if_neg hn]
    · intro l h1 h2 x
      rw [m1 _ h1 h2]
      by_cases hx : x = u
      · subst hx
        simp only [ne_eq, not_true_eq_false, and_false, if_true, false_iff, not_and]
        intro _; omega
      · simp [hx]

/-- The total number of conflicts is the sum of the levels. -/
theorem CDRep.total {D : ℕ} {nodes : List ℕ} {lv : ℕ → ℕ} {cd : ConflictDict} (h : CDRep D nodes lv cd) (hn : nodes.Nodup)
    (hlv : ∀ u ∈ nodes, lv u < D ∨ lv u = 0) : totalNumberOfConflicts cd = (nodes.map lv).sum := by
  have hlen : ∀ l ∈ cd.levels, (cd.sets l).length = (nodes.filter (fun u => lv u = l)).length := by
    intro l hl
    obtain ⟨h1, h2⟩ := List.mem_filter.1 hl
    rw [List.mem_range, h.bound] at h1
    have h2 : 1 ≤ l := by simp at h2; omega
    apply List.Perm.length_eq
    rw [List.perm_ext_iff_of_nodup (h.nodup l) (hn.filter _)]
    intro u
    rw [h.mem _ h2 h1, List.mem_filter]
    simp
  have e1 : totalNumberOfConflicts cd = (cd.levels.map (fun l => l * (nodes.filter (fun u => lv u = l)).length)).sum := by
    rw [totalNumberOfConflicts]
    congr 1
    apply List.map_congr_left
    intro l hl
    rw [hlen l hl]
  rw [e1]
  have hlev : cd.levels.Nodup := List.nodup_range.filter _
  have hmem : ∀ l, l ∈ cd.levels ↔ l < D ∧ l ≠ 0 := by
    intro l
    simp [ConflictDict.levels, h.bound]
  generalize cd.levels = L at hlev hmem
  clear e1 hlen h hn
  induction nodes with
  | nil => simp
  | cons u nodes ih =>
    have ih := ih (fun x hx => hlv x (List.mem_cons_of_mem _ hx))
    have hu := hlv u List.mem_cons_self
    rw [List.map_cons, List.sum_cons, ← ih]
    have key : ∀ L : List ℕ, L.Nodup → (L.map (fun l => l * ((u :: nodes).filter (fun u => lv u = l)).length)).sum =
        (if lv u ∈ L then lv u else 0) + (L.map (fun l => l * (nodes.filter (fun u => lv u = l)).length)).sum := by
      intro L
      induction L with
      | nil => simp
      | cons l L ihL =>
        intro hN
        obtain ⟨hl, hL⟩ := List.nodup_cons.1 hN
        rw [List.map_cons, List.sum_cons, ihL hL, List.map_cons, List.sum_cons, List.filter_cons]
        by_cases hul : lv u = l
        · subst hul
          simp only [decide_true, if_true, List.length_cons, List.mem_cons, true_or, hl, if_false]
          ring
        · simp only [hul, decide_false, Bool.false_eq_true, if_false, List.mem_cons, false_or]
          ring
    rw [key L hlev]
    congr 1
    by_cases h0 : lv u = 0
    · simp [h0]
    · rw [if_pos ((hmem _).2 ⟨by omega, h0⟩)]

theorem CDRep.create {D : ℕ} {G : Graph} {col : ℕ × ℕ → Option ℕ}
    (hlv : ∀ u ∈ G.nodes, conflictLevel G col u < D ∨ conflictLevel G col u = 0) :
    ∃ cd, createConflictDictionary G col D = .ok cd ∧ CDRep D G.nodes (conflictLevel G col) cd := by
  have key : ∀ (us done : List ℕ) (cd : ConflictDict), (∀ u ∈ us, conflictLevel G col u < D ∨ conflictLevel G col u = 0) →
      CDRep D done (conflictLevel G col) cd → ∃ cd', createLoop G col us cd = .ok cd' ∧ CDRep D (done ++ us) (conflictLevel G col) cd' := by
    intro us
    induction us with
    | nil => intro done cd _ h; exact ⟨cd, rfl, by simpa using h⟩
    | cons u us ih =>
      intro done cd hl h
      obtain ⟨cd1, e1, h1⟩ : ∃ cd1, (if conflictLevel G col u > 0 then cd.addAt (conflictLevel G col u) u else .ok cd : Py ConflictDict)
          = .ok cd1 ∧ CDRep D (done ++ [u]) (conflictLevel G col) cd1 := by
        by_cases h0 : conflictLevel G col u > 0
        · have hD : conflictLevel G col u < D := by rcases hl u List.mem_cons_self with h | h <;> omega
          refine ⟨{ cd with sets := fun l => if l = conflictLevel G col u then insertKey (cd.sets l) u else cd.sets l },
            by rw [if_pos h0, ConflictDict.addAt, if_pos ⟨h0, by rw [h.bound]; exact hD⟩], h.bound, ?_, ?_⟩
          · intro l
            dsimp only
            split
            · exact insertKey_nodup (h.nodup l) u
            · exact h.nodup l
          · intro l h1 h2 x
            dsimp only
            split
            · rename_i hl
              subst hl
              rw [mem_insertKey, h.mem _ h1 h2]
              simp only [List.mem_append, List.mem_singleton]
              constructor
              · rintro (⟨a, b⟩ | rfl)
                · exact ⟨Or.inl a, b⟩
                · exact ⟨Or.inr rfl, rfl⟩
              · rintro ⟨a | a, b⟩
                · exact Or.inl ⟨a, b⟩
                · exact Or.inr a
            · rename_i hl
              rw [h.mem _ h1 h2]
              simp only [List.mem_append, List.mem_singleton]
              constructor
              · rintro ⟨a, b⟩; exact ⟨Or.inl a, b⟩
              · rintro ⟨a | rfl, b⟩
                · exact ⟨a, b⟩
                · exact absurd b.symm hl
        · refine ⟨cd, by rw [if_neg h0], h.bound, h.nodup, ?_⟩
          intro l h1 h2 x
          rw [h.mem _ h1 h2]
          simp only [List.mem_append, List.mem_singleton]
          constructor
          · rintro ⟨a, b⟩; exact ⟨Or.inl a, b⟩
          · rintro ⟨a | rfl, b⟩
            · exact ⟨a, b⟩
            · omega
      obtain ⟨cd2, e2, h2⟩ := ih (done ++ [u]) cd1 (fun x hx => hl x (List.mem_cons_of_mem _ hx)) h1
      refine ⟨cd2, ?_, by simpa using h2⟩
      unfold createLoop
      rw [e1]
      exact e2
  obtain ⟨cd, e, h⟩ := key G.nodes [] ⟨D, fun _ => []⟩ hlv ⟨rfl, by simp, by simp⟩
  exact ⟨cd, e, by simpa using h⟩

end Oranssi
