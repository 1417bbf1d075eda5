import Verif.Props.EdgeColoring

/-! # The counterexample to C60: an odd ring -/

namespace Oranssi

open Spec

/-- The triangle as built by networkx. -/
def triG : Graph := fromEdgelist [(0, 1), (1, 2), (2, 0)]

theorem triG_nodes : triG.nodes = [0, 1, 2] := by decide
theorem triG_adj0 : triG.adj 0 = [1, 2] := by decide
theorem triG_adj1 : triG.adj 1 = [0, 2] := by decide
theorem triG_adj2 : triG.adj 2 = [1, 0] := by decide
theorem triG_edges : triG.edges = [(0, 1), (0, 2), (1, 2)] := by decide

/-- The colouring with colours `a`, `b`, `c` on the edges 01, 02, 12. -/
def triC (a b c : Option ℕ) : ℕ × ℕ → Option ℕ :=
  fun k => if k = (0, 1) then a else if k = (0, 2) then b else if k = (1, 2) then c else none

theorem triC_01 (a b c d : Option ℕ) : setColor (triC a b c) 0 1 d = triC d b c := by
  funext k; simp only [setColor, triC, ekey]; by_cases h : k = (0, 1) <;> simp_all

theorem triC_02 (a b c d : Option ℕ) : setColor (triC a b c) 0 2 d = triC a d c := by
  funext k; simp only [setColor, triC, ekey]; by_cases h : k = (0, 2) <;> simp_all

theorem triC_12 (a b c d : Option ℕ) : setColor (triC a b c) 1 2 d = triC a b d := by
  funext k; simp only [setColor, triC, ekey]; by_cases h : k = (1, 2) <;> simp_all

theorem triC_20 (a b c d : Option ℕ) : setColor (triC a b c) 2 0 d = triC a d c := by
  funext k; simp only [setColor, triC, ekey]; by_cases h : k = (0, 2) <;> simp_all

theorem setColor_comm (col : ℕ × ℕ → Option ℕ) (u v : ℕ) (d : Option ℕ) : setColor col u v d = setColor col v u d := by
  funext k; rw [setColor, setColor, ekey_comm]

/-- The conflict dictionary with the single vertex `u` at level 1. -/
def triD (u : ℕ) : ConflictDict := ⟨2, fun l => if l = 1 then [u] else []⟩

theorem triD_update {col : ℕ × ℕ → Option ℕ} {u : ℕ} (h : conflictLevel triG col u = 0) :
    updateConflictDictionary triG col u (triD u) 1 = .ok (⟨2, fun _ => []⟩, -1) := by
  unfold updateConflictDictionary
  rw [h]
  simp only [triD, ConflictDict.removeAt, gt_iff_lt, Nat.lt_irrefl, if_false, Nat.zero_lt_one, if_true, bind, Except.bind]
  rw [if_pos ⟨le_refl _, by decide, by simp⟩]
  simp only [Except.ok.injEq, Prod.mk.injEq, ConflictDict.mk.injEq, true_and]
  refine ⟨?_, by rfl⟩
  funext l
  by_cases hl : l = 1 <;> simp [hl]

theorem triD_update' {col : ℕ × ℕ → Option ℕ} {u : ℕ} (h : conflictLevel triG col u = 1) :
    updateConflictDictionary triG col u ⟨2, fun _ => []⟩ 0 = .ok (triD u, 1) := by
  unfold updateConflictDictionary
  rw [h]
  simp only [ConflictDict.addAt, gt_iff_lt, Nat.lt_irrefl, if_false, Nat.zero_lt_one, if_true, bind, Except.bind]
  rw [if_pos ⟨le_refl _, by decide⟩]
  simp only [Except.ok.injEq, Prod.mk.injEq, ConflictDict.mk.injEq, triD, true_and]
  refine ⟨?_, by rfl⟩
  funext l
  by_cases hl : l = 1 <;> simp [hl, insertKey]

/-- One recolouring step that moves the conflict from `last` to `node`. -/
theorem tri_step (col col' : ℕ × ℕ → Option ℕ) (k last node w : ℕ) (c : ℕ) (old : Option ℕ)
    (hav : (triG.adj node).filter (fun w => w ≠ last ∧ col (ekey node w) = some c) = [w])
    (hmem : node ∈ triG.adj last) (hold : col (ekey last node) = old) (hc : setColor col last node (some c) = col')
    (l1 : conflictLevel triG col last = 1) (l2 : conflictLevel triG col node = 0)
    (l3 : conflictLevel triG col' last = 0) (l4 : conflictLevel triG col' node = 1) :
    kempeStep triG (fun _ => 1) ⟨col, k⟩ last node (some c) (triD last) = .ok (⟨col', k + 1⟩, triD node, node, some (w, old)) := by
  unfold kempeStep kempeNext
  simp only [hav, if_pos hmem, choice, bind, Except.bind]
  simp only [List.cons_ne_nil, if_false, List.length_singleton, Nat.mod_one, List.getElem?_cons_zero, colorEdgeAndUpdate, hc, l1, l2]
  simp only [bind, Except.bind, triD_update l3, triD_update' l4, hold]
  rfl

/-- The two colourings of the run: `triP 1` and its complement `triP 0`. -/
def triP (a : ℕ) : ℕ × ℕ → Option ℕ := triC (some a) (some (1 - a)) (some a)

theorem tri_start (a : ℕ) (ha : a = 0 ∨ a = 1) (k f : ℕ) :
    ∃ k', kempeStart triG (fun _ => 1) (f + 4) ⟨triP a, k⟩ 2 1 (triD 1) = .ok (⟨triP (1 - a), k'⟩, triD 1) := by
  refine ⟨k + 1 + 1 + 1 + 1, ?_⟩
  rcases ha with rfl | rfl
  · have s1 := tri_step (triP 0) (triC (some 0) (some 1) (some 1)) (k + 1) 1 2 0 1 (some 0) (by decide) (by decide) (by decide)
      (triC_12 _ _ _ _) (by decide) (by decide) (by decide) (by decide)
    have s2 := tri_step (triC (some 0) (some 1) (some 1)) (triC (some 0) (some 0) (some 1)) (k + 1 + 1) 2 0 1 0 (some 1) (by decide)
      (by decide) (by decide) (triC_20 _ _ _ _) (by decide) (by decide) (by decide) (by decide)
    have s3 := tri_step (triC (some 0) (some 0) (some 1)) (triP 1) (k + 1 + 1 + 1) 0 1 2 1 (some 0) (by decide)
      (by decide) (by decide) (triC_01 _ _ _ _) (by decide) (by decide) (by decide) (by decide)
    unfold kempeStart
    rw [show kempeScan triG (triP 0) 2 1 = ([1], some 2) by decide]
    simp only [choice, bind, Except.bind, List.length_singleton, Nat.mod_one, List.getElem?_cons_zero]
    simp only [kempeProcess, s1, s2, s3, bind, Except.bind]
    rw [if_neg (by decide), if_neg (by decide), if_neg (by decide), if_pos (by decide)]
  · have s1 := tri_step (triP 1) (triC (some 1) (some 0) (some 0)) (k + 1) 1 2 0 0 (some 1) (by decide) (by decide) (by decide)
      (triC_12 _ _ _ _) (by decide) (by decide) (by decide) (by decide)
    have s2 := tri_step (triC (some 1) (some 0) (some 0)) (triC (some 1) (some 1) (some 0)) (k + 1 + 1) 2 0 1 1 (some 0) (by decide)
      (by decide) (by decide) (triC_20 _ _ _ _) (by decide) (by decide) (by decide) (by decide)
    have s3 := tri_step (triC (some 1) (some 1) (some 0)) (triP 0) (k + 1 + 1 + 1) 0 1 2 0 (some 1) (by decide)
      (by decide) (by decide) (triC_01 _ _ _ _) (by decide) (by decide) (by decide) (by decide)
    unfold kempeStart
    rw [show kempeScan triG (triP 1) 2 1 = ([0], some 2) by decide]
    simp only [choice, bind, Except.bind, List.length_singleton, Nat.mod_one, List.getElem?_cons_zero]
    simp only [kempeProcess, s1, s2, s3, bind, Except.bind]
    rw [if_neg (by decide), if_neg (by decide), if_neg (by decide), if_pos (by decide)]

theorem triD_max : maxConflictLevel (triD 1) = .ok 1 := by decide
theorem triD_total : totalNumberOfConflicts (triD 1) = 1 := by decide

/-- The colour after `n` flips. -/
def flips (a : ℕ) : ℕ → ℕ
  | 0 => a
  | n + 1 => flips (1 - a) n

/-- The loop of `heuristic` gives up after `n + 1` more flips. -/
theorem tri_loop (f : ℕ) : ∀ (n a k rep hf : ℕ), (a = 0 ∨ a = 1) → rep + n = 50 → n + 1 ≤ hf →
    ∃ k', heuristicLoop triG (fun _ => 1) (f + 4) 2 50 hf ⟨triP a, k⟩ (triD 1) rep 1 = .ok (false, ⟨triP (flips a (n + 1)), k'⟩) := by
  intro n
  induction n with
  | zero =>
    intro a k rep hf ha hr hhf
    obtain ⟨hf, rfl⟩ : ∃ m, hf = m + 1 := ⟨hf - 1, by omega⟩
    obtain ⟨k', e⟩ := tri_start a ha (k + 1) f
    refine ⟨k', ?_⟩
    have hm : choice (fun _ => 1) k ((triD 1).sets 1) = .ok (1, k + 1) := by simp [choice, triD]
    simp only [heuristicLoop, triD_max, hm, e, bind, Except.bind, triD_total]
    simp only [gt_iff_lt, Nat.zero_lt_one, if_true, one_ne_zero, if_false, ge_iff_le, le_refl]
    rw [if_pos (by omega)]
    rfl
  | succ n ih =>
    intro a k rep hf ha hr hhf
    obtain ⟨hf, rfl⟩ : ∃ m, hf = m + 1 := ⟨hf - 1, by omega⟩
    obtain ⟨k', e⟩ := tri_start a ha (k + 1) f
    obtain ⟨k'', e2⟩ := ih (1 - a) k' (rep + 1) hf (by omega) (by omega) (by omega)
    refine ⟨k'', ?_⟩
    have hm : choice (fun _ => 1) k ((triD 1).sets 1) = .ok (1, k + 1) := by simp [choice, triD]
    simp only [heuristicLoop, triD_max, hm, e, bind, Except.bind, triD_total]
    simp only [gt_iff_lt, Nat.zero_lt_one, if_true, one_ne_zero, if_false, ge_iff_le, le_refl]
    rw [if_neg (by omega)]
    exact e2

theorem tri_heuristic (f k hf : ℕ) (h : 51 ≤ hf) :
    ∃ k', heuristic triG (fun _ => 1) (f + 4) hf 2 50 ⟨triP 1, k⟩ = .ok (false, ⟨triP 0, k'⟩) := by
  have hc : createConflictDictionary triG (triP 1) 2 = .ok (triD 1) := by
    have h0 : conflictLevel triG (triP 1) 0 = 0 := by decide
    have h1 : conflictLevel triG (triP 1) 1 = 1 := by decide
    have h2 : conflictLevel triG (triP 1) 2 = 0 := by decide
    rw [createConflictDictionary, triG_nodes]
    simp only [createLoop, h0, h1, h2, gt_iff_lt, Nat.lt_irrefl, if_false, Nat.zero_lt_one, if_true, bind, Except.bind,
      ConflictDict.addAt]
    simp only [le_refl, Nat.one_lt_two, and_self, if_true, triD, Except.ok.injEq, ConflictDict.mk.injEq, true_and]
    funext l
    by_cases hl : l = 1 <;> simp [hl, insertKey]
  obtain ⟨k', e⟩ := tri_loop f 50 1 k 0 hf (by decide) (by decide) (by omega)
  refine ⟨k', ?_⟩
  unfold heuristic
  simp only [hc, bind, Except.bind, triD_total]
  exact e

theorem tri_pre (col : ℕ × ℕ → Option ℕ) (hcol : ∃ a b c, col = triC a b c) (k : ℕ) :
    ∃ k', preColoring triG (fun _ => 1) 2 ⟨col, k⟩ = .ok ⟨triP 1, k'⟩ := by
  obtain ⟨a, b, c, rfl⟩ := hcol
  refine ⟨k + 1 + 1 + 1, ?_⟩
  unfold preColoring clearColors
  rw [triG_edges]
  simp only [List.foldl_cons, List.foldl_nil, triC_01, triC_02, triC_12]
  have a1 : availableColors triG (triC none none none) 2 (0, 1) = [0, 1] := by decide
  have a2 : availableColors triG (triC (some 1) none none) 2 (0, 2) = [0] := by decide
  have a3 : availableColors triG (triC (some 1) (some 0) none) 2 (1, 2) = [] := by decide
  have c1 : choice (fun _ => 1) k [0, 1] = .ok (1, k + 1) := by rfl
  have c2 : choice (fun _ => 1) (k + 1) [0] = .ok (0, k + 1 + 1) := by simp [choice]
  have c3 : randint0 (fun _ => 1) (k + 1 + 1) 2 = .ok (1, k + 1 + 1 + 1) := by rfl
  simp only [greedyLoop, a1, c1, List.cons_ne_nil, if_false, bind, Except.bind, triC_01, a2, c2, triC_02, a3, c3, if_true, triC_12]
  rfl

theorem tri_apply (f hf : ℕ) (h : 51 ≤ hf) : ∀ (n iters k fl : ℕ), iters + n = 51 → n + 1 ≤ fl →
    ∃ k', applyLoop triG (fun _ => 1) (f + 4) hf 2 50 50 fl iters ⟨triP 1, k⟩ = .ok ⟨triP 0, k'⟩ := by
  intro n
  induction n with
  | zero =>
    intro iters k fl hi hfl
    obtain ⟨fl, rfl⟩ : ∃ m, fl = m + 1 := ⟨fl - 1, by omega⟩
    obtain ⟨k1, e1⟩ := tri_heuristic f k hf h
    refine ⟨k1, ?_⟩
    simp only [applyLoop, e1, bind, Except.bind]
    rw [if_neg (by decide), if_pos (by omega)]
  | succ n ih =>
    intro iters k fl hi hfl
    obtain ⟨fl, rfl⟩ : ∃ m, fl = m + 1 := ⟨fl - 1, by omega⟩
    obtain ⟨k1, e1⟩ := tri_heuristic f k hf h
    obtain ⟨k2, e2⟩ := tri_pre (triP 0) ⟨_, _, _, rfl⟩ k1
    obtain ⟨k3, e3⟩ := ih (iters + 1) k2 fl (by omega) (by omega)
    refine ⟨k3, ?_⟩
    simp only [applyLoop, e1, bind, Except.bind]
    rw [if_neg (by decide), if_neg (by omega)]
    simp only [e2]
    exact e3

theorem tri_result : (fromEdgelist [(0, 1), (1, 2), (2, 0)]).edges.filter (fun e => decide (triP 0 (ekey e.1 e.2) = some 0)) =
    [(0, 1), (1, 2)] := by decide

/-- C60 is false for odd rings: on the triangle of bonds 01, 12, 20 there are random choices for which two bonds sharing qubit 1
are returned, however large the iteration budget. -/
theorem C60_odd_ring_overlaps : ∃ rs : ℕ → ℕ, ∀ fuel, 55 ≤ fuel →
    getCommutingSet rs fuel [(0, 1), (1, 2), (2, 0)] = .ok [(0, 1), (1, 2)] ∧ ¬ Matching [(0, 1), (1, 2)] := by
  refine ⟨fun _ => 1, ?_⟩
  intro fuel hf
  refine ⟨?_, by simp [Matching, DisjointEdges]⟩
  obtain ⟨f, rfl⟩ : ∃ f, fuel = f + 4 := ⟨fuel - 4, by omega⟩
  unfold getCommutingSet
  simp only
  rw [if_neg (by decide)]
  change (do let x ← applyHeuristic triG _ _ 2 50 50 _; _) = _
  have h0 : (fun _ => none : ℕ × ℕ → Option ℕ) = triC none none none := by
    funext k; simp [triC]
  obtain ⟨k1, e1⟩ := tri_pre (fun _ => none) ⟨_, _, _, h0⟩ 0
  obtain ⟨k2, e2⟩ := tri_apply f (f + 4) (by omega) 50 1 k1 (f + 4) (by omega) (by omega)
  simp only [applyHeuristic, e1, e2, bind, Except.bind]
  exact congrArg Except.ok tri_result

end Oranssi
