import Verif.Lemmas.EdgeColoring

/-! # A larger iteration budget does not change the result -/

namespace Oranssi
open Spec

theorem bind_mono {α β : Type} {x x' : Py α} {f f' : α → Py β} (hx : x' = x) (hn : NoDiv (x >>= f))
    (hf : ∀ a, x = .ok a → NoDiv (f a) → f' a = f a) : (x' >>= f') = (x >>= f) := by
  subst hx
  cases x' with
  | error e => rfl
  | ok a => exact hf a rfl hn

theorem noDiv_left {α β : Type} {x : Py α} {f : α → Py β} (hn : NoDiv (x >>= f)) : NoDiv x := by
  intro h
  subst h
  exact hn rfl

theorem process_mono (G : Graph) (rs : ℕ → ℕ) : ∀ (f f' : ℕ), f ≤ f' → ∀ (st : EC) (cd : ConflictDict) (chain : List ℕ)
    (last : ℕ) (nxt : Option (ℕ × Option ℕ)), NoDiv (kempeProcess G rs f st cd chain last nxt) →
    kempeProcess G rs f' st cd chain last nxt = kempeProcess G rs f st cd chain last nxt := by
  intro f
  induction f with
  | zero => intro f' _ st cd chain last nxt h; exact absurd rfl h
  | succ f ih =>
    intro f' hf st cd chain last nxt h
    obtain ⟨g, rfl⟩ : ∃ g, f' = g + 1 := ⟨f' - 1, by omega⟩
    rcases nxt with _ | ⟨node, _ | c⟩
    · rfl
    · rfl
    · simp only [kempeProcess] at h ⊢
      split
      · rfl
      · rename_i hl
        rw [if_neg hl] at h
        refine bind_mono rfl h ?_
        rintro ⟨st', cd', last', nxt'⟩ - h2
        exact ih g (by omega) _ _ _ _ _ h2

theorem start_mono (G : Graph) (rs : ℕ → ℕ) (f f' : ℕ) (hf : f ≤ f') (st : EC) (D node : ℕ) (cd : ConflictDict)
    (h : NoDiv (kempeStart G rs f st D node cd)) : kempeStart G rs f' st D node cd = kempeStart G rs f st D node cd := by
  unfold kempeStart at h ⊢
  split
  · rfl
  · rename_i a ha
    simp only [ha] at h
    refine bind_mono rfl h ?_
    rintro ⟨c, k⟩ - h2
    exact process_mono G rs f f' hf _ _ _ _ _ h2

theorem heuristicLoop_mono (G : Graph) (rs : ℕ → ℕ) (pf pf' : ℕ) (hpf : pf ≤ pf') (D : ℕ) (rl : ℤ) :
    ∀ (f f' : ℕ), f ≤ f' → ∀ (st : EC) (cd : ConflictDict) (rep prev : ℕ),
    NoDiv (heuristicLoop G rs pf D rl f st cd rep prev) →
    heuristicLoop G rs pf' D rl f' st cd rep prev = heuristicLoop G rs pf D rl f st cd rep prev := by
  intro f
  induction f with
  | zero => intro f' _ st cd rep prev h; exact absurd rfl h
  | succ f ih =>
    intro f' hf st cd rep prev h
    obtain ⟨g, rfl⟩ : ∃ g, f' = g + 1 := ⟨f' - 1, by omega⟩
    unfold heuristicLoop at h ⊢
    by_cases hp : prev > 0
    · rw [if_pos hp] at h ⊢
      rw [if_pos hp]
      refine bind_mono rfl h ?_
      intro m _ h2
      refine bind_mono rfl h2 ?_
      rintro ⟨node, k⟩ _ h3
      refine bind_mono (start_mono G rs pf pf' hpf _ _ _ _ (noDiv_left h3)) h3 ?_
      rintro ⟨st', cd'⟩ _ h4
      simp only at h4 ⊢
      split
      · rfl
      · rename_i c0
        rw [if_neg c0] at h4
        split
        · rename_i c1
          rw [if_pos c1] at h4
          split
          · rfl
          · rename_i c2
            rw [if_neg c2] at h4
            exact ih g (by omega) _ _ _ _ h4
        · rename_i c1
          rw [if_neg c1] at h4
          exact ih g (by omega) _ _ _ _ h4
    · rw [if_neg hp, if_neg hp]

theorem heuristic_mono (G : Graph) (rs : ℕ → ℕ) (pf pf' hf hf' : ℕ) (hpf : pf ≤ pf') (hhf : hf ≤ hf') (D : ℕ) (rl : ℤ) (st : EC)
    (h : NoDiv (heuristic G rs pf hf D rl st)) : heuristic G rs pf' hf' D rl st = heuristic G rs pf hf D rl st := by
  unfold heuristic at h ⊢
  refine bind_mono rfl h ?_
  intro cd _ h2
  exact heuristicLoop_mono G rs pf pf' hpf D rl hf hf' hhf _ _ _ _ h2

theorem applyLoop_mono (G : Graph) (rs : ℕ → ℕ) (pf pf' hf hf' : ℕ) (hpf : pf ≤ pf') (hhf : hf ≤ hf') (D : ℕ) (rl il : ℤ) :
    ∀ (f f' : ℕ), f ≤ f' → ∀ (iters : ℕ) (st : EC), NoDiv (applyLoop G rs pf hf D rl il f iters st) →
    applyLoop G rs pf' hf' D rl il f' iters st = applyLoop G rs pf hf D rl il f iters st := by
  intro f
  induction f with
  | zero => intro f' _ iters st h; exact absurd rfl h
  | succ f ih =>
    intro f' hf2 iters st h
    obtain ⟨g, rfl⟩ : ∃ g, f' = g + 1 := ⟨f' - 1, by omega⟩
    unfold applyLoop at h ⊢
    refine bind_mono (heuristic_mono G rs pf pf' hf hf' hpf hhf D rl st (noDiv_left h)) h ?_
    rintro ⟨ok, st'⟩ _ h2
    simp only at h2 ⊢
    split
    · rfl
    · rename_i c0
      rw [if_neg c0] at h2
      split
      · rfl
      · rename_i c1
        rw [if_neg c1] at h2
        refine bind_mono rfl h2 ?_
        intro st'' _ h3
        exact ih g (by omega) _ _ h3

theorem applyHeuristic_mono (G : Graph) (rs : ℕ → ℕ) (f f' : ℕ) (hf : f ≤ f') (D : ℕ) (rl il : ℤ) (st : EC)
    (h : NoDiv (applyHeuristic G rs f D rl il st)) : applyHeuristic G rs f' D rl il st = applyHeuristic G rs f D rl il st := by
  unfold applyHeuristic at h ⊢
  refine bind_mono rfl h ?_
  intro st1 _ h2
  refine bind_mono (applyLoop_mono G rs f f' f f' hf hf D rl il f f' hf _ _ (noDiv_left h2)) h2 ?_
  intro st2 _ _
  rfl

end Oranssi
