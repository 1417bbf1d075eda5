import Verif.Spec.Flags
import Verif.Lemmas.SameRay

/-! # Tools for C84 -/

namespace Oranssi
open Spec

variable {ε α β γ δ : Type}

theorem Spec.Refines.bind {R : α → β → Prop} {S : γ → δ → Prop} {x : Except ε α} {y : Except ε β} {f : α → Except ε γ} {g : β → Except ε δ}
    (h : Refines R x y) (hf : ∀ a b, R a b → Refines S (f a) (g b)) : Refines S (x >>= f) (y >>= g) := by
  intro c hc
  cases x with
  | error e => cases hc
  | ok a =>
    obtain ⟨b, rfl, hR⟩ := h a rfl
    exact hf a b hR c hc

theorem Spec.Refines.bind_eq {S : γ → δ → Prop} (x : Except ε α) {f : α → Except ε γ} {g : α → Except ε δ}
    (hf : ∀ a, x = .ok a → Refines S (f a) (g a)) : Refines S (x >>= f) (x >>= g) := by
  intro c hc
  cases x with
  | error e => cases hc
  | ok a => exact hf a rfl c hc

theorem Spec.Refines.left {S : γ → δ → Prop} (x : Except ε α) {f : α → Except ε γ} {y : Except ε δ}
    (hf : ∀ a, x = .ok a → Refines S (f a) y) : Refines S (x >>= f) y := by
  intro c hc
  cases x with
  | error e => cases hc
  | ok a => exact hf a rfl c hc

theorem Spec.Refines.pure {S : γ → δ → Prop} {a : γ} {b : δ} (h : S a b) : Refines S (.ok a : Except ε γ) (.ok b) := by
  intro c hc
  cases hc
  exact ⟨b, rfl, h⟩

theorem Spec.Refines.forRange {σ τ : Type} {R : σ → τ → Prop} {f : ℕ → σ → Py (σ × Bool)} {g : ℕ → τ → Py (τ × Bool)}
    (h : ∀ k s t, R s t → Refines (fun a b => R a.1 b.1 ∧ a.2 = b.2) (f k s) (g k t)) :
    ∀ (r k : ℕ) (s : σ) (t : τ), R s t → Refines R (pyForRange f k r s) (pyForRange g k r t)
  | 0, _, _, _, hs => .pure hs
  | r + 1, k, s, t, hs => by
    rw [pyForRange, pyForRange]
    refine (h k s t hs).bind ?_
    rintro ⟨s', b⟩ ⟨t', c⟩ ⟨hst, hbc⟩
    dsimp only at hbc hst ⊢
    subst hbc
    cases b with
    | true => exact .pure hst
    | false => exact Refines.forRange h r (k + 1) s' t' hst

/-- The items of a return value; a bare list of costs is a single item. -/
def outItems (mk : List ℝ → α) : OptOut α → List α
  | .bare c => [mk c]
  | .tuple l => l

/-- The items that are selected by the flags. -/
def selItems (xs : List α) (fs : List Bool) : List α := ((xs.zip fs).filter (fun p => p.2)).map Prod.fst

theorem selItems_false : ∀ (xs : List α) (fs : List Bool), (fs.map (fun b => if b then 1 else 0)).sum < 1 → selItems xs fs = []
  | [], _, _ => by simp [selItems]
  | _ :: _, [], _ => by simp [selItems]
  | x :: xs, b :: fs, h => by
    cases b with
    | true =>
      rw [List.map_cons, List.sum_cons, if_pos rfl] at h
      omega
    | false =>
      have := selItems_false xs fs (by simpa using h)
      simpa [selItems] using this

theorem outItems_selectOut (mk : List ℝ → α) (costs : List ℝ) (xs : List α) (fs : List Bool) :
    outItems mk (selectOut costs (mk costs :: xs) (true :: fs)) = mk costs :: selItems xs fs := by
  rw [selectOut]
  split
  · rename_i h
    rw [selItems_false xs fs (by simpa using h)]
    rfl
  · simp [outItems, selItems]

theorem mem_selItems : ∀ {xs : List α} {fs : List Bool} {x : α}, x ∈ selItems xs fs → ∃ i : ℕ, xs[i]? = some x ∧ fs[i]? = some true
  | [], _, x, h => by simp [selItems] at h
  | _ :: _, [], x, h => by simp [selItems] at h
  | y :: xs, b :: fs, x, h => by
    cases b with
    | true =>
      have h' : x = y ∨ x ∈ selItems xs fs := by simpa [selItems] using h
      rcases h' with rfl | h'
      · exact ⟨0, rfl, rfl⟩
      · obtain ⟨i, h1, h2⟩ := mem_selItems h'
        exact ⟨i + 1, by simpa using h1, by simpa using h2⟩
    | false =>
      have h' : x ∈ selItems xs fs := by simpa [selItems] using h
      obtain ⟨i, h1, h2⟩ := mem_selItems h'
      exact ⟨i + 1, by simpa using h1, by simpa using h2⟩

/-- Selections agree if the items that both select are equal. -/
theorem selectOut_agree (mk : List ℝ → α) (kind : α → ℕ) (costs : List ℝ) (xs ys : List α) (fs gs : List Bool)
    (hmk : kind (mk costs) = 0) (hx : ∀ (i : ℕ) x, xs[i]? = some x → kind x = i + 1) (hy : ∀ (i : ℕ) y, ys[i]? = some y → kind y = i + 1)
    (h : ∀ (i : ℕ) x y, xs[i]? = some x → ys[i]? = some y → fs[i]? = some true → gs[i]? = some true → x = y) :
    Agree kind (outItems mk (selectOut costs (mk costs :: xs) (true :: fs))) (outItems mk (selectOut costs (mk costs :: ys) (true :: gs))) := by
  rw [outItems_selectOut, outItems_selectOut]
  refine ⟨rfl, fun x hx' y hy' hk => ?_⟩
  rcases List.mem_cons.1 hx' with rfl | hx' <;> rcases List.mem_cons.1 hy' with rfl | hy'
  · rfl
  · obtain ⟨j, h1, -⟩ := mem_selItems hy'
    rw [hmk, hy j y h1] at hk
    omega
  · obtain ⟨i, h1, -⟩ := mem_selItems hx'
    rw [hmk, hx i x h1] at hk
    omega
  · obtain ⟨i, h1, h2⟩ := mem_selItems hx'
    obtain ⟨j, h3, h4⟩ := mem_selItems hy'
    rw [hx i x h1, hy j y h3] at hk
    obtain rfl : i = j := by omega
    exact h i x y h1 h3 h2 h4

end Oranssi
