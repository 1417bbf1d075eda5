import Verif.Model.Greedy
import Verif.Spec.Select
import Verif.Spec.Cost
import Verif.Props.Descent
import Verif.Lemmas.Rotosolve

/-! Lemmas on the greedy layers. -/

namespace Oranssi
open scoped Matrix
open Spec

theorem foldl_firstMax {α : Type} (f : α → ℝ) : ∀ (l : List α) (l₀ : List α) (x : α), (∀ y ∈ l₀, f y < f x) →
    ∀ m, (∀ y ∈ m, f y ≤ f x) →
    IsFirstMax f (l₀ ++ x :: m ++ l) (l.foldl (fun best y => @ite _ (f y > f best) (Classical.propDecidable _) y best) x)
  | [], l₀, x, h, m, hm => ⟨l₀, m, by simp, h, hm⟩
  | y :: l, l₀, x, h, m, hm => by
    rw [List.foldl_cons]
    by_cases hy : f y > f x
    · rw [if_pos hy]
      have := foldl_firstMax f l (l₀ ++ x :: m) y (by
        intro z hz
        rcases List.mem_append.1 hz with hz | hz
        · exact (h z hz).trans hy
        · rcases List.mem_cons.1 hz with rfl | hz
          · exact hy
          · exact (hm z hz).trans_lt hy) [] (by simp)
      simpa using this
    · rw [if_neg hy]
      have := foldl_firstMax f l l₀ x h (m ++ [y]) (by
        intro z hz
        rcases List.mem_append.1 hz with hz | hz
        · exact hm z hz
        · rw [List.mem_singleton.1 hz]; exact not_lt.1 hy)
      simpa using this

/-- `max(d, key=d.get)` is the first key with the largest value. -/
theorem pyArgmax_spec {K : Type} (l : List (K × ℝ)) (hl : l ≠ []) : ∃ e, pyArgmax l = .ok e.1 ∧ IsFirstMax Prod.snd l e := by
  cases l with
  | nil => exact absurd rfl hl
  | cons e es =>
    refine ⟨_, rfl, ?_⟩
    have := foldl_firstMax (fun e : K × ℝ => e.2) es [] e (by simp) [] (by simp)
    simpa using this

theorem isFirstMax_map {α β : Type} (g : α → β) (f : β → ℝ) (l : List α) (y : β) (h : IsFirstMax f (l.map g) y) :
    ∃ x, y = g x ∧ IsFirstMax (fun a => f (g a)) l x := by
  obtain ⟨l₁, l₂, e, h1, h2⟩ := h
  obtain ⟨m₁, m, rfl, rfl, hm⟩ := List.map_eq_append_iff.1 e
  obtain ⟨x, m₂, rfl, rfl, rfl⟩ := List.map_eq_cons_iff.1 hm
  exact ⟨x, rfl, m₁, m₂, rfl, fun a ha => h1 _ (List.mem_map_of_mem ha), fun a ha => h2 _ (List.mem_map_of_mem ha)⟩

theorem Spec.IsFirstMax.mem {α : Type} {f : α → ℝ} {l : List α} {x : α} (h : IsFirstMax f l x) : x ∈ l := by
  obtain ⟨l₁, l₂, rfl, -⟩ := h; simp

theorem Spec.IsFirstMax.le {α : Type} {f : α → ℝ} {l : List α} {x : α} (h : IsFirstMax f l x) : ∀ y ∈ l, f y ≤ f x := by
  obtain ⟨l₁, l₂, rfl, h1, h2⟩ := h
  intro y hy
  rcases List.mem_append.1 hy with hy | hy
  · exact (h1 y hy).le
  · rcases List.mem_cons.1 hy with rfl | hy
    · exact le_refl _
    · exact h2 y hy

theorem omegaSum_foldl {n : ℕ} (φ : Ket n) (P : QMat n) : ∀ (os : List (QMat n)) (acc : ℝ),
    os.foldl (fun acc o => acc + (omegaC φ P o).im) acc = acc + (omegaC φ P os.sum).im
  | [], acc => by simp [omegaC_zero]
  | o :: os, acc => by
    rw [List.foldl_cons, omegaSum_foldl φ P os, List.sum_cons, omegaC_add, Complex.add_im]
    ring

/-- The gradient computed by the greedy layers. -/
theorem omegaSum_grad {n : ℕ} (U P : QMat n) (gs : List (Gate n)) :
    omegaSum (stateFromUnitary U) (gs.map (fun g => full n g.ws g.A)) P = grad (totalObs gs) U P := by
  rw [omegaSum, omegaSum_foldl, zero_add]
  rfl

/-- Selecting the largest gradient from a part of a dictionary. -/
theorem argmax_dict {n : ℕ} (U : QMat n) (gs : List (Gate n)) (d : List (Key × QMat n)) (hd : d ≠ []) :
    ∃ e, pyArgmax (absOmegas (stateFromUnitary U) (gs.map (fun g => full n g.ws g.A)) d) = .ok e.1 ∧
      IsFirstMax (fun e : Key × QMat n => |grad (totalObs gs) U e.2|) d e := by
  obtain ⟨e, h1, h2⟩ := pyArgmax_spec (absOmegas (stateFromUnitary U) (gs.map (fun g => full n g.ws g.A)) d) (by
    simpa [absOmegas] using hd)
  obtain ⟨x, rfl, h3⟩ := isFirstMax_map _ _ _ _ h2
  refine ⟨x, h1, ?_⟩
  simpa only [omegaSum_grad] using h3

end Oranssi
