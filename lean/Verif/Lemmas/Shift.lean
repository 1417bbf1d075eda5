import Verif.Spec.Shift
import Verif.Props.Adapt
import Verif.Lemmas.Rotosolve
import Mathlib.Analysis.SpecialFunctions.Trigonometric.Deriv

/-! # One angle of an AdaptVQE circuit -/

namespace Oranssi
open Spec
open scoped Matrix

variable {n : ℕ}

/-- A list depending on `t` that holds `r t` at one place and does not depend on `t` elsewhere; or does not depend on `t` at all. -/
def OnePlace {α : Type} (r : ℝ → α) (F : ℝ → List α) : Prop :=
  (∃ l, ∀ t, F t = l) ∨ (∃ l₁ l₂, ∀ t, F t = l₁ ++ r t :: l₂)

theorem set_onePlace (l : List ℝ) (i : ℕ) : OnePlace id (fun t => l.set i t) := by
  by_cases hi : i < l.length
  · exact Or.inr ⟨l.take i, l.drop (i + 1), fun t => by dsimp only; rw [List.set_eq_take_append_cons_drop, if_pos hi]; rfl⟩
  · exact Or.inl ⟨l, fun t => List.set_eq_of_length_le (by omega)⟩

theorem angles_onePlace (k : LayerKind) (ps : List ℝ) (hps : ps.length = n) (hk : (LayerKind.odd.sites n).length - 1 ≤ n - 1) (i : ℕ) :
    OnePlace id (fun t => k.angles n (ps.set i t)) := by
  cases k with
  | single => exact set_onePlace ps i
  | even => exact set_onePlace ps i
  | odd =>
    simp only [LayerKind.angles]
    set s := (LayerKind.odd.sites n).length - 1
    have hlast : ∀ t, (ps.set i t).getLastD 0 = if i = n - 1 ∧ i < n then t else ps.getD (n - 1) 0 := by
      intro t
      rw [List.getLastD_eq_getLast?, List.getLast?_eq_getElem?, List.length_set, hps, List.getElem?_set]
      by_cases h : i = n - 1
      · rw [if_pos h]
        by_cases h2 : i < n
        · rw [if_pos (by omega), if_pos ⟨h, h2⟩]; rfl
        · rw [if_neg (by omega), if_neg (by tauto), List.getD, List.getElem?_eq_none (by omega)]
      · rw [if_neg h, if_neg (by tauto)]; rfl
    simp only [hlast]
    by_cases h1 : i = n - 1 ∧ i < n
    · refine Or.inr ⟨ps.take s, [], fun t => ?_⟩
      dsimp only
      rw [if_pos h1, List.take_set, List.set_eq_of_length_le (by rw [List.length_take]; omega)]
      rfl
    · rcases set_onePlace (ps.take s) i with ⟨l, h⟩ | ⟨l₁, l₂, h⟩ <;> dsimp only at h
      · exact Or.inl ⟨l ++ [ps.getD (n - 1) 0], fun t => by dsimp only; rw [if_neg h1, List.take_set, h t]⟩
      · exact Or.inr ⟨l₁, l₂ ++ [ps.getD (n - 1) 0], fun t => by dsimp only; rw [if_neg h1, List.take_set, h t]; simp⟩

theorem zipWith_onePlace {β γ : Type} (b : β) (z : ℝ → β → γ) {F : ℝ → List ℝ} (hF : OnePlace id F) (l : List β) :
    ∃ q, OnePlace (fun t => z t q) (fun t => List.zipWith z (F t) l) := by
  rcases hF with ⟨m, h⟩ | ⟨l₁, l₂, h⟩
  · exact ⟨b, Or.inl ⟨_, fun t => by dsimp only; rw [h t]⟩⟩
  · by_cases hl : l₁.length < l.length
    · refine ⟨l[l₁.length], Or.inr ⟨List.zipWith z l₁ (l.take l₁.length), List.zipWith z l₂ (l.drop (l₁.length + 1)), fun t => ?_⟩⟩
      dsimp only
      rw [h t]
      conv_lhs => rw [← List.take_append_drop l₁.length l, List.drop_eq_getElem_cons hl]
      rw [List.zipWith_append (by rw [List.length_take]; omega), List.zipWith_cons_cons]
      rfl
    · refine ⟨b, Or.inl ⟨List.zipWith z l₁ l, fun t => ?_⟩⟩
      dsimp only
      rw [h t]
      apply List.ext_getElem
      · simp; omega
      · intro k hk1 hk2
        have : k < l₁.length := by simp at hk2; omega
        simp [List.getElem_append_left this]

theorem append_onePlace {α : Type} {r : ℝ → α} {F : ℝ → List α} (hF : OnePlace r F) (l₁ l₂ : List α) : OnePlace r (fun t => l₁ ++ F t ++ l₂) := by
  rcases hF with ⟨m, h⟩ | ⟨m₁, m₂, h⟩
  · exact Or.inl ⟨l₁ ++ m ++ l₂, fun t => by dsimp only; rw [h t]⟩
  · exact Or.inr ⟨l₁ ++ m₁, m₂ ++ l₂, fun t => by dsimp only; rw [h t]; simp⟩

theorem odd_sites_length (n : ℕ) : (LayerKind.odd.sites n).length - 1 ≤ n - 1 := by
  rw [LayerKind.sites, List.length_append, List.length_map, List.length_singleton, Nat.add_sub_cancel]
  cases n with
  | zero => simp
  | succ m =>
    rw [List.range_succ_eq_map, List.filter_cons_of_neg (by simp)]
    exact (List.length_filter_le _ _).trans (by simp)

/-- Of all rotations of the circuit, at most one depends on the angle in row `j` and column `i`, and it is the rotation by that angle. -/
theorem rots_onePlace (cs : List (List Letter × LayerKind)) (θ : List (List ℝ)) (hps : ∀ ps ∈ θ, ps.length = n) (j i : ℕ) :
    ∃ w q, OnePlace (fun t => rotOp n t w q) (fun t => (List.zipWith (layerRots n) cs (setAngle θ j i t)).flatten) := by
  by_cases hj : j < θ.length ∧ j < cs.length
  · obtain ⟨h1, h2⟩ := hj
    have hrow : (θ.getD j []) = θ[j] := by rw [List.getD_eq_getElem _ _ h1]
    obtain ⟨q, hq⟩ := zipWith_onePlace [] (fun θ q => rotOp n θ cs[j].1 q)
      (angles_onePlace cs[j].2 θ[j] (hps _ (List.getElem_mem h1)) (odd_sites_length n) i) (cs[j].2.sites n)
    refine ⟨cs[j].1, q, ?_⟩
    have := append_onePlace hq (List.zipWith (layerRots n) (cs.take j) (θ.take j)).flatten (List.zipWith (layerRots n) (cs.drop (j + 1)) (θ.drop (j + 1))).flatten
    convert this using 2 with t
    conv_lhs => rw [setAngle, hrow, List.set_eq_take_append_cons_drop, if_pos h1, ← List.take_append_drop j cs, List.drop_eq_getElem_cons h2]
    rw [List.zipWith_append (by rw [List.length_take, List.length_take]; omega), List.zipWith_cons_cons, List.flatten_append, List.flatten_cons, List.append_assoc]
    rfl
  · refine ⟨[], [], Or.inl ⟨(List.zipWith (layerRots n) cs θ).flatten, fun t => ?_⟩⟩
    dsimp only
    refine congrArg List.flatten ?_
    apply List.ext_getElem
    · simp [setAngle]
    · intro k hk1 hk2
      simp only [List.length_zipWith] at hk2
      simp only [List.getElem_zipWith, setAngle]
      rw [List.getElem_set_ne]
      omega

theorem cost_left (H B X : QMat n) : cost H (B * X) = cost (Bᴴ * H * B) X := by
  have h : (fun i => (B * X) i 0) = B *ᵥ (fun i => X i 0) := rfl
  rw [cost, cost, h, Matrix.star_mulVec, ← Matrix.dotProduct_mulVec, Matrix.mulVec_mulVec, Matrix.mulVec_mulVec]

theorem rotOp_exp_half (t : ℝ) (w : List Letter) (q : List ℕ) :
    rotOp n t w q = NormedSpace.exp ((-Complex.I * ((t / 2 : ℝ) : ℂ)) • pauliWord (placed n w q)) := by
  rw [exp_neg_I_smul_involution _ (pauliWord_sq _), rotOp]

/-- The cost as a function of one angle is a sinusoid with period `2π`. -/
theorem cost_onePlace (H W : QMat n) {w : List Letter} {q : List ℕ} {F : ℝ → List (QMat n)} (hF : OnePlace (fun t => rotOp n t w q) F) :
    ∃ a b c : ℝ, ∀ t, cost H (inOrder (F t) * W) = a + b * Real.cos t + c * Real.sin t := by
  rcases hF with ⟨l, h⟩ | ⟨l₁, l₂, h⟩
  · exact ⟨cost H (inOrder l * W), 0, 0, fun t => by rw [h t]; ring⟩
  · obtain ⟨a, b, c, habc⟩ := cost_rotation ((inOrder l₂)ᴴ * H * inOrder l₂) (pauliWord (placed n w q)) (inOrder l₁ * W) (pauliWord_sq _)
    refine ⟨a, b, c, fun t => ?_⟩
    have e : inOrder (F t) * W = inOrder l₂ * (rotOp n t w q * (inOrder l₁ * W)) := by
      rw [h t, inOrder_append, show rotOp n t w q :: l₂ = [rotOp n t w q] ++ l₂ from rfl, inOrder_append]
      simp only [Matrix.mul_assoc]
      simp [inOrder]
    rw [e, cost_left, rotOp_exp_half, habc, show 2 * (t / 2) = t by ring]

theorem sinusoid_shift (a b c t : ℝ) : HasDerivAt (fun t => a + b * Real.cos t + c * Real.sin t)
    (((a + b * Real.cos (t + Real.pi / 2) + c * Real.sin (t + Real.pi / 2)) - (a + b * Real.cos (t - Real.pi / 2) + c * Real.sin (t - Real.pi / 2))) / 2) t := by
  have h := (((Real.hasDerivAt_cos t).const_mul b).const_add a).add ((Real.hasDerivAt_sin t).const_mul c)
  refine h.congr_deriv ?_
  rw [Real.cos_add_pi_div_two, Real.sin_add_pi_div_two, Real.cos_sub_pi_div_two, Real.sin_sub_pi_div_two]
  ring

end Oranssi
