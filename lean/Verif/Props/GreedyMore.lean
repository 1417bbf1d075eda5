import Verif.Props.Greedy

/-! # C38: a call of the squared layer that raises the cost -/

namespace Oranssi
open scoped Matrix
open Spec

theorem IsFirstMax_unique {α : Type} {f : α → ℝ} {l : List α} {x y : α} (hx : IsFirstMax f l x) (hy : IsFirstMax f l y) : x = y := by
  obtain ⟨a₁, a₂, rfl, h1, h2⟩ := hx
  obtain ⟨b₁, b₂, e, h3, h4⟩ := hy
  rcases List.append_eq_append_iff.1 e with ⟨c, rfl, h⟩ | ⟨c, rfl, h⟩
  · cases c with
    | nil => simp at h; exact h.1
    | cons z c =>
      simp only [List.cons_append, List.cons.injEq] at h
      obtain ⟨rfl, rfl⟩ := h
      have := h3 x (by simp)
      have := h2 y (by simp)
      linarith
  · cases c with
    | nil => simp at h; exact h.1.symm
    | cons z c =>
      simp only [List.cons_append, List.cons.injEq] at h
      obtain ⟨rfl, rfl⟩ := h
      have := h1 y (by simp)
      have := h4 x (by simp)
      linarith

theorem sum_four (f : Fin (2 ^ 2) → ℂ) : ∑ i, f i = f 0 + f 1 + f 2 + f 3 := Fin.sum_univ_four f

theorem word2 (w : Fin 2 → Letter) (i j : Fin (2 ^ 2)) : pauliWord w i j =
    (w 0).mat ⟨i / 2 % 2, Nat.mod_lt _ (by decide)⟩ ⟨j / 2 % 2, Nat.mod_lt _ (by decide)⟩ *
      (w 1).mat ⟨i % 2, Nat.mod_lt _ (by decide)⟩ ⟨j % 2, Nat.mod_lt _ (by decide)⟩ := by
  simp [pauliWord, tensor, Fin.prod_univ_two, bit]

/-- The observable Z on qubit 0 of two qubits. -/
noncomputable def obsZ0 : Gate 2 := ⟨[0], pauliWord (n := 1) [Letter.Z].get, by simp, by simp, by simp⟩

theorem obsZ0_total : totalObs [obsZ0] = pauliWord (placed 2 [.Z] [0]) := by
  rw [← full_placed (w := [Letter.Z]) (qs := [0]) rfl (by decide)]
  simp [totalObs, obsZ0]

/-- X on both qubits. -/
noncomputable def xx : QMat 2 := pauliWord (placed 2 [.X, .X] [0, 1])

/-- The circuit `exp(-iπ/4 XX)`. -/
noncomputable def uBad : QMat 2 := NormedSpace.exp ((-Complex.I * ((Real.pi / 4 : ℝ) : ℂ)) • xx)

theorem xx_sq : xx * xx = 1 := pauliWord_sq _

theorem exp_col (α : ℝ) (i : Fin (2 ^ 2)) : NormedSpace.exp ((-Complex.I * (α : ℂ)) • xx) i 0 =
    if i = 0 then (Real.cos α : ℂ) else if i = 3 then -Complex.I * Real.sin α else 0 := by
  rw [exp_neg_I_smul_involution _ xx_sq, Matrix.sub_apply, Matrix.smul_apply, Matrix.smul_apply, xx, word2]
  have : ∀ i : Fin 4, (i = 0 ∨ i = 1) ∨ (i = 2 ∨ i = 3) := by decide
  rcases this i with (rfl | rfl) | (rfl | rfl) <;> simp [placed, Letter.mat, Matrix.one_apply]

theorem z0_entry (i j : Fin (2 ^ 2)) : pauliWord (placed 2 [.Z] [0]) i j = if i = j then (if i.val < 2 then 1 else -1) else 0 := by
  rw [word2]
  have : ∀ i : Fin 4, (i = 0 ∨ i = 1) ∨ (i = 2 ∨ i = 3) := by decide
  rcases this i with (rfl | rfl) | (rfl | rfl) <;> rcases this j with (rfl | rfl) | (rfl | rfl) <;> simp [placed, Letter.mat]

theorem cost_exp (α : ℝ) : cost (totalObs [obsZ0]) (NormedSpace.exp ((-Complex.I * (α : ℂ)) • xx)) = Real.cos (2 * α) := by
  rw [obsZ0_total, cost]
  simp only [exp_col]
  simp only [dotProduct, Matrix.mulVec, sum_four, z0_entry]
  simp [Real.cos_two_mul, Complex.cos_ofReal_re, Complex.sin_ofReal_re]
  have := Real.sin_sq_add_cos_sq α
  nlinarith

theorem grad_bad (P : QMat 2) : grad (totalObs [obsZ0]) uBad P = (P 0 3 + P 3 0).re := by
  rw [obsZ0_total, grad, uBad]
  simp only [exp_col]
  simp only [dotProduct, Matrix.mulVec, Matrix.sub_apply, Matrix.mul_apply, sum_four, z0_entry]
  simp
  have : √2 * √2 = 2 := Real.mul_self_sqrt (by norm_num)
  linear_combination (((P 0 3).re + (P 3 0).re) / 2) * this

theorem word_bound (w : Fin 2 → Letter) : |(pauliWord w 0 3 + pauliWord w 3 0).re| ≤ 2 := by
  rw [word2, word2]
  generalize w 0 = a
  generalize w 1 = b
  cases a <;> cases b <;> simp [Letter.mat] <;> norm_num

theorem word_zero (w : Fin 2 → Letter) (h : w 0 = .I ∨ w 1 = .I) : (pauliWord w 0 3 + pauliWord w 3 0).re = 0 := by
  rw [word2, word2]
  rcases h with h | h <;> rw [h] <;> simp [Letter.mat]

theorem xx_first : IsFirstMax (fun e : Key × QMat 2 => |grad (totalObs [obsZ0]) uBad e.2|) (stdDict 2 (allWords [1, 2])) (("XX", [0, 1]), xx) := by
  have e1 : allWords [1, 2] = wordsXYZ 1 ++ [.X, .X] :: (wordsXYZ 2).tail := by decide
  have e2 : combinations (List.range 2) [Letter.X, Letter.X].length = [[0, 1]] := by decide
  have hxx : (xx 0 3 + xx 3 0).re = 2 := by
    rw [xx, word2, word2]
    simp [placed, Letter.mat]
    norm_num
  refine ⟨stdDict 2 (wordsXYZ 1), stdDict 2 (wordsXYZ 2).tail, ?_, ?_, ?_⟩
  · rw [e1, stdDict_append, stdDict_cons, e2]
    rfl
  · intro e he
    obtain ⟨w, hw, q, hq, rfl⟩ := mem_stdDict.1 he
    simp only [grad_bad, hxx]
    rw [word_zero]
    · norm_num
    · rw [(mem_wordsXYZ.1 hw).1] at hq
      have hw1 := (mem_wordsXYZ.1 hw).1
      have : q = [0] ∨ q = [1] := by
        have e3 : combinations (List.range 2) 1 = [[0], [1]] := by decide
        rw [e3] at hq
        simpa using hq
      rcases this with rfl | rfl
      · right; simp [placed, hw1]
      · left; simp [placed, hw1]
  · intro e he
    obtain ⟨w, hw, q, hq, rfl⟩ := mem_stdDict.1 he
    simp only [grad_bad, hxx]
    refine (word_bound _).trans ?_
    norm_num

/-- C38 is false for the layer itself: on two qubits with the observable Z on qubit 0, and for any options, the first call of the squared
layer on the circuit `exp(-iπ/4 XX)` selects the direction XX and returns a circuit with a strictly higher cost. -/
theorem C38_squared_raises_cost (args : LayerArgs) (L : SquaredLayer 2) (hL : squaredLayer 2 ([obsZ0].map Gate.obs) args = .ok L) :
    Unitary uBad ∧ ∃ V L', L.call uBad = .ok (V, L') ∧ L'.previousPauli = ("XX", [0, 1]) ∧ cost (totalObs [obsZ0]) uBad < cost (totalObs [obsZ0]) V := by
  obtain ⟨ho, hf, hd, hp⟩ := squaredLayer_inv hL
  have hspec := stdDict_spec 2 (lens := [1, 2]) (by simp) (by simp)
  obtain ⟨k, P, V, h1, h2, h3, η, h4⟩ := squared_call (by norm_num) ho hf hd uBad
  have hfil : (stdDict 2 (allWords [1, 2])).filter (fun e => e.1 ≠ L.previousPauli) = stdDict 2 (allWords [1, 2]) := by
    rw [List.filter_eq_self]
    intro e he
    simp only [decide_eq_true_eq]
    intro h
    have := (hspec.keys e.1.1 e.1.2).1 (List.mem_map_of_mem he)
    rw [h, hp] at this
    exact absurd (this.2.1 'N' (by simp)) (by decide)
  rw [hfil] at h2
  have := IsFirstMax_unique h2 xx_first
  obtain ⟨rfl, rfl⟩ := Prod.mk.inj this
  have hu : Unitary uBad := by
    refine (exp_skew_unitary _ ?_).1
    rw [Matrix.conjTranspose_smul, show xxᴴ = xx from pauliWord_herm _, ← neg_smul]
    congr 1
    simp
  refine ⟨hu, V, _, h1, rfl, ?_⟩
  have hf : ∀ t : ℝ, cost (totalObs [obsZ0]) (NormedSpace.exp ((-Complex.I * ((t / 2 ^ 2 : ℝ) : ℂ)) • xx) * uBad) = -Real.sin (t / 2) := by
    intro t
    rw [uBad, ← Matrix.exp_add_of_commute _ _ (((Commute.refl xx).smul_left _).smul_right _), ← add_smul, ← mul_add, ← Complex.ofReal_add, cost_exp,
      show 2 * (t / 2 ^ 2 + Real.pi / 4) = t / 2 + Real.pi / 2 by ring, Real.cos_add_pi_div_two]
  have hs := Real.sin_pos_of_pos_of_lt_pi (x := Real.pi / 2 / 2) (by positivity) (by linarith [Real.pi_pos])
  obtain ⟨V', η', h5, h6⟩ := C38_increases xx uBad xx_sq [obsZ0] 2 le_rfl _ rfl (by
    simp only [hf]
    rw [neg_div, Real.sin_neg]
    linarith) (by
    simp only [hf]
    rw [neg_div, Real.sin_neg, zero_div, Real.sin_zero]
    ring)
  rw [show ([0, 1] : List ℕ).length = 2 from rfl, h5] at h4
  obtain ⟨rfl, rfl⟩ := Prod.mk.inj (Except.ok.inj h4)
  exact h6

/-- The hypotheses of C38_not_increasing_partial are met by a non-trivial case: the circuit `exp(+iπ/4 XX)`, where the cost has a
non-zero slope. -/
example : xx * xx = 1 ∧ cost (totalObs [obsZ0]) (NormedSpace.exp ((-Complex.I * ((-(Real.pi / 2) / 2 ^ 2 : ℝ) : ℂ)) • xx) * NormedSpace.exp ((-Complex.I * ((-(Real.pi / 4) : ℝ) : ℂ)) • xx)) <
    cost (totalObs [obsZ0]) (NormedSpace.exp ((-Complex.I * ((Real.pi / 2 / 2 ^ 2 : ℝ) : ℂ)) • xx) * NormedSpace.exp ((-Complex.I * ((-(Real.pi / 4) : ℝ) : ℂ)) • xx)) := by
  refine ⟨xx_sq, ?_⟩
  have hf : ∀ t : ℝ, cost (totalObs [obsZ0]) (NormedSpace.exp ((-Complex.I * ((t / 2 ^ 2 : ℝ) : ℂ)) • xx) * NormedSpace.exp ((-Complex.I * ((-(Real.pi / 4) : ℝ) : ℂ)) • xx)) = Real.sin (t / 2) := by
    intro t
    rw [← Matrix.exp_add_of_commute _ _ (((Commute.refl xx).smul_left _).smul_right _), ← add_smul, ← mul_add, ← Complex.ofReal_add, cost_exp,
      show 2 * (t / 2 ^ 2 + -(Real.pi / 4)) = t / 2 - Real.pi / 2 by ring, Real.cos_sub_pi_div_two]
  rw [hf, hf, neg_div, Real.sin_neg]
  have hs := Real.sin_pos_of_pos_of_lt_pi (x := Real.pi / 2 / 2) (by positivity) (by linarith [Real.pi_pos])
  linarith

/-- Hypotheses met: the constructor succeeds. -/
example : ∃ L, squaredLayer 2 ([obsZ0].map Gate.obs) {} = .ok L := by
  obtain ⟨a, ha, -⟩ := algebraSU4_getAll 2
  rw [squaredLayer, promoteAll_gates, ha]
  simp only [bind, Except.bind]
  rw [show validateEta (Option.getD ({} : LayerArgs).eta (.float 0.1)) = .ok 0.1 from defaultEta_ok']
  exact ⟨_, rfl⟩

end Oranssi
