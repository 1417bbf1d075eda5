import Verif.Props.TfimFirst
import Verif.Props.TfimVqePeriod
import Verif.Props.Scripts

/-! # The first step of the Ising scripts (C128) -/

namespace Oranssi
open scoped Matrix
open Spec

variable {n : ℕ}

/-- The cost along a word, in terms of the cost before and after the word is applied and of the gradient. -/
theorem cost_along {H P U : QMat n} (hP : P * P = 1) (hH : Pᴴ = P) (θ : ℝ) : cost H (NormedSpace.exp ((-Complex.I * (θ : ℂ)) • P) * U) =
    (cost H U + cost H (P * U)) / 2 + (cost H U - cost H (P * U)) / 2 * Real.cos (2 * θ) - grad H U P / 2 * Real.sin (2 * θ) := by
  set x : Ket n := fun i => U i 0 with hx
  set y : Ket n := P *ᵥ x with hy
  have hcol : (fun i => (NormedSpace.exp ((-Complex.I * (θ : ℂ)) • P) * U) i 0) = ((Real.cos θ : ℝ) : ℂ) • x + (-(Complex.I * ((Real.sin θ : ℝ) : ℂ))) • y := by
    rw [exp_neg_I_smul_involution P hP]
    funext i
    rw [Matrix.sub_mul, Matrix.smul_mul, Matrix.smul_mul, Matrix.one_mul]
    simp only [Matrix.sub_apply, Matrix.smul_apply, Pi.add_apply, Pi.smul_apply, hy, hx, smul_eq_mul]
    rw [show (P *ᵥ fun i => U i 0) i = (P * U) i 0 from rfl]
    ring
  have hA : cost H U = (star x ⬝ᵥ (H *ᵥ x)).re := rfl
  have hB : cost H (P * U) = (star y ⬝ᵥ (H *ᵥ y)).re := rfl
  have h1 : star y ᵥ* (1 : QMat n) = star x ᵥ* P := by rw [hy, Matrix.star_mulVec, hH, Matrix.vecMul_one]
  have hg : grad H U P = (star y ⬝ᵥ (H *ᵥ x)).im - (star x ⬝ᵥ (H *ᵥ y)).im := by
    rw [grad, Matrix.sub_mulVec, dotProduct_sub, Complex.sub_im, ← Matrix.mulVec_mulVec, ← Matrix.mulVec_mulVec, Matrix.dotProduct_mulVec, ← h1, Matrix.vecMul_one]
  have h : cost H (NormedSpace.exp ((-Complex.I * (θ : ℂ)) • P) * U) = Real.cos θ ^ 2 * cost H U + Real.sin θ ^ 2 * cost H (P * U) - Real.cos θ * Real.sin θ * grad H U P := by
    rw [cost, hcol, hA, hB, hg]
    simp only [star_add, star_smul, Matrix.mulVec_add, Matrix.mulVec_smul, add_dotProduct, dotProduct_add, smul_dotProduct, dotProduct_smul,
      Complex.star_def, Complex.conj_ofReal, smul_eq_mul, Complex.add_re, Complex.re_ofReal_mul, map_neg, map_mul, Complex.conj_I]
    simp only [Complex.mul_re, Complex.mul_im, Complex.neg_re, Complex.neg_im, Complex.I_re, Complex.I_im, Complex.ofReal_re, Complex.ofReal_im, Complex.add_im]
    ring
  rw [h, Real.cos_two_mul, Real.sin_two_mul]
  have := Real.sin_sq_add_cos_sq θ
  rw [show Real.sin θ ^ 2 = 1 - Real.cos θ ^ 2 by linarith]
  ring

theorem letterSign_real : ∀ a b : Letter, ∃ s : ℝ, letterSign a b = s := by
  intro a b
  cases a <;> cases b <;> first | (refine ⟨1, ?_⟩; simp [letterSign]; done) | (refine ⟨-1, ?_⟩; simp [letterSign]; done)

/-- The cost after `Y` and `Z` have been applied to the first two qubits of the initial state. -/
theorem tfim_cost_flipped (hn : 3 ≤ n) : cost (totalObs (tfimGates n (by omega))) (pauliWord (placed n [.Y, .Z] [0, 1]) * hadamardAll n) = n - 4 := by
  have hw : ∀ (v : Fin n → Letter) (σ : ℂ), pauliWord (placed n [.Y, .Z] [0, 1]) * pauliWord v = σ • (pauliWord v * pauliWord (placed n [.Y, .Z] [0, 1])) →
      ∀ s : ℝ, σ = s → cost (pauliWord v) (pauliWord (placed n [.Y, .Z] [0, 1]) * hadamardAll n) = s * cost (pauliWord v) (hadamardAll n) := by
    intro v σ h s hs
    rw [cost_left, pauliWord_herm, h, Matrix.smul_mul, mul_assoc, pauliWord_sq, mul_one, hs]
    rw [cost, cost, Matrix.smul_mulVec, dotProduct_smul, smul_eq_mul, Complex.re_ofReal_mul]
  have hs : ∀ (k : ℕ) (A : ℕ → QMat n), ∑ i ∈ Finset.range k, A i = ((List.range k).map A).sum := fun k A => rfl
  have hb : ∀ i j, i < n → j < n → i ≠ j → cost (pauliWord (placed n [.Z, .Z] [i, j])) (pauliWord (placed n [.Y, .Z] [0, 1]) * hadamardAll n) = 0 := by
    intro i j hi hj hij
    choose s hs using letterSign_real
    rw [hw _ _ (pauliWord_swap (placed n [.Y, .Z] [0, 1]) (placed n [.Z, .Z] [i, j])) (∏ q, s (placed n [.Y, .Z] [0, 1] q) (placed n [.Z, .Z] [i, j] q)) (by
      push_cast
      exact Finset.prod_congr rfl fun q _ => hs _ _), cost_bond_plus hi hj hij, mul_zero]
  rw [tfim_ringField, cost_add, fieldX, ringZZ, cost_add, hs, hs, cost_list_sum, cost_list_sum, hb _ _ (by omega) (by omega) (by omega), List.map_map, List.map_map]
  have e1 : (List.range n).map ((fun A => cost A (pauliWord (placed n [.Y, .Z] [0, 1]) * hadamardAll n)) ∘ fun i => pauliWord (placed n [.X] [i])) =
      (List.range n).map (fun i => (1 : ℝ) - (if i = 0 then 2 else 0) - (if i = 1 then 2 else 0)) := by
    refine List.map_congr_left fun i hi => ?_
    rw [List.mem_range] at hi
    have h := word_site (placed n [.Y, .Z] [0, 1]) .X i hi
    by_cases h0 : i = 0
    · subst h0
      rw [Function.comp_apply, hw _ _ h (-1) (by simp [placed, letterSign]), cost_site_plus]
      norm_num
    · by_cases h1 : i = 1
      · subst h1
        rw [Function.comp_apply, hw _ _ h (-1) (by simp [placed, letterSign]), cost_site_plus]
        norm_num
      · rw [Function.comp_apply, hw _ _ h 1 (by rw [placed_none hi h0 h1]; simp [letterSign]), cost_site_plus, if_neg h0, if_neg h1]
        norm_num
  have e2 : (List.range (n - 1)).map ((fun A => cost A (pauliWord (placed n [.Y, .Z] [0, 1]) * hadamardAll n)) ∘ fun i => pauliWord (placed n [.Z, .Z] [i, i + 1])) =
      (List.range (n - 1)).map (fun _ => (0 : ℝ)) :=
    List.map_congr_left fun i hi => by
      rw [List.mem_range] at hi
      exact hb _ _ (by omega) (by omega) (by omega)
  rw [e1, e2, List.map_const', List.sum_replicate, smul_zero, zero_add, add_zero]
  change ∑ i ∈ Finset.range n, ((1 : ℝ) - (if i = 0 then 2 else 0) - (if i = 1 then 2 else 0)) = n - 4
  rw [Finset.sum_sub_distrib, Finset.sum_sub_distrib, Finset.sum_ite_eq' _ 0, Finset.sum_ite_eq' _ 1, if_pos (by simp; omega), if_pos (by simp; omega)]
  simp
  ring

/-- The cost along `Y Z` on the first two qubits, from the initial state. -/
theorem tfim_cost_along (hn : 3 ≤ n) (θ : ℝ) : cost (totalObs (tfimGates n (by omega))) (NormedSpace.exp ((-Complex.I * (θ : ℂ)) • pauliWord (placed n [.Y, .Z] [0, 1])) * hadamardAll n) =
    n - 2 + 2 * Real.cos (2 * θ) - Real.sin (2 * θ) := by
  have h0 := C123_zero (n := n) (by omega) 0
  rw [h0.1] at h0
  have hg : grad (totalObs (tfimGates n (by omega))) (hadamardAll n) (pauliWord (placed n [.Y, .Z] [0, 1])) = 2 := by
    rw [tfim_grad_two hn .Y .Z (by omega) (by omega) (.inl rfl), plus_grad_word _ _ (by omega) (by omega) (by omega)]
    rfl
  rw [cost_along (pauliWord_sq _) (pauliWord_herm _), h0.2, tfim_cost_flipped hn, hg]
  ring

/-- The angle and the cost of the step of `rotosolve` along a direction of two qubits with this cost. -/
theorem roto_value (A : ℝ) (f : ℝ → ℝ) (hf : ∀ t, f t = A + 2 * Real.cos (t / 2) - Real.sin (t / 2)) (η : ℝ)
    (hη : η = -Real.pi / 2 - Complex.arg ⟨f (Real.pi / 2) - f (-(Real.pi / 2)), 2 * f 0 - f (Real.pi / 2) - f (-(Real.pi / 2))⟩) : A + 0.05 < f η ∧ f η < A + 0.06 := by
  have hc4 : Real.cos (Real.pi / 2 / 2) = Real.sqrt 2 / 2 := by rw [show Real.pi / 2 / 2 = Real.pi / 4 by ring, Real.cos_pi_div_four]
  have hs4 : Real.sin (Real.pi / 2 / 2) = Real.sqrt 2 / 2 := by rw [show Real.pi / 2 / 2 = Real.pi / 4 by ring, Real.sin_pi_div_four]
  have e1 : f (Real.pi / 2) - f (-(Real.pi / 2)) = -Real.sqrt 2 := by
    rw [hf, hf, neg_div, Real.cos_neg, Real.sin_neg, hc4, hs4]; ring
  have e2 : 2 * f 0 - f (Real.pi / 2) - f (-(Real.pi / 2)) = 4 - 2 * Real.sqrt 2 := by
    rw [hf, hf, hf, neg_div, Real.cos_neg, Real.sin_neg, hc4, hs4, zero_div, Real.cos_zero, Real.sin_zero]; ring
  rw [e1, e2] at hη
  have q1 : (1.41421 : ℝ) < Real.sqrt 2 := Real.lt_sqrt_of_sq_lt (by norm_num)
  have q2 : Real.sqrt 2 < 1.41422 := by rw [Real.sqrt_lt' (by norm_num)]; norm_num
  have hq : Real.sqrt 2 ^ 2 = 2 := Real.sq_sqrt (by norm_num)
  obtain ⟨r, hr0, hx, hy, hr⟩ := arctan2_polar (4 - 2 * Real.sqrt 2) (-Real.sqrt 2)
  rw [arctan2] at hx hy
  set φ : ℝ := Complex.arg ⟨-Real.sqrt 2, 4 - 2 * Real.sqrt 2⟩ with hφ
  have hφ1 : Real.pi / 2 < φ := by
    by_contra hcon
    push Not at hcon
    have h0 : 0 ≤ φ := Complex.arg_nonneg_iff.2 (by simp; linarith)
    have := Real.cos_nonneg_of_neg_pi_div_two_le_of_le (by linarith [Real.pi_pos]) hcon
    have := mul_nonneg hr0 this
    linarith
  have hφ2 : φ ≤ Real.pi := Complex.arg_le_pi _
  have hψ : η / 2 = -(Real.pi / 4 + φ / 2) := by rw [hη]; ring
  rw [hf, hψ, Real.cos_neg, Real.sin_neg]
  set ψ : ℝ := Real.pi / 4 + φ / 2 with hψd
  have hc : Real.cos ψ < 0 := Real.cos_neg_of_pi_div_two_lt_of_lt (by linarith) (by linarith)
  have hs : 0 < Real.sin ψ := Real.sin_pos_of_pos_of_lt_pi (by linarith [Real.pi_pos]) (by linarith)
  have h2 : Real.cos ψ ^ 2 = (1 - Real.sin φ) / 2 := by
    have : Real.cos (2 * ψ) = -Real.sin φ := by
      rw [show 2 * ψ = φ + Real.pi / 2 by rw [hψd]; ring, Real.cos_add_pi_div_two]
    rw [Real.cos_two_mul] at this
    linarith
  have h3 := Real.sin_sq_add_cos_sq ψ
  have hr' : r ^ 2 = 26 - 16 * Real.sqrt 2 := by rw [hr]; linear_combination 5 * hq
  have r1 : (1.8364 : ℝ) < r := lt_of_pow_lt_pow_left₀ 2 hr0 (by rw [hr']; norm_num; linarith)
  have r2 : r < 1.8365 := lt_of_pow_lt_pow_left₀ 2 (by norm_num) (by rw [hr']; norm_num; linarith)
  have s1 : 0.6379 < Real.sin φ := by
    by_contra hcon
    push Not at hcon
    have := mul_le_mul_of_nonneg_left hcon hr0
    linarith
  have s2 : Real.sin φ < 0.638 := by
    by_contra hcon
    push Not at hcon
    have := mul_le_mul_of_nonneg_left hcon hr0
    linarith
  have c1 : -Real.cos ψ < 0.4256 := lt_of_pow_lt_pow_left₀ 2 (by norm_num) (by rw [neg_sq, h2]; norm_num; linarith)
  have c2 : 0.4254 < -Real.cos ψ := lt_of_pow_lt_pow_left₀ 2 (by linarith) (by rw [neg_sq, h2]; norm_num; linarith)
  have t1 : 0.9049 < Real.sin ψ := lt_of_pow_lt_pow_left₀ 2 hs.le (by norm_num; linarith)
  have t2 : Real.sin ψ < 0.9051 := lt_of_pow_lt_pow_left₀ 2 (by norm_num) (by norm_num; linarith)
  constructor <;> linarith

/-- With three or more qubits no word has a gradient above 2 in the initial state. -/
theorem tfim_grad_le (hn : 3 ≤ n) (v : Fin n → Letter) : |grad (totalObs (tfimGates n (by omega))) (hadamardAll n) (pauliWord v)| ≤ 2 := by
  rw [C127_word]
  have hu : ∀ {a b c d : Fin n}, BondWord v a b → BondWord v c d → a = c ∧ b = d := by
    intro a b c d h1 h2
    have ha := h1.1
    have hb := h1.2.1
    constructor
    · by_contra hne
      by_cases had : a = d
      · rw [had, h2.2.1] at ha; simp at ha
      · rcases h2.2.2 a hne had with h | h <;> rw [ha] at h <;> simp at h
    · by_contra hne
      by_cases hbc : b = c
      · rw [hbc, h2.1] at hb; simp at hb
      · rcases h2.2.2 b hbc hne with h | h <;> rw [hb] at h <;> simp at h
  have hrot : ∀ i : Fin n, finRotate n (finRotate n i) ≠ i := by
    obtain ⟨m, rfl⟩ : ∃ m, n = m + 1 := ⟨n - 1, by omega⟩
    intro i h
    rw [finRotate_succ_apply, finRotate_succ_apply] at h
    have h2 : (1 : Fin (m + 1)) + 1 = 0 := by
      rw [add_assoc] at h
      exact left_eq_add.1 h.symm
    have := congrArg Fin.val h2
    rw [Fin.val_add, Fin.val_one', Fin.val_zero, Nat.mod_eq_of_lt (by omega : 1 < m + 1), Nat.mod_eq_of_lt (by omega)] at this
    omega
  by_cases h1 : ∃ i, BondWord v i (finRotate n i)
  · obtain ⟨i, hi⟩ := h1
    have e : ∀ j : Fin n, ((if BondWord v j (finRotate n j) then (2 : ℝ) else 0) + if BondWord v (finRotate n j) j then 2 else 0) = if j = i then 2 else 0 := by
      intro j
      have hno : ¬ BondWord v (finRotate n j) j := fun h => by
        obtain ⟨a, b⟩ := hu hi h
        rw [← b] at a
        exact hrot i a.symm
      rw [if_neg hno, add_zero]
      by_cases hji : j = i
      · rw [if_pos hji, if_pos (by rw [hji]; exact hi)]
      · rw [if_neg hji, if_neg fun h => hji (hu h hi).1]
    rw [Finset.sum_congr rfl fun j _ => e j, Finset.sum_ite_eq' _ i, if_pos (Finset.mem_univ _), abs_two]
  · by_cases h2 : ∃ i, BondWord v (finRotate n i) i
    · obtain ⟨i, hi⟩ := h2
      have e : ∀ j : Fin n, ((if BondWord v j (finRotate n j) then (2 : ℝ) else 0) + if BondWord v (finRotate n j) j then 2 else 0) = if j = i then 2 else 0 := by
        intro j
        rw [if_neg fun h => h1 ⟨j, h⟩, zero_add]
        by_cases hji : j = i
        · rw [if_pos hji, if_pos (by rw [hji]; exact hi)]
        · rw [if_neg hji, if_neg fun h => hji (hu h hi).2]
      rw [Finset.sum_congr rfl fun j _ => e j, Finset.sum_ite_eq' _ i, if_pos (Finset.mem_univ _), abs_two]
    · rw [Finset.sum_eq_zero fun j _ => by rw [if_neg fun h => h1 ⟨j, h⟩, if_neg fun h => h2 ⟨j, h⟩, add_zero], abs_zero]
      norm_num

theorem placed_mem {w : List Letter} {q : List ℕ} {i : Fin n} {a : Letter} (ha : a ≠ .I) (h : placed n w q i = a) : a ∈ w := by
  rw [placed] at h
  cases hw : w[q.idxOf i.val]? with
  | none => rw [hw] at h; exact absurd h.symm ha
  | some b => rw [hw] at h; exact h ▸ List.mem_of_getElem? hw

/-- A word with a gradient has the letters `Y` and `Z`. -/
theorem tfim_grad_letters (hn : 2 ≤ n) (w : List Letter) (q : List ℕ) (h : ¬ (.Y ∈ w ∧ .Z ∈ w)) : grad (totalObs (tfimGates n hn)) (hadamardAll n) (pauliWord (placed n w q)) = 0 := by
  have hno : ∀ i j, ¬ BondWord (placed n w q) i j := fun i j hb => h ⟨placed_mem (by simp) hb.1, placed_mem (by simp) hb.2.1⟩
  rw [C127_word, Finset.sum_eq_zero fun j _ => by rw [if_neg (hno _ _), if_neg (hno _ _), add_zero]]

/-- The entry of the dictionary that the first call selects. -/
theorem tfim_first_max (hn : 3 ≤ n) (b1 : Bool) (ls : List ℕ) : IsFirstMax (fun e : Key × QMat n => |grad (totalObs (tfimGates n (by omega))) (hadamardAll n) e.2|)
    (stdDict n (allWords ((if b1 then [1] else []) ++ 2 :: ls))) (("YZ", [0, 1]), pauliWord (placed n [.Y, .Z] [0, 1])) := by
  have hg : grad (totalObs (tfimGates n (by omega))) (hadamardAll n) (pauliWord (placed n [.Y, .Z] [0, 1])) = 2 := by
    rw [tfim_grad_two hn .Y .Z (by omega) (by omega) (.inl rfl), plus_grad_word _ _ (by omega) (by omega) (by omega)]
    rfl
  have h1 : ∃ pre post, allWords ((if b1 then [1] else []) ++ 2 :: ls) = pre ++ [.Y, .Z] :: post ∧ ∀ w ∈ pre, ¬ (Letter.Y ∈ w ∧ .Z ∈ w) := by
    cases b1
    · exact ⟨[[.X, .X], [.X, .Y], [.X, .Z], [.Y, .X], [.Y, .Y]], _, rfl, by simp⟩
    · exact ⟨[[.X], [.Y], [.Z], [.X, .X], [.X, .Y], [.X, .Z], [.Y, .X], [.Y, .Y]], _, rfl, by simp⟩
  have h2 : ∃ t, combinations (List.range n) 2 = [0, 1] :: t := by
    obtain ⟨m, rfl⟩ : ∃ m, n = m + 2 := ⟨n - 2, by omega⟩
    rw [List.range_succ_eq_map, List.range_succ_eq_map]
    simp only [List.map_cons, combinations, List.cons_append]
    exact ⟨_, rfl⟩
  obtain ⟨pre, post, he, hpre⟩ := h1
  obtain ⟨t, ht⟩ := h2
  have e : stdDict n (allWords ((if b1 then [1] else []) ++ 2 :: ls)) = stdDict n pre ++ (("YZ", [0, 1]), pauliWord (placed n [.Y, .Z] [0, 1])) ::
      (t.map (fun q => ((letterStr [.Y, .Z], q), pauliWord (placed n [.Y, .Z] q))) ++ stdDict n post) := by
    rw [he, stdDict, List.flatMap_append, List.flatMap_cons, show ([Letter.Y, .Z] : List Letter).length = 2 from rfl, ht, List.map_cons, List.cons_append]
    rfl
  have hle : ∀ e ∈ stdDict n (allWords ((if b1 then [1] else []) ++ 2 :: ls)), |grad (totalObs (tfimGates n (by omega))) (hadamardAll n) e.2| ≤ 2 := by
    intro e he
    obtain ⟨w, -, q, -, rfl⟩ := mem_stdDict.1 he
    exact tfim_grad_le hn _
  refine ⟨_, _, e, fun y hy => ?_, fun y hy => ?_⟩
  · obtain ⟨w, hw, q, -, rfl⟩ := mem_stdDict.1 hy
    dsimp only
    rw [tfim_grad_letters (by omega) w q (hpre w hw), hg, abs_zero, abs_two]
    norm_num
  · dsimp only
    rw [hg, abs_two]
    exact hle y (by rw [e]; simp [hy])

/-- The least cost along this direction. -/
theorem tfim_best_along (hn : 3 ≤ n) : IsLeast (Set.range fun t : ℝ =>
    cost (totalObs (tfimGates n (by omega))) (NormedSpace.exp ((-Complex.I * (t : ℂ)) • pauliWord (placed n [.Y, .Z] [0, 1])) * hadamardAll n)) (n - 2 - Real.sqrt 5) := by
  have h5 : Real.sqrt 5 ^ 2 = 5 := Real.sq_sqrt (by norm_num)
  have h50 : 0 < Real.sqrt 5 := Real.sqrt_pos.2 (by norm_num)
  constructor
  · obtain ⟨r, hr0, hx, hy, hr⟩ := arctan2_polar 1 (-2)
    have hr5 : r = Real.sqrt 5 := by
      rw [← Real.sqrt_sq hr0, hr]; norm_num
    refine ⟨arctan2 1 (-2) / 2, ?_⟩
    dsimp only
    rw [tfim_cost_along hn, show 2 * (arctan2 1 (-2) / 2) = arctan2 1 (-2) by ring]
    rw [hr5] at hx hy
    have : Real.sqrt 5 * (2 * Real.cos (arctan2 1 (-2)) - Real.sin (arctan2 1 (-2)) + Real.sqrt 5) = 0 := by linear_combination (-2) * hx + hy + h5
    have := (mul_eq_zero.1 this).resolve_left h50.ne'
    linarith
  · rintro _ ⟨t, rfl⟩
    dsimp only
    rw [tfim_cost_along hn]
    have h := Real.sin_sq_add_cos_sq (2 * t)
    have : (2 * Real.cos (2 * t) - Real.sin (2 * t)) ^ 2 ≤ Real.sqrt 5 ^ 2 := by
      rw [h5]
      nlinarith [sq_nonneg (2 * Real.sin (2 * t) + Real.cos (2 * t))]
    have := (abs_le.1 (abs_le_of_sq_le_sq this h50.le)).1
    linarith

/-- C128.  The first call of the layers of the Ising scripts that search along one direction: it selects `Y Z` on the first two qubits, whichever the layer, and the
cost goes from `n` to about `n - 1.946`; the best rotation about the same direction would have taken it to `n - 2 - √5`. -/
theorem C128_call (hn : 3 ≤ n) : ∃ (η : ℝ) (V : QMat n), V = NormedSpace.exp ((-Complex.I * (η : ℂ)) • pauliWord (placed n [.Y, .Z] [0, 1])) * hadamardAll n ∧
    (∀ (E : LayerEnv n) (ps : List (List ℝ)) (L : AnyLayer n), GreedyTfim n L → ∃ L', L.call E ps (hadamardAll n) = .ok (V, ps, L')) ∧
    cost (totalObs (tfimGates n (by omega))) (hadamardAll n) = n ∧
    n - 1.95 < cost (totalObs (tfimGates n (by omega))) V ∧ cost (totalObs (tfimGates n (by omega))) V < n - 1.94 ∧
    IsLeast (Set.range fun t : ℝ => cost (totalObs (tfimGates n (by omega)))
      (NormedSpace.exp ((-Complex.I * (t : ℂ)) • pauliWord (placed n [.Y, .Z] [0, 1])) * hadamardAll n)) (n - 2 - Real.sqrt 5) := by
  have h2 : 2 ≤ n := by omega
  have h0 := C123_zero (n := n) h2 0
  rw [h0.1] at h0
  refine ⟨rotoAngle (totalObs (tfimGates n h2)) (pauliWord (placed n [.Y, .Z] [0, 1])) (hadamardAll n) 2 / 2 ^ 2, _, rfl, ?_, h0.2, ?_, ?_, tfim_best_along hn⟩
  · intro E ps L hL
    cases hL with
    | line L hL =>
      cases hL with
      | squared la L hL =>
        rw [tfimGates_obs h2] at hL
        obtain ⟨ho, hf, hd, hp⟩ := squaredLayer_inv hL
        obtain ⟨k, P, V, h3, h4, h5, -⟩ := squared_call (by omega : 1 ≤ n) ho hf hd (hadamardAll n)
        have e : (stdDict n (allWords [1, 2])).filter (fun e => e.1 ≠ L.previousPauli) = stdDict n (allWords [1, 2]) := by
          rw [List.filter_eq_self]
          intro e he
          have hk := ((stdDict_spec n (lens := [1, 2]) (by simp) (by simp)).keys e.1.1 e.1.2).1 (List.mem_map_of_mem he)
          rw [decide_eq_true_iff]
          intro h
          rw [h, hp] at hk
          exact absurd (hk.2.1 'N' (by simp)) (by decide)
        rw [e] at h4
        have hk := IsFirstMax_unique h4 (tfim_first_max hn true [])
        obtain ⟨rfl, rfl⟩ := Prod.mk.inj hk
        rw [AnyLayer.call, h3]
        refine ⟨.squared { L with previousPauli := ("YZ", [0, 1]) }, ?_⟩
        rw [h5.angle]
        rfl
      | su8 la L hL =>
        rw [tfimGates_obs h2] at hL
        obtain ⟨-, k, P, V, h3, h4, h5⟩ := C36_su8 _ _ _ _ _ hL (hadamardAll n)
        obtain ⟨-, -, -, hd⟩ := su8Layer_inv hL
        rw [hd] at h4
        have hk := IsFirstMax_unique h4 (tfim_first_max hn true [3])
        obtain ⟨rfl, rfl⟩ := Prod.mk.inj hk
        rw [AnyLayer.call, h3]
        refine ⟨.su8 L, ?_⟩
        rw [h5.angle]
        rfl
    | zass la b2 r L hL =>
      rw [tfimGates_obs h2] at hL
      obtain ⟨V, L', h3⟩ := C43_su4_partial E.ord _ _ _ _ L L hL [] rfl (zassLayer_inv hL).2.2.2.2.2.2.2.1 (hadamardAll n)
      have h3' := h3
      rw [ZassLayer.call, (zassLayer_inv hL).2.2.2.2.2.2.2.1] at h3'
      obtain ⟨k, P, h4, -, η, h5, -⟩ := su4_call hn (zassGood_init hL) h3'
      have hk := IsFirstMax_unique h4 (tfim_first_max hn false [])
      obtain ⟨rfl, rfl⟩ := Prod.mk.inj hk
      obtain ⟨V', η', h6, h7⟩ := rotosolve_step (pauliWord (placed n [.Y, .Z] [0, 1])) (hadamardAll n) (pauliWord_sq _) (pauliWord_herm _) (tfimGates n h2) 2
      have h8 : (V, η) = (V', η') := Except.ok.inj (h5.symm.trans h6)
      obtain ⟨rfl, rfl⟩ := Prod.mk.inj h8
      rw [AnyLayer.call, h3]
      refine ⟨.zass L', ?_⟩
      rw [h7.angle]
      rfl
  all_goals
    have hv := roto_value (n - 2) (fun t => cost (totalObs (tfimGates n h2)) (NormedSpace.exp ((-Complex.I * ((t / 2 ^ 2 : ℝ) : ℂ)) • pauliWord (placed n [.Y, .Z] [0, 1])) * hadamardAll n))
      (fun t => by rw [tfim_cost_along hn, show 2 * (t / 2 ^ 2) = t / 2 by ring]) _ rfl
  · refine lt_of_le_of_lt (le_of_eq ?_) hv.1
    norm_num
    ring
  · refine lt_of_lt_of_le hv.2 (le_of_eq ?_)
    norm_num
    ring

/-- C128.  The runs of these scripts: the first cost is the number of qubits `n`, the second one lies between `n - 1.95` and `n - 1.94`, whichever the layer and the arguments. -/
theorem C128_run (hn : 3 ≤ n) (E : LayerEnv n) (eigh : EighFn n) (rnd : ℕ → Matrix (Fin (2 ^ n)) (Fin (2 ^ n)) ℝ) (ret : CircuitRet) (params : List (List ℝ))
    (L : AnyLayer n) (hL : GreedyTfim n L) (args : ApproxArgs) (out : OptOut (ApproxItem n) × (Fin 1 → AnyLayer n))
    (h : approximateLieOptimizer E eigh rnd ret (tfimCircuit n) params (tfimObservables n) (fun _ : Fin 1 => L) [0] args = .ok out) :
    (approxCosts out.1)[0]? = some (n : ℝ) ∧ ∃ c : ℝ, (approxCosts out.1)[1]? = some c ∧ n - 1.95 < c ∧ c < n - 1.94 := by
  have h2 : 2 ≤ n := by omega
  rw [tfimGates_obs h2] at h
  obtain ⟨N, -, e, -, V, W, j, hj1, -, hV0, hp0, ho0, -, hstep, hW0, -, -, -, -, hc, -⟩ := C50_trace _ _ _ _ _ _ _ _ _ _ _ h
  rw [tfim_compile] at hV0
  have hU : (V 0).U = hadamardAll n := (Except.ok.inj hV0).symm
  obtain ⟨η, X, -, hcall, hn0, hlo, hhi, -⟩ := C128_call hn
  obtain ⟨i, L', -, hs, -⟩ := hstep 0 hj1
  rw [hW0, ho0, hU] at hs
  obtain ⟨L'', hs'⟩ := hcall E (V 0).params L hL
  have hX : X = (V 1).U := (Prod.mk.inj (Except.ok.inj (hs'.symm.trans hs))).1
  refine ⟨by rw [hc 0 (by omega), hU, hn0], _, hc 1 hj1, ?_, ?_⟩
  · rw [← hX]; exact hlo
  · rw [← hX]; exact hhi

/-! ### Examples -/

/-- The hypotheses are met by a run with the layer of tfim_su8_linesearch.py on 4 qubits (for the call of tfim_zassenhaus in zassenhaus.py see `C126_zass`): the second cost is above 2, while the best rotation about the same
direction has a cost below 0. -/
example : ∃ (E : LayerEnv 4) (eigh : EighFn 4) (L : SU8Layer 4) (out : _) (c : ℝ), approximateLieOptimizer E eigh (fun _ => 0) .state (tfimCircuit 4) [] (tfimObservables 4) (fun _ : Fin 1 => .su8 L) [0]
    { nsteps := .int 50, eta := .float 0.1, tol := some (.float 1e-6), returnUnitary := .bool true } = .ok out ∧ (approxCosts out.1)[1]? = some c ∧ 2 < c ∧ (4 : ℝ) - 2 - Real.sqrt 5 < 0 := by
  obtain ⟨svd, hs⟩ := exists_validSvd 4
  obtain ⟨gd, hgd⟩ := exists_validGd
  obtain ⟨eigh, -⟩ := exists_validEigh 4
  obtain ⟨L, hL⟩ := su8Layer_default (n := 4) (by norm_num) (tfimGates 4 (by omega)) true true
  obtain ⟨out, hout⟩ := (C50_total_layers ⟨svd, ⟨List.reverse, List.reverse_perm⟩, gd⟩ hs eigh (fun _ => 0) .state (tfimOps 4) [] (tfimGates 4 (by omega)) (fun _ : Fin 1 => .su8 L) [0]
    { nsteps := .int 50, eta := .float 0.1, tol := some (.float 1e-6), returnUnitary := .bool true } (by simp) (fun _ => .su8 _ _ _ _ _ hL) rfl).2
    ⟨rfl, 50, _, _, _, approxValid_of 50 (by omega) (some (.float 1e-6)) (some (.fin 1e-6)) ⟨rfl, by norm_num⟩ ⟨false, false, true, false, false, false, false⟩⟩
  rw [← tfimOps_eq, ← tfimGates_obs] at hout
  rw [← tfimGates_obs] at hL
  obtain ⟨-, c, hc, h1, -⟩ := C128_run (n := 4) (by norm_num) ⟨svd, ⟨List.reverse, List.reverse_perm⟩, gd⟩ eigh _ _ _ _ (.line _ (.su8 _ L hL)) _ out hout
  refine ⟨_, eigh, L, out, c, hout, hc, ?_, ?_⟩
  · norm_num at h1; linarith
  · have : (2 : ℝ) < Real.sqrt 5 := Real.lt_sqrt_of_sq_lt (by norm_num)
    linarith

end Oranssi
