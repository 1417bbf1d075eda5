import Verif.Lemmas.Conjugation
import Verif.Props.TfimVqe

/-! # Symmetries of the variational circuit of tfim_su4_linesearch.py (C122, C123) -/

namespace Oranssi

open Spec Matrix

variable {n : ℕ}

/-! ### Flipping all qubits -/

theorem flip_bond {i j : ℕ} (hi : i < n) (hj : j < n) (hij : i ≠ j) : Commute (pauliWord (flipAll n)) (pauliWord (placed n [.Z, .Z] [i, j])) := by
  rw [placed_two i j hi hj hij, Commute, SemiconjBy, ← mul_assoc, word_site _ _ i hi, smul_mul_assoc, mul_assoc, word_site _ _ j hj, mul_smul_comm, smul_smul, mul_assoc]
  simp [flipAll, letterSign]

theorem flip_ring (hn : 2 ≤ n) : Commute (pauliWord (flipAll n)) (ringZZ n) := by
  refine Commute.add_right (Commute.sum_right _ _ _ fun i hi => ?_) (flip_bond (by omega) (by omega) (by omega))
  rw [Finset.mem_range] at hi
  exact flip_bond (by omega) (by omega) (by omega)

theorem flip_field : Commute (pauliWord (flipAll n)) (fieldX n) := by
  refine Commute.sum_right _ _ _ fun i _ => letters_commute fun q => ?_
  rw [placed_one]
  split <;> simp [flipAll]

theorem flip_layer (hn : 2 ≤ n) (a b : ℝ) : Commute (pauliWord (flipAll n)) (qaoaLayer n a b) :=
  (Commute.exp_right (flip_field.smul_right _)).mul_right (Commute.exp_right ((flip_ring hn).smul_right _))

/-- The state is the same when all qubits are flipped. -/
theorem qaoa_flip (hn : 2 ≤ n) (p : ℕ → ℝ) : ∀ m, InSector (pauliWord (flipAll n)) 1 (fun i => qaoa n p m i 0)
  | 0 => plus_flip _ fun _ => .inl rfl
  | m + 1 => foldl_sector (Fs := [qaoaLayer n (p (2 * m)) (p (2 * m + 1))]) (by simpa using flip_layer hn _ _) (qaoa_flip hn p m)

/-! ### Period -/

theorem half_pi_words (W : ℕ → QMat n) (hs : ∀ i, W i * W i = 1) (hc : ∀ i j, Commute (W i) (W j)) : ∀ m,
    NormedSpace.exp ((-Complex.I * ((Real.pi / 2 : ℝ) : ℂ)) • ∑ i ∈ Finset.range m, W i) = (-Complex.I) ^ m • ((List.range m).map W).prod
  | 0 => by simp
  | m + 1 => by
    have hx : Commute ((-Complex.I * ((Real.pi / 2 : ℝ) : ℂ)) • ∑ i ∈ Finset.range m, W i) ((-Complex.I * ((Real.pi / 2 : ℝ) : ℂ)) • W m) :=
      ((Commute.sum_left _ _ _ fun i _ => hc i m).smul_left _).smul_right _
    rw [Finset.sum_range_succ, smul_add, Matrix.exp_add_of_commute _ _ hx, half_pi_words W hs hc m, exp_neg_I_smul_involution _ (hs m), Real.cos_pi_div_two, Real.sin_pi_div_two,
      List.range_succ, List.map_append, List.prod_append, List.map_singleton, List.prod_singleton, pow_succ]
    simp only [Complex.ofReal_zero, Complex.ofReal_one, zero_smul, zero_sub, mul_one]
    rw [← neg_smul, mul_smul_comm, smul_mul_assoc, smul_smul, mul_comm]

theorem chain_prod : ∀ m, m < n → ((List.range m).map (fun i => pauliWord (placed n [.Z, .Z] [i, i + 1]))).prod = pauliWord (placed n [.Z] [0]) * pauliWord (placed n [.Z] [m])
  | 0, _ => by rw [pauliWord_sq]; rfl
  | m + 1, h => by
    rw [List.range_succ, List.map_append, List.prod_append, chain_prod m (by omega), List.map_singleton, List.prod_singleton, placed_two m (m + 1) (by omega) (by omega) (by omega),
      mul_assoc, ← mul_assoc (pauliWord (placed n [.Z] [m])), pauliWord_sq, one_mul]

theorem ring_half_pi (hn : 2 ≤ n) : NormedSpace.exp ((-Complex.I * ((Real.pi / 2 : ℝ) : ℂ)) • ringZZ n) = (-Complex.I) ^ n • (1 : QMat n) := by
  have hx : Commute ((-Complex.I * ((Real.pi / 2 : ℝ) : ℂ)) • ∑ i ∈ Finset.range (n - 1), pauliWord (placed n [.Z, .Z] [i, i + 1]))
      ((-Complex.I * ((Real.pi / 2 : ℝ) : ℂ)) • pauliWord (placed n [.Z, .Z] [n - 1, 0])) :=
    ((Commute.sum_left _ _ _ fun i _ => zz_commute _ _ _ _).smul_left _).smul_right _
  rw [ringZZ, smul_add, Matrix.exp_add_of_commute _ _ hx, half_pi_words _ (fun i => pauliWord_sq _) (fun i j => zz_commute _ _ _ _), chain_prod _ (by omega),
    exp_neg_I_smul_involution _ (pauliWord_sq _), Real.cos_pi_div_two, Real.sin_pi_div_two, placed_two (n - 1) 0 (by omega) (by omega) (by omega)]
  simp only [Complex.ofReal_zero, Complex.ofReal_one, zero_smul, zero_sub, mul_one]
  rw [← neg_smul, mul_smul_comm, smul_mul_assoc, smul_smul, mul_assoc, ← mul_assoc (pauliWord (placed n [.Z] [n - 1])), pauliWord_sq, one_mul, pauliWord_sq, ← pow_succ',
    show n - 1 + 1 = n by omega]

theorem flips_prod : ∀ m, m ≤ n → ((List.range m).map (fun i => pauliWord (placed n [.X] [i]))).prod = pauliWord (fun q : Fin n => if q.val < m then .X else .I)
  | 0, _ => by
    simp only [Nat.not_lt_zero, if_false]
    exact tensor_one.symm
  | m + 1, h => by
    rw [List.range_succ, List.map_append, List.prod_append, flips_prod m (by omega), List.map_singleton, List.prod_singleton, pauliWord, pauliWord, tensor_mul, pauliWord]
    congr 1
    funext q
    rw [placed_one]
    rcases lt_trichotomy q.val m with hq | hq | hq
    · rw [if_pos hq, if_neg (by omega), if_pos (by omega)]
      exact mul_one _
    · rw [if_neg (by omega), if_pos hq, if_pos (by omega)]
      exact one_mul _
    · rw [if_neg (by omega), if_neg (by omega), if_neg (by omega)]
      exact one_mul _

theorem field_half_pi : NormedSpace.exp ((-Complex.I * ((Real.pi / 2 : ℝ) : ℂ)) • fieldX n) = (-Complex.I) ^ n • pauliWord (flipAll n) := by
  rw [fieldX, half_pi_words _ (fun i => pauliWord_sq _) (fun i j => x_commute _ _), flips_prod n le_rfl]
  congr 2
  funext q
  rw [if_pos q.isLt]
  rfl

theorem exp_shift (K : QMat n) (a : ℝ) : NormedSpace.exp ((-Complex.I * (((a + Real.pi) / 2 : ℝ) : ℂ)) • K) =
    NormedSpace.exp ((-Complex.I * ((a / 2 : ℝ) : ℂ)) • K) * NormedSpace.exp ((-Complex.I * ((Real.pi / 2 : ℝ) : ℂ)) • K) := by
  rw [← Matrix.exp_add_of_commute _ _ (((Commute.refl K).smul_left _).smul_right _), ← add_smul]
  congr 2
  push_cast
  ring

theorem layer_shift_a (hn : 2 ≤ n) (a b : ℝ) : qaoaLayer n (a + Real.pi) b = (-Complex.I) ^ n • qaoaLayer n a b := by
  rw [qaoaLayer, exp_shift, ring_half_pi hn, mul_smul_comm, mul_smul_comm, mul_one, qaoaLayer]

theorem layer_shift_b (hn : 2 ≤ n) (a b : ℝ) : qaoaLayer n a (b + Real.pi) = (-Complex.I) ^ n • (qaoaLayer n a b * pauliWord (flipAll n)) := by
  rw [qaoaLayer, exp_shift, field_half_pi, mul_smul_comm, smul_mul_assoc, qaoaLayer, mul_assoc, mul_assoc, (Commute.exp_right ((flip_ring hn).smul_right _)).eq]

theorem qaoa_congr {p q : ℕ → ℝ} : ∀ m, (∀ i < 2 * m, p i = q i) → qaoa n p m = qaoa n q m
  | 0, _ => rfl
  | m + 1, h => by rw [qaoa, qaoa, h _ (by omega), h _ (by omega), qaoa_congr m fun i hi => h i (by omega)]

theorem sameState_phase {c : ℂ} (hc : ‖c‖ = 1) (U : QMat n) : SameState (c • U) U := ⟨c, hc, rfl⟩

/-- C122 (period): adding π to any angle changes the state of the circuit by a phase only. -/
theorem C122_period (hn : 2 ≤ n) (p : ℕ → ℝ) (i : ℕ) : ∀ m, SameState (qaoa n (Function.update p i (p i + Real.pi)) m) (qaoa n p m)
  | 0 => SameState.refl _
  | m + 1 => by
    have hc : ‖(-Complex.I) ^ n‖ = 1 := by simp
    have hu : ∀ j, j ≠ i → Function.update p i (p i + Real.pi) j = p j := fun j hj => Function.update_of_ne hj _ _
    by_cases h0 : i = 2 * m
    · subst h0
      rw [qaoa, qaoa, Function.update_self, hu _ (by omega), qaoa_congr m fun j hj => hu j (by omega), layer_shift_a hn, smul_mul_assoc]
      exact sameState_phase hc _
    by_cases h1 : i = 2 * m + 1
    · subst h1
      rw [qaoa, qaoa, Function.update_self, hu _ (by omega), qaoa_congr m fun j hj => hu j (by omega), layer_shift_b hn, smul_mul_assoc, mul_assoc]
      refine ⟨(-Complex.I) ^ n, hc, ?_⟩
      have := qaoa_flip hn p m
      rw [InSector, one_smul] at this
      change (-Complex.I) ^ n • (fun j => (qaoaLayer n (p (2 * m)) (p (2 * m + 1)) * (pauliWord (flipAll n) * qaoa n p m)) j 0) = _
      rw [mul_column, mul_column, this, ← mul_column]
      rfl
    · rw [qaoa, qaoa, hu _ (by omega), hu _ (by omega)]
      exact (C122_period hn p i m).mul_left _

/-! ### Changing the sign of all angles -/

theorem conjM_word {f : Fin n → Letter} (hf : ∀ q, f q ≠ .Y) : conjM (pauliWord f) = pauliWord f := by
  ext i j
  simp only [conjM, Matrix.map_apply, pauliWord, tensor, map_prod]
  refine Finset.prod_congr rfl fun q _ => ?_
  have := hf q
  generalize (⟨bit n i q, Nat.mod_lt _ (by decide)⟩ : Fin 2) = x
  generalize (⟨bit n j q, Nat.mod_lt _ (by decide)⟩ : Fin 2) = y
  cases h : f q with
  | Y => exact absurd h this
  | I => fin_cases x <;> fin_cases y <;> simp [Letter.mat]
  | X => fin_cases x <;> fin_cases y <;> simp [Letter.mat]
  | Z => fin_cases x <;> fin_cases y <;> simp [Letter.mat]

theorem conjM_hadamard : conjM (hadamardAll n) = hadamardAll n := by
  ext i j
  simp only [conjM, Matrix.map_apply, hadamardAll, tensor, map_prod]
  refine Finset.prod_congr rfl fun q _ => ?_
  generalize (⟨bit n i q, Nat.mod_lt _ (by decide)⟩ : Fin 2) = x
  generalize (⟨bit n j q, Nat.mod_lt _ (by decide)⟩ : Fin 2) = y
  fin_cases x <;> fin_cases y <;> simp

theorem conjM_zz (i j : ℕ) : conjM (pauliWord (placed n [.Z, .Z] [i, j])) = pauliWord (placed n [.Z, .Z] [i, j]) :=
  conjM_word fun q => by rcases zz_letter i j q with h | h <;> simp [h]

theorem conjM_x (i : ℕ) : conjM (pauliWord (placed n [.X] [i])) = pauliWord (placed n [.X] [i]) :=
  conjM_word fun q => by rw [placed_one]; split <;> simp

theorem conjM_ring : conjM (ringZZ n) = ringZZ n := by
  rw [ringZZ, conjM_add, conjM_sum, conjM_zz]
  simp only [conjM_zz]

theorem conjM_field : conjM (fieldX n) = fieldX n := by
  rw [fieldX, conjM_sum]
  simp only [conjM_x]

theorem conjM_evolve {K : QMat n} (hK : conjM K = K) (a : ℝ) : conjM (NormedSpace.exp ((-Complex.I * ((a / 2 : ℝ) : ℂ)) • K)) =
    NormedSpace.exp ((-Complex.I * ((-a / 2 : ℝ) : ℂ)) • K) := by
  rw [conjM_exp, conjM_smul, hK, map_mul, map_neg, Complex.conj_I, Complex.conj_ofReal]
  congr 2
  push_cast
  ring

theorem conjM_qaoa (p : ℕ → ℝ) : ∀ m, conjM (qaoa n p m) = qaoa n (fun i => -p i) m
  | 0 => conjM_hadamard
  | m + 1 => by rw [qaoa, qaoa, conjM_mul, conjM_qaoa p m, qaoaLayer, conjM_mul, conjM_evolve conjM_ring, conjM_evolve conjM_field, qaoaLayer]

theorem cost_conjM {H : QMat n} (hH : conjM H = H) (U : QMat n) : cost H (conjM U) = cost H U := by
  have : star (fun i => conjM U i 0) ⬝ᵥ (H *ᵥ (fun i => conjM U i 0)) = starRingEnd ℂ (star (fun i => U i 0) ⬝ᵥ (H *ᵥ (fun i => U i 0))) := by
    have hE : ∀ i j, starRingEnd ℂ (H i j) = H i j := fun i j => congrFun (congrFun hH i) j
    simp only [dotProduct, Matrix.mulVec, map_sum, map_mul, Pi.star_apply, hE]
    rfl
  rw [cost, this, Complex.conj_re, cost]

/-- C122 (sign): changing the sign of all angles leaves the cost as it is. -/
theorem C122_even (hn : 2 ≤ n) (p : ℕ → ℝ) (m : ℕ) : cost (totalObs (tfimGates n hn)) (qaoa n (fun i => -p i) m) = cost (totalObs (tfimGates n hn)) (qaoa n p m) := by
  rw [← conjM_qaoa, cost_conjM]
  rw [tfim_ringField, conjM_add, conjM_ring, conjM_field]

/-! ### Critical points and runs -/

section
attribute [local instance] Matrix.linftyOpNormedAddCommGroup Matrix.linftyOpNormedSpace Matrix.linftyOpNormedRing Matrix.linftyOpNormedAlgebra

theorem evolve_differentiable (K : QMat n) (i j : Fin (2 ^ n)) : Differentiable ℝ (fun t : ℝ => NormedSpace.exp ((-Complex.I * ((t / 2 : ℝ) : ℂ)) • K) i j) := by
  intro t
  have h := hasDerivAt_exp_smul_const (𝕂 := ℝ) ((-Complex.I / 2) • K) t
  let ℓ : QMat n →ₗ[ℝ] ℂ := { toFun := fun M => M i j, map_add' := fun _ _ => rfl, map_smul' := fun _ _ => rfl }
  have h2 := HasFDerivAt.comp_hasDerivAt t (LinearMap.toContinuousLinearMap ℓ).hasFDerivAt h
  refine (h2.differentiableAt).congr_of_eventuallyEq (Filter.Eventually.of_forall fun s => ?_)
  change NormedSpace.exp ((-Complex.I * ((s / 2 : ℝ) : ℂ)) • K) i j = NormedSpace.exp (s • ((-Complex.I / 2) • K)) i j
  rw [show s • ((-Complex.I / 2) • K) = (-Complex.I * ((s / 2 : ℝ) : ℂ)) • K by
    rw [← Complex.coe_smul, smul_smul]
    congr 1
    push_cast
    ring]

end

theorem mul_differentiable {A B : ℝ → QMat n} (hA : ∀ i j, Differentiable ℝ (fun t => A t i j)) (hB : ∀ i j, Differentiable ℝ (fun t => B t i j)) (i j : Fin (2 ^ n)) :
    Differentiable ℝ (fun t => (A t * B t) i j) := by
  simp only [Matrix.mul_apply]
  exact Differentiable.fun_sum fun k _ => (hA i k).mul (hB k j)

theorem update_differentiable (p : ℕ → ℝ) (k j : ℕ) : Differentiable ℝ (fun t => Function.update p k t j) := by
  by_cases h : j = k
  · subst h
    simp only [Function.update_self]
    exact differentiable_id
  · simp only [Function.update_of_ne h]
    exact differentiable_const _

theorem qaoa_differentiable (p : ℕ → ℝ) (k : ℕ) : ∀ m i j, Differentiable ℝ (fun t => qaoa n (Function.update p k t) m i j)
  | 0, i, j => differentiable_const _
  | m + 1, i, j => by
    refine mul_differentiable (A := fun t => qaoaLayer n (Function.update p k t (2 * m)) (Function.update p k t (2 * m + 1))) ?_ (qaoa_differentiable p k m) i j
    intro i j
    refine mul_differentiable (A := fun t => NormedSpace.exp ((-Complex.I * ((Function.update p k t (2 * m + 1) / 2 : ℝ) : ℂ)) • fieldX n)) ?_ ?_ i j
    · exact fun i j => (evolve_differentiable (fieldX n) i j).comp (update_differentiable p k _)
    · exact fun i j => (evolve_differentiable (ringZZ n) i j).comp (update_differentiable p k _)

theorem cost_differentiable (H : QMat n) {A : ℝ → QMat n} (hA : ∀ i j, Differentiable ℝ (fun t => A t i j)) : Differentiable ℝ (fun t => cost H (A t)) := by
  have : Differentiable ℝ (fun t => star (fun i => A t i 0) ⬝ᵥ (H *ᵥ (fun i => A t i 0))) := by
    simp only [dotProduct, Matrix.mulVec, Pi.star_apply]
    exact Differentiable.fun_sum fun i _ => ((hA i 0).star).mul (Differentiable.fun_sum fun j _ => (hA j 0).const_mul _)
  exact Complex.reCLM.differentiable.comp this

/-- Adding multiples of π to any number of angles does not change the cost. -/
theorem qaoa_lattice (hn : 2 ≤ n) (H : QMat n) (p : ℕ → ℝ) (z : ℕ → ℤ) (m : ℕ) : cost H (qaoa n (fun i => p i + z i * Real.pi) m) = cost H (qaoa n p m) := by
  have nat : ∀ (k : ℕ) (p : ℕ → ℝ) (i : ℕ), cost H (qaoa n (Function.update p i (p i + k * Real.pi)) m) = cost H (qaoa n p m) := by
    intro k
    induction k with
    | zero => intro p i; simp
    | succ k ih =>
      intro p i
      have := cost_sameState (C122_period hn (Function.update p i (p i + k * Real.pi)) i m) H
      rw [Function.update_self, Function.update_idem, ih] at this
      rw [← this, show p i + ((k + 1 : ℕ) : ℝ) * Real.pi = p i + k * Real.pi + Real.pi by push_cast; ring]
  have int : ∀ (k : ℤ) (p : ℕ → ℝ) (i : ℕ), cost H (qaoa n (Function.update p i (p i + k * Real.pi)) m) = cost H (qaoa n p m) := by
    intro k p i
    rcases Int.eq_nat_or_neg k with ⟨a, rfl | rfl⟩
    · exact_mod_cast nat a p i
    · have := nat a (Function.update p i (p i + ((-(a : ℤ) : ℤ) : ℝ) * Real.pi)) i
      rw [Function.update_self, Function.update_idem] at this
      rw [← this]
      congr 2
      rw [show p i + ((-(a : ℤ) : ℤ) : ℝ) * Real.pi + a * Real.pi = p i by push_cast; ring, Function.update_eq_self]
  have fin : ∀ k, cost H (qaoa n (fun i => if i < k then p i + z i * Real.pi else p i) m) = cost H (qaoa n p m) := by
    intro k
    induction k with
    | zero => simp
    | succ k ih =>
      rw [← ih, ← int (z k) (fun i => if i < k then p i + z i * Real.pi else p i) k]
      congr 2
      funext i
      by_cases h : i = k
      · subst h
        simp
      · rw [Function.update_of_ne h]
        by_cases h2 : i < k
        · rw [if_pos (by omega), if_pos h2]
        · rw [if_neg (by omega), if_neg h2]
  rw [← fin (2 * m)]
  congr 1
  exact qaoa_congr m fun i hi => by rw [if_pos hi]

/-- Around a point whose angles are multiples of π/2, the cost is the same in opposite directions. -/
theorem qaoa_reflect (hn : 2 ≤ n) (p : ℕ → ℝ) (z : ℕ → ℤ) (hp : ∀ i, p i = z i * (Real.pi / 2)) (d : ℕ → ℝ) (m : ℕ) :
    cost (totalObs (tfimGates n hn)) (qaoa n (fun i => p i - d i) m) = cost (totalObs (tfimGates n hn)) (qaoa n (fun i => p i + d i) m) := by
  rw [← C122_even hn (fun i => p i + d i), ← qaoa_lattice hn _ (fun i => -(p i + d i)) z]
  congr 2
  funext i
  rw [hp i]
  ring

/-- C123 (critical points): the cost is differentiable in every angle, and at angles that are multiples of π/2 all derivatives are 0. -/
theorem C123_critical (hn : 2 ≤ n) (p : ℕ → ℝ) (m k : ℕ) : Differentiable ℝ (fun t => cost (totalObs (tfimGates n hn)) (qaoa n (Function.update p k t) m)) ∧
    ((∃ z : ℕ → ℤ, ∀ i, p i = z i * (Real.pi / 2)) → deriv (fun t => cost (totalObs (tfimGates n hn)) (qaoa n (Function.update p k t) m)) (p k) = 0) := by
  have hd := cost_differentiable (totalObs (tfimGates n hn)) (qaoa_differentiable (n := n) p k m)
  refine ⟨hd, fun ⟨z, hz⟩ => ?_⟩
  set f := fun t => cost (totalObs (tfimGates n hn)) (qaoa n (Function.update p k t) m) with hf
  have hr : ∀ t, f (2 * p k - t) = f t := by
    intro t
    have := qaoa_reflect hn p z hz (Function.update 0 k (t - p k)) m
    have e1 : (fun i => p i - Function.update (0 : ℕ → ℝ) k (t - p k) i) = Function.update p k (2 * p k - t) := by
      funext i
      by_cases h : i = k
      · subst h; simp; ring
      · simp [Function.update_of_ne h]
    have e2 : (fun i => p i + Function.update (0 : ℕ → ℝ) k (t - p k) i) = Function.update p k t := by
      funext i
      by_cases h : i = k
      · subst h; simp
      · simp [Function.update_of_ne h]
    rw [e1, e2] at this
    exact this
  have h1 : HasDerivAt f (deriv f (p k)) (p k) := (hd (p k)).hasDerivAt
  have h2 : HasDerivAt (fun t => f (2 * p k - t)) (-deriv f (p k)) (p k) := by
    have hin : HasDerivAt (fun t : ℝ => 2 * p k - t) (-1) (p k) := by simpa using (hasDerivAt_id (p k)).const_sub (2 * p k)
    have h1' : HasDerivAt f (deriv f (p k)) (2 * p k - p k) := by rwa [show 2 * p k - p k = p k by ring]
    have := h1'.comp (p k) hin
    rw [mul_neg_one] at this
    exact this
  have h3 : HasDerivAt f (-deriv f (p k)) (p k) := h2.congr_of_eventuallyEq (Filter.Eventually.of_forall fun t => (hr t).symm)
  have := h1.unique h3
  linarith

theorem set_update {l : List ℝ} {k : ℕ} (hk : k < l.length) (t : ℝ) : (fun i => (l.set k t).getD i 0) = Function.update (fun i => l.getD i 0) k t := by
  funext i
  by_cases h : i = k
  · subst h
    rw [Function.update_self, List.getD_eq_getElem?_getD, List.getElem?_set_self hk]
    rfl
  · rw [Function.update_of_ne h, List.getD_eq_getElem?_getD, List.getElem?_set_ne (Ne.symm h), ← List.getD_eq_getElem?_getD]

theorem vqe_cost (hn : 2 ≤ n) (params : List ℝ) (h : 2 * (n / 2) ≤ params.length) : psCost n (tfimVqeCircuit n) (tfimObservables n) params =
    .ok (cost (totalObs (tfimGates n hn)) (qaoa n (fun i => params.getD i 0) (n / 2))) := by
  rw [psCost, C122_ansatz hn params h, tfimGates_obs hn]
  exact totalCost_gates _ _

/-- C122 (symmetries of the script's cost): adding π to any parameter, or changing the sign of all of them, gives the same cost, or the same error; and the
state of the circuit is the same when all qubits are flipped. -/
theorem C122_cost (hn : 2 ≤ n) (params : List ℝ) :
    (∀ i, i < params.length → psCost n (tfimVqeCircuit n) (tfimObservables n) (params.set i (params.getD i 0 + Real.pi)) = psCost n (tfimVqeCircuit n) (tfimObservables n) params) ∧
    psCost n (tfimVqeCircuit n) (tfimObservables n) (params.map (fun x => -x)) = psCost n (tfimVqeCircuit n) (tfimObservables n) params ∧
    ∀ U, circuitUnitary n (tfimVqeCircuit n) params = .ok U → InSector (pauliWord (flipAll n)) 1 (fun i => U i 0) := by
  by_cases h : 2 * (n / 2) ≤ params.length
  · refine ⟨fun i hi => ?_, ?_, fun U hU => ?_⟩
    · rw [vqe_cost hn _ (by simpa using h), vqe_cost hn _ h, set_update hi]
      exact congrArg _ (cost_sameState (C122_period hn (fun i => params.getD i 0) i _) _)
    · rw [vqe_cost hn _ (by simpa using h), vqe_cost hn _ h, ← C122_even]
      congr 3
      funext i
      by_cases hi : i < params.length
      · rw [List.getD_eq_getElem _ _ (by simpa using hi), List.getD_eq_getElem _ _ hi, List.getElem_map, neg_neg]
      · rw [List.getD_eq_default _ _ (by simpa using hi), List.getD_eq_default _ _ (by omega), neg_zero]
    · rw [C122_ansatz hn _ h] at hU
      rw [← Except.ok.inj hU]
      exact qaoa_flip hn _ _
  · have he : ∀ l : List ℝ, l.length = params.length → circuitUnitary n (tfimVqeCircuit n) l = .error .index := fun l hl => by
      rw [circuitUnitary, (C122_index l).1 (by omega)]
      rfl
    refine ⟨fun i hi => ?_, ?_, fun U hU => ?_⟩
    · rw [psCost, psCost, he _ (by simp), he _ rfl]
    · rw [psCost, psCost, he _ (by simp), he _ rfl]
    · rw [he _ rfl] at hU
      simp at hU

/-- A gradient step: it succeeds, keeps the number of parameters, and leaves multiples of π/2 where they are. -/
theorem vqe_step (hn : 2 ≤ n) {gd : ℝ → (List ℝ → Py ℝ) → List ℝ → Py (List ℝ)} (hgd : ValidGdList gd) (e : ℝ) (params : List ℝ) (h : 2 * (n / 2) ≤ params.length) :
    ∃ q, gd e (psCost n (tfimVqeCircuit n) (tfimObservables n)) params = .ok q ∧ q.length = params.length ∧
      ((∀ x ∈ params, ∃ z : ℤ, x = z * (Real.pi / 2)) → q = params) := by
  have hd : ∀ i < params.length, DifferentiableAt ℝ (fun t => (fun l : List ℝ => cost (totalObs (tfimGates n hn)) (qaoa n (fun i => l.getD i 0) (n / 2))) (params.set i t)) (params.getD i 0) := by
    intro i hi
    simp only [set_update hi]
    exact (C123_critical hn (fun i => params.getD i 0) (n / 2) i).1 _
  obtain ⟨q, h1, h2, h3⟩ := hgd e _ (fun l : List ℝ => cost (totalObs (tfimGates n hn)) (qaoa n (fun i => l.getD i 0) (n / 2))) params
    (fun p' hp' => vqe_cost hn p' (by omega)) hd
  refine ⟨q, h1, h2, fun hz => List.ext_getElem h2 fun i hi hi' => ?_⟩
  have hp : ∃ z : ℕ → ℤ, ∀ i, params.getD i 0 = z i * (Real.pi / 2) := by
    have : ∀ i, ∃ z : ℤ, params.getD i 0 = z * (Real.pi / 2) := by
      intro i
      by_cases hi : i < params.length
      · rw [List.getD_eq_getElem _ _ hi]
        exact hz _ (List.getElem_mem hi)
      · exact ⟨0, by rw [List.getD_eq_default _ _ (by omega)]; simp⟩
    exact ⟨fun i => (this i).choose, fun i => (this i).choose_spec⟩
  have := h3 i hi'
  simp only [set_update hi'] at this
  rw [(C123_critical hn (fun i => params.getD i 0) (n / 2) i).2 hp, mul_zero, sub_zero, List.getD_eq_getElem _ _ hi, List.getD_eq_getElem _ _ hi'] at this
  exact this

/-- C123 (calls): with enough parameters and valid arguments, the call of the script returns a result. -/
theorem C123_succeeds (hn : 2 ≤ n) {gd : ℝ → (List ℝ → Py ℝ) → List ℝ → Py (List ℝ)} (hgd : ValidGdList gd) (params : List ℝ) (h : 2 * (n / 2) ≤ params.length)
    {args : PsArgs} {N : ℕ} {e : ℝ} {t : Tol} {rs : Bool} (hv : PsValid args N e t rs) (rp : Bool) (hrp : args.returnParams = boolFlag rp) :
    ∃ out, parameterShiftOptimizer (n := n) gd .nothing (tfimVqeCircuit n) params (tfimObservables n) args = .ok out := by
  rw [tfimGates_obs hn]
  refine ps_succeeds (fun p : List ℝ => p.length = params.length) rfl (fun p hp => ⟨_, C122_ansatz hn p (by omega)⟩) (fun e p hp => ?_) hv rp hrp
  obtain ⟨q, h1, h2, -⟩ := vqe_step hn hgd e p (by omega)
  rw [tfimGates_obs hn] at h1
  exact ⟨q, h1, h2.trans hp⟩

/-- C123 (stuck): a run that starts at multiples of π/2 never leaves its start. All costs are the first one, and there are `min (nsteps, 4) + 1` of them. -/
theorem C123_stuck (hn : 2 ≤ n) {gd : ℝ → (List ℝ → Py ℝ) → List ℝ → Py (List ℝ)} (hgd : ValidGdList gd) (params : List ℝ) (hz : ∀ x ∈ params, ∃ z : ℤ, x = z * (Real.pi / 2))
    (args : PsArgs) (N : ℕ) (hN : args.nsteps = .int (N : ℤ)) (rp : Bool) (hrp : args.returnParams = boolFlag rp) (out)
    (h : parameterShiftOptimizer (n := n) gd .nothing (tfimVqeCircuit n) params (tfimObservables n) args = .ok out) :
    psCosts out = List.replicate (min N 4 + 1) (cost (totalObs (tfimGates n hn)) (qaoa n (fun i => params.getD i 0) (n / 2))) ∧
      (rp = true → psParams out = some (List.replicate (min N 4 + 1) params)) := by
  have hlen : 2 * (n / 2) ≤ params.length := by
    by_contra hc
    obtain ⟨⟨ops, ho⟩, -⟩ := (ps_ok_iff ..).mp h
    rw [(C122_index params).1 (by omega)] at ho
    simp at ho
  obtain ⟨N', e, t, V, m, hN', -, ht, hV0, hmN, hV, hl, hc, -, hps, hnot, hend⟩ := C55_trace gd .nothing (tfimVqeCircuit n) params (tfimObservables n) args out rp hrp h
  obtain rfl : N = N' := by rw [hN] at hN'; simpa using hN'
  have hVc : ∀ k ≤ m, V k = params := by
    intro k
    induction k with
    | zero => exact fun _ => hV0
    | succ k ih =>
      intro hk
      have := hV k (by omega)
      rw [ih (by omega)] at this
      obtain ⟨q, h1, -, h3⟩ := vqe_step hn hgd e params hlen
      rw [h1] at this
      rw [← Except.ok.inj this, h3 hz]
  have hcc : ∀ k ≤ m, (psCosts out).getD k 0 = cost (totalObs (tfimGates n hn)) (qaoa n (fun i => params.getD i 0) (n / 2)) := by
    intro k hk
    have := hc k hk
    rw [hVc k hk, vqe_cost hn params hlen] at this
    exact (Except.ok.inj this).symm
  have hclose : ∀ c, Close t.spec c c := fun c => close_self (isTol_nonneg ht) c
  have hm : m = min N 4 := by
    have h5 : m ≤ 4 := by
      by_contra hcon
      refine hnot 3 le_rfl (by omega) ?_
      rw [hcc _ (by omega), hcc _ (by omega)]
      exact hclose _
    rcases hend with he | ⟨k, hk, hkN, hmk, -⟩
    · omega
    · omega
  subst hm
  refine ⟨?_, ?_⟩
  · refine List.eq_replicate_iff.2 ⟨hl, fun c hcm => ?_⟩
    obtain ⟨k, hk, rfl⟩ := List.getElem_of_mem hcm
    rw [← hcc k (by omega), List.getD_eq_getElem _ _ hk]
  · intro hr
    rw [hps hr]
    congr 1
    refine List.eq_replicate_iff.2 ⟨by simp, fun q hq => ?_⟩
    obtain ⟨k, hk, rfl⟩ := List.mem_map.1 hq
    exact hVc k (by rw [List.mem_range] at hk; omega)

/-- C123 (start at 0): with all angles 0 the circuit is the Hadamard gates and the cost is the number of qubits. -/
theorem C123_zero (hn : 2 ≤ n) (m : ℕ) : qaoa n (fun _ => 0) m = hadamardAll n ∧ cost (totalObs (tfimGates n hn)) (qaoa n (fun _ => 0) m) = n := by
  have h0 : qaoa n (fun _ => 0) m = hadamardAll n := by
    induction m with
    | zero => rfl
    | succ m ih =>
      rw [qaoa, ih, qaoaLayer]
      simp
  refine ⟨h0, ?_⟩
  have hs : ∀ (k : ℕ) (A : ℕ → QMat n), ∑ i ∈ Finset.range k, A i = ((List.range k).map A).sum := fun k A => rfl
  rw [h0, tfim_ringField, cost_add, fieldX, ringZZ, cost_add, hs, hs, cost_list_sum, cost_list_sum, cost_bond_plus (by omega) (by omega) (by omega), List.map_map, List.map_map]
  have e1 : (List.range n).map ((fun A => cost A (hadamardAll n)) ∘ fun i => pauliWord (placed n [.X] [i])) = (List.range n).map (fun _ => (1 : ℝ)) :=
    List.map_congr_left fun i _ => cost_site_plus
  have e2 : (List.range (n - 1)).map ((fun A => cost A (hadamardAll n)) ∘ fun i => pauliWord (placed n [.Z, .Z] [i, i + 1])) = (List.range (n - 1)).map (fun _ => (0 : ℝ)) :=
    List.map_congr_left fun i hi => by
      rw [List.mem_range] at hi
      exact cost_bond_plus (by omega) (by omega) (by omega)
  rw [e1, e2]
  simp

/-- Hypotheses of C122 and C123 met: the call of the script on 4 qubits, from the script's start and from 0. -/
example : ∃ gd out out', ValidGdList gd ∧
    parameterShiftOptimizer (n := 4) gd .nothing (tfimVqeCircuit 4) [0.1, 0.1, 0.1, 0.1] (tfimObservables 4) { eta := .float 0.01, nsteps := .int 100, tol := .float 1e-5, returnParams := boolFlag true } = .ok out ∧
    parameterShiftOptimizer (n := 4) gd .nothing (tfimVqeCircuit 4) [0, 0, 0, 0] (tfimObservables 4) { eta := .float 0.01, nsteps := .int 100, tol := .float 1e-5, returnParams := boolFlag true } = .ok out' ∧
    psCosts out' = [4, 4, 4, 4, 4] := by
  obtain ⟨gd, hgd⟩ := exists_validGdList
  have hv : PsValid { eta := .float 0.01, nsteps := .int 100, tol := .float 1e-5, returnParams := boolFlag true } 100 0.01 (.fin 1e-5) false :=
    ⟨rfl, by norm_num, rfl, by norm_num, by norm_num, ⟨rfl, by norm_num⟩, rfl⟩
  obtain ⟨out, h⟩ := C123_succeeds (n := 4) (by norm_num) hgd [0.1, 0.1, 0.1, 0.1] (by simp) hv true rfl
  obtain ⟨out', h'⟩ := C123_succeeds (n := 4) (by norm_num) hgd [0, 0, 0, 0] (by simp) hv true rfl
  refine ⟨gd, out, out', hgd, h, h', ?_⟩
  rw [(C123_stuck (by norm_num) hgd [0, 0, 0, 0] (fun x hx => ⟨0, by simp at hx; simp [hx]⟩) _ 100 rfl true rfl out' h').1]
  have e : (fun i => ([0, 0, 0, 0] : List ℝ).getD i 0) = fun _ => 0 := by
    funext i
    rcases i with _ | _ | _ | _ | i <;> rfl
  rw [e, (C123_zero (by norm_num) _).2]
  norm_num [List.replicate]

end Oranssi
