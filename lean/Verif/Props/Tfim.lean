import Verif.Props.ApproxTotal
import Verif.Model.Tfim
import Verif.Props.GreedySymmetry
import Verif.Props.Adapt
import Verif.Props.ZassenhausV2Reach

/-! # The transverse-field Ising scripts (C112)

The observables of the scripts commute with the flip of all qubits, `X ⊗ … ⊗ X`, and the circuit prepares a state that the flip leaves alone. -/

namespace Oranssi
open Spec
open scoped Matrix

variable {n m : ℕ}

/-- The sign of `b a = ± a b` for Pauli matrices. -/
def letterSign : Letter → Letter → ℂ
  | .X, .Y => -1
  | .X, .Z => -1
  | .Y, .X => -1
  | .Y, .Z => -1
  | .Z, .X => -1
  | .Z, .Y => -1
  | _, _ => 1

theorem letter_swap (a b : Letter) : a.mat * b.mat = letterSign a b • (b.mat * a.mat) := by
  cases a <;> cases b <;> ext i j <;> fin_cases i <;> fin_cases j <;> simp [letterSign, Letter.mat, Matrix.mul_apply, Fin.sum_univ_two]

theorem pauliWord_swap (f g : Fin n → Letter) : pauliWord f * pauliWord g = (∏ q, letterSign (f q) (g q)) • (pauliWord g * pauliWord f) := by
  rw [pauliWord, pauliWord, tensor_mul, tensor_mul, ← tensor_smul]
  congr 1
  funext q
  exact letter_swap _ _

theorem placed_one (a : Letter) (i : ℕ) (q : Fin n) : placed n [a] [i] q = if q.val = i then a else .I := by
  by_cases h : q.val = i
  · simp [placed, h]
  · have : (i == q.val) = false := by simpa using fun h' => h h'.symm
    simp [placed, h, List.idxOf_cons, this]

/-- The flip of all qubits. -/
def Spec.flipAll (n : ℕ) : Fin n → Letter := fun _ => .X

theorem sign_one (f : Fin n → Letter) (a : Letter) (i : ℕ) (hi : i < n) : (∏ q, letterSign (f q) (placed n [a] [i] q)) = letterSign (f ⟨i, hi⟩) a := by
  rw [Finset.prod_eq_single ⟨i, hi⟩]
  · rw [placed_one, if_pos rfl]
  · intro q _ hq
    rw [placed_one, if_neg (fun h => hq (Fin.ext h))]
    cases f q <;> rfl
  · intro h; exact absurd (Finset.mem_univ _) h

theorem word_site (f : Fin n → Letter) (a : Letter) (i : ℕ) (hi : i < n) :
    pauliWord f * pauliWord (placed n [a] [i]) = letterSign (f ⟨i, hi⟩) a • (pauliWord (placed n [a] [i]) * pauliWord f) := by
  rw [pauliWord_swap, sign_one f a i hi]

/-- `a` on qubit `i` and `b` on qubit `j` as an observable. -/
noncomputable def bondObs (i j : ℕ) (hi : i < n) (hj : j < n) (hij : i ≠ j) (a b : Letter) : Gate n :=
  ⟨[i, j], pauliWord (n := 2) ([a, b] : List Letter).get, by simp, by simpa using hij, by simp [hi, hj]⟩

theorem bondObs_full (i j : ℕ) (hi : i < n) (hj : j < n) (hij : i ≠ j) (a b : Letter) : full n (bondObs i j hi hj hij a b).ws (bondObs i j hi hj hij a b).A =
    pauliWord (placed n [a, b] [i, j]) := full_placed (w := [a, b]) (qs := [i, j]) rfl ⟨by simpa using hij, by simp [hi, hj]⟩

theorem placed_two (i j : ℕ) (hi : i < n) (hj : j < n) (hij : i ≠ j) (a b : Letter) :
    pauliWord (placed n [a, b] [i, j]) = pauliWord (placed n [a] [i]) * pauliWord (placed n [b] [j]) := by
  rw [pauliWord, pauliWord, pauliWord, tensor_mul]
  congr 1
  funext q
  rw [placed_one, placed_one]
  by_cases h : q.val = i
  · rw [if_pos h, if_neg (by omega)]
    simp [placed, h, Letter.mat]
  · have h1 : (i == q.val) = false := by simpa using fun h' => h h'.symm
    by_cases h' : q.val = j
    · rw [if_neg h, if_pos h']
      have h2 : (i == j) = false := by simpa using hij
      simp [placed, h', List.idxOf_cons, h2, Letter.mat]
    · have h2 : (j == q.val) = false := by simpa using fun h'' => h' h''.symm
      rw [if_neg h, if_neg h']
      simp [placed, List.idxOf_cons, h1, h2, Letter.mat]

/-- The observables of the scripts as gates. -/
noncomputable def tfimGates (n : ℕ) (hn : 2 ≤ n) : List (Gate n) :=
  (List.finRange n).map (fun i => siteObs i.val i.isLt .X) ++
    (List.finRange (n - 1)).map (fun i => bondObs i.val (i.val + 1) (by omega) (by omega) (by omega) .Z .Z) ++
    [bondObs (n - 1) 0 (by omega) (by omega) (by omega) .Z .Z]

theorem npX_word : npX = npQ (pauliWord ([Letter.X] : List Letter).get) := by
  have : npX = npQ (tensor (fun _ : Fin 1 => Letter.X.mat)) := npLetter_eq .X
  rw [this]
  exact tensor_congr_npQ rfl _ _ (fun i => by fin_cases i; rfl)

theorem npZZ_word : npKron npZ npZ = npQ (pauliWord ([Letter.Z, Letter.Z] : List Letter).get) := by
  have : npZ = npQ (tensor (fun _ : Fin 1 => Letter.Z.mat)) := npLetter_eq .Z
  rw [this, npKron_npQ, kron_tensor]
  exact tensor_congr_npQ rfl _ _ (fun i => by fin_cases i <;> rfl)

theorem tfimGates_obs (hn : 2 ≤ n) : tfimObservables n = (tfimGates n hn).map Gate.obs := by
  rw [tfimObservables, tfimGates, List.map_append, List.map_append, List.map_map, List.map_map]
  have hr : ∀ (k : ℕ) (f : ℕ → Obs) (g : Fin k → Obs), (∀ i, g i = f i.val) → (List.range k).map f = (List.finRange k).map g := by
    intro k f g h
    rw [← List.map_coe_finRange_eq_range, List.map_map]
    exact List.map_congr_left fun i _ => (h i).symm
  congr 1
  · congr 1
    · exact hr _ _ _ fun i => by simp [siteObs, Gate.obs, npX_word]; rfl
    · exact hr _ _ _ fun i => by simp [bondObs, Gate.obs, zzObs, npZZ_word]; rfl
  · simp only [List.map_cons, List.map_nil, bondObs, Gate.obs, zzObs, npZZ_word]
    rw [show ((n : ℤ) - 1) = ((n - 1 : ℕ) : ℤ) by omega]
    rfl

theorem tfim_symmetry (hn : 2 ≤ n) : ∀ g ∈ tfimGates n hn, Commute (pauliWord (flipAll n)) (full n g.ws g.A) := by
  have hz : ∀ i j (hi : i < n) (hj : j < n) (hij : i ≠ j), Commute (pauliWord (flipAll n)) (pauliWord (placed n [.Z, .Z] [i, j])) := by
    intro i j hi hj hij
    rw [placed_two i j hi hj hij, Commute, SemiconjBy, ← mul_assoc, word_site _ _ i hi, smul_mul_assoc, mul_assoc, word_site _ _ j hj, mul_smul_comm, smul_smul, mul_assoc]
    simp [flipAll, letterSign]
  intro g hg
  rw [tfimGates, List.mem_append, List.mem_append, List.mem_map, List.mem_map, List.mem_singleton] at hg
  rcases hg with (⟨i, -, rfl⟩ | ⟨i, -, rfl⟩) | rfl
  · rw [siteObs_full, Commute, SemiconjBy, word_site _ _ i.val i.isLt]
    simp [flipAll, letterSign]
  · rw [bondObs_full]; exact hz _ _ (by omega) (by omega) (by omega)
  · rw [bondObs_full]; exact hz _ _ (by omega) (by omega) (by omega)

theorem tfim_compile (n : ℕ) : compileLoop n (tfimCircuit n) 1 = .ok (hadamardAll n) := by
  have := compile_hadamards n (List.range n) (by simp) [] 1
  rw [List.append_nil] at this
  rw [tfimCircuit, this, hadamards_eq, compileLoop]

/-- Flipping qubits does not change the state that the circuit prepares. -/
theorem plus_flip (f : Fin n → Letter) (hf : ∀ q, f q = .X ∨ f q = .I) : InSector (pauliWord f) 1 (fun i => hadamardAll n i 0) := by
  rw [InSector, one_smul, ← mul_column]
  funext i
  rw [hadamardAll, pauliWord, tensor_mul]
  simp only [tensor]
  refine Finset.prod_congr rfl fun q _ => ?_
  have h0 : bit n 0 q.val = 0 := by simp [bit]
  have e : (⟨bit n ((0 : Fin (2 ^ n)) : ℕ) q.val, Nat.mod_lt _ (by decide)⟩ : Fin 2) = 0 := Fin.ext h0
  rw [e]
  rcases hf q with h | h
  · rw [h]
    generalize (⟨bit n (i : ℕ) q.val, Nat.mod_lt _ (by decide)⟩ : Fin 2) = b
    fin_cases b <;> simp [Letter.mat, Matrix.mul_apply, Fin.sum_univ_two]
  · rw [h]
    generalize (⟨bit n (i : ℕ) q.val, Nat.mod_lt _ (by decide)⟩ : Fin 2) = b
    fin_cases b <;> simp [Letter.mat]

/-! ### The gradients in the initial state -/

theorem grad_add (A B U P : QMat n) : grad (A + B) U P = grad A U P + grad B U P := by
  rw [grad, grad, grad, ← Complex.add_im, ← dotProduct_add, ← Matrix.add_mulVec]
  congr 4
  rw [mul_add, add_mul]; abel

theorem grad_zero (U P : QMat n) : grad 0 U P = 0 := by simp [grad]

theorem grad_sum (U P : QMat n) : ∀ l : List (QMat n), grad l.sum U P = (l.map (fun A => grad A U P)).sum
  | [] => by simp [grad_zero]
  | A :: l => by rw [List.sum_cons, grad_add, grad_sum U P l, List.map_cons, List.sum_cons]

/-- No gradient along an observable of which the state is an eigenstate. -/
theorem grad_flip {f : Fin n → Letter} {U : QMat n} (h : InSector (pauliWord f) 1 (fun i => U i 0)) (P : QMat n) : grad (pauliWord f) U P = 0 := by
  rw [InSector, one_smul] at h
  have h' : star (fun i => U i 0) ᵥ* pauliWord f = star (fun i => U i 0) := by
    conv_rhs => rw [← h]
    rw [Matrix.star_mulVec, pauliWord_herm]
  rw [grad, Matrix.sub_mulVec, dotProduct_sub, ← Matrix.mulVec_mulVec, h, ← Matrix.mulVec_mulVec, Matrix.dotProduct_mulVec _ (pauliWord f), h', sub_self, Complex.zero_im]

/-- In the initial state there is no gradient of the bond `(i, j)` along `P`, if `P` commutes with the flip of qubit `i`. -/
theorem plus_grad_bond {i j : ℕ} (hi : i < n) (hj : j < n) (hij : i ≠ j) {v : Fin n → Letter} (hP : Commute (pauliWord (placed n [.X] [i])) (pauliWord v)) :
    grad (pauliWord (placed n [.Z, .Z] [i, j])) (hadamardAll n) (pauliWord v) = 0 := by
  have hs : InSector (pauliWord (placed n [.X] [i])) 1 (fun k => hadamardAll n k 0) := plus_flip _ fun q => by
    rw [placed_one]; split <;> simp
  have ha : pauliWord (placed n [.X] [i]) * pauliWord (placed n [.Z, .Z] [i, j]) = -(pauliWord (placed n [.Z, .Z] [i, j]) * pauliWord (placed n [.X] [i])) := by
    rw [placed_two i j hi hj hij, ← mul_assoc, word_site _ _ i hi, smul_mul_assoc, mul_assoc, word_site _ _ j hj, mul_smul_comm, smul_smul, mul_assoc, placed_one, placed_one,
      if_pos rfl, if_neg (by simpa using hij.symm)]
    simp [letterSign]
  have := omegaC_sector hP hs ha
  rw [omegaC] at this
  rw [grad, ← neg_sub, Matrix.neg_mulVec, dotProduct_neg, this, neg_zero, Complex.zero_im]

theorem placed_swap (i j : ℕ) (hij : i ≠ j) (a b : Letter) : placed n [a, b] [i, j] = placed n [b, a] [j, i] := by
  funext q
  simp only [placed, List.idxOf_cons, List.idxOf_nil]
  by_cases h : (i == q.val) = true <;> by_cases h' : (j == q.val) = true
  · exact absurd ((by simpa using h : i = q.val).trans (by simpa using h' : j = q.val).symm) hij
  · simp [h, h']
  · simp [h, h']
  · simp [h, h']

theorem site_mul {a b d : Letter} {c : ℂ} (h : a.mat * b.mat = c • d.mat) (i : ℕ) (hi : i < n) :
    pauliWord (placed n [a] [i]) * pauliWord (placed n [b] [i]) = c • pauliWord (placed n [d] [i]) := by
  have hc : c = ∏ q : Fin n, (if q.val = i then c else 1) := by
    rw [Finset.prod_eq_single ⟨i, hi⟩]
    · rw [if_pos rfl]
    · intro q _ hq
      rw [if_neg (fun h => hq (Fin.ext h))]
    · intro h; exact absurd (Finset.mem_univ _) h
  rw [pauliWord, pauliWord, tensor_mul, hc, pauliWord, ← tensor_smul]
  congr 1
  funext q
  rw [placed_one, placed_one, placed_one]
  by_cases hq : q.val = i
  · rw [if_pos hq, if_pos hq, if_pos hq, if_pos hq, h]
  · rw [if_neg hq, if_neg hq, if_neg hq, if_neg hq]
    simp [Letter.mat]

theorem hadamardAll_unitary (n : ℕ) : Unitary (hadamardAll n) := by
  change (hadamardAll n)ᴴ * hadamardAll n = 1
  rw [hadamardAll, tensor_conjTranspose, tensor_mul, ← tensor_one]
  congr 1
  funext q
  have h2 : ((Real.sqrt 2 : ℝ) : ℂ)⁻¹ * ((Real.sqrt 2 : ℝ) : ℂ)⁻¹ = 1 / 2 := half_sqrt
  ext i j
  fin_cases i <;> fin_cases j <;> simp [Matrix.mul_apply, Fin.sum_univ_two, Matrix.conjTranspose_apply, Complex.conj_ofReal, h2] <;> norm_num

/-- The gradient of the bond `(i, j)` along `Y Z` on the same qubits is 2 in the initial state. -/
theorem plus_grad_self {i j : ℕ} (hi : i < n) (hj : j < n) (hij : i ≠ j) :
    grad (pauliWord (placed n [.Z, .Z] [i, j])) (hadamardAll n) (pauliWord (placed n [.Y, .Z] [i, j])) = 2 := by
  have hs : InSector (pauliWord (placed n [.X] [i])) 1 (fun k => hadamardAll n k 0) := plus_flip _ fun q => by
    rw [placed_one]; split <;> simp
  have hc : pauliWord (placed n [.Z] [j]) * pauliWord (placed n [.Z] [i]) = pauliWord (placed n [.Z] [i]) * pauliWord (placed n [.Z] [j]) := by
    rw [word_site _ _ i hi, placed_one, if_neg (by simpa using hij)]
    simp [letterSign]
  have hc' : pauliWord (placed n [.Z] [j]) * pauliWord (placed n [.Y] [i]) = pauliWord (placed n [.Y] [i]) * pauliWord (placed n [.Z] [j]) := by
    rw [word_site _ _ i hi, placed_one, if_neg (by simpa using hij)]
    simp [letterSign]
  have e1 : pauliWord (placed n [.Y, .Z] [i, j]) * pauliWord (placed n [.Z, .Z] [i, j]) = Complex.I • pauliWord (placed n [.X] [i]) := by
    rw [placed_two i j hi hj hij, placed_two i j hi hj hij, mul_assoc, ← mul_assoc (pauliWord (placed n [.Z] [j])), hc, mul_assoc, pauliWord_sq, mul_one]
    refine site_mul ?_ i hi
    ext a b
    fin_cases a <;> fin_cases b <;> simp [Letter.mat, Matrix.mul_apply, Fin.sum_univ_two]
  have e2 : pauliWord (placed n [.Z, .Z] [i, j]) * pauliWord (placed n [.Y, .Z] [i, j]) = -(Complex.I • pauliWord (placed n [.X] [i])) := by
    rw [placed_two i j hi hj hij, placed_two i j hi hj hij, mul_assoc, ← mul_assoc (pauliWord (placed n [.Z] [j])), hc', mul_assoc, pauliWord_sq, mul_one, ← neg_smul]
    refine site_mul ?_ i hi
    ext a b
    fin_cases a <;> fin_cases b <;> simp [Letter.mat, Matrix.mul_apply, Fin.sum_univ_two]
  have hnorm : star (fun k => hadamardAll n k 0) ⬝ᵥ (fun k => hadamardAll n k 0) = 1 := normalised_of_unitary (hadamardAll_unitary n)
  rw [InSector, one_smul] at hs
  rw [grad, e1, e2, sub_neg_eq_add, ← two_smul ℂ, smul_smul, Matrix.smul_mulVec, hs, dotProduct_smul, hnorm]
  simp

theorem placed_outside {a b : Letter} {i : ℕ} (hi : i < n) (h0 : i ≠ 0) (h1 : i ≠ 1) : placed n [a, b] [0, 1] ⟨i, hi⟩ = .I := by
  have e0 : (0 == i) = false := by simpa using h0.symm
  have e1 : (1 == i) = false := by simpa using h1.symm
  simp [placed, List.idxOf_cons, e0, e1]

/-- For three or more qubits, the gradient of the whole Hamiltonian in the initial state along a word on the qubits 0 and 1 is that of the bond between them. -/
theorem tfim_grad_word (hn : 3 ≤ n) (a b : Letter) : grad (totalObs (tfimGates n (by omega))) (hadamardAll n) (pauliWord (placed n [a, b] [0, 1])) =
    grad (pauliWord (placed n [.Z, .Z] [0, 1])) (hadamardAll n) (pauliWord (placed n [a, b] [0, 1])) := by
  have hout : ∀ i (hi : i < n), i ≠ 0 → i ≠ 1 → Commute (pauliWord (placed n [.X] [i])) (pauliWord (placed n [a, b] [0, 1])) := by
    intro i hi h0 h1
    refine Commute.symm ?_
    rw [Commute, SemiconjBy, word_site _ _ i hi, placed_outside hi h0 h1]
    simp [letterSign]
  rw [totalObs, grad_sum, List.map_map, tfimGates, List.map_append, List.map_append, List.sum_append, List.sum_append, List.map_map, List.map_map, ← Fin.sum_univ_def, ← Fin.sum_univ_def]
  obtain ⟨k, rfl⟩ : ∃ k, n = k + 3 := ⟨n - 3, by omega⟩
  have e1 : ∀ i : Fin (k + 3), grad (full (k + 3) (siteObs i.val i.isLt .X).ws (siteObs i.val i.isLt .X).A) (hadamardAll (k + 3)) (pauliWord (placed (k + 3) [a, b] [0, 1])) = 0 := by
    intro i
    rw [siteObs_full]
    exact grad_flip (plus_flip _ fun q => by rw [placed_one]; split <;> simp) _
  have e2 : ∀ i j (hi : i < k + 3) (hj : j < k + 3) (hij : i ≠ j), i ≠ 0 → i ≠ 1 → grad (full (k + 3) (bondObs i j hi hj hij .Z .Z).ws
      (bondObs i j hi hj hij .Z .Z).A) (hadamardAll (k + 3)) (pauliWord (placed (k + 3) [a, b] [0, 1])) = 0 := by
    intro i j hi hj hij h0 h1
    rw [bondObs_full]
    exact plus_grad_bond hi hj hij (hout i hi h0 h1)
  have e3 : ∀ i j (hi : i < k + 3) (hj : j < k + 3) (hij : i ≠ j), j ≠ 0 → j ≠ 1 → grad (full (k + 3) (bondObs i j hi hj hij .Z .Z).ws
      (bondObs i j hi hj hij .Z .Z).A) (hadamardAll (k + 3)) (pauliWord (placed (k + 3) [a, b] [0, 1])) = 0 := by
    intro i j hi hj hij h0 h1
    rw [bondObs_full, placed_swap _ _ hij]
    exact plus_grad_bond hj hi hij.symm (hout j hj h0 h1)
  have e4 : ∀ (h1 : 0 < k + 3) (h2 : 1 < k + 3) (h3 : 0 ≠ 1), grad (full (k + 3) (bondObs 0 1 h1 h2 h3 .Z .Z).ws (bondObs 0 1 h1 h2 h3 .Z .Z).A) (hadamardAll (k + 3)) (pauliWord (placed (k + 3) [a, b] [0, 1])) =
      grad (pauliWord (placed (k + 3) [.Z, .Z] [0, 1])) (hadamardAll (k + 3)) (pauliWord (placed (k + 3) [a, b] [0, 1])) := by
    intro h1 h2 h3
    rw [bondObs_full]
  simp only [Function.comp_apply, e1, Finset.sum_const_zero, zero_add, List.map_cons, List.map_nil, List.sum_cons, List.sum_nil, add_zero]
  rw [e2 (k + 3 - 1) 0 _ _ _ (by omega) (by omega), add_zero]
  refine (Fin.sum_univ_succ (n := k + 1) _).trans ?_
  refine (congrArg (_ + ·) (Finset.sum_eq_zero fun i _ => e3 (i.val + 1) (i.val + 1 + 1) (by omega) (by omega) (by omega) (by omega) (by omega))).trans ?_
  rw [add_zero]
  exact e4 _ _ _

/-- Two directions have a gradient in the initial state of the scripts. -/
theorem tfim_twoGradients (hn : 3 ≤ n) : TwoGradients (tfimGates n (by omega)) (hadamardAll n) := by
  have hq : [0, 1] ∈ combinations (List.range n) 2 := mem_combinations_range.2 ⟨rfl, by simp, by simp; omega⟩
  refine ⟨[.Y, .Z], [0, 1], [.Z, .Y], [0, 1], by decide, by decide, hq, hq, by decide, ?_, ?_⟩
  · rw [tfim_grad_word hn, plus_grad_self (by omega) (by omega) (by omega)]
    norm_num
  · rw [tfim_grad_word hn, placed_swap _ _ (by omega), placed_swap 0 1 (by omega), plus_grad_self (by omega) (by omega) (by omega)]
    norm_num

theorem expect_flip {Q P : QMat n} {φ : Ket n} (hH : Qᴴ = Q) (hφ : Q *ᵥ φ = φ) (ha : Q * P = -(P * Q)) : star φ ⬝ᵥ P *ᵥ φ = 0 := by
  have h1 : star φ ᵥ* Q = star φ := by
    conv_rhs => rw [← hφ]
    rw [Matrix.star_mulVec, hH]
  have h2 : star φ ⬝ᵥ (Q * P) *ᵥ φ = star φ ⬝ᵥ P *ᵥ φ := by
    rw [← Matrix.mulVec_mulVec, Matrix.dotProduct_mulVec _ Q, h1]
  have h3 : star φ ⬝ᵥ (Q * P) *ᵥ φ = -(star φ ⬝ᵥ P *ᵥ φ) := by
    rw [ha, Matrix.neg_mulVec, dotProduct_neg, ← Matrix.mulVec_mulVec, hφ]
  have h4 := h2.symm.trans h3
  exact self_eq_neg.1 h4

/-- The gates of the circuit. -/
noncomputable def tfimOps (n : ℕ) : List (Gate n) := (List.finRange n).map (fun i => ⟨[i.val], hadamard, by simp, by simp, by simp⟩)

theorem tfimOps_eq (n : ℕ) : tfimCircuit n = (tfimOps n).map (fun g => (g.obs.matrix, g.obs.wires)) := by
  rw [tfimCircuit, tfimOps, List.map_map, ← List.map_coe_finRange_eq_range, List.map_map]
  exact List.map_congr_left fun i _ => rfl

/-- The layers of tfim_su4_linesearch.py (51) and tfim_su8_linesearch.py (40), for any arguments they accept. -/
inductive TfimLayer (n : ℕ) : AnyLayer n → Prop
  | squared (la : LayerArgs) (L : SquaredLayer n) (hL : squaredLayer n (tfimObservables n) la = .ok L) : TfimLayer n (.squared L)
  | su8 (la : LayerArgs) (L : SU8Layer n) (hL : su8Layer n (tfimObservables n) la true true = .ok L) : TfimLayer n (.su8 L)

/-- C112: with three or more qubits the call of the optimizer in these scripts succeeds for all valid arguments.  The first circuit reported is the initial one, in
which two directions have a gradient, and a later one is symmetric under the flip of all qubits as long as those between have two such directions; every qubit
has then a vanishing expectation of `Z` and `Y`.  In particular this always holds for the second circuit. -/
theorem C112_run (hn : 3 ≤ n) (E : LayerEnv n) (hs : ValidSvd E.svd) (eigh : EighFn n) (rnd : ℕ → Matrix (Fin (2 ^ n)) (Fin (2 ^ n)) ℝ) (params : List (List ℝ))
    (L : AnyLayer n) (hL : TfimLayer n L) (args : ApproxArgs) (hp : args.perturb = .bool false) (hr : args.returnUnitary = .bool true) (ho : args.returnOmegas = .bool false)
    (hv : ∃ N e t F, ApproxValid args N e t F) :
    ∃ out l, approximateLieOptimizer E eigh rnd .state (tfimCircuit n) params (tfimObservables n) (fun _ : Fin 1 => L) [0] args = .ok out ∧ approxUnitaries out.1 = some l ∧
      l.length = (approxCosts out.1).length ∧ l[0]? = some (hadamardAll n) ∧ TwoGradients (tfimGates n (by omega)) (hadamardAll n) ∧
      ∀ (K : ℕ) (X : QMat n), l[K]? = some X → (∀ k < K, 1 ≤ k → ∀ Y, l[k]? = some Y → TwoGradients (tfimGates n (by omega)) Y) →
        InSector (pauliWord (flipAll n)) 1 (fun i => X i 0) ∧
        ∀ (q : Fin n), ∀ a ∈ [Letter.Z, .Y], star (fun i => X i 0) ⬝ᵥ pauliWord (placed n [a] [q.val]) *ᵥ (fun i => X i 0) = 0 := by
  have h2 : 2 ≤ n := by omega
  have hT : FreshTotal L := by
    cases hL with
    | squared la L hL => exact .squared (by omega) (tfimGates n h2) la L (by rw [← tfimGates_obs]; exact hL)
    | su8 la L hL => exact .su8 (tfimGates n h2) la true true L (by rw [← tfimGates_obs]; exact hL)
  have hG : GreedyFor (flipAll n) (tfimGates n h2) L := by
    cases hL with
    | squared la L hL => exact .squared (by omega) la L (by rw [← tfimGates_obs]; exact hL) L.previousPauli
    | su8 la L hL => exact .su8 la L (by rw [← tfimGates_obs]; exact hL)
  obtain ⟨out, hout⟩ := (C50_total_layers E hs eigh rnd .state (tfimOps n) params (tfimGates n h2) (fun _ : Fin 1 => L) [0] args (by simp) (fun _ => hT) ho).2 ⟨rfl, hv⟩
  rw [← tfimOps_eq] at hout
  obtain ⟨l, h1, h3, h4, h5⟩ := C111_run E hs eigh rnd .state (tfimCircuit n) params (tfimGates n h2) (fun _ => L) [0] args out hp hr (hadamardAll n) (tfim_compile n) (flipAll n) 1
    (tfim_symmetry h2) (fun _ => hG) (plus_flip _ fun q => .inl rfl) hout
  rw [← tfimGates_obs] at hout
  refine ⟨out, l, hout, h1, h3, h4, tfim_twoGradients hn, fun K X hX hK => ?_⟩
  have hS := h5 K X hX fun k hk Y hY => by
    rcases Nat.eq_zero_or_pos k with rfl | hk0
    · rw [← Option.some.inj (h4.symm.trans hY)]
      exact tfim_twoGradients hn
    · exact hK k hk hk0 Y hY
  refine ⟨hS, fun q a ha => ?_⟩
  rw [InSector, one_smul] at hS
  refine expect_flip (pauliWord_herm _) hS ?_
  rw [word_site _ _ q.val q.isLt]
  simp only [List.mem_cons, List.not_mem_nil, or_false] at ha
  rcases ha with rfl | rfl <;> simp [flipAll, letterSign]

/-! ### Without gradient -/

theorem firstMax_head {α : Type} {f : α → ℝ} {l : List α} {x y : α} (h : IsFirstMax f (y :: l) x) (h0 : ∀ z ∈ y :: l, f z = 0) : x = y := by
  obtain ⟨l₁, l₂, e, h1, -⟩ := h
  cases l₁ with
  | nil => exact (List.cons.inj e).1.symm
  | cons z l₁ =>
    have hx : f x = 0 := h0 x (by rw [e]; simp)
    have hz : f z = 0 := h0 z (by rw [e]; simp)
    have := h1 z (by simp)
    linarith

theorem stdDict_head (n : ℕ) : ∃ l, (stdDict (n + 1) (allWords [1, 2])).filter (fun e => e.1 ≠ ("Null", [0])) = (("X", [0]), pauliWord (placed (n + 1) [.X] [0])) :: l := by
  have h1 : ∃ t, allWords [1, 2] = [.X] :: t := ⟨_, rfl⟩
  obtain ⟨t, ht⟩ := h1
  have h2 : ∃ t', combinations (List.range (n + 1)) 1 = [0] :: t' := by
    rw [List.range_succ_eq_map, combinations, combinations]
    exact ⟨_, rfl⟩
  obtain ⟨t', ht'⟩ := h2
  rw [ht, stdDict, List.flatMap_cons, List.length_singleton, ht', List.map_cons, List.cons_append, List.filter_cons_of_pos (by simp; intro h; exact absurd h (by decide))]
  exact ⟨_, rfl⟩

theorem cost_sector {Q U : QMat n} {c : ℂ} (hU : Unitary U) (h : InSector Q c (fun i => U i 0)) : cost Q U = c.re := by
  rw [InSector] at h
  rw [cost, h, dotProduct_smul, normalised_of_unitary hU, smul_eq_mul, mul_one]

/-- C111 (the condition is needed): in the state `|0...0⟩` all gradients of `Z` on qubit 0 vanish, and the squared layer rotates about `X` to the state with the
opposite value of the symmetry `Z`. -/
theorem C111_leaves (n : ℕ) (la : LayerArgs) (L : SquaredLayer (n + 1)) (hL : squaredLayer (n + 1) ([siteObs (n := n + 1) 0 (by omega) .Z].map Gate.obs) la = .ok L) :
    (∀ g ∈ [siteObs (n := n + 1) 0 (by omega) .Z], Commute (pauliWord (placed (n + 1) [.Z] [0])) (full (n + 1) g.ws g.A)) ∧
    InSector (pauliWord (placed (n + 1) [.Z] [0])) 1 (fun i => (1 : QMat (n + 1)) i 0) ∧
    ∃ V L', L.call 1 = .ok (V, L') ∧ cost (pauliWord (placed (n + 1) [.Z] [0])) V = -1 ∧ ¬ InSector (pauliWord (placed (n + 1) [.Z] [0])) 1 (fun i => V i 0) := by
  have hsec : InSector (pauliWord (placed (n + 1) [.Z] [0])) 1 (fun i => (1 : QMat (n + 1)) i 0) := by
    rw [InSector, one_smul, ← mul_column, mul_one]
    funext i
    rw [← tensor_one, pauliWord]
    simp only [tensor]
    refine Finset.prod_congr rfl fun q _ => ?_
    have h0 : bit (n + 1) 0 q.val = 0 := by simp [bit]
    have e : (⟨bit (n + 1) ((0 : Fin (2 ^ (n + 1))) : ℕ) q.val, Nat.mod_lt _ (by decide)⟩ : Fin 2) = 0 := Fin.ext h0
    rw [e, placed_one]
    generalize (⟨bit (n + 1) (i : ℕ) q.val, Nat.mod_lt _ (by decide)⟩ : Fin 2) = b
    by_cases hq : q.val = 0
    · rw [if_pos hq]; fin_cases b <;> simp [Letter.mat, Matrix.one_apply]
    · rw [if_neg hq]; fin_cases b <;> simp [Letter.mat, Matrix.one_apply]
  have h1U : Unitary (1 : QMat (n + 1)) := by simp [Unitary]
  refine ⟨by simp only [List.mem_singleton, forall_eq, siteObs_full]; exact Commute.refl _, hsec, ?_⟩
  obtain ⟨ho, hf, hd, hp⟩ := squaredLayer_inv hL
  obtain ⟨k, P, V, h1, h2, h3, -⟩ := squared_call (by omega) ho hf hd 1
  have ht : totalObs [siteObs (n := n + 1) 0 (by omega) .Z] = pauliWord (placed (n + 1) [.Z] [0]) := by
    rw [totalObs, List.map_singleton, List.sum_singleton, siteObs_full]
  rw [ht] at h2 h3
  obtain ⟨l, hl⟩ := stdDict_head n
  rw [hp, hl] at h2
  obtain ⟨rfl, rfl⟩ := Prod.mk.inj (firstMax_head h2 fun z _ => by rw [grad_flip hsec, abs_zero])
  have hV : Unitary V := h3.unitary h1U
  have hle : cost (pauliWord (placed (n + 1) [.Z] [0])) V ≤ -1 := by
    refine (h3.best rfl (Real.pi / 2)).trans_eq ?_
    have he : NormedSpace.exp ((-Complex.I * ((Real.pi / 2 : ℝ) : ℂ)) • pauliWord (placed (n + 1) [.X] [0])) = (-Complex.I) • pauliWord (placed (n + 1) [.X] [0]) := by
      rw [exp_neg_I_smul_involution _ (pauliWord_sq _), Real.cos_pi_div_two, Real.sin_pi_div_two]
      simp
    rw [he, mul_one]
    refine (cost_sector (c := -1) ?_ ?_).trans (by simp)
    · rw [Unitary, Matrix.conjTranspose_smul, pauliWord_herm, smul_mul_smul_comm, pauliWord_sq]
      simp
    · have hz : pauliWord (placed (n + 1) [.Z] [0]) * pauliWord (placed (n + 1) [.X] [0]) = -(pauliWord (placed (n + 1) [.X] [0]) * pauliWord (placed (n + 1) [.Z] [0])) := by
        rw [word_site _ _ 0 (by omega), placed_one, if_pos rfl]
        simp [letterSign]
      have hx : (fun i => ((-Complex.I) • pauliWord (placed (n + 1) [.X] [0])) i 0) = (-Complex.I) • (pauliWord (placed (n + 1) [.X] [0]) *ᵥ fun i => (1 : QMat (n + 1)) i 0) := by
        rw [← mul_column, mul_one]
        rfl
      rw [InSector, one_smul] at hsec
      rw [InSector, hx, Matrix.mulVec_smul, Matrix.mulVec_mulVec, hz, Matrix.neg_mulVec, ← Matrix.mulVec_mulVec, hsec, smul_neg, neg_one_smul]
  have hge := (cost_involution_bounds hV (pauliWord_herm _) (pauliWord_sq (placed (n + 1) [.Z] [0]))).1
  refine ⟨V, _, h1, le_antisymm hle hge, fun h => ?_⟩
  have := cost_sector hV h
  rw [Complex.one_re] at this
  linarith

/-! ### Examples -/

theorem squaredLayer_default (gs : List (Gate n)) : ∃ L, squaredLayer n (gs.map Gate.obs) {} = .ok L := by
  obtain ⟨a, ha, -⟩ := algebraSU4_getAll n
  rw [squaredLayer, promoteAll_gates, ha]
  simp only [bind, Except.bind]
  rw [show validateEta (Option.getD ({} : LayerArgs).eta (.float 0.1)) = .ok 0.1 from defaultEta_ok']
  exact ⟨_, rfl⟩

/-- Four qubits as in tfim_su4_linesearch.py (51-54), `nsteps=50`, `tol=1e-6`: the hypotheses of `C112_run` can be met. -/
example : ∃ L, TfimLayer 4 L ∧ ∃ N e t F, ApproxValid { nsteps := .int 50, eta := .float 0.1, tol := some (.float 1e-6), returnUnitary := .bool true } N e t F := by
  obtain ⟨L, hL⟩ := squaredLayer_default (tfimGates 4 (by omega))
  rw [← tfimGates_obs] at hL
  exact ⟨_, .squared {} L hL, 50, _, _, _, approxValid_of 50 (by omega) (some (.float 1e-6)) (some (.fin 1e-6)) ⟨rfl, by norm_num⟩ ⟨false, false, true, false, false, false, false⟩⟩

/-- The hypotheses of `C111_squared` are met by the Ising chain, with the flip of all qubits, in the initial state. -/
example : ∃ L, squaredLayer 4 ((tfimGates 4 (by omega)).map Gate.obs) {} = .ok L ∧
    (∀ g ∈ tfimGates 4 (by omega), Commute (pauliWord (flipAll 4)) (full 4 g.ws g.A)) ∧ InSector (pauliWord (flipAll 4)) 1 (fun i => hadamardAll 4 i 0) ∧
    ∃ e ∈ L.lastate.fullPaulis, grad (totalObs (tfimGates 4 (by omega))) (hadamardAll 4) e.2 ≠ 0 := by
  obtain ⟨L, hL⟩ := squaredLayer_default (tfimGates 4 (by omega))
  obtain ⟨v, q, -, -, hv, -, hq, -, -, hg, -⟩ := tfim_twoGradients (n := 4) (by omega)
  refine ⟨L, hL, tfim_symmetry _, plus_flip _ fun q => .inl rfl, ((letterStr v, q), _), ?_, hg⟩
  rw [(squaredLayer_inv hL).2.2.1]
  exact mem_stdDict.2 ⟨v, hv, q, hq, rfl⟩

/-- The layer of `C111_leaves` exists. -/
example : ∃ L, squaredLayer (1 + 1) ([siteObs (n := 1 + 1) 0 (by omega) .Z].map Gate.obs) {} = .ok L := squaredLayer_default _

end Oranssi
