import Verif.Props.AdaptSymmetry

/-! # C116: the first step of tfim_su4_adapt_vqe.py

The cost of the circuit of the first layer is a sum over its bonds, so the training of the layer can be followed exactly. -/

namespace Oranssi
open Spec
open scoped Matrix

variable {n : ℕ}

/-! ### The cost of one layer of rotations -/

theorem rotOp_adj (θ : ℝ) (w : List Letter) (q : List ℕ) : (rotOp n θ w q)ᴴ = (Real.cos (θ / 2) : ℂ) • 1 + (Complex.I * Real.sin (θ / 2)) • pauliWord (placed n w q) := by
  rw [rotOp, Matrix.conjTranspose_sub, Matrix.conjTranspose_smul, Matrix.conjTranspose_smul, pauliWord_herm, Matrix.conjTranspose_one]
  generalize Real.cos (θ / 2) = c
  generalize Real.sin (θ / 2) = s
  simp [sub_eq_add_neg]

theorem rotOp_unitary (θ : ℝ) (w : List Letter) (q : List ℕ) : (rotOp n θ w q)ᴴ * rotOp n θ w q = 1 := by
  have h : ((Real.cos (θ / 2) : ℂ)) ^ 2 + (Real.sin (θ / 2) : ℂ) ^ 2 = 1 := by
    rw [← Complex.ofReal_pow, ← Complex.ofReal_pow, ← Complex.ofReal_add, Real.cos_sq_add_sin_sq, Complex.ofReal_one]
  rw [rotOp_adj, rotOp, add_mul, mul_sub, mul_sub, smul_mul_smul_comm, smul_mul_smul_comm, smul_mul_smul_comm, smul_mul_smul_comm, pauliWord_sq, mul_one, one_mul]
  rw [show ((Real.cos (θ / 2) : ℂ)) * (Complex.I * (Real.sin (θ / 2) : ℂ)) = (Complex.I * (Real.sin (θ / 2) : ℂ)) * (Real.cos (θ / 2) : ℂ) by ring, mul_one]
  rw [sub_add_sub_cancel, ← sub_smul]
  have : (Real.cos (θ / 2) : ℂ) * (Real.cos (θ / 2) : ℂ) - Complex.I * (Real.sin (θ / 2) : ℂ) * (Complex.I * (Real.sin (θ / 2) : ℂ)) = 1 := by
    rw [← h]
    linear_combination -((Real.sin (θ / 2) : ℂ)) ^ 2 * Complex.I_sq
  rw [this, one_smul]

theorem rotOp_sq (θ : ℝ) (w : List Letter) (q : List ℕ) :
    rotOp n θ w q * rotOp n θ w q = (Real.cos θ : ℂ) • 1 - (Complex.I * Real.sin θ) • pauliWord (placed n w q) := by
  have hc : (Real.cos θ : ℂ) = (Real.cos (θ / 2) : ℂ) ^ 2 - (Real.sin (θ / 2) : ℂ) ^ 2 := by
    rw [← Complex.ofReal_pow, ← Complex.ofReal_pow, ← Complex.ofReal_sub]
    congr 1
    rw [← Real.cos_two_mul', mul_div_cancel₀ _ two_ne_zero]
  have hs : (Real.sin θ : ℂ) = 2 * (Real.sin (θ / 2) : ℂ) * (Real.cos (θ / 2) : ℂ) := by
    have : Real.sin θ = 2 * Real.sin (θ / 2) * Real.cos (θ / 2) := by rw [← Real.sin_two_mul, mul_div_cancel₀ _ two_ne_zero]
    rw [this]; push_cast; ring
  rw [hc, hs, rotOp, sub_mul, mul_sub, mul_sub, smul_mul_smul_comm, smul_mul_smul_comm, smul_mul_smul_comm, smul_mul_smul_comm, pauliWord_sq, mul_one, one_mul, mul_one]
  have e : Complex.I * (Real.sin (θ / 2) : ℂ) * (Complex.I * (Real.sin (θ / 2) : ℂ)) = -(Real.sin (θ / 2) : ℂ) ^ 2 := by
    linear_combination ((Real.sin (θ / 2) : ℂ)) ^ 2 * Complex.I_sq
  rw [e]
  module

theorem rotOp_commute {A : QMat n} {w : List Letter} {q : List ℕ} (h : Commute A (pauliWord (placed n w q))) (θ : ℝ) : Commute A (rotOp n θ w q) :=
  (Commute.smul_right (Commute.one_right _) _).sub_right (h.smul_right _)

/-- A unitary that commutes with the observable does not change the cost. -/
theorem cost_drop {A R : QMat n} (hR : Rᴴ * R = 1) (h : Commute A R) (U : QMat n) : cost A (R * U) = cost A U := by
  rw [cost_left, mul_assoc, h.eq, ← mul_assoc, hR, one_mul]

theorem cost_drops {A : QMat n} : ∀ (l : List (QMat n)), (∀ R ∈ l, Rᴴ * R = 1 ∧ Commute A R) → ∀ U, cost A (inOrder l * U) = cost A U
  | [], _, U => by rw [inOrder, List.foldl_nil, one_mul]
  | R :: l, h, U => by
    rw [← foldl_left, List.foldl_cons, foldl_left, cost_drops l (fun x hx => h x (by simp [hx])), cost_drop (h R (by simp)).1 (h R (by simp)).2]

/-- Of a product of commuting unitaries only the one that does not commute with the observable matters. -/
theorem cost_single {A : QMat n} {R : ℕ → QMat n} (hR : ∀ j, (R j)ᴴ * R j = 1) {k : ℕ} : ∀ (l : List ℕ), l.Nodup → k ∈ l → (∀ j ∈ l, j ≠ k → Commute A (R j) ∧ Commute (R k) (R j)) →
    ∀ U, cost A (inOrder (l.map R) * U) = cost A (R k * U)
  | [], _, hk, _, _ => by simp at hk
  | j :: l, hnd, hk, h, U => by
    rw [List.map_cons, ← foldl_left, List.foldl_cons, foldl_left]
    by_cases hj : j = k
    · subst hj
      refine cost_drops _ (fun x hx => ?_) _
      obtain ⟨i, hi, rfl⟩ := List.mem_map.1 hx
      exact ⟨hR i, (h i (by simp [hi]) (fun e => (List.nodup_cons.1 hnd).1 (e ▸ hi))).1⟩
    · obtain ⟨h1, h2⟩ := h j (by simp) hj
      rw [cost_single hR l (List.nodup_cons.1 hnd).2 ((List.mem_cons.1 hk).resolve_left (fun e => hj e.symm)) (fun i hi => h i (by simp [hi])), ← mul_assoc, h2.eq, mul_assoc,
        cost_drop (hR j) h1]

/-- A rotation about a word that anticommutes with the observable. -/
theorem cost_anti {A : QMat n} {w : List Letter} {q : List ℕ} (h : A * pauliWord (placed n w q) = -(pauliWord (placed n w q) * A)) (θ : ℝ) (U : QMat n) :
    cost A (rotOp n θ w q * U) = Real.cos θ * cost A U - Real.sin θ * (grad A U (pauliWord (placed n w q)) / 2) := by
  have h1 : (rotOp n θ w q)ᴴ * A = A * rotOp n θ w q := by
    rw [rotOp_adj, rotOp, add_mul, mul_sub, smul_mul_assoc, smul_mul_assoc, mul_smul_comm, mul_smul_comm, h, one_mul, mul_one, smul_neg, sub_neg_eq_add]
  have hg : grad A U (pauliWord (placed n w q)) = -2 * (star (fun i => U i 0) ⬝ᵥ (A * pauliWord (placed n w q)) *ᵥ (fun i => U i 0)).im := by
    have : pauliWord (placed n w q) * A - A * pauliWord (placed n w q) = (-2 : ℂ) • (A * pauliWord (placed n w q)) := by
      rw [h]; module
    rw [grad, this, Matrix.smul_mulVec, dotProduct_smul, smul_eq_mul]
    simp
  rw [cost_left, h1, mul_assoc, rotOp_sq, mul_sub, mul_smul_comm, mul_smul_comm, mul_one, hg, cost, Matrix.sub_mulVec, Matrix.smul_mulVec, Matrix.smul_mulVec, dotProduct_sub,
    dotProduct_smul, dotProduct_smul, cost]
  simp only [smul_eq_mul, Complex.sub_re, Complex.mul_re, Complex.mul_im, Complex.ofReal_re, Complex.ofReal_im, Complex.I_re, Complex.I_im]
  ring

theorem word_bond (f : Fin n → Letter) (a b : Letter) {i j : ℕ} (hi : i < n) (hj : j < n) (hij : i ≠ j) :
    pauliWord f * pauliWord (placed n [a, b] [i, j]) = (letterSign (f ⟨i, hi⟩) a * letterSign (f ⟨j, hj⟩) b) • (pauliWord (placed n [a, b] [i, j]) * pauliWord f) := by
  rw [placed_two i j hi hj hij, ← mul_assoc, word_site _ _ i hi, smul_mul_assoc, mul_assoc, word_site _ _ j hj, mul_smul_comm, smul_smul, mul_assoc]

theorem placed_bond (a b : Letter) {i j : ℕ} (hij : i ≠ j) (q : Fin n) : placed n [a, b] [i, j] q = if q.val = i then a else if q.val = j then b else .I := by
  by_cases h : q.val = i
  · simp [placed, h]
  · have h1 : (i == q.val) = false := by simpa using fun h' => h h'.symm
    by_cases h' : q.val = j
    · have h2 : (i == j) = false := by simpa using hij
      simp [placed, h', h2, List.idxOf_cons, hij.symm]
    · have h2 : (j == q.val) = false := by simpa using fun e => h' e.symm
      simp [placed, h, h', h1, h2, List.idxOf_cons]

/-- The rotation of the bond `k`, about `Y Z` on the qubits `2k` and `2k+1`. -/
noncomputable def bondRot (n : ℕ) (ps : List ℝ) (k : ℕ) : QMat n := rotOp n (ps.getD k 0) [.Y, .Z] [2 * k, 2 * k + 1]

/-- The cost of one bond of the layer as a function of its angle. -/
noncomputable def bondCost (t : ℝ) : ℝ := 2 * Real.cos t - Real.sin t

theorem even_sites_eq (p : ℕ) : LayerKind.even.sites (2 * p) = (List.range p).map (fun k => [2 * k, 2 * k + 1]) := by
  rw [LayerKind.sites]
  have h : ∀ m, (List.range (2 * m)).filter (fun i => i % 2 = 0) = (List.range m).map (fun k => 2 * k) := by
    intro m
    induction m with
    | zero => rfl
    | succ m ih =>
      rw [show 2 * (m + 1) = 2 * m + 1 + 1 by ring, List.range_succ, List.range_succ, List.filter_append, List.filter_append, ih, List.range_succ, List.map_append,
        List.filter_cons_of_pos (by simp), List.filter_cons_of_neg (by simp)]
      simp
  have h' : (List.range (2 * p)).filter (fun i => i % 2 = 0 ∧ i + 1 < 2 * p) = (List.range (2 * p)).filter (fun i => i % 2 = 0) := by
    refine List.filter_congr fun i hi => ?_
    have : i < 2 * p := by simpa using hi
    simp only [decide_eq_decide]
    omega
  rw [h', h, List.map_map]
  rfl

theorem layerRots_even (p : ℕ) {ps : List ℝ} (hps : p ≤ ps.length) : layerRots (2 * p) ([.Y, .Z], .even) ps = (List.range p).map (bondRot (2 * p) ps) := by
  rw [layerRots, even_sites_eq]
  apply List.ext_getElem
  · simp [LayerKind.angles]; omega
  · intro i h1 h2
    have hi : i < ps.length := by simp at h2; omega
    simp [LayerKind.angles, bondRot, hi]

/-- The cost of a word that anticommutes with the rotation of one bond and commutes with the others. -/
theorem bond_cost_one {p : ℕ} (ps : List ℝ) {f : Fin (2 * p) → Letter} {k : ℕ} (hk : k < p)
    (ha : letterSign (f ⟨2 * k, by omega⟩) .Y * letterSign (f ⟨2 * k + 1, by omega⟩) .Z = -1)
    (hc : ∀ j (hj : j < p), j ≠ k → letterSign (f ⟨2 * j, by omega⟩) .Y * letterSign (f ⟨2 * j + 1, by omega⟩) .Z = 1) :
    cost (pauliWord f) (inOrder ((List.range p).map (bondRot (2 * p) ps)) * hadamardAll (2 * p)) =
      Real.cos (ps.getD k 0) * cost (pauliWord f) (hadamardAll (2 * p)) -
        Real.sin (ps.getD k 0) * (grad (pauliWord f) (hadamardAll (2 * p)) (pauliWord (placed (2 * p) [.Y, .Z] [2 * k, 2 * k + 1])) / 2) := by
  rw [cost_single (R := bondRot (2 * p) ps) (k := k) (fun j => rotOp_unitary _ _ _) _ List.nodup_range (by simpa using hk) (fun j hj hjk => ?_), bondRot, cost_anti]
  · rw [word_bond _ _ _ (by omega) (by omega) (by omega), ha, neg_one_smul]
  · have hj' : j < p := by simpa using hj
    refine ⟨rotOp_commute ?_ _, rotOp_commute (Commute.symm (rotOp_commute ?_ _)) _⟩
    · rw [Commute, SemiconjBy, word_bond _ _ _ (by omega) (by omega) (by omega), hc j hj' hjk, one_smul]
    · rw [Commute, SemiconjBy, word_bond _ _ _ (by omega) (by omega) (by omega), placed_bond _ _ (by omega), placed_bond _ _ (by omega)]
      simp only
      rw [if_neg (by omega), if_neg (by omega), if_neg (by omega), if_neg (by omega)]
      simp [letterSign]

theorem cost_site_plus {i : ℕ} : cost (pauliWord (placed n [.X] [i])) (hadamardAll n) = 1 :=
  (cost_sector (c := 1) (hadamardAll_unitary n) (plus_flip _ fun q => by rw [placed_one]; split <;> simp)).trans (by simp)

theorem cost_bond_plus {i j : ℕ} (hi : i < n) (hj : j < n) (hij : i ≠ j) : cost (pauliWord (placed n [.Z, .Z] [i, j])) (hadamardAll n) = 0 := by
  have hs : InSector (pauliWord (placed n [.X] [i])) 1 (fun k => hadamardAll n k 0) := plus_flip _ fun q => by rw [placed_one]; split <;> simp
  rw [InSector, one_smul] at hs
  rw [cost, expect_flip (pauliWord_herm _) hs, Complex.zero_re]
  rw [word_bond _ _ _ hi hj hij, placed_one, placed_one, if_pos rfl, if_neg (by simpa using hij.symm)]
  simp [letterSign]

theorem cost_site_layer {p : ℕ} (ps : List ℝ) {i : ℕ} (hi : i < 2 * p) :
    cost (pauliWord (placed (2 * p) [.X] [i])) (inOrder ((List.range p).map (bondRot (2 * p) ps)) * hadamardAll (2 * p)) = Real.cos (ps.getD (i / 2) 0) := by
  rw [bond_cost_one ps (k := i / 2) (by omega), cost_site_plus, grad_flip (plus_flip _ fun q => by rw [placed_one]; split <;> simp)]
  · ring
  · rw [placed_one, placed_one]
    rcases Nat.mod_two_eq_zero_or_one i with h | h
    · rw [if_pos (show 2 * (i / 2) = i by omega), if_neg (show ¬ 2 * (i / 2) + 1 = i by omega)]; simp [letterSign]
    · rw [if_neg (show ¬ 2 * (i / 2) = i by omega), if_pos (show 2 * (i / 2) + 1 = i by omega)]; simp [letterSign]
  · intro j hj hji
    rw [placed_one, placed_one, if_neg (show ¬ 2 * j = i by omega), if_neg (show ¬ 2 * j + 1 = i by omega)]
    simp [letterSign]

/-- A bond within the layer. -/
theorem cost_inner_layer {p : ℕ} (ps : List ℝ) {k : ℕ} (hk : k < p) :
    cost (pauliWord (placed (2 * p) [.Z, .Z] [2 * k, 2 * k + 1])) (inOrder ((List.range p).map (bondRot (2 * p) ps)) * hadamardAll (2 * p)) = -Real.sin (ps.getD k 0) := by
  rw [bond_cost_one ps hk, cost_bond_plus (by omega) (by omega) (by omega), plus_grad_self (by omega) (by omega) (by omega)]
  · ring
  · rw [placed_bond _ _ (by omega), placed_bond _ _ (by omega)]
    simp [letterSign]
  · intro j hj hjk
    rw [placed_bond _ _ (by omega), placed_bond _ _ (by omega)]
    simp only
    rw [if_neg (by omega), if_neg (by omega), if_neg (by omega), if_neg (by omega)]
    simp [letterSign]

/-- A bond between two bonds of the layer; `k` is the one whose first qubit it touches. -/
theorem cost_outer_layer {p : ℕ} (ps : List ℝ) {k l : ℕ} (hk : k < p) (hl : l < p) (hkl : k ≠ l) :
    cost (pauliWord (placed (2 * p) [.Z, .Z] [2 * k, 2 * l + 1])) (inOrder ((List.range p).map (bondRot (2 * p) ps)) * hadamardAll (2 * p)) = 0 := by
  rw [bond_cost_one ps hk, cost_bond_plus (by omega) (by omega) (by omega), placed_swap (2 * k) (2 * l + 1) (by omega), plus_grad_bond (by omega) (by omega) (by omega)]
  · ring
  · rw [Commute, SemiconjBy, word_bond _ _ _ (by omega) (by omega) (by omega), placed_one, placed_one]
    simp only
    rw [if_neg (by omega), if_neg (by omega)]
    simp [letterSign]
  · rw [placed_bond _ _ (by omega), placed_bond _ _ (by omega)]
    simp only
    rw [if_pos trivial, if_neg (by omega), if_neg (by omega)]
    simp [letterSign]
  · intro j hj hjk
    rw [placed_bond _ _ (by omega), placed_bond _ _ (by omega)]
    simp only
    rw [if_neg (by omega), if_neg (by omega), if_neg (by omega)]
    split <;> simp [letterSign]

theorem cost_list_sum (U : QMat n) : ∀ l : List (QMat n), cost l.sum U = (l.map (fun A => cost A U)).sum
  | [] => by simp [cost]
  | A :: l => by rw [List.sum_cons, cost_add, cost_list_sum U l, List.map_cons, List.sum_cons]

theorem sum_pairs (h : ℕ → ℝ) : ∀ p, ∑ i ∈ Finset.range (2 * p), h i = ∑ k ∈ Finset.range p, (h (2 * k) + h (2 * k + 1))
  | 0 => by simp
  | p + 1 => by
    rw [show 2 * (p + 1) = 2 * p + 1 + 1 by ring, Finset.sum_range_succ, Finset.sum_range_succ, Finset.sum_range_succ, sum_pairs h p, add_assoc]

/-- The cost of the Hadamard gates and one even layer of rotations about `Y Z` with the angles `ps`: the sum of `2 cos - sin` over the bonds of the layer. -/
theorem layer_cost {p : ℕ} (hp : 2 ≤ p) {ps : List ℝ} (hps : p ≤ ps.length) :
    cost (totalObs (tfimGates (2 * p) (by omega))) (inOrder (layerRots (2 * p) ([.Y, .Z], .even) ps) * hadamardAll (2 * p)) = ∑ k ∈ Finset.range p, bondCost (ps.getD k 0) := by
  rw [layerRots_even p hps]
  have h1 : ∀ i : Fin (2 * p), cost (full (2 * p) (siteObs i.val i.isLt .X).ws (siteObs i.val i.isLt .X).A) (inOrder ((List.range p).map (bondRot (2 * p) ps)) * hadamardAll (2 * p)) =
      Real.cos (ps.getD (i.val / 2) 0) := fun i => by rw [siteObs_full, cost_site_layer ps i.isLt]
  have h2 : ∀ i : Fin (2 * p - 1), cost (pauliWord (placed (2 * p) [.Z, .Z] [i.val, i.val + 1])) (inOrder ((List.range p).map (bondRot (2 * p) ps)) * hadamardAll (2 * p)) =
      if i.val % 2 = 0 then -Real.sin (ps.getD (i.val / 2) 0) else 0 := by
    intro i
    have hi := i.isLt
    split
    · rename_i h
      have := cost_inner_layer ps (k := i.val / 2) (by omega : i.val / 2 < p)
      rwa [show 2 * (i.val / 2) = i.val by omega] at this
    · rename_i h
      rw [placed_swap _ _ (by omega)]
      have := cost_outer_layer ps (k := i.val / 2 + 1) (l := i.val / 2) (by omega : i.val / 2 + 1 < p) (by omega) (by omega)
      rwa [show 2 * (i.val / 2 + 1) = i.val + 1 by omega, show 2 * (i.val / 2) + 1 = i.val by omega] at this
  have h3 : cost (pauliWord (placed (2 * p) [.Z, .Z] [2 * p - 1, 0])) (inOrder ((List.range p).map (bondRot (2 * p) ps)) * hadamardAll (2 * p)) = 0 := by
    rw [placed_swap _ _ (by omega)]
    have := cost_outer_layer ps (k := 0) (l := p - 1) (by omega : 0 < p) (by omega) (by omega)
    rwa [show 2 * (p - 1) + 1 = 2 * p - 1 by omega, mul_zero] at this
  rw [totalObs, cost_list_sum, List.map_map, tfimGates, List.map_append, List.map_append, List.sum_append, List.sum_append, List.map_map, List.map_map, ← Fin.sum_univ_def, ← Fin.sum_univ_def]
  simp only [Function.comp_apply, h1, bondObs_full, h2, List.map_cons, List.map_nil, h3, List.sum_cons, List.sum_nil, add_zero]
  rw [Fin.sum_univ_eq_sum_range (fun i => Real.cos (ps.getD (i / 2) 0)) (2 * p), Fin.sum_univ_eq_sum_range (fun i => if i % 2 = 0 then -Real.sin (ps.getD (i / 2) 0) else 0) (2 * p - 1)]
  have h4 : ∑ i ∈ Finset.range (2 * p - 1), (if i % 2 = 0 then -Real.sin (ps.getD (i / 2) 0) else 0) = ∑ i ∈ Finset.range (2 * p), (if i % 2 = 0 then -Real.sin (ps.getD (i / 2) 0) else 0) := by
    conv_rhs => rw [show 2 * p = 2 * p - 1 + 1 by omega, Finset.sum_range_succ, if_neg (by omega), add_zero]
  rw [h4, sum_pairs, sum_pairs, ← Finset.sum_add_distrib]
  refine Finset.sum_congr rfl fun k _ => ?_
  rw [if_pos (by omega), if_neg (by omega), show 2 * k / 2 = k by omega, show (2 * k + 1) / 2 = k by omega, bondCost]
  ring

/-! ### The training -/

/-- The angle of a bond after `j` steps of gradient descent. -/
noncomputable def bondAngle : ℕ → ℝ
  | 0 => 0.1
  | j + 1 => bondAngle j + 0.01 * (2 * Real.sin (bondAngle j) + Real.cos (bondAngle j))

theorem bondAngle_bounds : ∀ j ≤ 40, 0.1 ≤ bondAngle j ∧ bondAngle j ≤ 0.1 + 0.02237 * j
  | 0, _ => by simp [bondAngle]
  | j + 1, hj => by
    obtain ⟨h1, h2⟩ := bondAngle_bounds j (by omega)
    have hj' : (j : ℝ) ≤ 39 := by exact_mod_cast (by omega : j ≤ 39)
    have hlt : bondAngle j ≤ 1 := by linarith
    have hs : 0 ≤ Real.sin (bondAngle j) := Real.sin_nonneg_of_nonneg_of_le_pi (by linarith) (by linarith [Real.pi_gt_three])
    have hc : 0 ≤ Real.cos (bondAngle j) := Real.cos_nonneg_of_neg_pi_div_two_le_of_le (by linarith [Real.pi_gt_three]) (by linarith [Real.pi_gt_three])
    have h5 : 2 * Real.sin (bondAngle j) + Real.cos (bondAngle j) ≤ 2.237 := by
      refine (le_abs_self _).trans (abs_le_of_sq_le_sq (b := (2.237 : ℝ)) ?_ (by norm_num))
      nlinarith [Real.sin_sq_add_cos_sq (bondAngle j), sq_nonneg (Real.sin (bondAngle j) - 2 * Real.cos (bondAngle j))]
    rw [bondAngle]
    push_cast
    constructor <;> linarith

theorem bondAngle_le {j : ℕ} (hj : j ≤ 40) : bondAngle j ≤ 0.9948 := by
  have := (bondAngle_bounds j hj).2
  have h : (j : ℝ) ≤ 40 := by exact_mod_cast hj
  linarith

/-- The trained angles are far from the minimum of the layer. -/
theorem bondCost_pos {j : ℕ} (hj : j ≤ 40) : 0.01 < bondCost (bondAngle j) := by
  have h1 := (bondAngle_bounds j hj).1
  have h2 := bondAngle_le hj
  have h3 := Real.one_sub_sq_div_two_le_cos (x := bondAngle j)
  have h4 := Real.sin_le (x := bondAngle j) (by linarith)
  rw [bondCost]
  nlinarith

theorem cos_half {x : ℝ} (h0 : 0 ≤ x) (h1 : x ≤ 1) : 1 / 2 ≤ Real.cos x := by
  have := Real.one_sub_sq_div_two_le_cos (x := x)
  nlinarith

theorem bondCost_drop {j : ℕ} (hj : j < 40) : bondCost (bondAngle (j + 1)) ≤ bondCost (bondAngle j) - 0.001 := by
  set a := bondAngle j with ha
  set b := bondAngle (j + 1) with hb
  have h1 := (bondAngle_bounds j hj.le).1
  have h2 := bondAngle_le hj.le
  have h3 := bondAngle_le (show j + 1 ≤ 40 by omega)
  rw [← ha] at h1 h2
  rw [← hb] at h3
  have e : b = a + 0.01 * (2 * Real.sin a + Real.cos a) := by rw [hb, bondAngle]
  have hs : 0 ≤ Real.sin a := Real.sin_nonneg_of_nonneg_of_le_pi (by linarith) (by linarith [Real.pi_gt_three])
  have hc := cos_half (x := a) (by linarith) (by linarith)
  have hd : 0.005 ≤ b - a := by rw [e]; linarith
  have h4 : Real.cos b ≤ Real.cos a := Real.cos_le_cos_of_nonneg_of_le_pi (by linarith) (by linarith [Real.pi_gt_three]) (by linarith)
  have h5 : 0.001 ≤ Real.sin b - Real.sin a := by
    rw [Real.sin_sub_sin]
    have h6 := cos_half (x := (b + a) / 2) (by linarith) (by linarith)
    have h7 : (b - a) / 2 - ((b - a) / 2) ^ 3 / 6 < Real.sin ((b - a) / 2) := Real.sin_gt_sub_cube (by linarith)
    have h8 : ((b - a) / 2) ^ 3 ≤ (b - a) / 2 * (1 / 4) := by
      have : ((b - a) / 2) ^ 2 ≤ 1 / 4 := by nlinarith
      nlinarith
    have h9 : 0.002 ≤ Real.sin ((b - a) / 2) := by linarith
    nlinarith
  rw [bondCost, bondCost]
  linarith

theorem angle_set {θ : List (List ℝ)} {r : ℕ} (h : IsTable θ r n) {i : ℕ} (hr : 0 < r) (hi : i < n) (t : ℝ) (k : ℕ) :
    angle (setAngle θ 0 i t) 0 k = if k = i then t else angle θ 0 k := by
  obtain ⟨h1, h2⟩ := h
  cases θ with
  | nil => simp at h1; omega
  | cons ps θ =>
    have hps : ps.length = n := h2 ps (by simp)
    simp only [angle, setAngle, List.getD_cons_zero, List.set_cons_zero]
    rw [List.getD_eq_getElem?_getD, List.getElem?_set, List.getD_eq_getElem?_getD]
    by_cases hk : k = i
    · subst hk
      simp [hps, hi]
    · rw [if_neg (fun e => hk e.symm), if_neg hk]

theorem first_cost {p : ℕ} (hp : 2 ≤ p) {θ : List (List ℝ)} (h : IsTable θ 1 (2 * p)) :
    adaptCost (tfimGates (2 * p) (by omega)) [([.Y, .Z], .even)] θ = ∑ k ∈ Finset.range p, bondCost (angle θ 0 k) := by
  obtain ⟨h1, h2⟩ := h
  obtain ⟨ps, rfl⟩ := List.length_eq_one_iff.1 h1
  have hps : ps.length = 2 * p := h2 ps (by simp)
  have := layer_cost hp (ps := ps) (by omega)
  rw [adaptCost, List.zipWith_cons_cons, List.zipWith_nil_left, List.flatten_cons, List.flatten_nil, List.append_nil, this]
  rfl

theorem first_shift {p : ℕ} (hp : 2 ≤ p) {θ : List (List ℝ)} (h : IsTable θ 1 (2 * p)) {i : ℕ} (hi : i < p) :
    shiftRule (adaptCost (tfimGates (2 * p) (by omega)) [([.Y, .Z], .even)]) θ 0 i = -(2 * Real.sin (angle θ 0 i) + Real.cos (angle θ 0 i)) := by
  have hc : ∀ t, adaptCost (tfimGates (2 * p) (by omega)) [([.Y, .Z], .even)] (setAngle θ 0 i t) =
      bondCost t + ∑ k ∈ (Finset.range p).erase i, bondCost (angle θ 0 k) := by
    intro t
    rw [first_cost hp (isTable_set h 0 i t), ← Finset.add_sum_erase _ _ (Finset.mem_range.2 hi)]
    congr 1
    · rw [angle_set h (by omega) (by omega), if_pos rfl]
    · refine Finset.sum_congr rfl fun k hk => ?_
      rw [angle_set h (by omega) (by omega), if_neg (Finset.ne_of_mem_erase hk)]
  rw [shiftRule, hc, hc, bondCost, bondCost, Real.cos_add_pi_div_two, Real.sin_add_pi_div_two, Real.cos_sub_pi_div_two, Real.sin_sub_pi_div_two]
  ring

theorem bondCost_abs (t : ℝ) : |bondCost t| ≤ 3 := by
  rw [bondCost, abs_le]
  constructor <;> linarith [Real.neg_one_le_cos t, Real.cos_le_one t, Real.neg_one_le_sin t, Real.sin_le_one t]

/-- C116 (first call): for an even number of qubits, at least four, the first call of the layer in the run of tfim_su4_adapt_vqe.py trains for exactly 40
iterations.  Every angle of the selected layer goes through the values `bondAngle`, from 0.1 to `bondAngle 40`, and the cost of the circuit is the number of bonds
times `2 cos - sin` of that angle. -/
theorem C116_first (p : ℕ) (hp : 2 ≤ p) (E : LayerEnv (2 * p)) (hgd : ValidGd E.gd) (la : LayerArgs) (L : AdaptLayer (2 * p))
    (hL : adaptLayer (2 * p) (tfimObservables (2 * p)) la = .ok L) (params' : List (List ℝ)) (V : QMat (2 * p)) (L' : AnyLayer (2 * p))
    (h : (AnyLayer.adapt L).call E [] (hadamardAll (2 * p)) = .ok (V, params', L')) :
    ∃ ps : List ℝ, params' = [ps] ∧ ps.length = 2 * p ∧ (∀ k < p, ps.getD k 0 = bondAngle 40) ∧
      V = inOrder (layerRots (2 * p) ([.Y, .Z], .even) ps) * hadamardAll (2 * p) ∧
      cost (totalObs (tfimGates (2 * p) (by omega))) V = p * bondCost (bondAngle 40) := by
  have hsel := (C115_first (by omega) la L hL).1
  rw [if_pos (by omega)] at hsel
  have hL2 := hL
  rw [tfimGates_obs (by omega)] at hL2
  obtain ⟨hok, -, hl⟩ := adaptLayer_inv hL2
  obtain ⟨k, θ, W, m, hk, -, hm, h0, hg, hW, -, hstop, rfl, rfl⟩ := C78_adapt_step E _ L hok.obs [] params' (hadamardAll (2 * p)) V L' h
  rw [hsel] at hk
  obtain rfl := Except.ok.inj hk
  have e : L.layers ++ [("YZ", Parity.even)] = ([([.Y, .Z], .even)] : List (List Letter × LayerKind)).map (fun c => (letterStr c.1, c.2.toParity)) := by
    rw [hl]; rfl
  rw [e] at hg hW
  have hgood : ∀ c ∈ ([([.Y, .Z], .even)] : List (List Letter × LayerKind)), GoodLayer c := by
    intro c hc
    rw [List.mem_singleton.1 hc]; rfl
  have hT0 : IsTable (θ 0) 1 (2 * p) := by
    rw [h0]
    exact ⟨rfl, by simp⟩
  obtain ⟨hT, hA⟩ := inner_tables (by omega) hgd (tfimGates (2 * p) (by omega)) hgood (r := 1) le_rfl hT0 0.01 hg
  have hang : ∀ j ≤ m, ∀ i < p, angle (θ j) 0 i = bondAngle j := by
    intro j
    induction j with
    | zero =>
      intro _ i hi
      rw [h0]
      simp [angle, bondAngle, show i < 2 * p by omega]
    | succ j ih =>
      intro hj i hi
      rw [hA j (by omega) 0 (by omega) i (by omega), first_shift hp (hT j (by omega)) hi, ih (by omega) i hi, bondAngle]
      ring
  have hWj : ∀ j ≤ m, W j = inOrder (List.zipWith (layerRots (2 * p)) [([.Y, .Z], .even)] (θ j)).flatten * hadamardAll (2 * p) := by
    intro j hj
    have := hW j hj
    rw [circuitVqe_table (by omega) hgood le_rfl (hT j hj)] at this
    exact (Except.ok.inj this).symm
  have hcost : ∀ j ≤ m, cost (totalObs (tfimGates (2 * p) (by omega))) (W j) = p * bondCost (bondAngle j) := by
    intro j hj
    have h1 := first_cost hp (hT j hj)
    rw [Finset.sum_congr rfl fun k hk => by rw [hang j hj k (Finset.mem_range.1 hk)], Finset.sum_const, Finset.card_range, nsmul_eq_mul, adaptCost, ← hWj j hj] at h1
    exact h1
  obtain rfl : m = 40 := by
    rcases hstop with h1 | ⟨j, -, h1, h2⟩
    · exact h1
    · exfalso
      have h3 := h2 _ rfl
      rw [hcost j (by omega), hcost (j + 1) (by omega), ← mul_sub, abs_mul, abs_mul, Nat.abs_cast] at h3
      have h4 := bondCost_drop (show j < 40 by omega)
      have h5 := bondCost_abs (bondAngle j)
      have h6 : 0.001 ≤ |bondCost (bondAngle (j + 1)) - bondCost (bondAngle j)| := by
        rw [abs_sub_comm]
        exact le_trans (by linarith) (le_abs_self _)
      have hp' : (2 : ℝ) ≤ p := by exact_mod_cast hp
      nlinarith
  obtain ⟨ps, hps⟩ := List.length_eq_one_iff.1 (hT 40 le_rfl).1
  refine ⟨ps, hps, (hT 40 le_rfl).2 ps (by rw [hps]; simp), fun k hk => ?_, ?_, hcost 40 le_rfl⟩
  · have := hang 40 le_rfl k hk
    rwa [hps] at this
  · rw [hWj 40 le_rfl, hps]
    simp

/-- The angle at which the cost of a bond is smallest. -/
theorem bondCost_min : (∃ t, bondCost t = -Real.sqrt 5) ∧ ∀ t, -Real.sqrt 5 ≤ bondCost t := by
  have h5 : Real.sqrt 5 ^ 2 = 5 := Real.sq_sqrt (by norm_num)
  have h0 : 0 < Real.sqrt 5 := Real.sqrt_pos.2 (by norm_num)
  constructor
  · have hs : Real.sqrt (1 + (1 / 2) ^ 2) = Real.sqrt 5 / 2 := by
      rw [Real.sqrt_eq_iff_mul_self_eq (by norm_num) (by positivity)]
      nlinarith
    refine ⟨Real.pi - Real.arctan (1 / 2), ?_⟩
    rw [bondCost, Real.cos_pi_sub, Real.sin_pi_sub, Real.cos_arctan, Real.sin_arctan, hs]
    field_simp
    nlinarith
  · intro t
    have : |bondCost t| ≤ Real.sqrt 5 := by
      refine abs_le_of_sq_le_sq ?_ h0.le
      rw [h5, bondCost]
      nlinarith [Real.sin_sq_add_cos_sq t, sq_nonneg (Real.cos t + 2 * Real.sin t)]
    exact (abs_le.1 this).1

/-- C116 (untrained): the cost after the first step is positive, although the circuit of the selected layer reaches the cost `-sqrt 5` per bond, its minimum, with
other angles. -/
theorem C116_untrained (p : ℕ) (hp : 2 ≤ p) (E : LayerEnv (2 * p)) (hgd : ValidGd E.gd) (la : LayerArgs) (L : AdaptLayer (2 * p))
    (hL : adaptLayer (2 * p) (tfimObservables (2 * p)) la = .ok L) (params' : List (List ℝ)) (V : QMat (2 * p)) (L' : AnyLayer (2 * p))
    (h : (AnyLayer.adapt L).call E [] (hadamardAll (2 * p)) = .ok (V, params', L')) :
    0 < cost (totalObs (tfimGates (2 * p) (by omega))) V ∧
    (∃ ps : List ℝ, ps.length = 2 * p ∧ cost (totalObs (tfimGates (2 * p) (by omega))) (inOrder (layerRots (2 * p) ([.Y, .Z], .even) ps) * hadamardAll (2 * p)) = -(p * Real.sqrt 5)) ∧
    ∀ ps : List ℝ, ps.length = 2 * p → -(p * Real.sqrt 5) ≤ cost (totalObs (tfimGates (2 * p) (by omega))) (inOrder (layerRots (2 * p) ([.Y, .Z], .even) ps) * hadamardAll (2 * p)) := by
  obtain ⟨-, -, -, -, -, hc⟩ := C116_first p hp E hgd la L hL params' V L' h
  have hp' : (0 : ℝ) < p := by exact_mod_cast (by omega : 0 < p)
  obtain ⟨⟨t, ht⟩, hmin⟩ := bondCost_min
  refine ⟨?_, ⟨List.replicate (2 * p) t, by simp, ?_⟩, fun ps hps => ?_⟩
  · rw [hc]
    have := bondCost_pos (le_refl 40)
    exact mul_pos hp' (by linarith)
  · rw [layer_cost hp (by simp; omega), Finset.sum_congr rfl fun k hk => ?_, Finset.sum_const, Finset.card_range, nsmul_eq_mul, mul_neg]
    rw [List.getD_eq_getElem?_getD, List.getElem?_replicate, if_pos (by have := Finset.mem_range.1 hk; omega), Option.getD_some, ht]
  · rw [layer_cost hp (by omega)]
    refine le_trans ?_ (Finset.sum_le_sum fun k _ => hmin _)
    rw [Finset.sum_const, Finset.card_range, nsmul_eq_mul, mul_neg]

/-- C116 (run): whatever the arguments of the optimizer (perturbation, tolerance, ...), the first two costs that the run reports are the number of qubits and the cost of
the layer with the angle `bondAngle 40`; the second is positive. -/
theorem C116_run (p : ℕ) (hp : 2 ≤ p) (E : LayerEnv (2 * p)) (hs : ValidSvd E.svd) (hgd : ValidGd E.gd) (eigh : EighFn (2 * p))
    (rnd : ℕ → Matrix (Fin (2 ^ (2 * p))) (Fin (2 ^ (2 * p))) ℝ) (la : LayerArgs) (L : AdaptLayer (2 * p)) (hL : adaptLayer (2 * p) (tfimObservables (2 * p)) la = .ok L)
    (args : ApproxArgs) (ho : args.returnOmegas = .bool false) (hv : ∃ N e t F, ApproxValid args N e t F) :
    ∃ out, approximateLieOptimizer E eigh rnd .state (tfimCircuit (2 * p)) [] (tfimObservables (2 * p)) (fun _ : Fin 1 => .adapt L) [0] args = .ok out ∧
      (approxCosts out.1)[0]? = some (2 * p : ℝ) ∧ (approxCosts out.1)[1]? = some (p * bondCost (bondAngle 40)) ∧ 0 < p * bondCost (bondAngle 40) := by
  have h2 : 2 ≤ 2 * p := by omega
  have hL' := hL
  rw [tfimGates_obs h2] at hL'
  obtain ⟨out, hout⟩ := (C79_runs_succeed h2 E hs hgd eigh rnd .state (tfimOps (2 * p)) [] (tfimGates (2 * p) h2) (fun _ : Fin 1 => .adapt L) [0] args (by simp)
    (fun _ => .inr ⟨_, la, L, hL', rfl⟩) (by simp) ho).2 ⟨rfl, hv⟩
  rw [← tfimOps_eq] at hout
  obtain ⟨-, N, e, t, F, hv', V, W, j, r, h0, hp0, ho0, hrun, hr, hcost, -⟩ := approx_outcome E eigh rnd .state (tfimCircuit (2 * p)) [] (tfimGates (2 * p) h2) _ _ args out hout
  rw [← tfimGates_obs] at hout
  have hout1 : approxCosts out.1 = r.costs := by rw [hr]; exact (approxOutput_read r F).1
  have hj : 1 ≤ j := by
    rcases hrun.ended with h | ⟨-, k, h, -⟩
    · rw [h]; exact hv'.pos
    · omega
  have hV0 : (V 0).U = hadamardAll (2 * p) := Except.ok.inj (h0.symm.trans (tfim_compile _))
  obtain ⟨i, L₁, -, hcall, -⟩ := hrun.advance 0 (by omega)
  rw [hrun.start, ho0, hp0, hV0] at hcall
  obtain ⟨-, -, -, -, -, hc⟩ := C116_first p hp E hgd la L hL _ _ _ hcall
  have hp' : (0 : ℝ) < p := by exact_mod_cast (by omega : 0 < p)
  have hpos := bondCost_pos (le_refl 40)
  refine ⟨out, hout, ?_, ?_, mul_pos hp' (by linarith)⟩
  · rw [hout1, hcost, List.getElem?_map, List.getElem?_range (by omega), Option.map_some, hV0]
    have h1 := layer_cost hp (ps := List.replicate (2 * p) 0) (by simp; omega)
    rw [inOrder_ones _ (layerRots_zero _), one_mul, Finset.sum_congr rfl fun k hk => ?_, Finset.sum_const, Finset.card_range, nsmul_eq_mul] at h1
    · rw [h1]; congr 1; exact mul_comm _ _
    · rw [List.getD_replicate _ (by have := Finset.mem_range.1 hk; omega), bondCost, Real.cos_zero, Real.sin_zero, mul_one, sub_zero]
  · rw [hout1, hcost, List.getElem?_map, List.getElem?_range (by omega), Option.map_some]
    congr 1

/-- The hypotheses of C116 are met by the script: four qubits, its arguments, some gradient descent and some singular value decomposition. -/
example : ∃ (E : LayerEnv 4) (L : AdaptLayer 4), ValidSvd E.svd ∧ ValidGd E.gd ∧ adaptLayer 4 (tfimObservables 4) {} = .ok L ∧
    ∃ N e t F, ApproxValid { nsteps := .int 15, eta := .float 1.0, returnUnitary := .bool true, escapeTol := .float 1e-5 } N e t F := by
  obtain ⟨svd, hs⟩ := exists_validSvd 4
  obtain ⟨gd, hg⟩ := exists_validGd
  obtain ⟨L, hL⟩ := tfim_adapt 4 (by omega)
  exact ⟨⟨svd, ⟨List.reverse, List.reverse_perm⟩, gd⟩, L, hs, hg, hL, 15, 1, some (.fin 1e-3), ⟨false, false, true, false, false, false, false⟩, by
    constructor <;> first | rfl | exact ⟨rfl, by norm_num⟩ | norm_num⟩

end Oranssi
