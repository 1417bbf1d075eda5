import Verif.Props.ZassenhausV2
import Verif.Props.SequentialObs
import Verif.Props.SameState

/-! # What `ZassenhausLayerV2` can reach (C104)

`two_observables_2_qubits_zassenhaus_v2` (experiments_paper/zassenhaus.py:77-117) draws the smallest eigenvalue of `X0 + X1 + Y1` beside the costs of a run
of the layer.  The layer only ever returns circuits of the form opt_tools.py:1003-1010, and these do not reach that value. -/

namespace Oranssi
open Spec
open scoped Matrix

variable {n : ℕ}

theorem sub_origin (n : ℕ) (ws : List ℕ) : Spec.sub n 0 ws = 0 := by
  have h : ∀ (ws : List ℕ) (acc : ℕ), acc = 0 → ws.foldl (fun acc w => 2 * acc + bit n 0 w) acc = 0 := by
    intro ws
    induction ws with
    | nil => intro acc h; exact h
    | cons w ws ih => intro acc h; exact ih _ (by simp [h, bit])
  exact h ws 0 rfl

/-- The entry at the origin is that of the small matrix. -/
theorem full_origin {k : ℕ} (ws : List ℕ) (A : QMat k) : full n ws A 0 0 = A 0 0 := by
  have h : full n ws A 0 0 = ent A (Spec.sub n 0 ws) (Spec.sub n 0 ws) := by
    rw [full, if_pos (fun _ _ _ => rfl)]
    rfl
  rw [h, sub_origin, ent, dif_pos ⟨by positivity, by positivity⟩]
  rfl

theorem cost_entry (H U : QMat n) : cost H U = ((Uᴴ * (H * U)) 0 0).re := by
  rw [cost]
  simp only [dotProduct, Matrix.mulVec, Matrix.mul_apply, Matrix.conjTranspose_apply, Pi.star_apply]

/-- The cost of a circuit on some of the qubits, for an observable on these. -/
theorem cost_full {k : ℕ} {ws : List ℕ} (hk : ws.length = k) (hv : ValidWires n ws) (H U : QMat k) : cost (full n ws H) (full n ws U) = cost H U := by
  rw [cost_entry, cost_entry, ← full_conjTranspose hk hv.2, ← full_mul hk hv, ← full_mul hk hv, full_origin]

/-- The cost does not see a unitary on the other qubits. -/
theorem cost_full_disjoint {k l : ℕ} {ws vs : List ℕ} (hk : ws.length = k) (hl : vs.length = l) (hv : ValidWires n ws) (hw : ValidWires n vs)
    (hd : ∀ q ∈ ws, q ∉ vs) (H U : QMat k) {W : QMat l} (hW : Unitary W) : cost (full n ws H) (full n ws U * full n vs W) = cost H U := by
  rw [← cost_full hk hv, cost_entry, cost_entry, Matrix.conjTranspose_mul, ← full_conjTranspose hl hw.2]
  have e : full n vs Wᴴ * (full n ws U)ᴴ * (full n ws H * (full n ws U * full n vs W)) = (full n ws U)ᴴ * (full n ws H * full n ws U) := by
    rw [← full_conjTranspose hk hv.2, ← full_comm_disjoint hk hl hv hw hd, Matrix.mul_assoc, ← Matrix.mul_assoc (full n ws H), ← full_mul hk hv,
      full_comm_disjoint hk hl hv hw hd, ← Matrix.mul_assoc (full n vs Wᴴ), ← full_mul hl hw]
    have hW' : Wᴴ * W = 1 := hW
    rw [hW', full_one hl hw, Matrix.one_mul]
  rw [e]

theorem cost_sameState {U V : QMat n} (h : SameState U V) (H : QMat n) : cost H U = cost H V := congrArg Complex.re (sandwich_eq h H)

/-- The state in which `ZassenhausLayerV2` starts its rotations. -/
theorem hadamardPair_full (hn : 2 ≤ n) : hadamardPair n = full n [0, 1] (kron hadamard hadamard) := by
  have v0 : ValidWires n [0] := ⟨by simp, by intro w hw; simp at hw; omega⟩
  have v1 : ValidWires n [1] := ⟨by simp, by intro w hw; simp at hw; omega⟩
  rw [hadamardPair, full_comm_disjoint rfl rfl v1 v0 (by simp), ← full_kron (ws := [0]) (vs := [1]) rfl rfl (pair_valid hn)]
  rfl

theorem half_sqrt : ((Real.sqrt 2 : ℂ))⁻¹ * ((Real.sqrt 2 : ℂ))⁻¹ = 1 / 2 := by
  rw [← mul_inv, ← Complex.ofReal_mul, Real.mul_self_sqrt (by norm_num)]
  norm_num

theorem plusPair_column (i : Fin (2 ^ 2)) : (kron hadamard hadamard : QMat 2) i 0 = 1 / 2 := by
  have h : ∀ i ∈ ([0, 1, 2, 3] : List (Fin (2 ^ 2))), (kron hadamard hadamard : QMat 2) i 0 = 1 / 2 := by
    have h0 : ∀ k, k < 2 → ent hadamard k 0 = ((Real.sqrt 2 : ℂ))⁻¹ := by
      intro k hk
      rw [ent, dif_pos ⟨by simpa using hk, by norm_num⟩, hadamard, Matrix.smul_apply]
      rcases (by omega : k = 0 ∨ k = 1) with rfl | rfl <;> simp
    intro i hi
    rw [kron]
    have e : ∀ i : Fin (2 ^ 2), (i : ℕ) / 2 ^ 1 < 2 ∧ (i : ℕ) % 2 ^ 1 < 2 := by decide
    have e0 : ((0 : Fin (2 ^ 2)) : ℕ) / 2 ^ 1 = 0 ∧ ((0 : Fin (2 ^ 2)) : ℕ) % 2 ^ 1 = 0 := by decide
    rw [e0.1, e0.2, h0 _ (e i).1, h0 _ (e i).2, half_sqrt]
  have : ∀ i : Fin (2 ^ 2), i ∈ ([0, 1, 2, 3] : List (Fin (2 ^ 2))) := by decide
  exact h i (this i)

/-- Rotations about X do nothing to the state, up to a phase: `M` is X on the first or on the second qubit. -/
theorem plusPair_rot {M : QMat 2} (hM : ∀ i, ∑ j, M i j = 1) (θ : ℝ) :
    SameState (((Real.cos (θ / 2) : ℂ) • (1 : QMat 2) - (Complex.I * Real.sin (θ / 2)) • M) * kron hadamard hadamard) (kron hadamard hadamard : QMat 2) := by
  refine ⟨Complex.exp (-(θ / 2 : ℝ) * Complex.I), ?_, ?_⟩
  · rw [← Complex.ofReal_neg, Complex.norm_exp_ofReal_mul_I]
  · funext i
    have e : ∑ j, M i j * (kron hadamard hadamard : QMat 2) j 0 = 1 / 2 := by
      simp only [plusPair_column, ← Finset.sum_mul, hM, one_mul]
    have e' : Complex.exp (-(θ / 2 : ℝ) * Complex.I) = Real.cos (θ / 2) - Complex.I * Real.sin (θ / 2) := by
      rw [← Complex.ofReal_neg, Complex.exp_mul_I, ← Complex.ofReal_cos, ← Complex.ofReal_sin, Real.cos_neg, Real.sin_neg]
      push_cast
      ring
    change (_ * (kron hadamard hadamard : QMat 2)) i 0 = (Complex.exp (-(θ / 2 : ℝ) * Complex.I) : ℂ) • (kron hadamard hadamard : QMat 2) i 0
    rw [sub_mul, Matrix.smul_mul, Matrix.smul_mul, Matrix.one_mul, Matrix.sub_apply, Matrix.smul_apply, Matrix.smul_apply, Matrix.mul_apply, e, plusPair_column, e',
      smul_eq_mul, smul_eq_mul, smul_eq_mul]
    ring

theorem rotOp_pair (hn : 2 ≤ n) (θ : ℝ) (a b : Letter) : rotOp n θ [a, b] [0, 1] =
    full n [0, 1] ((Real.cos (θ / 2) : ℂ) • (1 : QMat 2) - (Complex.I * Real.sin (θ / 2)) • pairWord a b) := by
  rw [rotOp, pair_word hn, full_sub, full_smul, full_smul, full_one rfl (pair_valid hn)]

theorem rotOp_first (θ : ℝ) (a : Letter) : rotOp n θ [a] [0] = rotOp n θ [a, .I] [0, 1] := by rw [rotOp, rotOp, placed_first]
theorem rotOp_second (θ : ℝ) (a : Letter) : rotOp n θ [a] [1] = rotOp n θ [.I, a] [0, 1] := by rw [rotOp, rotOp, placed_second]

theorem sameState_full {A B : QMat 2} (h : SameState A B) : SameState (full n [0, 1] A) (full n [0, 1] B) := by
  obtain ⟨c, hc, h⟩ := h
  refine ⟨c, hc, ?_⟩
  funext i
  have h' : ∀ k : Fin (2 ^ 2), A k 0 = c * B k 0 := fun k => congrFun h k
  change full n [0, 1] A i 0 = c * full n [0, 1] B i 0
  have e0 : Spec.sub n ((0 : Fin (2 ^ n)) : ℕ) [0, 1] = 0 := sub_origin n _
  rw [full, full, e0]
  split
  · rw [ent, ent]
    split
    · exact h' _
    · rw [mul_zero]
  · rw [mul_zero]

theorem SameState.trans {U V W : QMat n} (h : SameState U V) (h' : SameState V W) : SameState U W := by
  obtain ⟨c, hc, h⟩ := h
  obtain ⟨d, hd, h'⟩ := h'
  refine ⟨c * d, by rw [norm_mul, hc, hd, one_mul], ?_⟩
  rw [h, h']
  funext i
  exact (mul_assoc c d _).symm

/-- The circuit of opt_tools.py:1003-1010 prepares a state that depends on its third angle only. -/
theorem v2_state (hn : 2 ≤ n) (x : Fin 3 → ℝ) {V : QMat n} (h : compileLoop n (v2Gates x) 1 = .ok V) :
    SameState V (rotOp n (x 2) [.Z, .Z] [0, 1] * hadamardPair n) := by
  rw [v2_compile hn] at h
  rw [← Except.ok.inj h]
  have r : ∀ (a : ℝ) (w : List Letter) (q : List ℕ), NormedSpace.exp (generator n (1 / 2 * a) w q) = rotOp n a w q := fun a w q => by
    rw [rotOp_exp_half, generator]
    congr 4
    ring
  have e1 : NormedSpace.exp (genA n ((1 / 2 : ℝ) • x)) = rotOp n (x 0) [.X] [0] := r _ _ _
  have e2 : NormedSpace.exp (genB n ((1 / 2 : ℝ) • x)) = rotOp n (x 1) [.X] [1] := r _ _ _
  have e3 : NormedSpace.exp (genC n ((1 / 2 : ℝ) • x)) = rotOp n (x 2) [.Z, .Z] [0, 1] := r _ _ _
  have s : ∀ {a b : Letter} (θ : ℝ), (∀ i, ∑ j, pairWord a b i j = 1) → SameState (rotOp n θ [a, b] [0, 1] * hadamardPair n) (hadamardPair n) := by
    intro a b θ hM
    rw [rotOp_pair hn, hadamardPair_full hn, pair_mul hn]
    exact sameState_full (plusPair_rot hM θ)
  have x0 : ∀ i, ∑ j, pairWord .X .I i j = 1 := by
    have h : ∀ i ∈ ([0, 1, 2, 3] : List (Fin (2 ^ 2))), ∑ j, pairWord .X .I i j = 1 := by
      intro i hi
      rw [sum_four]
      fin_cases hi <;> simp [pairWord_apply, Letter.mat, Matrix.one_apply]
    exact fun i => h i ((by decide : ∀ i : Fin (2 ^ 2), i ∈ ([0, 1, 2, 3] : List (Fin (2 ^ 2)))) i)
  have x1 : ∀ i, ∑ j, pairWord .I .X i j = 1 := by
    have h : ∀ i ∈ ([0, 1, 2, 3] : List (Fin (2 ^ 2))), ∑ j, pairWord .I .X i j = 1 := by
      intro i hi
      rw [sum_four]
      fin_cases hi <;> simp [pairWord_apply, Letter.mat, Matrix.one_apply]
    exact fun i => h i ((by decide : ∀ i : Fin (2 ^ 2), i ∈ ([0, 1, 2, 3] : List (Fin (2 ^ 2)))) i)
  rw [e1, e2, e3, rotOp_first, rotOp_second, Matrix.mul_assoc, Matrix.mul_assoc]
  exact (((s (x 0) x0).mul_left _).trans (s (x 1) x1)).mul_left _

/-- The diagonal of ZZ. -/
noncomputable def zzSign (i : Fin (2 ^ 2)) : ℂ := ![1, -1, -1, 1] i

/-- The state of `rotOp` about ZZ after the two Hadamard gates. -/
theorem zz_column (θ : ℝ) (i : Fin (2 ^ 2)) : (((Real.cos (θ / 2) : ℂ) • (1 : QMat 2) - (Complex.I * Real.sin (θ / 2)) • pairWord .Z .Z) * kron hadamard hadamard : QMat 2) i 0 =
    1 / 2 * (Real.cos (θ / 2) - Complex.I * Real.sin (θ / 2) * zzSign i) := by
  have e : ∑ j, pairWord .Z .Z i j = zzSign i := by
    have h : ∀ i ∈ ([0, 1, 2, 3] : List (Fin (2 ^ 2))), ∑ j, pairWord .Z .Z i j = zzSign i := by
      intro i hi
      rw [sum_four]
      fin_cases hi <;> simp [zzSign, pairWord_apply, Letter.mat, Matrix.one_apply]
    exact h i ((by decide : ∀ i : Fin (2 ^ 2), i ∈ ([0, 1, 2, 3] : List (Fin (2 ^ 2)))) i)
  rw [sub_mul, Matrix.smul_mul, Matrix.smul_mul, Matrix.one_mul, Matrix.sub_apply, Matrix.smul_apply, Matrix.smul_apply, Matrix.mul_apply, ← e]
  simp only [plusPair_column, ← Finset.sum_mul, smul_eq_mul]
  ring

theorem double_angle (θ : ℝ) : Real.cos (θ / 2) ^ 2 - Real.sin (θ / 2) ^ 2 = Real.cos θ := by
  rw [← Real.cos_two_mul']
  congr 1
  ring

theorem cost_zz (hn : 2 ≤ n) (θ : ℝ) (a b : Letter) : cost (pauliWord (placed n [a, b] [0, 1])) (rotOp n θ [.Z, .Z] [0, 1] * hadamardPair n) =
    (∑ i : Fin (2 ^ 2), ∑ j : Fin (2 ^ 2), star (1 / 2 * (Real.cos (θ / 2) - Complex.I * Real.sin (θ / 2) * zzSign i)) * (pairWord a b i j *
      (1 / 2 * (Real.cos (θ / 2) - Complex.I * Real.sin (θ / 2) * zzSign j)))).re := by
  rw [pair_word hn, rotOp_pair hn, hadamardPair_full hn, pair_mul hn, cost_full rfl (pair_valid hn), cost]
  simp only [dotProduct, Matrix.mulVec, Pi.star_apply, zz_column, Finset.mul_sum]
  rfl

theorem cost_zz_x0 (hn : 2 ≤ n) (θ : ℝ) : cost (pauliWord (placed n [.X] [0])) (rotOp n θ [.Z, .Z] [0, 1] * hadamardPair n) = Real.cos θ := by
  rw [placed_first, cost_zz hn]
  refine Eq.trans ?_ (double_angle θ)
  generalize Real.cos (θ / 2) = C
  generalize Real.sin (θ / 2) = S
  simp only [sum_four]
  simp [zzSign, pairWord_apply, Letter.mat, Matrix.one_apply]
  ring

theorem cost_zz_x1 (hn : 2 ≤ n) (θ : ℝ) : cost (pauliWord (placed n [.X] [1])) (rotOp n θ [.Z, .Z] [0, 1] * hadamardPair n) = Real.cos θ := by
  rw [placed_second, cost_zz hn]
  refine Eq.trans ?_ (double_angle θ)
  generalize Real.cos (θ / 2) = C
  generalize Real.sin (θ / 2) = S
  simp only [sum_four]
  simp [zzSign, pairWord_apply, Letter.mat, Matrix.one_apply]
  ring

theorem cost_zz_y1 (hn : 2 ≤ n) (θ : ℝ) : cost (pauliWord (placed n [.Y] [1])) (rotOp n θ [.Z, .Z] [0, 1] * hadamardPair n) = 0 := by
  rw [placed_second, cost_zz hn]
  generalize Real.cos (θ / 2) = C
  generalize Real.sin (θ / 2) = S
  simp only [sum_four]
  simp [zzSign, pairWord_apply, Letter.mat, Matrix.one_apply]

/-- A Pauli matrix on one qubit as an observable. -/
noncomputable def siteObs (q : ℕ) (hq : q < n) (a : Letter) : Gate n := ⟨[q], pauliWord (n := 1) [a].get, by simp, by simp, by simpa using hq⟩

/-- zassenhaus.py:82 `observables = [qml.PauliX(0), qml.PauliX(1), qml.PauliY(1)]`, on a register with at least two qubits. -/
noncomputable def v2Observables (hn : 2 ≤ n) : List (Gate n) := [siteObs 0 (by omega) .X, siteObs 1 (by omega) .X, siteObs 1 (by omega) .Y]

theorem siteObs_full (q : ℕ) (hq : q < n) (a : Letter) : full n (siteObs q hq a).ws (siteObs q hq a).A = pauliWord (placed n [a] [q]) :=
  full_placed (w := [a]) (qs := [q]) rfl ⟨by simp, by simpa using hq⟩

theorem v2Observables_total (hn : 2 ≤ n) : totalObs (v2Observables hn) =
    pauliWord (placed n [.X] [0]) + (pauliWord (placed n [.X] [1]) + pauliWord (placed n [.Y] [1])) := by
  rw [v2Observables, totalObs, List.map_cons, List.map_cons, List.map_cons, siteObs_full, siteObs_full, siteObs_full]
  simp

/-- C104 (what a call prepares, for every list of observables): the state after a call is that of the Hadamard gates followed by one rotation about ZZ, up to a
phase; the angles that the minimiser found for the two X rotations have no effect on it.  So every observable's cost is a function of the third angle alone. -/
theorem C104_one_angle (hn : 2 ≤ n) (nm : NelderMead) {ord : SetOrder SMono} {gs : List (Gate n)} {args : LayerArgs} {b1 b2 : Bool} {L : ZassV2Layer n}
    (hL : zassV2Layer ord n (gs.map Gate.obs) args b1 b2 = .ok L) {U V : QMat n} {L' : ZassV2Layer n} (h : L.call nm U = .ok (V, L')) :
    SameState V (rotOp n (nm (fitness n (totalObs gs) U L.eta) ![0.1, 0.2, 0.3] 2) [.Z, .Z] [0, 1] * hadamardPair n) ∧
    ∀ H, cost H V = cost H (rotOp n (nm (fitness n (totalObs gs) U L.eta) ![0.1, 0.2, 0.3] 2) [.Z, .Z] [0, 1] * hadamardPair n) := by
  obtain ⟨x, rfl, hx⟩ := C80_call hn nm hL U
  rw [hx] at h
  obtain ⟨rfl, -⟩ := Prod.mk.inj (Except.ok.inj h)
  have := v2_state hn _ (v2_compile hn (nm (fitness n (totalObs gs) U L.eta) ![0.1, 0.2, 0.3]))
  exact ⟨this, fun H => cost_sameState this H⟩

/-- The cost of the script's observables after the gates with the angles `x`. -/
theorem v2_script_cost (hn : 2 ≤ n) (x : Fin 3 → ℝ) {V : QMat n} (h : compileLoop n (v2Gates x) 1 = .ok V) :
    totalCost V ((v2Observables hn).map Gate.obs) = .ok (2 * Real.cos (x 2)) := by
  rw [totalCost_gates, cost_sameState (v2_state hn x h), v2Observables_total, cost_add, cost_add, cost_zz_x0 hn, cost_zz_x1 hn, cost_zz_y1 hn]
  congr 1
  ring

/-- C104 (refuted): whatever the minimiser answers and whatever the circuit was, after a call of the script's layer the cost is twice the cosine of the third
angle, so at least -2; the script's own circuit (zassenhaus.py:89-97, the same gates) has such a cost as well.  The value that the script draws as the minimum,
`-1 - sqrt 2`, is the smallest cost of all circuits and is smaller than -2. -/
theorem C104_refuted_reach (hn : 2 ≤ n) (nm : NelderMead) {ord : SetOrder SMono} {args : LayerArgs} {b1 b2 : Bool} {L : ZassV2Layer n}
    (hL : zassV2Layer ord n ((v2Observables hn).map Gate.obs) args b1 b2 = .ok L) {U V : QMat n} {L' : ZassV2Layer n} (h : L.call nm U = .ok (V, L')) :
    ∃ c, totalCost V ((v2Observables hn).map Gate.obs) = .ok c ∧
      c = 2 * Real.cos (nm (fitness n (totalObs (v2Observables hn)) U L.eta) ![0.1, 0.2, 0.3] 2) ∧ -1 - Real.sqrt 2 < -2 ∧ -2 ≤ c := by
  obtain ⟨x, rfl, hx⟩ := C80_call hn nm hL U
  rw [hx] at h
  obtain ⟨rfl, -⟩ := Prod.mk.inj (Except.ok.inj h)
  refine ⟨_, v2_script_cost hn _ (v2_compile hn _), rfl, ?_, ?_⟩
  · have : 1 < Real.sqrt 2 := by rw [Real.lt_sqrt (by norm_num)]; norm_num
    linarith
  · have := Real.neg_one_le_cos (nm (fitness n (totalObs (v2Observables hn)) U L.eta) ![0.1, 0.2, 0.3] 2)
    linarith

theorem site_X (q : ℕ) (hq : q < n) : pauliWord (placed n [.X] [q]) = full n [q] matX := by
  rw [← full_placed (w := [Letter.X]) (qs := [q]) rfl ⟨by simp, by simpa using hq⟩]
  have e : ([Letter.X] : List Letter).get = fun _ => Letter.X := by funext i; fin_cases i; rfl
  congr 1
  exact (congrArg pauliWord e).trans (word1 .X)

theorem site_Y (q : ℕ) (hq : q < n) : pauliWord (placed n [.Y] [q]) = full n [q] matY := by
  rw [← full_placed (w := [Letter.Y]) (qs := [q]) rfl ⟨by simp, by simpa using hq⟩]
  have e : ([Letter.Y] : List Letter).get = fun _ => Letter.Y := by funext i; fin_cases i; rfl
  congr 1
  exact (congrArg pauliWord e).trans (word1 .Y)

/-- C104 (the value the script draws): `-1 - sqrt 2` is the smallest cost of all circuits, and some circuit has it. -/
theorem C104_minimum (hn : 2 ≤ n) : (∀ U : QMat n, Unitary U → -1 - Real.sqrt 2 ≤ cost (totalObs (v2Observables hn)) U) ∧
    ∃ U : QMat n, Unitary U ∧ cost (totalObs (v2Observables hn)) U = -1 - Real.sqrt 2 := by
  have v0 : ValidWires n [0] := ⟨by simp, by intro w hw; simp at hw; omega⟩
  have v1 : ValidWires n [1] := ⟨by simp, by intro w hw; simp at hw; omega⟩
  obtain ⟨hX, hX2, hY, hY2, hXY⟩ := antiPair_XY
  rw [show full 1 gateX.ws gateX.A = matX from full_one_qubit _, show full 1 gateY.ws gateY.A = matY from full_one_qubit _] at *
  have ex : ∀ a b, cost matX (rotZ b * rot (a / 2)) = Real.sin a * Real.cos b := fun a b => by
    rw [← (redBlue_costs a b).1, show full 1 gateX.ws gateX.A = matX from full_one_qubit _]
  have ey : ∀ a b, cost matY (rotZ b * rot (a / 2)) = Real.sin a * Real.sin b := fun a b => by
    rw [← (redBlue_costs a b).2, show full 1 gateY.ws gateY.A = matY from full_one_qubit _]
  rw [v2Observables_total]
  refine ⟨fun U hU => ?_, ?_⟩
  · rw [cost_add]
    have h0 := (cost_involution_bounds hU (pauliWord_herm (placed n [.X] [0])) (pauliWord_sq _)).1
    have h1 : -Real.sqrt 2 ≤ cost (pauliWord (placed n [.X] [1]) + pauliWord (placed n [.Y] [1])) U := by
      refine C103_smallest hU (pauliWord_herm _) (pauliWord_sq _) (pauliWord_herm _) (pauliWord_sq _) ?_
      rw [site_X 1 (by omega), site_Y 1 (by omega), ← full_mul rfl v1, ← full_mul rfl v1, hXY, full_neg]
    linarith
  · have hr : ∀ a b, Unitary (rotZ b * rot (a / 2)) := fun a b => by
      change (rotZ b * rot (a / 2))ᴴ * (rotZ b * rot (a / 2)) = 1
      rw [Matrix.conjTranspose_mul, Matrix.mul_assoc, ← Matrix.mul_assoc (rotZ b)ᴴ, rotZ_unitary, Matrix.one_mul, rot_unitary]
    refine ⟨full n [0] (rotZ Real.pi * rot (Real.pi / 2 / 2)) * full n [1] (rotZ (Real.pi / 4 + Real.pi) * rot (Real.pi / 2 / 2)), ?_, ?_⟩
    · change (_ * _)ᴴ * (_ * _) = 1
      have a0 : (full n [0] (rotZ Real.pi * rot (Real.pi / 2 / 2)))ᴴ * full n [0] (rotZ Real.pi * rot (Real.pi / 2 / 2)) = 1 := by
        rw [← full_conjTranspose rfl v0.2, ← full_mul rfl v0, hr, full_one rfl v0]
      have a1 : (full n [1] (rotZ (Real.pi / 4 + Real.pi) * rot (Real.pi / 2 / 2)))ᴴ * full n [1] (rotZ (Real.pi / 4 + Real.pi) * rot (Real.pi / 2 / 2)) = 1 := by
        rw [← full_conjTranspose rfl v1.2, ← full_mul rfl v1, hr, full_one rfl v1]
      rw [Matrix.conjTranspose_mul, Matrix.mul_assoc, ← Matrix.mul_assoc (full n [0] (rotZ Real.pi * rot (Real.pi / 2 / 2)))ᴴ, a0, Matrix.one_mul, a1]
    · rw [cost_add, cost_add, site_X 0 (by omega), site_X 1 (by omega), site_Y 1 (by omega), cost_full_disjoint rfl rfl v0 v1 (by simp) _ _ (hr _ _),
        full_comm_disjoint rfl rfl v0 v1 (by simp), cost_full_disjoint rfl rfl v1 v0 (by simp) _ _ (hr _ _), cost_full_disjoint rfl rfl v1 v0 (by simp) _ _ (hr _ _),
        ex, ex, ey, Real.sin_pi_div_two, Real.cos_pi, Real.cos_add_pi, Real.sin_add_pi, Real.cos_pi_div_four, Real.sin_pi_div_four]
      ring

/-- C104 (what is true): the layer's circuits reach the cost -2, and no smaller one, at the third angle `pi`. -/
theorem C104_partial (hn : 2 ≤ n) : (∀ (x : Fin 3 → ℝ) (V : QMat n), compileLoop n (v2Gates x) 1 = .ok V → -2 ≤ cost (totalObs (v2Observables hn)) V) ∧
    ∀ (x : Fin 3 → ℝ), x 2 = Real.pi → ∃ V, compileLoop n (v2Gates x) 1 = .ok V ∧ cost (totalObs (v2Observables hn)) V = -2 := by
  have h : ∀ (x : Fin 3 → ℝ) (V : QMat n), compileLoop n (v2Gates x) 1 = .ok V → cost (totalObs (v2Observables hn)) V = 2 * Real.cos (x 2) := fun x V hV => by
    have := v2_script_cost hn x hV
    rw [totalCost_gates] at this
    exact Except.ok.inj this
  refine ⟨fun x V hV => ?_, fun x hx => ⟨_, v2_compile hn x, ?_⟩⟩
  · rw [h x V hV]
    linarith [Real.neg_one_le_cos (x 2)]
  · rw [h x _ (v2_compile hn x), hx, Real.cos_pi]
    norm_num

/-- Hypotheses of C104: the script's layer exists and its calls succeed. -/
example (ord : SetOrder SMono) (nm : NelderMead) (U : QMat 2) : ∃ L V L', zassV2Layer ord 2 ((v2Observables (n := 2) le_rfl).map Gate.obs) {} = .ok L ∧
    L.call nm U = .ok (V, L') := by
  obtain ⟨L, hL⟩ := (C80_constructor (n := 2) ord (v2Observables le_rfl) {} false false).2 ⟨⟨0.1, rfl, by norm_num, by norm_num⟩, ⟨false, rfl⟩, ⟨false, rfl⟩⟩
  obtain ⟨x, -, hx⟩ := C80_call le_rfl nm hL U
  exact ⟨L, _, _, hL, hx⟩

/-- The script's first circuit (zassenhaus.py:83-97) has the cost `2 cos 0.4`. -/
example : ∃ V : QMat 2, compileLoop 2 (v2Gates ![0.6, 1.8, 0.4]) 1 = .ok V ∧
    totalCost V ((v2Observables (n := 2) le_rfl).map Gate.obs) = .ok (2 * Real.cos 0.4) :=
  ⟨_, v2_compile le_rfl _, v2_script_cost le_rfl ![0.6, 1.8, 0.4] (v2_compile le_rfl _)⟩

end Oranssi
