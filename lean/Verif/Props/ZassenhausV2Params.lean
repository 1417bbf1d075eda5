import Verif.Props.ZassenhausV2Reach

/-! # The attribute `params` of `ZassenhausLayerV2` (C121)

`__call__` adds the fitted angles to `self.params` and prints the sum (opt_tools.py:1001-1002), but builds the circuit from the fitted angles alone
(opt_tools.py:1012). -/

namespace Oranssi
open Spec
open scoped Matrix

variable {n : ℕ}

/-- The angles found for a circuit. -/
noncomputable def Spec.v2Fit (nm : NelderMead) (H : QMat n) (eta : ℝ) (U : QMat n) : Fin 3 → ℝ := nm (fitness n H U eta) ![0.1, 0.2, 0.3]

/-- The ansatz with given angles. -/
noncomputable def Spec.v2Ansatz (n : ℕ) (x : Fin 3 → ℝ) : QMat n :=
  rotOp n (x 2) [.Z, .Z] [0, 1] * rotOp n (x 1) [.X] [1] * rotOp n (x 0) [.X] [0] * hadamardPair n

/-- The circuits of a run: every one is the ansatz with the angles found for the previous one. -/
noncomputable def Spec.v2Circuits (nm : NelderMead) (H : QMat n) (eta : ℝ) (U : QMat n) : ℕ → QMat n
  | 0 => U
  | k + 1 => v2Ansatz n (v2Fit nm H eta (v2Circuits nm H eta U k))

theorem v2_compile_ansatz (hn : 2 ≤ n) (x : Fin 3 → ℝ) : compileLoop n (v2Gates x) 1 = .ok (v2Ansatz n x) := by
  have r : ∀ (a : ℝ) (w : List Letter) (q : List ℕ), NormedSpace.exp (generator n (1 / 2 * a) w q) = rotOp n a w q := fun a w q => by
    rw [rotOp_exp_half, generator]
    congr 4
    ring
  have e1 : NormedSpace.exp (genA n ((1 / 2 : ℝ) • x)) = rotOp n (x 0) [.X] [0] := r _ _ _
  have e2 : NormedSpace.exp (genB n ((1 / 2 : ℝ) • x)) = rotOp n (x 1) [.X] [1] := r _ _ _
  have e3 : NormedSpace.exp (genC n ((1 / 2 : ℝ) • x)) = rotOp n (x 2) [.Z, .Z] [0, 1] := r _ _ _
  rw [v2_compile hn, e1, e2, e3, v2Ansatz]

theorem zassV2Layer_params {ord : SetOrder SMono} {gs : List (Gate n)} {args : LayerArgs} {b1 b2 : Bool} {L : ZassV2Layer n}
    (hL : zassV2Layer ord n (gs.map Gate.obs) args b1 b2 = .ok L) : L.params = ![0.1, 1.2, 0.6] := by
  obtain ⟨a0, h0, -⟩ := algebraSU8_attrs n b1 b2
  obtain ⟨l, hl, -⟩ := v2Terms_perm ord
  rw [zassV2Layer, promoteAll_gates, h0] at hL
  simp only [bind, Except.bind] at hL
  repeat' (split at hL; · simp at hL)
  rw [← Except.ok.inj hL]

/-- A call does not look at `params`. -/
theorem v2_call_params (hn : 2 ≤ n) (nm : NelderMead) {ord : SetOrder SMono} {gs : List (Gate n)} {args : LayerArgs} {b1 b2 : Bool} {L : ZassV2Layer n}
    (hL : zassV2Layer ord n (gs.map Gate.obs) args b1 b2 = .ok L) (p : Fin 3 → ℝ) (U : QMat n) : ({ L with params := p } : ZassV2Layer n).call nm U =
      .ok (v2Ansatz n (v2Fit nm (totalObs gs) L.eta U), { L with params := p + v2Fit nm (totalObs gs) L.eta U }) := by
  have e1 : ({ L with params := p } : ZassV2Layer n).omegas U = L.omegas U := rfl
  have e2 : ({ L with params := p } : ZassV2Layer n).misfit = L.misfit := rfl
  rw [ZassV2Layer.call, e1, e2, v2_omegas hn hL]
  simp only [bind, Except.bind]
  rw [v2_misfit hL, v2_compile_ansatz hn]
  rfl

/-- C121 (the run): after any number of steps the circuit is the ansatz with the angles fitted in the last step, and `params` is the sum of
(0.1, 1.2, 0.6) and the angles of all steps. -/
theorem C121_run (hn : 2 ≤ n) (nm : NelderMead) {ord : SetOrder SMono} {gs : List (Gate n)} {args : LayerArgs} {b1 b2 : Bool} {L : ZassV2Layer n}
    (hL : zassV2Layer ord n (gs.map Gate.obs) args b1 b2 = .ok L) (U : QMat n) (k : ℕ) :
    ∃ L', v2Run nm k L U = .ok (v2Circuits nm (totalObs gs) L.eta U k, L') ∧
      L'.params = ![0.1, 1.2, 0.6] + ∑ i ∈ Finset.range k, v2Fit nm (totalObs gs) L.eta (v2Circuits nm (totalObs gs) L.eta U i) := by
  suffices h : v2Run nm k L U = .ok (v2Circuits nm (totalObs gs) L.eta U k,
      { L with params := ![0.1, 1.2, 0.6] + ∑ i ∈ Finset.range k, v2Fit nm (totalObs gs) L.eta (v2Circuits nm (totalObs gs) L.eta U i) }) from ⟨_, h, rfl⟩
  induction k with
  | zero =>
    rw [v2Run, Finset.range_zero, Finset.sum_empty, add_zero, ← zassV2Layer_params hL]
    rfl
  | succ k ih =>
    rw [v2Run, ih]
    simp only [bind, Except.bind]
    rw [v2_call_params hn nm hL, Finset.sum_range_succ, add_assoc]
    rfl

theorem cost_zz_yz (hn : 2 ≤ n) (θ : ℝ) : cost (pauliWord (placed n [.Y, .Z] [0, 1])) (rotOp n θ [.Z, .Z] [0, 1] * hadamardPair n) = Real.sin θ := by
  rw [cost_zz hn]
  have e : 2 * Real.sin (θ / 2) * Real.cos (θ / 2) = Real.sin θ := by
    rw [← Real.sin_two_mul]
    congr 1
    ring
  refine Eq.trans ?_ e
  generalize Real.cos (θ / 2) = C
  generalize Real.sin (θ / 2) = S
  simp only [sum_four]
  simp [zzSign, pairWord_apply, Letter.mat, Matrix.one_apply]
  ring

theorem sameState_symm {U V : QMat n} (h : SameState U V) : SameState V U := by
  obtain ⟨c, hc, h⟩ := h
  have h0 : c ≠ 0 := by
    rintro rfl
    simp at hc
  refine ⟨c⁻¹, by rw [norm_inv, hc, inv_one], ?_⟩
  rw [h]
  funext i
  rw [← mul_assoc, inv_mul_cancel₀ h0, one_mul]

/-- Two ansatz circuits prepare the same state exactly if their third angles differ by full turns. -/
theorem v2Ansatz_state (hn : 2 ≤ n) (x y : Fin 3 → ℝ) : SameState (v2Ansatz n x) (v2Ansatz n y) ↔ ∃ m : ℤ, x 2 - y 2 = 2 * Real.pi * m := by
  have hs : ∀ x, SameState (v2Ansatz n x) (rotOp n (x 2) [.Z, .Z] [0, 1] * hadamardPair n) := fun x => v2_state hn x (v2_compile_ansatz hn x)
  constructor
  · intro h
    have hc : ∀ H, cost H (rotOp n (x 2) [.Z, .Z] [0, 1] * hadamardPair n) = cost H (rotOp n (y 2) [.Z, .Z] [0, 1] * hadamardPair n) := fun H => by
      rw [← cost_sameState (hs x), cost_sameState h, cost_sameState (hs y)]
    have h1 := hc (pauliWord (placed n [.X] [0]))
    have h2 := hc (pauliWord (placed n [.Y, .Z] [0, 1]))
    rw [cost_zz_x0 hn, cost_zz_x0 hn] at h1
    rw [cost_zz_yz hn, cost_zz_yz hn] at h2
    have h3 : (x 2 : Real.Angle) = (y 2 : Real.Angle) := Real.Angle.cos_sin_inj h1 h2
    obtain ⟨m, hm⟩ := Real.Angle.angle_eq_iff_two_pi_dvd_sub.1 h3
    exact ⟨m, hm⟩
  · rintro ⟨m, hm⟩
    refine (hs x).trans (SameState.trans ?_ (sameState_symm (hs y)))
    have e : x 2 / 2 = y 2 / 2 + m * Real.pi := by linarith
    have : rotOp n (x 2) [.Z, .Z] [0, 1] = ((-1 : ℂ) ^ m) • rotOp n (y 2) [.Z, .Z] [0, 1] := by
      rw [rotOp, rotOp, e, Real.cos_add_int_mul_pi, Real.sin_add_int_mul_pi, smul_sub, smul_smul, smul_smul]
      push_cast
      congr 2
      ring
    rw [this]
    refine ⟨(-1 : ℂ) ^ m, ?_, ?_⟩
    · rw [norm_zpow]
      simp
    · funext i
      rw [stateFromUnitary, Matrix.smul_mul]
      rfl

/-- C121 (when the attribute describes the circuit): after a step the circuit with the angles `params` prepares the state of the circuit that the layer returned
exactly if 0.6 and the third angles of the earlier steps add up to full turns. -/
theorem C121_state (hn : 2 ≤ n) (nm : NelderMead) {ord : SetOrder SMono} {gs : List (Gate n)} {args : LayerArgs} {b1 b2 : Bool} {L : ZassV2Layer n}
    (hL : zassV2Layer ord n (gs.map Gate.obs) args b1 b2 = .ok L) (U : QMat n) (k : ℕ) :
    ∃ V L' W, v2Run nm (k + 1) L U = .ok (V, L') ∧ compileLoop n (v2Gates L'.params) 1 = .ok W ∧
      (SameState V W ↔ ∃ m : ℤ, 0.6 + ∑ i ∈ Finset.range k, v2Fit nm (totalObs gs) L.eta (v2Circuits nm (totalObs gs) L.eta U i) 2 = 2 * Real.pi * m) := by
  obtain ⟨L', h, hp⟩ := C121_run hn nm hL U (k + 1)
  refine ⟨_, L', _, h, v2_compile_ansatz hn _, ?_⟩
  rw [v2Circuits, v2Ansatz_state hn, hp, Finset.sum_range_succ]
  simp only [Pi.add_apply, Finset.sum_apply]
  have e3 : (![0.1, 1.2, 0.6] : Fin 3 → ℝ) 2 = 0.6 := rfl
  rw [e3]
  constructor
  · rintro ⟨m, hm⟩
    refine ⟨-m, ?_⟩
    push_cast
    linarith
  · rintro ⟨m, hm⟩
    refine ⟨-m, ?_⟩
    push_cast
    linarith

/-- C121 (refuted): whatever the minimiser finds, after the first step the circuit with the printed angles does not prepare the state of the circuit that the layer
returned. -/
theorem C121_first (hn : 2 ≤ n) (nm : NelderMead) {ord : SetOrder SMono} {gs : List (Gate n)} {args : LayerArgs} {b1 b2 : Bool} {L : ZassV2Layer n}
    (hL : zassV2Layer ord n (gs.map Gate.obs) args b1 b2 = .ok L) {U V W : QMat n} {L' : ZassV2Layer n} (h : L.call nm U = .ok (V, L'))
    (hW : compileLoop n (v2Gates L'.params) 1 = .ok W) : ¬ SameState V W := by
  obtain ⟨V', L'', W', h', hW', hs⟩ := C121_state hn nm hL U 0
  rw [v2Run, v2Run] at h'
  simp only [bind, Except.bind] at h'
  rw [h] at h'
  obtain ⟨rfl, rfl⟩ := Prod.mk.inj (Except.ok.inj h')
  rw [hW] at hW'
  obtain rfl := Except.ok.inj hW'
  rw [hs]
  rintro ⟨m, hm⟩
  rw [Finset.range_zero, Finset.sum_empty, add_zero] at hm
  have h3 := Real.pi_gt_three
  rcases le_or_gt m 0 with h0 | h0
  · have : (m : ℝ) ≤ 0 := by exact_mod_cast h0
    nlinarith
  · have : (1 : ℝ) ≤ m := by exact_mod_cast h0
    nlinarith

/-- Hypotheses of C121, and a run in which the second step happens to agree: a minimiser that always answers (0, 0, 2π - 0.6). -/
example (ord : SetOrder SMono) (U : QMat 2) : ∃ (nm : NelderMead) (L : ZassV2Layer 2) (V W : QMat 2) (L' : ZassV2Layer 2),
    zassV2Layer ord 2 ((v2Observables (n := 2) le_rfl).map Gate.obs) {} = .ok L ∧ v2Run nm 2 L U = .ok (V, L') ∧
      compileLoop 2 (v2Gates L'.params) 1 = .ok W ∧ SameState V W := by
  obtain ⟨L, hL⟩ := (C80_constructor (n := 2) ord (v2Observables le_rfl) {} false false).2 ⟨⟨0.1, rfl, by norm_num, by norm_num⟩, ⟨false, rfl⟩, ⟨false, rfl⟩⟩
  obtain ⟨V, L', W, h1, h2, h3⟩ := C121_state le_rfl (fun _ _ => ![0, 0, 2 * Real.pi - 0.6]) hL U 1
  refine ⟨_, L, V, W, L', hL, h1, h2, h3.2 ⟨1, ?_⟩⟩
  simp [v2Fit]

end Oranssi
