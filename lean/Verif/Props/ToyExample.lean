import Verif.Props.ApproxExample
import Verif.Props.PlotEqual
import Verif.Model.ToyExample

/-! # C110: the parameter-shift curve of toy_example.py cannot reach the line it is compared with -/

namespace Oranssi
open Spec
open scoped Matrix

variable {n : ℕ}

/-- The circuit of toy_example.py with the angles `a` and `b`. -/
noncomputable def toyUnitary (n : ℕ) (a b : ℝ) : QMat n :=
  rotOp n b [.Z] [1] * (rotOp n b [.Z] [0] * (full n [0, 1] cnot * (rotOp n a [.Z] [1] * (rotOp n a [.Z] [0] * hadamardPair n))))

theorem toy_compile (hn : 2 ≤ n) (a b : ℝ) : compileLoop n (toyGates a b) 1 = .ok (toyUnitary n a b) := by
  have v0 : ValidWires n [0] := ⟨by simp, by intro w hw; simp at hw; omega⟩
  have v1 : ValidWires n [1] := ⟨by simp, by intro w hw; simp at hw; omega⟩
  have g1 : ∀ j, ValidWires n [j] → getFullOperator ⟨2, 2, (hadamard : Matrix (Fin (2 ^ 1)) (Fin (2 ^ 1)) ℂ)⟩ [(j : ℤ)] n = .ok (full n [j] hadamard) := fun j hj =>
    getFullOperator_npQ (ws := [j]) rfl (by simp) hj hadamard
  have g2 : getFullOperator ⟨2 ^ 2, 2 ^ 2, cnot⟩ [0, 1] n = .ok (full n [0, 1] cnot) := getFullOperator_npQ (ws := [0, 1]) rfl (by simp) (pair_valid hn) cnot
  have g3 : ∀ (θ : ℝ) (a : Letter) (j : ℕ), ValidWires n [j] → getFullOperator (rotGate θ (letterStr [a]) [j]).1 (rotGate θ (letterStr [a]) [j]).2 n =
      .ok (rotOp n θ [a] [j]) := fun θ a j hj => by
    rw [rotGate_letterStr, ← full_pauliRot rfl hj]
    exact getFullOperator_npQ (ws := [j]) rfl (by simp) hj _
  have hg : toyGates a b = [(⟨2, 2, (hadamard : Matrix (Fin (2 ^ 1)) (Fin (2 ^ 1)) ℂ)⟩, [((0 : ℕ) : ℤ)]),
      (⟨2, 2, (hadamard : Matrix (Fin (2 ^ 1)) (Fin (2 ^ 1)) ℂ)⟩, [((1 : ℕ) : ℤ)]),
      rotGate a (letterStr [.Z]) [0], rotGate a (letterStr [.Z]) [1], (⟨2 ^ 2, 2 ^ 2, cnot⟩, [0, 1]), rotGate b (letterStr [.Z]) [0], rotGate b (letterStr [.Z]) [1]] := rfl
  rw [hg]
  rw [compileLoop, g1 0 v0]
  simp only [bind, Except.bind]
  rw [compileLoop, g1 1 v1]
  simp only [bind, Except.bind]
  rw [compileLoop, g3 _ _ _ v0]
  simp only [bind, Except.bind]
  rw [compileLoop, g3 _ _ _ v1]
  simp only [bind, Except.bind]
  rw [compileLoop, g2]
  simp only [bind, Except.bind]
  rw [compileLoop, g3 _ _ _ v0]
  simp only [bind, Except.bind]
  rw [compileLoop, g3 _ _ _ v1]
  simp only [bind, Except.bind]
  rw [compileLoop, toyUnitary, hadamardPair]
  simp only [mul_one]

theorem toy_unitary (p : List ℝ) (hp : 1 < p.length) : circuitUnitary 2 toyCircuit p = .ok (toyUnitary 2 (p.getD 0 0) (p.getD 1 0)) := by
  have h : toyCircuit p = .ok (toyGates (p.getD 0 0) (p.getD 1 0)) := by
    match p, hp with
    | a :: b :: p, _ => simp [toyCircuit, pyGetItem, pyIndex, bind, Except.bind]
  rw [circuitUnitary, h, ok_bind, toy_compile le_rfl]

/-- A diagonal rotation acts on the first column by phases. -/
theorem rotZ_first (θ : ℝ) (M : QMat 2) (i : Fin (2 ^ 2)) : (rotOp 2 θ [.Z] [0] * M) i 0 =
    (Real.cos (θ / 2) - Complex.I * Real.sin (θ / 2) * (![1, 1, -1, -1] : Fin 4 → ℂ) i) * M i 0 := by
  rw [rotOp_first, rotOp_pair le_rfl, full_pair_self, sub_mul, Matrix.smul_mul, Matrix.smul_mul, Matrix.one_mul, Matrix.sub_apply, Matrix.smul_apply, Matrix.smul_apply,
    Matrix.mul_apply, sum_four]
  have h : ∀ i ∈ ([0, 1, 2, 3] : List (Fin (2 ^ 2))), pairWord .Z .I i 0 * M 0 0 + pairWord .Z .I i 1 * M 1 0 + pairWord .Z .I i 2 * M 2 0 + pairWord .Z .I i 3 * M 3 0 =
      (![1, 1, -1, -1] : Fin 4 → ℂ) i * M i 0 := by
    intro i hi
    fin_cases hi <;> simp [pairWord_apply, Letter.mat, Matrix.one_apply]
  rw [h i ((by decide : ∀ i : Fin (2 ^ 2), i ∈ ([0, 1, 2, 3] : List (Fin (2 ^ 2)))) i), smul_eq_mul, smul_eq_mul]
  ring

theorem rotZ_second (θ : ℝ) (M : QMat 2) (i : Fin (2 ^ 2)) : (rotOp 2 θ [.Z] [1] * M) i 0 =
    (Real.cos (θ / 2) - Complex.I * Real.sin (θ / 2) * (![1, -1, 1, -1] : Fin 4 → ℂ) i) * M i 0 := by
  rw [rotOp_second, rotOp_pair le_rfl, full_pair_self, sub_mul, Matrix.smul_mul, Matrix.smul_mul, Matrix.one_mul, Matrix.sub_apply, Matrix.smul_apply, Matrix.smul_apply,
    Matrix.mul_apply, sum_four]
  have h : ∀ i ∈ ([0, 1, 2, 3] : List (Fin (2 ^ 2))), pairWord .I .Z i 0 * M 0 0 + pairWord .I .Z i 1 * M 1 0 + pairWord .I .Z i 2 * M 2 0 + pairWord .I .Z i 3 * M 3 0 =
      (![1, -1, 1, -1] : Fin 4 → ℂ) i * M i 0 := by
    intro i hi
    fin_cases hi <;> simp [pairWord_apply, Letter.mat, Matrix.one_apply]
  rw [h i ((by decide : ∀ i : Fin (2 ^ 2), i ∈ ([0, 1, 2, 3] : List (Fin (2 ^ 2)))) i), smul_eq_mul, smul_eq_mul]
  ring

theorem cnot_column (M : QMat 2) (i : Fin (2 ^ 2)) : (full 2 [0, 1] cnot * M) i 0 = (![M 0 0, M 1 0, M 3 0, M 2 0] : Fin 4 → ℂ) i := by
  rw [full_pair_self, Matrix.mul_apply, sum_four]
  have h : ∀ i ∈ ([0, 1, 2, 3] : List (Fin (2 ^ 2))), cnot i 0 * M 0 0 + cnot i 1 * M 1 0 + cnot i 2 * M 2 0 + cnot i 3 * M 3 0 =
      (![M 0 0, M 1 0, M 3 0, M 2 0] : Fin 4 → ℂ) i := by
    intro i hi
    fin_cases hi <;> simp [cnot]
  exact h i ((by decide : ∀ i : Fin (2 ^ 2), i ∈ ([0, 1, 2, 3] : List (Fin (2 ^ 2)))) i)

theorem hh_column (i : Fin (2 ^ 2)) : hadamardPair 2 i 0 = 1 / 2 := by rw [hadamardPair_full le_rfl, full_pair_self, plusPair_column]

/-- The state that the circuit prepares. -/
theorem toy_column (a b : ℝ) : (fun i => toyUnitary 2 a b i 0) = ((fun i => 1 / 2 * (![(Real.cos a - Complex.I * Real.sin a) * (Real.cos b - Complex.I * Real.sin b), 1,
    Real.cos a + Complex.I * Real.sin a, Real.cos b + Complex.I * Real.sin b] : Fin 4 → ℂ) i) : Fin (2 ^ 2) → ℂ) := by
  have sq : ∀ θ : ℝ, ((Real.cos (θ / 2) : ℂ)) ^ 2 + (Real.sin (θ / 2) : ℂ) ^ 2 = 1 := fun θ => by
    rw [← Complex.ofReal_pow, ← Complex.ofReal_pow, ← Complex.ofReal_add, Real.cos_sq_add_sin_sq, Complex.ofReal_one]
  have c2 : ∀ θ : ℝ, ((Real.cos θ : ℝ) : ℂ) = (Real.cos (θ / 2) : ℂ) ^ 2 - (Real.sin (θ / 2) : ℂ) ^ 2 := fun θ => by
    rw [← double_angle θ]; push_cast; ring
  have s2 : ∀ θ : ℝ, ((Real.sin θ : ℝ) : ℂ) = 2 * (Real.sin (θ / 2) : ℂ) * (Real.cos (θ / 2) : ℂ) := fun θ => by
    rw [← double_angle_sin θ]; push_cast; ring
  have qa := sq a
  have qb := sq b
  have h : ∀ i ∈ ([0, 1, 2, 3] : List (Fin (2 ^ 2))), toyUnitary 2 a b i 0 = 1 / 2 * (![(Real.cos a - Complex.I * Real.sin a) * (Real.cos b - Complex.I * Real.sin b), 1,
      Real.cos a + Complex.I * Real.sin a, Real.cos b + Complex.I * Real.sin b] : Fin 4 → ℂ) i := by
    rw [c2 a, c2 b, s2 a, s2 b]
    intro i hi
    rw [toyUnitary, rotZ_second, rotZ_first, cnot_column]
    simp only [rotZ_second, rotZ_first, hh_column]
    generalize (Real.cos (a / 2) : ℂ) = C at *
    generalize (Real.sin (a / 2) : ℂ) = S at *
    generalize (Real.cos (b / 2) : ℂ) = C' at *
    generalize (Real.sin (b / 2) : ℂ) = S' at *
    fin_cases hi
    · simp
      linear_combination (S ^ 2 * (C' - Complex.I * S') ^ 2 / 2 + S' ^ 2 * (C ^ 2 - S ^ 2 - Complex.I * (2 * S * C)) / 2) * Complex.I_sq
    · simp
      linear_combination (-(S ^ 2 * (C' ^ 2 - Complex.I ^ 2 * S' ^ 2) / 2) - S' ^ 2 * (C ^ 2 + S ^ 2) / 2) * Complex.I_sq + (C' ^ 2 + S' ^ 2) / 2 * qa + 1 / 2 * qb
    · simp
      linear_combination (-(S' ^ 2 * (C + Complex.I * S) ^ 2 / 2) + S ^ 2 * (C' ^ 2 + S' ^ 2) / 2) * Complex.I_sq + (C ^ 2 - S ^ 2 + Complex.I * (2 * S * C)) / 2 * qb
    · simp
      linear_combination (-(S ^ 2 * (C' + Complex.I * S') ^ 2 / 2) + S' ^ 2 * (C ^ 2 + S ^ 2) / 2) * Complex.I_sq + (C' ^ 2 - S' ^ 2 + Complex.I * (2 * S' * C')) / 2 * qa
  funext i
  exact h i ((by decide : ∀ i : Fin (2 ^ 2), i ∈ ([0, 1, 2, 3] : List (Fin (2 ^ 2)))) i)

theorem toy_cost_pair (a b : ℝ) (l m : Letter) : cost (pauliWord (placed 2 [l, m] [0, 1])) (toyUnitary 2 a b) =
    (∑ i : Fin (2 ^ 2), ∑ j : Fin (2 ^ 2), star (1 / 2 * (![(Real.cos a - Complex.I * Real.sin a) * (Real.cos b - Complex.I * Real.sin b), 1,
      Real.cos a + Complex.I * Real.sin a, Real.cos b + Complex.I * Real.sin b] : Fin 4 → ℂ) i) * (pairWord l m i j *
      (1 / 2 * (![(Real.cos a - Complex.I * Real.sin a) * (Real.cos b - Complex.I * Real.sin b), 1,
      Real.cos a + Complex.I * Real.sin a, Real.cos b + Complex.I * Real.sin b] : Fin 4 → ℂ) j))).re := by
  have h := fun i => congrFun (toy_column a b) i
  rw [pair_word le_rfl, full_pair_self, cost]
  simp only [dotProduct, Matrix.mulVec, Pi.star_apply, h, Finset.mul_sum]

theorem toy_cost_x0 (a b : ℝ) : cost (pauliWord (placed 2 [.X] [0])) (toyUnitary 2 a b) = Real.cos a * Real.cos (a + b) := by
  rw [placed_first, toy_cost_pair, Real.cos_add]
  have ha := Real.cos_sq_add_sin_sq a
  generalize Real.cos a = C at *
  generalize Real.sin a = S at *
  generalize Real.cos b = D
  generalize Real.sin b = T
  simp only [sum_four]
  simp [pairWord_apply, Letter.mat, Matrix.one_apply]
  linear_combination (-(D / 2)) * ha

theorem toy_cost_x1 (a b : ℝ) : cost (pauliWord (placed 2 [.X] [1])) (toyUnitary 2 a b) = Real.cos a * Real.cos b := by
  rw [placed_second, toy_cost_pair]
  generalize Real.cos a = C at *
  generalize Real.sin a = S at *
  generalize Real.cos b = D
  generalize Real.sin b = T
  simp only [sum_four]
  simp [pairWord_apply, Letter.mat, Matrix.one_apply]
  ring

theorem toy_cost_y1 (a b : ℝ) : cost (pauliWord (placed 2 [.Y] [1])) (toyUnitary 2 a b) = Real.cos a * Real.sin b := by
  rw [placed_second, toy_cost_pair]
  generalize Real.cos a = C at *
  generalize Real.sin a = S at *
  generalize Real.cos b = D
  generalize Real.sin b = T
  simp only [sum_four]
  simp [pairWord_apply, Letter.mat, Matrix.one_apply]
  ring

/-- toy_example.py:24 `observables = [qml.PauliX(1), qml.PauliX(0), qml.PauliY(1)]`. -/
noncomputable def toyObservables : List (Gate 2) := [siteObs 1 (by omega) .X, siteObs 0 (by omega) .X, siteObs 1 (by omega) .Y]

theorem toyObservables_total : totalObs toyObservables = totalObs (v2Observables (n := 2) le_rfl) := by
  rw [v2Observables_total, toyObservables, totalObs, List.map_cons, List.map_cons, List.map_cons, siteObs_full, siteObs_full, siteObs_full]
  simp
  abel

theorem toy_needs_two {p : List ℝ} {ops : List (NpMat × List ℤ)} (h : toyCircuit p = .ok ops) : 1 < p.length := by
  match p with
  | [] => simp [toyCircuit, pyGetItem, pyIndex, bind, Except.bind] at h
  | [a] => simp [toyCircuit, pyGetItem, pyIndex, bind, Except.bind] at h
  | a :: b :: p => simp

/-- C110 (the cost): the script's circuit has the cost `cos a (cos (a + b) + cos b + sin b)`; with fewer than two parameters there is no cost. -/
theorem C110_cost (p : List ℝ) (c : ℝ) : psCost 2 toyCircuit (toyObservables.map Gate.obs) p = .ok c ↔
    1 < p.length ∧ c = Real.cos (p.getD 0 0) * (Real.cos (p.getD 0 0 + p.getD 1 0) + Real.cos (p.getD 1 0) + Real.sin (p.getD 1 0)) := by
  have key : ∀ p : List ℝ, 1 < p.length → psCost 2 toyCircuit (toyObservables.map Gate.obs) p =
      .ok (Real.cos (p.getD 0 0) * (Real.cos (p.getD 0 0 + p.getD 1 0) + Real.cos (p.getD 1 0) + Real.sin (p.getD 1 0))) := fun p hp => by
    rw [psCost, toy_unitary p hp, ok_bind, totalCost_gates, toyObservables_total, v2Observables_total, cost_add, cost_add, toy_cost_x0, toy_cost_x1, toy_cost_y1]
    congr 1
    ring
  constructor
  · intro h
    have hp : 1 < p.length := by
      rw [psCost] at h
      obtain ⟨U, hU, -⟩ := bind_ok_iff.mp h
      rw [circuitUnitary] at hU
      obtain ⟨ops, ho, -⟩ := bind_ok_iff.mp hU
      exact toy_needs_two ho
    rw [key p hp] at h
    exact ⟨hp, (Except.ok.inj h).symm⟩
  · rintro ⟨hp, rfl⟩
    exact key p hp

/-- No angles give a cost below -2.28. -/
theorem toy_bound (a b : ℝ) : -2.28 ≤ Real.cos a * (Real.cos (a + b) + Real.cos b + Real.sin b) := by
  rw [Real.cos_add]
  have ha := Real.cos_sq_add_sin_sq a
  have hb := Real.cos_sq_add_sin_sq b
  have h1 := Real.cos_le_one a
  have h2 := Real.neg_one_le_cos a
  generalize Real.cos a = C at *
  generalize Real.sin a = S at *
  generalize Real.cos b = D at *
  generalize Real.sin b = T at *
  have e1 : (C * (C * D - S * T + D + T)) ^ 2 ≤ C ^ 2 * ((1 + C) ^ 2 + (1 - S) ^ 2) := by
    have : (C * D - S * T + D + T) ^ 2 + ((1 + C) * T - (1 - S) * D) ^ 2 = (1 + C) ^ 2 + (1 - S) ^ 2 := by
      linear_combination ((1 + C) ^ 2 + (1 - S) ^ 2) * hb
    nlinarith [mul_nonneg (sq_nonneg C) (sq_nonneg ((1 + C) * T - (1 - S) * D))]
  have e2 : C ^ 2 * ((1 + C) ^ 2 + (1 - S) ^ 2) ≤ 2.28 ^ 2 := by
    have s1 : -2 * S ≤ 5.5 * S ^ 2 + 2 / 11 := by nlinarith [sq_nonneg (S + 2 / 11)]
    have s2 : (1 + C) ^ 2 + (1 - S) ^ 2 ≤ 3 + 2 * C + (5.5 * (1 - C ^ 2) + 2 / 11) := by nlinarith
    have s3 : C ^ 2 * ((1 + C) ^ 2 + (1 - S) ^ 2) ≤ C ^ 2 * (3 + 2 * C + (5.5 * (1 - C ^ 2) + 2 / 11)) := mul_le_mul_of_nonneg_left s2 (sq_nonneg C)
    have s4 : C ^ 2 * (3 + 2 * C + (5.5 * (1 - C ^ 2) + 2 / 11)) ≤ 2.28 ^ 2 := by
      nlinarith [mul_nonneg (sub_nonneg.2 h1) (sq_nonneg C), mul_nonneg (sub_nonneg.2 h1) (sq_nonneg (C - 1)), sq_nonneg (C * (C - 1)), sq_nonneg C, mul_nonneg (sub_nonneg.2 h1) (by linarith : (0 : ℝ) ≤ C + 1), sq_nonneg (C ^ 2 - 1)]
    linarith
  have e3 := (abs_le.1 (abs_le_of_sq_le_sq (e1.trans e2) (by norm_num))).1
  linarith

/-- C110 (refuted): whatever the optimizer, the starting parameters and the arguments, the costs of a parameter-shift run on the script's circuit stay at or
above -2.28.  The dashed line `Minimum` of the figure is at `-1 - sqrt 2 < -2.4`, the smallest cost of all circuits. -/
theorem C110_refuted {gd : ℝ → (List ℝ → Py ℝ) → List ℝ → Py (List ℝ)} {ret : CircuitRet} {p : List ℝ} {args : PsArgs} {out : OptOut (PsItem 2 (List ℝ))}
    (rp : Bool) (hrp : args.returnParams = boolFlag rp) (h : parameterShiftOptimizer gd ret toyCircuit p (toyObservables.map Gate.obs) args = .ok out) :
    (∀ c ∈ psCosts out, -2.28 ≤ c) ∧ -1 - Real.sqrt 2 < -2.4 ∧ (∀ U : QMat 2, Unitary U → -1 - Real.sqrt 2 ≤ cost (totalObs toyObservables) U) ∧
      ∃ U : QMat 2, Unitary U ∧ totalCost U (toyObservables.map Gate.obs) = .ok (-1 - Real.sqrt 2) := by
  refine ⟨fun c hc => ?_, ?_, ?_, ?_⟩
  · obtain ⟨N, e, t, V, m, -, -, -, -, -, -, hl, hV, -⟩ := C55_trace gd ret toyCircuit p (toyObservables.map Gate.obs) args out rp hrp h
    obtain ⟨k, hk, rfl⟩ := List.getElem_of_mem hc
    have := ((C110_cost _ _).1 (hV k (by omega))).2
    rw [List.getD_eq_getElem (hn := hk)] at this
    rw [this]
    exact toy_bound _ _
  · have : 1.4 < Real.sqrt 2 := by rw [Real.lt_sqrt (by norm_num)]; norm_num
    linarith
  · rw [toyObservables_total]
    exact (C104_minimum le_rfl).1
  · obtain ⟨U, hU, hc⟩ := (C104_minimum (n := 2) le_rfl).2
    exact ⟨U, hU, by rw [totalCost_gates, toyObservables_total, hc]⟩

/-- C110 (what is true): the circuit reaches the cost `-sqrt 5`, with the first angle 0, and its smallest cost lies between -2.28 and `-sqrt 5`. -/
theorem C110_partial : (∀ p c, psCost 2 toyCircuit (toyObservables.map Gate.obs) p = .ok c → -2.28 ≤ c) ∧
    ∃ b : ℝ, psCost 2 toyCircuit (toyObservables.map Gate.obs) [0, b] = .ok (-Real.sqrt 5) := by
  refine ⟨fun p c h => ?_, ?_⟩
  · rw [((C110_cost p c).1 h).2]
    exact toy_bound _ _
  · have h5 : Real.sqrt 5 ^ 2 = 5 := Real.sq_sqrt (by norm_num)
    have h0 : 0 < Real.sqrt 5 := Real.sqrt_pos.2 (by norm_num)
    refine ⟨Real.arctan (1 / 2) + Real.pi, (C110_cost _ _).2 ⟨by simp, ?_⟩⟩
    have hs : Real.sqrt (1 + (1 / 2) ^ 2) = Real.sqrt 5 / 2 := by
      rw [Real.sqrt_eq_iff_mul_self_eq (by norm_num) (by positivity)]
      nlinarith
    simp only [List.getD_cons_zero, List.getD_cons_succ, zero_add, Real.cos_zero, Real.cos_add_pi, Real.sin_add_pi, Real.cos_arctan, Real.sin_arctan, hs]
    field_simp
    nlinarith

/-- Hypotheses of C110: with a gradient step, the script's call returns a result. -/
example : ∃ gd out, ValidGdList gd ∧ parameterShiftOptimizer (n := 2) gd .nothing toyCircuit [0.1, 1.2] (toyObservables.map Gate.obs)
      { eta := .float 0.5 } = .ok out := by
  obtain ⟨gd, hgd⟩ := exists_validGdList
  have hstep : ∀ (e : ℝ) (p : List ℝ), p.length = 2 → ∃ q, gd e (psCost 2 toyCircuit (toyObservables.map Gate.obs)) p = .ok q ∧ q.length = 2 := by
    intro e p hp
    have hd : ∀ i < p.length, DifferentiableAt ℝ (fun t => (fun p : List ℝ => Real.cos (p.getD 0 0) * (Real.cos (p.getD 0 0 + p.getD 1 0) + Real.cos (p.getD 1 0) +
        Real.sin (p.getD 1 0))) (p.set i t)) (p.getD i 0) := by
      intro i hi
      match p, hp with
      | [x, y], _ =>
        have : i = 0 ∨ i = 1 := by simp at hi; omega
        rcases this with rfl | rfl
        · simp only [List.set_cons_zero, List.getD_cons_zero, List.getD_cons_succ]
          fun_prop
        · simp only [List.set_cons_zero, List.set_cons_succ, List.getD_cons_zero, List.getD_cons_succ]
          fun_prop
    obtain ⟨q, h1, h2, -⟩ := hgd e (psCost 2 toyCircuit (toyObservables.map Gate.obs)) _ p (fun p' hp' => (C110_cost _ _).2 ⟨by omega, rfl⟩) hd
    exact ⟨q, h1, h2.trans hp⟩
  obtain ⟨out, h⟩ := ps_succeeds (n := 2) (fun p : List ℝ => p.length = 2) (gd := gd) (circuit := toyCircuit) (gs := toyObservables) (params := [0.1, 1.2]) rfl
    (fun p hp => ⟨_, toy_unitary p (by omega)⟩) hstep (args := { eta := .float 0.5 })
    (N := 40) (e := 0.5) (t := .fin 1e-3) (rs := false) ⟨rfl, by norm_num, rfl, by norm_num, by norm_num, ⟨rfl, by norm_num⟩, rfl⟩ false rfl
  exact ⟨gd, out, hgd, h⟩

end Oranssi
