import Verif.Model.FixedPoints
import Verif.Spec.Sphere
import Verif.Props.EigenstatePerturbation
import Verif.Props.CircuitTools
import Mathlib.Analysis.SpecialFunctions.Trigonometric.Deriv

/-! # C97-C99: experiments_paper/fixed_points.py -/

namespace Oranssi
open Spec
open scoped Matrix

theorem npNorm_sq (r : Fin 3 → ℝ) : npNorm r ^ 2 = r 0 ^ 2 + r 1 ^ 2 + r 2 ^ 2 := by
  rw [npNorm, Real.sq_sqrt (Finset.sum_nonneg (fun i _ => sq_nonneg _)), Fin.sum_univ_three]

/-- The square root of the rest, `r3` in the script. -/
noncomputable def fourth (r : Fin 3 → ℝ) : ℝ := Real.sqrt (1 - (r 0 ^ 2 + r 1 ^ 2 + r 2 ^ 2))

theorem fourth_sq {r : Fin 3 → ℝ} (h : r 0 ^ 2 + r 1 ^ 2 + r 2 ^ 2 ≤ 1) : r 0 ^ 2 + r 1 ^ 2 + r 2 ^ 2 + fourth r ^ 2 = 1 := by
  rw [fourth, Real.sq_sqrt (by linarith)]; ring

theorem sphereMatrix_unitary (r : Fin 3 → ℝ) (d : ℝ) (h : r 0 ^ 2 + r 1 ^ 2 + r 2 ^ 2 + d ^ 2 = 1) : IsSU2 (sphereMatrix r d) := by
  have hc : (r 0 : ℂ) ^ 2 + (r 1 : ℂ) ^ 2 + (r 2 : ℂ) ^ 2 + (d : ℂ) ^ 2 = 1 := by exact_mod_cast congrArg (fun x : ℝ => (x : ℂ)) h
  have hI := Complex.I_sq
  constructor
  · ext i j
    fin_cases i <;> fin_cases j <;> simp [sphereMatrix, Matrix.mul_apply, Fin.sum_univ_two, Matrix.conjTranspose_apply]
    · linear_combination hc - ((r 1 : ℂ) ^ 2 + (d : ℂ) ^ 2) * hI
    · ring
    · ring
    · linear_combination hc - ((r 1 : ℂ) ^ 2 + (d : ℂ) ^ 2) * hI
  · rw [Matrix.det_fin_two]
    simp [sphereMatrix]
    linear_combination hc - ((r 1 : ℂ) ^ 2 + (d : ℂ) ^ 2) * hI

theorem allClose_self (A : Matrix (Fin 2) (Fin 2) ℂ) : allClose A A = true := by
  simp only [allClose, sub_self, norm_zero, decide_eq_true_eq]
  intro i j; positivity

theorem fpUnitary_in {r : Fin 3 → ℝ} (h : r 0 ^ 2 + r 1 ^ 2 + r 2 ^ 2 ≤ 1) : fpUnitary r = (some (sphereMatrix r (fourth r)), true) := by
  have h1 : npSqrt (1 - npNorm r ^ 2) = some (fourth r) := by rw [npNorm_sq, npSqrt, if_pos (by linarith), fourth]
  rw [fpUnitary, h1]
  dsimp only
  rw [(sphereMatrix_unitary r _ (fourth_sq h)).unitary, allClose_self]

theorem fpUnitary_out {r : Fin 3 → ℝ} (h : 1 < r 0 ^ 2 + r 1 ^ 2 + r 2 ^ 2) : fpUnitary r = (none, false) := by
  have h1 : npSqrt (1 - npNorm r ^ 2) = none := by rw [npNorm_sq, npSqrt, if_neg (by linarith)]
  rw [fpUnitary, h1]

theorem su2_entries {V : Matrix (Fin 2) (Fin 2) ℂ} (h : IsSU2 V) : V 1 1 = star (V 0 0) ∧ V 0 1 = -star (V 1 0) ∧
    (V 0 0).re ^ 2 + (V 0 0).im ^ 2 + (V 1 0).re ^ 2 + (V 1 0).im ^ 2 = 1 := by
  have hu : Vᴴ * V = 1 := mul_eq_one_comm.1 h.unitary
  have hd := h.det
  rw [Matrix.det_fin_two] at hd
  have e00 := congrFun (congrFun hu 0) 0
  have e01 := congrFun (congrFun hu 0) 1
  simp only [Matrix.mul_apply, Fin.sum_univ_two, Matrix.conjTranspose_apply, Matrix.one_apply_eq] at e00
  simp only [Matrix.mul_apply, Fin.sum_univ_two, Matrix.conjTranspose_apply] at e01
  rw [Matrix.one_apply_ne (by decide)] at e01
  refine ⟨?_, ?_, ?_⟩
  · linear_combination star (V 0 0) * hd + V 1 0 * e01 - V 1 1 * e00
  · linear_combination (-star (V 1 0)) * hd + V 0 0 * e01 - V 0 1 * e00
  · have := congrArg Complex.re e00
    simp only [Complex.star_def, Complex.add_re, Complex.mul_re, Complex.conj_re, Complex.conj_im, Complex.one_re] at this
    linarith

theorem su2_neg {V : Matrix (Fin 2) (Fin 2) ℂ} (h : IsSU2 V) : IsSU2 (-V) :=
  ⟨by rw [Matrix.conjTranspose_neg, neg_mul_neg]; exact h.unitary, by rw [Matrix.det_neg]; simp [h.det]⟩

theorem sphereMatrix_of_su2 {V : Matrix (Fin 2) (Fin 2) ℂ} (h : IsSU2 V) (hd : 0 ≤ (V 1 0).im) :
    (V 0 0).re ^ 2 + (V 0 0).im ^ 2 + (V 1 0).re ^ 2 ≤ 1 ∧ sphereMatrix ![(V 0 0).re, (V 0 0).im, (V 1 0).re] (fourth ![(V 0 0).re, (V 0 0).im, (V 1 0).re]) = V := by
  obtain ⟨h1, h2, h3⟩ := su2_entries h
  refine ⟨by nlinarith [sq_nonneg (V 1 0).im], ?_⟩
  have hf : fourth ![(V 0 0).re, (V 0 0).im, (V 1 0).re] = (V 1 0).im := by
    rw [fourth]
    simp only [Matrix.cons_val]
    rw [show 1 - ((V 0 0).re ^ 2 + (V 0 0).im ^ 2 + (V 1 0).re ^ 2) = (V 1 0).im ^ 2 by linarith, Real.sqrt_sq hd]
  rw [hf]
  ext i j
  fin_cases i <;> fin_cases j
  · apply Complex.ext <;> simp [sphereMatrix]
  · apply Complex.ext <;> simp [sphereMatrix, h2]
  · apply Complex.ext <;> simp [sphereMatrix]
  · apply Complex.ext <;> simp [sphereMatrix, h1]

/-- C97.  `unitary(r)` gives an element of SU(2) and `True` for the points of the closed unit ball, and `False` outside; the coordinates can be read
off the first column; every element of SU(2) is reached, up to a sign. -/
theorem C97_unitary :
    (∀ r : Fin 3 → ℝ, r 0 ^ 2 + r 1 ^ 2 + r 2 ^ 2 ≤ 1 → ∃ U, fpUnitary r = (some U, true) ∧ IsSU2 U ∧
      (U 0 0).re = r 0 ∧ (U 0 0).im = r 1 ∧ (U 1 0).re = r 2 ∧ 0 ≤ (U 1 0).im) ∧
    (∀ r : Fin 3 → ℝ, 1 < r 0 ^ 2 + r 1 ^ 2 + r 2 ^ 2 → fpUnitary r = (none, false)) ∧
    (∀ V, IsSU2 V → ∃ r : Fin 3 → ℝ, fpUnitary r = (some V, true) ∨ fpUnitary r = (some (-V), true)) := by
  refine ⟨fun r h => ⟨_, fpUnitary_in h, sphereMatrix_unitary r _ (fourth_sq h), ?_, ?_, ?_, ?_⟩, fun r h => fpUnitary_out h, ?_⟩
  · simp [sphereMatrix]
  · simp [sphereMatrix]
  · simp [sphereMatrix]
  · simp [sphereMatrix, fourth, Real.sqrt_nonneg]
  · intro V hV
    rcases le_total 0 (V 1 0).im with hd | hd
    · obtain ⟨h1, h2⟩ := sphereMatrix_of_su2 hV hd
      exact ⟨![(V 0 0).re, (V 0 0).im, (V 1 0).re], Or.inl ((fpUnitary_in (by simpa using h1)).trans (by rw [h2]))⟩
    · obtain ⟨h1, h2⟩ := sphereMatrix_of_su2 (su2_neg hV) (by simpa using hd)
      exact ⟨![((-V) 0 0).re, ((-V) 0 0).im, ((-V) 1 0).re], Or.inr ((fpUnitary_in (by simpa using h1)).trans (by rw [h2]))⟩

/-- The cost of a circuit for `X + Y`. -/
theorem cost_hXY (U : Matrix (Fin 2) (Fin 2) ℂ) : cost hXY (asOne U) =
    2 * ((U 0 0).re * ((U 1 0).re + (U 1 0).im) + (U 0 0).im * ((U 1 0).im - (U 1 0).re)) := by
  unfold cost
  change (∑ i : Fin 2, star (U i 0) * ∑ j : Fin 2, (!![0, 1; 1, 0] + !![0, -Complex.I; Complex.I, 0] : Matrix (Fin 2) (Fin 2) ℂ) i j * U j 0).re = _
  simp [Fin.sum_univ_two]
  ring

/-- The three gradients of a circuit for `X + Y`. -/
theorem grads_hXY (U : Matrix (Fin 2) (Fin 2) ℂ) :
    grad hXY (asOne U) (asOne (Letter.X).mat) = 2 * ((U 0 0).re ^ 2 + (U 0 0).im ^ 2 - (U 1 0).re ^ 2 - (U 1 0).im ^ 2) ∧
    grad hXY (asOne U) (asOne (Letter.Y).mat) = -2 * ((U 0 0).re ^ 2 + (U 0 0).im ^ 2 - (U 1 0).re ^ 2 - (U 1 0).im ^ 2) ∧
    grad hXY (asOne U) (asOne (Letter.Z).mat) = 4 * ((U 0 0).re * ((U 1 0).im - (U 1 0).re) - (U 0 0).im * ((U 1 0).re + (U 1 0).im)) := by
  have key : ∀ P : Matrix (Fin 2) (Fin 2) ℂ, grad hXY (asOne U) (asOne P) = (∑ i : Fin 2, star (U i 0) * ∑ j : Fin 2,
    (P * (!![0, 1; 1, 0] + !![0, -Complex.I; Complex.I, 0] : Matrix (Fin 2) (Fin 2) ℂ) - (!![0, 1; 1, 0] + !![0, -Complex.I; Complex.I, 0] : Matrix (Fin 2) (Fin 2) ℂ) * P) i j * U j 0).im := fun P => rfl
  refine ⟨?_, ?_, ?_⟩ <;> rw [key] <;> simp [Fin.sum_univ_two, Letter.mat] <;> ring

/-- The observables of the script as gates. -/
def fpGates : List (Gate 1) := [⟨[0], matX, by simp, by simp, by simp⟩, ⟨[0], matYq, by simp, by simp, by simp⟩]

theorem fpGates_obs : fpObservables = fpGates.map Gate.obs := rfl

theorem fpGates_total : totalObs fpGates = hXY := by
  simp only [totalObs, fpGates, List.map_cons, List.map_nil, List.sum_cons, List.sum_nil, add_zero, full_one_qubit]
  rfl

theorem div_two_pow_one (x : ℝ) : x / 2 ^ 1 = x / 2 := by norm_num

/-- What the loop of the script computes for a point of the ball. -/
theorem fixedPointsRow_in {r : Fin 3 → ℝ} (h : r 0 ^ 2 + r 1 ^ 2 + r 2 ^ 2 ≤ 1) : fixedPointsRow r =
    .ok (![grad hXY (asOne (sphereMatrix r (fourth r))) (asOne (Letter.X).mat) / 2, grad hXY (asOne (sphereMatrix r (fourth r))) (asOne (Letter.Y).mat) / 2,
        grad hXY (asOne (sphereMatrix r (fourth r))) (asOne (Letter.Z).mat) / 2],
      (sphereMatrix r (fourth r) * fpRho * (sphereMatrix r (fourth r))ᴴ * (hXY : Matrix (Fin 2) (Fin 2) ℂ)).trace.re) := by
  obtain ⟨d, hd, -, hnd, -, hw, -, -⟩ := C12_directions 1 (asOne (sphereMatrix r (fourth r))) fpGates
  have get : ∀ l : Letter, dictGet d (wordStr (fun _ : Fin 1 => l)) = .ok (grad hXY (asOne (sphereMatrix r (fourth r))) (asOne l.mat) / 2) := by
    intro l
    have := dictGet_mem hnd (hw (fun _ => l))
    rw [this, fpGates_total, pauliWord_one]
    exact congrArg Except.ok (div_two_pow_one _)
  have hH : getHamiltonianMatrix 1 fpObservables none = .ok hXY := by
    rw [fpGates_obs, C08_hamiltonian_default]
    exact congrArg Except.ok fpGates_total
  have gx := get .X
  have gy := get .Y
  have gz := get .Z
  rw [show wordStr (fun _ : Fin 1 => Letter.X) = "X" from rfl] at gx
  rw [show wordStr (fun _ : Fin 1 => Letter.Y) = "Y" from rfl] at gy
  rw [show wordStr (fun _ : Fin 1 => Letter.Z) = "Z" from rfl] at gz
  have hd' : getAllSuNDirections (n := 1) (sphereMatrix r (fourth r)) fpObservables = .ok d := hd
  simp only [fixedPointsRow, hH, fpUnitary_in h, bind, Except.bind]
  rw [hd']
  simp only [gx, gy, gz]

/-- C98.  For a point of the unit ball the row of `gradients` holds half of the gradients along X, Y and Z of the cost of `unitary(r)` for `X + Y`;
the sum of their squares is `2 - cost²`.  They vanish exactly where the cost is one of the eigenvalues `±√2`, that is where the state is an eigenvector. -/
theorem C98_gradients (r : Fin 3 → ℝ) (h : r 0 ^ 2 + r 1 ^ 2 + r 2 ^ 2 ≤ 1) : ∃ U g c, fpUnitary r = (some U, true) ∧ fixedPointsRow r = .ok (g, c) ∧
    g = ![grad hXY (asOne U) (asOne (Letter.X).mat) / 2, grad hXY (asOne U) (asOne (Letter.Y).mat) / 2, grad hXY (asOne U) (asOne (Letter.Z).mat) / 2] ∧
    g 0 ^ 2 + g 1 ^ 2 + g 2 ^ 2 = 2 - cost hXY (asOne U) ^ 2 ∧
    (g = 0 ↔ cost hXY (asOne U) = Real.sqrt 2 ∨ cost hXY (asOne U) = -Real.sqrt 2) ∧
    (g = 0 ↔ ∃ e : ℂ, hXY *ᵥ (fun i => asOne U i 0) = e • (fun i => asOne U i 0)) := by
  have hsu := sphereMatrix_unitary r _ (fourth_sq h)
  obtain ⟨-, -, hn⟩ := su2_entries hsu
  generalize hU : sphereMatrix r (fourth r) = U at hsu hn
  obtain ⟨g1, g2, g3⟩ := grads_hXY U
  have hc := cost_hXY U
  have hsum : (grad hXY (asOne U) (asOne (Letter.X).mat) / 2) ^ 2 + (grad hXY (asOne U) (asOne (Letter.Y).mat) / 2) ^ 2 +
      (grad hXY (asOne U) (asOne (Letter.Z).mat) / 2) ^ 2 = 2 - cost hXY (asOne U) ^ 2 := by
    rw [g1, g2, g3, hc]
    generalize (U 0 0).re = a at hn ⊢
    generalize (U 0 0).im = b at hn ⊢
    generalize (U 1 0).re = c at hn ⊢
    generalize (U 1 0).im = d at hn ⊢
    linear_combination (2 * (a ^ 2 + b ^ 2 + c ^ 2 + d ^ 2) + 2) * hn
  have hz : (![grad hXY (asOne U) (asOne (Letter.X).mat) / 2, grad hXY (asOne U) (asOne (Letter.Y).mat) / 2, grad hXY (asOne U) (asOne (Letter.Z).mat) / 2] : Fin 3 → ℝ) = 0 ↔
      grad hXY (asOne U) (asOne (Letter.X).mat) = 0 ∧ grad hXY (asOne U) (asOne (Letter.Y).mat) = 0 ∧ grad hXY (asOne U) (asOne (Letter.Z).mat) = 0 := by
    constructor
    · intro e
      have e0 := congrFun e 0
      have e1 := congrFun e 1
      have e2 := congrFun e 2
      simp at e0 e1 e2
      exact ⟨e0, e1, e2⟩
    · rintro ⟨e0, e1, e2⟩
      rw [e0, e1, e2]
      funext i
      fin_cases i <;> simp
  refine ⟨U, _, _, hU ▸ fpUnitary_in h, fixedPointsRow_in h, by rw [hU], ?_, ?_, ?_⟩
  · rw [hU]; exact hsum
  · rw [hU, hz]
    have h2 : Real.sqrt 2 ^ 2 = 2 := Real.sq_sqrt (by norm_num)
    constructor
    · rintro ⟨e0, e1, e2⟩
      rw [e0, e1, e2] at hsum
      exact sq_eq_sq_iff_eq_or_eq_neg.1 (by rw [h2]; linarith)
    · intro hcost
      have hsq : cost hXY (asOne U) ^ 2 = 2 := by rcases hcost with e | e <;> rw [e] <;> [exact h2; (rw [neg_sq]; exact h2)]
      rw [hsq, sub_self] at hsum
      have p0 := sq_nonneg (grad hXY (asOne U) (asOne (Letter.X).mat) / 2)
      have p1 := sq_nonneg (grad hXY (asOne U) (asOne (Letter.Y).mat) / 2)
      have p2 := sq_nonneg (grad hXY (asOne U) (asOne (Letter.Z).mat) / 2)
      have q : ∀ x : ℝ, (x / 2) ^ 2 = 0 → x = 0 := fun x hx => by
        have := pow_eq_zero_iff (two_ne_zero) |>.1 hx
        linarith
      exact ⟨q _ (by linarith), q _ (by linarith), q _ (by linarith)⟩
  · rw [hU, hz]
    have herm : (hXY)ᴴ = hXY := by
      change (matX + matYq)ᴴ = matX + matYq
      rw [Matrix.conjTranspose_add, matX_herm, matYq_herm]
    have hnorm : star (fun i => asOne U i 0) ⬝ᵥ (fun i => asOne U i 0) = 1 := by
      have hu : Uᴴ * U = 1 := mul_eq_one_comm.1 hsu.unitary
      exact congrFun (congrFun hu 0) 0
    have := eigen_iff_omega (n := 1) (fun i => asOne U i 0) hnorm hXY herm
    rw [← this]
    have ho : ∀ w : Fin 1 → Letter, omega (fun i => asOne U i 0) (pauliWord w) hXY = grad hXY (asOne U) (asOne (w 0).mat) / 2 := by
      intro w
      rw [pauliWord_one, omega]
      exact div_two_pow_one _
    constructor
    · rintro ⟨e0, e1, e2⟩ w
      rw [ho]
      rcases hw : w 0 with _ | _ | _ | _
      · simp [grad, asOne, Letter.mat]
      · rw [e0]; simp
      · rw [e1]; simp
      · rw [e2]; simp
    · intro hw
      refine ⟨?_, ?_, ?_⟩
      · have := (ho (fun _ => .X)).symm.trans (hw _); linarith
      · have := (ho (fun _ => .Y)).symm.trans (hw _); linarith
      · have := (ho (fun _ => .Z)).symm.trans (hw _); linarith

/-- Both sides of the equivalences of `C98_gradients` occur: at the origin of the grid coordinates the cost is 0. -/
example : ∃ U g c, fpUnitary ![0, 0, 0] = (some U, true) ∧ fixedPointsRow ![0, 0, 0] = .ok (g, c) ∧ g 0 ^ 2 + g 1 ^ 2 + g 2 ^ 2 = 2 := by
  obtain ⟨U, g, c, h1, h2, -, h3, -⟩ := C98_gradients ![0, 0, 0] (by simp)
  refine ⟨U, g, c, h1, h2, ?_⟩
  obtain rfl : sphereMatrix ![0, 0, 0] (fourth ![0, 0, 0]) = U := by
    have := (fpUnitary_in (r := ![0, 0, 0]) (by simp)).symm.trans h1
    simpa using this
  rw [h3, cost_hXY]
  simp [sphereMatrix]

/-- The stored cost in terms of the circuit. -/
theorem stored_eq (U : Matrix (Fin 2) (Fin 2) ℂ) : (U * fpRho * Uᴴ * (hXY : Matrix (Fin 2) (Fin 2) ℂ)).trace.re =
    (U 0 0).re * ((U 1 1).re + (U 1 1).im) + (U 0 0).im * ((U 1 1).im - (U 1 1).re) +
    (U 1 0).re * ((U 0 1).re - (U 0 1).im) + (U 1 0).im * ((U 0 1).re + (U 0 1).im) := by
  have : (hXY : Matrix (Fin 2) (Fin 2) ℂ) = !![0, 1 - Complex.I; 1 + Complex.I, 0] := by
    ext i j
    fin_cases i <;> fin_cases j <;> simp [hXY, sub_eq_add_neg]
  rw [this, Matrix.trace_fin_two]
  simp [Matrix.mul_apply, Fin.sum_univ_two, fpRho]
  ring

/-- C99.  For a point of the unit ball the entry of `costs` is not the cost of `unitary(r)` but the derivative of the cost along the rotation of the
initial state about the Y axis; with the cost it satisfies `entry² + cost² ≤ 2`. -/
theorem C99_entry_partial (r : Fin 3 → ℝ) (h : r 0 ^ 2 + r 1 ^ 2 + r 2 ^ 2 ≤ 1) : ∃ U g c, fpUnitary r = (some U, true) ∧ fixedPointsRow r = .ok (g, c) ∧
    HasDerivAt (fun t : ℝ => cost hXY (asOne U * NormedSpace.exp ((-Complex.I * ((t / 2 : ℝ) : ℂ)) • asOne (Letter.Y).mat))) c 0 ∧
    c ^ 2 + cost hXY (asOne U) ^ 2 ≤ 2 := by
  have hsu := sphereMatrix_unitary r _ (fourth_sq h)
  refine ⟨_, _, _, fpUnitary_in h, fixedPointsRow_in h, ?_, ?_⟩
  · generalize sphereMatrix r (fourth r) = U at hsu
    have hexp : ∀ t : ℝ, NormedSpace.exp ((-Complex.I * ((t / 2 : ℝ) : ℂ)) • asOne (Letter.Y).mat) = rot (t / 2) := by
      intro t
      rw [← exp_genJ]
      congr 1
      change (-Complex.I * ((t / 2 : ℝ) : ℂ)) • (!![0, -Complex.I; Complex.I, 0] : Matrix (Fin 2) (Fin 2) ℂ) = ((t / 2 : ℝ) : ℂ) • (!![0, -1; 1, 0] : Matrix (Fin 2) (Fin 2) ℂ)
      ext i j
      fin_cases i <;> fin_cases j <;> simp [mul_right_comm Complex.I _ Complex.I]
    have hcost : ∀ t : ℝ, cost hXY (asOne U * NormedSpace.exp ((-Complex.I * ((t / 2 : ℝ) : ℂ)) • asOne (Letter.Y).mat)) =
        2 * (((U 0 0).re * Real.cos (t / 2) + (U 0 1).re * Real.sin (t / 2)) *
            (((U 1 0).re * Real.cos (t / 2) + (U 1 1).re * Real.sin (t / 2)) + ((U 1 0).im * Real.cos (t / 2) + (U 1 1).im * Real.sin (t / 2))) +
          ((U 0 0).im * Real.cos (t / 2) + (U 0 1).im * Real.sin (t / 2)) *
            (((U 1 0).im * Real.cos (t / 2) + (U 1 1).im * Real.sin (t / 2)) - ((U 1 0).re * Real.cos (t / 2) + (U 1 1).re * Real.sin (t / 2)))) := by
      intro t
      rw [hexp]
      have := cost_hXY (U * !![(Real.cos (t / 2) : ℂ), -(Real.sin (t / 2) : ℂ); (Real.sin (t / 2) : ℂ), (Real.cos (t / 2) : ℂ)])
      refine Eq.trans this ?_
      simp only [Matrix.mul_apply, Fin.sum_univ_two, Matrix.of_apply, Matrix.cons_val', Matrix.cons_val_zero, Matrix.cons_val_one, Matrix.cons_val_fin_one,
        Complex.add_re, Complex.add_im, Complex.mul_re, Complex.mul_im, Complex.ofReal_re, Complex.ofReal_im, mul_zero, sub_zero, zero_add]
    simp only [hcost]
    have hc : HasDerivAt (fun t : ℝ => Real.cos (t / 2)) 0 0 := by
      refine ((hasDerivAt_id (0 : ℝ)).div_const 2).cos.congr_deriv ?_
      simp
    have hs : HasDerivAt (fun t : ℝ => Real.sin (t / 2)) (1 / 2) 0 := by
      refine ((hasDerivAt_id (0 : ℝ)).div_const 2).sin.congr_deriv ?_
      simp
    have lin : ∀ x y : ℝ, HasDerivAt (fun t : ℝ => x * Real.cos (t / 2) + y * Real.sin (t / 2)) (y / 2) 0 := by
      intro x y
      have := (hc.const_mul x).add (hs.const_mul y)
      refine this.congr_deriv (by ring)
    have := ((((lin (U 0 0).re (U 0 1).re).mul ((lin (U 1 0).re (U 1 1).re).add (lin (U 1 0).im (U 1 1).im))).add
      ((lin (U 0 0).im (U 0 1).im).mul ((lin (U 1 0).im (U 1 1).im).sub (lin (U 1 0).re (U 1 1).re))))).const_mul 2
    refine this.congr_deriv ?_
    rw [stored_eq]
    simp
    ring
  · obtain ⟨h1, h2, hn⟩ := su2_entries hsu
    rw [stored_eq, cost_hXY, h1, h2]
    generalize sphereMatrix r (fourth r) = U at hn
    simp only [Complex.star_def, Complex.conj_re, Complex.conj_im, Complex.neg_re, Complex.neg_im]
    generalize (U 0 0).re = a at hn ⊢
    generalize (U 0 0).im = b at hn ⊢
    generalize (U 1 0).re = c at hn ⊢
    generalize (U 1 0).im = d at hn ⊢
    have key : 2 * (a ^ 2 + b ^ 2 + c ^ 2 + d ^ 2) ^ 2 = (a ^ 2 - b ^ 2 - 2 * a * b - c ^ 2 + d ^ 2 - 2 * c * d) ^ 2 +
      (2 * (a * (c + d) + b * (d - c))) ^ 2 + (-2 * a * b - a ^ 2 + b ^ 2 + 2 * c * d - c ^ 2 + d ^ 2) ^ 2 := by ring
    rw [hn] at key
    nlinarith [sq_nonneg (-2 * a * b - a ^ 2 + b ^ 2 + 2 * c * d - c ^ 2 + d ^ 2)]

/-- C99.  Already at the grid point `(17/19, 1/19, 1/19)` of the script the entry of `costs` is not the cost of the circuit. -/
theorem C99_refuted : ∃ U g c, fpUnitary ![17 / 19, 1 / 19, 1 / 19] = (some U, true) ∧ fixedPointsRow ![17 / 19, 1 / 19, 1 / 19] = .ok (g, c) ∧
    c ≠ cost hXY (asOne U) := by
  have h : (![17 / 19, 1 / 19, 1 / 19] : Fin 3 → ℝ) 0 ^ 2 + (![17 / 19, 1 / 19, 1 / 19] : Fin 3 → ℝ) 1 ^ 2 + (![17 / 19, 1 / 19, 1 / 19] : Fin 3 → ℝ) 2 ^ 2 ≤ 1 := by
    simp; norm_num
  refine ⟨_, _, _, fpUnitary_in h, fixedPointsRow_in h, ?_⟩
  have hs := fourth_sq h
  have hpos : 0 ≤ fourth (![17 / 19, 1 / 19, 1 / 19] : Fin 3 → ℝ) := Real.sqrt_nonneg _
  rw [stored_eq, cost_hXY]
  generalize fourth (![17 / 19, 1 / 19, 1 / 19] : Fin 3 → ℝ) = d at hs hpos
  simp [sphereMatrix] at hs ⊢
  intro e
  nlinarith

end Oranssi
