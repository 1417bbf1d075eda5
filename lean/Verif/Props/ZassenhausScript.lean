import Verif.Model.ZassenhausScript
import Verif.Props.ProductState
import Verif.Props.ToyScript
import Verif.Props.Scripts
import Verif.Props.RunUnitary
import Verif.Props.TfimStep

/-! # C137: the figure that zassenhaus.py draws -/

namespace Oranssi
open scoped Matrix
open Spec

/-- The circuit of the script on one qubit: a Hadamard gate, a rotation about Z and one about Y. -/
noncomputable def Spec.zassSite (a b : ℝ) : Mat2 := rot2 b .Y * (rot2 a .Z * (((1 / Real.sqrt 2 : ℝ) : ℂ) • !![1, 1; 1, -1]))

theorem bloch_angles (C S D T h : ℝ) (hh : h * h = 1/2) (pa : C^2+S^2=1) (pb : D^2+T^2=1) (M : Mat2) (hM : M = ((D:ℂ) • 1 - (Complex.I * T) • Letter.Y.mat) * (((C:ℂ) • 1 - (Complex.I * S) • Letter.Z.mat) * ((h:ℂ) • !![1, 1; 1, -1]))) :
   bloch M .I = 1 ∧ bloch M .X = (((D^2-T^2) * (C^2-S^2) : ℝ) : ℂ) ∧ bloch M .Y = ((2 * S * C : ℝ) : ℂ) ∧ bloch M .Z = ((-(2 * T * D * (C ^ 2 - S ^ 2)) : ℝ) : ℂ):= by
  have h0 : M 0 0 = h * (D * (C - Complex.I * S) - T * (C + Complex.I * S)) := by
    rw [hM]; simp [Letter.mat, Matrix.mul_apply, Fin.sum_univ_two]; ring_nf; simp [Complex.I_sq]; ring
  have h1 : M 1 0 = h * (T * (C - Complex.I * S) + D * (C + Complex.I * S)) := by
    rw [hM]; simp [Letter.mat, Matrix.mul_apply, Fin.sum_univ_two]; ring_nf; simp [Complex.I_sq]; ring
  have e : ∀ A : Mat2, (Mᴴ * (A * M)) 0 0 = star (M 0 0) * (A 0 0 * M 0 0 + A 0 1 * M 1 0) + star (M 1 0) * (A 1 0 * M 0 0 + A 1 1 * M 1 0) := by
    intro A; rw [Matrix.mul_apply, Fin.sum_univ_two, Matrix.mul_apply, Matrix.mul_apply, Fin.sum_univ_two, Fin.sum_univ_two]; rfl
  have hD : T ^ 2 = 1 - D ^ 2 := by linarith
  have hC : S ^ 2 = 1 - C ^ 2 := by linarith
  refine ⟨?_, ?_, ?_, ?_⟩ <;>
  · rw [bloch, e, h0, h1]
    apply Complex.ext <;> simp [Letter.mat, -Complex.ofReal_pow] <;> ring_nf <;> simp only [hD, hC, show h ^ 2 = 1 / 2 by linarith] <;> ring

theorem zassSite_bloch (a b : ℝ) : bloch (zassSite a b) .I = 1 ∧ bloch (zassSite a b) .X = (Real.cos b * Real.cos a : ℝ) ∧ bloch (zassSite a b) .Y = (Real.sin a : ℝ) ∧
    bloch (zassSite a b) .Z = (-(Real.sin b * Real.cos a) : ℝ) := by
  have h2 : (1 / Real.sqrt 2) * (1 / Real.sqrt 2) = 1 / 2 := by
    rw [div_mul_div_comm, Real.mul_self_sqrt (by norm_num)]; norm_num
  have ca : Real.cos a = Real.cos (a / 2) ^ 2 - Real.sin (a / 2) ^ 2 := by rw [← Real.cos_two_mul']; ring_nf
  have cb : Real.cos b = Real.cos (b / 2) ^ 2 - Real.sin (b / 2) ^ 2 := by rw [← Real.cos_two_mul']; ring_nf
  have sa : Real.sin a = 2 * Real.sin (a / 2) * Real.cos (a / 2) := by rw [← Real.sin_two_mul]; ring_nf
  have sb : Real.sin b = 2 * Real.sin (b / 2) * Real.cos (b / 2) := by rw [← Real.sin_two_mul]; ring_nf
  have pa := Real.cos_sq_add_sin_sq (a / 2)
  have pb := Real.cos_sq_add_sin_sq (b / 2)
  rw [ca, cb, sa, sb]
  exact bloch_angles _ _ _ _ _ h2 pa pb _ rfl

/-- The four observables as gates. -/
noncomputable def zassGates : List (Gate 3) :=
  [siteObs 0 (by norm_num) .X, siteObs 1 (by norm_num) .X, siteObs 2 (by norm_num) .Y, bondObs 2 1 (by norm_num) (by norm_num) (by norm_num) .Z .Y]

theorem npY_word : npY = npQ (pauliWord ([Letter.Y] : List Letter).get) := by
  have : npY = npQ (tensor (fun _ : Fin 1 => Letter.Y.mat)) := npLetter_eq .Y
  rw [this]
  exact tensor_congr_npQ rfl _ _ (fun i => by fin_cases i; rfl)

theorem npZY_word : npKron npZ npY = npQ (pauliWord ([Letter.Z, Letter.Y] : List Letter).get) := by
  have hZ : npZ = npQ (tensor (fun _ : Fin 1 => Letter.Z.mat)) := npLetter_eq .Z
  have hY : npY = npQ (tensor (fun _ : Fin 1 => Letter.Y.mat)) := npLetter_eq .Y
  rw [hZ, hY, npKron_npQ, kron_tensor]
  exact tensor_congr_npQ rfl _ _ (fun i => by fin_cases i <;> rfl)

theorem zassObservables_eq : zassObservables = zassGates.map Gate.obs := by
  rw [zassObservables, npZY_word, npX_word, npY_word]
  rfl

/-- The Hamiltonian of the script. -/
noncomputable def zassHam : QMat 3 := pauliWord (placed 3 [.X] [0]) + (pauliWord (placed 3 [.X] [1]) + (pauliWord (placed 3 [.Y] [2]) + pauliWord (placed 3 [.Z, .Y] [2, 1])))

theorem zassGates_total : totalObs zassGates = zassHam := by
  rw [zassGates, totalObs, List.map_cons, List.map_cons, List.map_cons, List.map_cons, siteObs_full, siteObs_full, siteObs_full, bondObs_full]
  simp [zassHam]

/-- The state that the circuit prepares. -/
noncomputable def zassState (a b : ℝ) : QMat 3 := tensor (fun _ => zassSite a b)

theorem zass_compile (a b : ℝ) : compileLoop 3 (zassCircuit a b) 1 = .ok (zassState a b) := by
  have v : ∀ j < 3, ValidWires 3 [j] := fun j hj => ⟨by simp, by simpa using hj⟩
  have g3 : ∀ (θ : ℝ) (a : Letter) (j : ℕ), ValidWires 3 [j] → getFullOperator (rotGate θ (letterStr [a]) [j]).1 (rotGate θ (letterStr [a]) [j]).2 3 =
      .ok (rotOp 3 θ [a] [j]) := fun θ a j hj => by
    rw [rotGate_letterStr, ← full_pauliRot rfl hj]
    exact getFullOperator_npQ (ws := [j]) rfl (by simp) hj _
  have hg : zassCircuit a b = (List.range 3).map (fun (j : ℕ) => ((⟨2, 2, (hadamard : Matrix (Fin (2 ^ 1)) (Fin (2 ^ 1)) ℂ)⟩ : NpMat), [(j : ℤ)])) ++
      [rotGate a (letterStr [.Z]) [0], rotGate a (letterStr [.Z]) [1], rotGate a (letterStr [.Z]) [2],
        rotGate b (letterStr [.Y]) [0], rotGate b (letterStr [.Y]) [1], rotGate b (letterStr [.Y]) [2]] := rfl
  rw [hg, compile_hadamards 3 _ (by simp), hadamards_eq]
  rw [compileLoop, g3 _ _ _ (v 0 (by norm_num)), ok_bind]
  rw [compileLoop, g3 _ _ _ (v 1 (by norm_num)), ok_bind]
  rw [compileLoop, g3 _ _ _ (v 2 (by norm_num)), ok_bind]
  rw [compileLoop, g3 _ _ _ (v 0 (by norm_num)), ok_bind]
  rw [compileLoop, g3 _ _ _ (v 1 (by norm_num)), ok_bind]
  rw [compileLoop, g3 _ _ _ (v 2 (by norm_num)), ok_bind]
  rw [compileLoop, hadamardAll]
  simp only [rotOp_tensor _ _ 0 (by norm_num : 0 < 3), rotOp_tensor _ _ 1 (by norm_num : 1 < 3), rotOp_tensor _ _ 2 (by norm_num : 2 < 3), tensor_mul]
  rw [zassState]
  congr 2
  funext q
  fin_cases q <;> simp [zassSite]

theorem rot2_unitary (θ : ℝ) (a : Letter) : (rot2 θ a)ᴴ * rot2 θ a = 1 := by
  have h : ((Real.cos (θ / 2) : ℝ) : ℂ) * (Real.cos (θ / 2) : ℝ) + ((Real.sin (θ / 2) : ℝ) : ℂ) * (Real.sin (θ / 2) : ℝ) = 1 := by
    rw [← Complex.ofReal_mul, ← Complex.ofReal_mul, ← Complex.ofReal_add, ← sq, ← sq, Real.cos_sq_add_sin_sq, Complex.ofReal_one]
  rw [rot2]
  generalize (Real.cos (θ / 2)) = c at *
  generalize (Real.sin (θ / 2)) = s at *
  have e : ((c : ℂ) • (1 : Mat2) - (Complex.I * s) • a.mat)ᴴ = (c : ℂ) • (1 : Mat2) + (Complex.I * s) • a.mat := by
    rw [Matrix.conjTranspose_sub, Matrix.conjTranspose_smul, Matrix.conjTranspose_smul, Letter.mat_herm, Matrix.conjTranspose_one]
    simp
  rw [e, add_mul, mul_sub, mul_sub, smul_mul_smul_comm, smul_mul_smul_comm, smul_mul_smul_comm, smul_mul_smul_comm, Letter.mat_sq, mul_one, mul_one, one_mul,
    mul_comm (c : ℂ) (Complex.I * s), sub_add_sub_cancel, ← sub_smul,
    show (c : ℂ) * c - Complex.I * s * (Complex.I * s) = c * c + s * s by linear_combination -(s : ℂ) * s * Complex.I_mul_I, h, one_smul]

theorem zassSite_unitary (a b : ℝ) : (zassSite a b)ᴴ * zassSite a b = 1 := by
  have hH : ((((1 / Real.sqrt 2 : ℝ) : ℂ) • !![1, 1; 1, -1] : Mat2))ᴴ * (((1 / Real.sqrt 2 : ℝ) : ℂ) • !![1, 1; 1, -1]) = 1 := by
    have h2 : (((1 / Real.sqrt 2 : ℝ)) : ℂ) * (((1 / Real.sqrt 2 : ℝ)) : ℂ) = 1 / 2 := by
      rw [← Complex.ofReal_mul, div_mul_div_comm, Real.mul_self_sqrt (by norm_num)]; norm_num
    rw [Matrix.conjTranspose_smul, smul_mul_smul_comm, Complex.star_def, Complex.conj_ofReal, h2]
    ext i j
    fin_cases i <;> fin_cases j <;> norm_num [Matrix.mul_apply, Fin.sum_univ_two]
  rw [zassSite, Matrix.conjTranspose_mul, mul_assoc, ← mul_assoc (rot2 b .Y)ᴴ, rot2_unitary, one_mul, Matrix.conjTranspose_mul, mul_assoc, ← mul_assoc (rot2 a .Z)ᴴ, rot2_unitary,
    one_mul, hH]

theorem tensor_unitary {n : ℕ} {L : Fin n → Mat2} (h : ∀ q, (L q)ᴴ * L q = 1) : Unitary (tensor L) := by
  change (tensor L)ᴴ * tensor L = 1
  rw [tensor_conjTranspose, tensor_mul, ← tensor_one]
  congr 1
  funext q
  exact h q

theorem zassState_unitary (a b : ℝ) : Unitary (zassState a b) := tensor_unitary fun _ => zassSite_unitary a b

theorem cost_four (L : Fin 3 → Mat2) : cost zassHam (tensor L) = (bloch (L 0) .X * bloch (L 1) .I * bloch (L 2) .I).re + ((bloch (L 0) .I * bloch (L 1) .X * bloch (L 2) .I).re +
    ((bloch (L 0) .I * bloch (L 1) .I * bloch (L 2) .Y).re + (bloch (L 0) .I * bloch (L 1) .Y * bloch (L 2) .Z).re)) := by
  rw [zassHam, cost_add, cost_add, cost_add, cost_product, cost_product, cost_product, cost_product]
  simp [Fin.prod_univ_three, placed]

theorem zassState_cost (a b : ℝ) : cost zassHam (zassState a b) =
    2 * Real.cos b * Real.cos a + Real.sin a - Real.sin a * Real.sin b * Real.cos a := by
  obtain ⟨hI, hX, hY, hZ⟩ := zassSite_bloch a b
  rw [zassState, cost_four, hI, hX, hY, hZ]
  simp only [one_mul, mul_one, ← Complex.ofReal_mul, Complex.ofReal_re]
  ring

theorem lmul_comm (a b : Letter) : lmul a b = lmul b a := by cases a <;> cases b <;> rfl

theorem word_anti {n : ℕ} {f g : Fin n → Letter} (h : ∏ q, lphase (f q) (g q) = -∏ q, lphase (g q) (f q)) : pauliWord f * pauliWord g = -(pauliWord g * pauliWord f) := by
  rw [words_mul, words_mul, h, neg_smul]
  congr 3
  funext q
  exact lmul_comm _ _

theorem word_commute {n : ℕ} {f g : Fin n → Letter} (h : ∏ q, lphase (f q) (g q) = ∏ q, lphase (g q) (f q)) : pauliWord f * pauliWord g = pauliWord g * pauliWord f := by
  rw [words_mul, words_mul, h]
  congr 2
  funext q
  exact lmul_comm _ _

/-- No state has an energy below `-1 - √5`. -/
theorem zass_smallest (U : QMat 3) (hU : Unitary U) : -1 - Real.sqrt 5 ≤ cost zassHam U := by
  set X0 : QMat 3 := pauliWord (placed 3 [.X] [0]) with hX0
  set A : QMat 3 := pauliWord (placed 3 [.X] [1]) with hA
  set B : QMat 3 := pauliWord (placed 3 [.Y] [2]) with hB
  set C : QMat 3 := pauliWord (placed 3 [.Z, .Y] [2, 1]) with hC
  have a2 : A * A = 1 := pauliWord_sq _
  have b2 : B * B = 1 := pauliWord_sq _
  have c2 : C * C = 1 := pauliWord_sq _
  have ab : A * B = B * A := word_commute (by simp [Fin.prod_univ_three, placed, lphase])
  have ac : A * C = -(C * A) := word_anti (by simp [Fin.prod_univ_three, placed, lphase])
  have bc : B * C = -(C * B) := word_anti (by simp [Fin.prod_univ_three, placed, lphase])
  have hab : (A * B)ᴴ = A * B := by
    rw [Matrix.conjTranspose_mul, hA, hB, pauliWord_herm, pauliWord_herm, ← hA, ← hB, ab]
  have hab2 : (A * B) * (A * B) = 1 := by
    rw [show A * B * (A * B) = A * (B * A) * B by noncomm_ring, ← ab, show A * (A * B) * B = (A * A) * (B * B) by noncomm_ring, a2, b2, one_mul]
  have h0 := (cost_involution_bounds hU (pauliWord_herm (placed 3 [.X] [0])) (pauliWord_sq _)).1
  have h1 := (cost_involution_bounds hU hab hab2).2
  have hsq := cost_sq_nonneg (A + B + C + ((Real.sqrt 5 : ℝ) : ℂ) • (1 : QMat 3)) U
  have s5 : ((Real.sqrt 5 : ℝ) : ℂ) * ((Real.sqrt 5 : ℝ) : ℂ) = 5 := by rw [← Complex.ofReal_mul, Real.mul_self_sqrt (by norm_num)]; norm_num
  have he : (A + B + C + ((Real.sqrt 5 : ℝ) : ℂ) • (1 : QMat 3))ᴴ * (A + B + C + ((Real.sqrt 5 : ℝ) : ℂ) • (1 : QMat 3)) =
      ((8 : ℝ) : ℂ) • (1 : QMat 3) + (((2 : ℝ) : ℂ) • (A * B) + ((2 * Real.sqrt 5 : ℝ) : ℂ) • (A + B + C)) := by
    have hh : (A + B + C + ((Real.sqrt 5 : ℝ) : ℂ) • (1 : QMat 3))ᴴ = A + B + C + ((Real.sqrt 5 : ℝ) : ℂ) • (1 : QMat 3) := by
      rw [Matrix.conjTranspose_add, Matrix.conjTranspose_add, Matrix.conjTranspose_add, hA, hB, hC, pauliWord_herm, pauliWord_herm, pauliWord_herm, Matrix.conjTranspose_smul,
        Matrix.conjTranspose_one]
      simp
    rw [hh]
    have hm : (A + B + C) * (A + B + C) = ((3 : ℝ) : ℂ) • (1 : QMat 3) + ((2 : ℝ) : ℂ) • (A * B) := by
      have : (A + B + C) * (A + B + C) = A * A + B * B + C * C + (A * B + B * A) + (A * C + C * A) + (B * C + C * B) := by noncomm_ring
      rw [this, a2, b2, c2, ac, bc, ← ab]
      simp only [neg_add_cancel, add_zero]
      push_cast
      module
    generalize hMd : A + B + C = M at hm ⊢
    rw [add_mul, mul_add, mul_add, hm, smul_mul_smul_comm, s5, one_mul, mul_smul_comm, smul_mul_assoc, mul_one, one_mul]
    push_cast
    module
  have hcr : ∀ (r : ℝ) (M : QMat 3), cost ((r : ℂ) • M) U = r * cost M U := fun r M => by
    rw [cost, Matrix.smul_mulVec, dotProduct_smul, smul_eq_mul, Complex.re_ofReal_mul, cost]
  rw [he, cost_add, cost_add, hcr, hcr, hcr, cost_one hU] at hsq
  have h5 : 0 < Real.sqrt 5 := Real.sqrt_pos.2 (by norm_num)
  have h55 : Real.sqrt 5 * Real.sqrt 5 = 5 := Real.mul_self_sqrt (by norm_num)
  have hM : -Real.sqrt 5 ≤ cost (A + B + C) U := by
    by_contra hc
    push Not at hc
    have : Real.sqrt 5 * cost (A + B + C) U < Real.sqrt 5 * -Real.sqrt 5 := mul_lt_mul_of_pos_left hc h5
    linarith
  have hs : zassHam = X0 + (A + B + C) := by rw [zassHam, ← hX0, ← hA, ← hB, ← hC]; abel
  rw [hs, cost_add]
  linarith

/-- A state with that energy: a product state turned about ZZ. -/
theorem zass_attained : ∃ U : QMat 3, Unitary U ∧ cost zassHam U = -1 - Real.sqrt 5 := by
  set L : Fin 3 → Mat2 := ![zassSite 0 Real.pi, zassSite 0 Real.pi, zassSite (-(Real.pi / 2)) 0] with hL
  obtain ⟨i0, x0, y0, z0⟩ := zassSite_bloch 0 Real.pi
  obtain ⟨i1, x1, y1, z1⟩ := zassSite_bloch (-(Real.pi / 2)) 0
  simp only [Real.cos_pi, Real.cos_zero, Real.sin_zero, Real.sin_pi, Real.cos_neg, Real.sin_neg, Real.cos_pi_div_two, Real.sin_pi_div_two] at x0 y0 z0 x1 y1 z1
  set θ := Real.arctan (1 / 2) with hθ
  have hs : Real.sqrt (1 + (1 / 2 : ℝ) ^ 2) = Real.sqrt 5 / 2 := by
    rw [show (1 + (1 / 2 : ℝ) ^ 2) = 5 / 2 ^ 2 by norm_num, Real.sqrt_div (by norm_num), Real.sqrt_sq (by norm_num)]
  have h5 : 0 < Real.sqrt 5 := Real.sqrt_pos.2 (by norm_num)
  have h55 : Real.sqrt 5 * Real.sqrt 5 = 5 := Real.mul_self_sqrt (by norm_num)
  refine ⟨rotOp 3 θ [.Z, .Z] [1, 2] * tensor L, Unitary.mul (rotOp_unitary _ _ _) (tensor_unitary fun q => by fin_cases q <;> exact zassSite_unitary _ _), ?_⟩
  rw [zassHam, cost_add, cost_add, cost_add, cost_anti (A := pauliWord (placed 3 [.X] [1])) (word_anti (by simp [Fin.prod_univ_three, placed, lphase])),
    cost_anti (A := pauliWord (placed 3 [.Y] [2])) (word_anti (by simp [Fin.prod_univ_three, placed, lphase])),
    cost_anti (A := pauliWord (placed 3 [.Z, .Y] [2, 1])) (word_anti (by simp [Fin.prod_univ_three, placed, lphase])), cost_product, cost_product, cost_product, grad_product, grad_product,
    grad_product]
  have e0 : cost (pauliWord (placed 3 [.X] [0])) (rotOp 3 θ [.Z, .Z] [1, 2] * tensor L) = -1 := by
    have hcm : Commute (pauliWord (placed 3 [.X] [0])) (pauliWord (placed 3 [.Z, .Z] [1, 2])) := word_commute (by simp [Fin.prod_univ_three, placed, lphase])
    rw [cost_drop (rotOp_unitary _ _ _) (by rw [rotOp]; exact ((Commute.one_right _).smul_right _).sub_right (hcm.smul_right _)), cost_product]
    simp [Fin.prod_univ_three, placed, hL, i0, x0, i1]
  rw [e0]
  simp [Fin.prod_univ_three, placed, lphase, lmul, hL, i0, x0, y0, z0, i1, x1, y1, z1]
  rw [Real.cos_arctan, Real.sin_arctan, hs]
  field_simp
  linarith

/-! ### The markers -/

/-- The label of the first marker of a kind. -/
def Spec.phaseLabel : Phase → String
  | .su4 => "SU(4) layer"
  | .su8 => "Zass. SU(8) layer"

def MarkerFlags.first (fl : MarkerFlags) : Phase → Bool
  | .su4 => fl.first4
  | .su8 => fl.first8

theorem markerLoop_ok (costs : List ℝ) (gs : ℝ) : ∀ (ps : List Phase) (i : ℕ) (fl : MarkerFlags), i + ps.length ≤ costs.length →
    ∃ ms fl', markerLoop costs gs i (ps.map some) fl = .ok (ms, fl') ∧ ms.length = ps.length ∧ (∀ p, fl'.first p = (fl.first p && !decide (p ∈ ps))) ∧
      ∀ k p, ps[k]? = some p → ∃ c, costs[i + k]? = some c ∧
        ms[k]? = some ⟨i + k, |c - gs|, decide (p = .su8), if fl.first p = true ∧ p ∉ ps.take k then some (phaseLabel p) else none⟩
  | [], i, fl, _ => ⟨[], fl, rfl, rfl, by simp, by simp⟩
  | p :: ps, i, fl, h => by
    rw [List.length_cons] at h
    have hi : i < costs.length := by omega
    have hget : pyGetItem costs i = .ok costs[i] := by
      simp [pyGetItem, pyIndex, hi]
    have step : ∀ (fl1 : MarkerFlags), (∀ q, fl1.first q = (fl.first q && !decide (q = p))) →
        (markerLoop costs gs i ((p :: ps).map some) fl = do
          let (ms, fl') ← markerLoop costs gs (i + 1) (ps.map some) fl1
          .ok (⟨i, |costs[i] - gs|, decide (p = .su8), if fl.first p then some (phaseLabel p) else none⟩ :: ms, fl')) →
        ∃ ms fl', markerLoop costs gs i ((p :: ps).map some) fl = .ok (ms, fl') ∧ ms.length = (p :: ps).length ∧
          (∀ q, fl'.first q = (fl.first q && !decide (q ∈ p :: ps))) ∧
          ∀ k q, (p :: ps)[k]? = some q → ∃ c, costs[i + k]? = some c ∧
            ms[k]? = some ⟨i + k, |c - gs|, decide (q = .su8), if fl.first q = true ∧ q ∉ (p :: ps).take k then some (phaseLabel q) else none⟩ := by
      intro fl1 hf1 hl
      obtain ⟨ms, fl', hm, hlen, hf, hk⟩ := markerLoop_ok costs gs ps (i + 1) fl1 (by omega)
      refine ⟨_, fl', by rw [hl, hm]; rfl, by simp [hlen], fun q => ?_, fun k q hq => ?_⟩
      · rw [hf, hf1]
        by_cases hqp : q = p <;> simp [hqp]
      · cases k with
        | zero =>
          obtain rfl : p = q := by simpa using hq
          exact ⟨costs[i], by simp [hi], by simp⟩
        | succ k =>
          obtain ⟨c, hc, hmk⟩ := hk k q (by simpa using hq)
          refine ⟨c, by rw [← hc]; congr 1; omega, ?_⟩
          rw [List.getElem?_cons_succ, hmk, hf1]
          simp only [Option.some.injEq, Marker.mk.injEq, true_and]
          refine ⟨by omega, ?_⟩
          by_cases hqp : q = p <;> simp [hqp]
    cases p with
    | su4 =>
      refine step { fl with first4 := false } (fun q => by cases q <;> simp [MarkerFlags.first]) ?_
      rw [List.map_cons, markerLoop, hget, ok_bind]
      simp only [abs_abs]
      rfl
    | su8 =>
      refine step { fl with first8 := false } (fun q => by cases q <;> simp [MarkerFlags.first]) ?_
      rw [List.map_cons, markerLoop, hget, ok_bind]
      rfl

/-- C137 (the markers of one pass, for every list of costs and every list of reported phases that is at least as short): the pass raises nothing and draws one marker per
phase.  The marker of step `k` lies on the curve at `k`, that is on the cost from which the step starts; its colour tells the phase; it has a label exactly when it is the first
of its phase. -/
theorem C137_markers (costs : List ℝ) (gs : ℝ) (ps : List Phase) (h : ps.length ≤ costs.length) :
    ∃ (ms : List Marker) (fl' : MarkerFlags), markerLoop costs gs 0 (ps.map some) {} = .ok (ms, fl') ∧ ms.length = ps.length ∧ ∀ (k : ℕ) (p : Phase), ps[k]? = some p →
      ∃ c, costs[k]? = some c ∧ ms[k]? = some ⟨k, |c - gs|, decide (p = .su8), if p ∉ ps.take k then some (phaseLabel p) else none⟩ := by
  obtain ⟨ms, fl', h1, h2, -, h4⟩ := markerLoop_ok costs gs ps 0 {} (by omega)
  refine ⟨ms, fl', h1, h2, fun k p hp => ?_⟩
  obtain ⟨c, hc, hm⟩ := h4 k p hp
  refine ⟨c, by simpa using hc, ?_⟩
  rw [hm]
  cases p <;> simp [MarkerFlags.first]

/-- C137 (the second figure of `tfim_zassenhaus`): it has the same markers as the first, all of them without a label, because the flags are not set again. -/
theorem C137_second (costs : List ℝ) (gs : ℝ) (ps : List Phase) (h : ps.length ≤ costs.length) :
    ∃ ms ms', tfimZassMarkers costs gs (ps.map some) = .ok (ms, ms') ∧ ms' = ms.map (fun m => { m with label := none }) ∧
      ∀ p ∈ ps, ∃ m ∈ ms, m.label = some (phaseLabel p) := by
  obtain ⟨ms, fl, h1, h2, h3, h4⟩ := markerLoop_ok costs gs ps 0 {} (by omega)
  obtain ⟨ms', fl', g1, g2, g3, g4⟩ := markerLoop_ok costs gs ps 0 fl (by omega)
  refine ⟨ms, ms', by rw [tfimZassMarkers, h1, ok_bind]; simp only [g1, ok_bind], ?_, fun p hp => ?_⟩
  · apply List.ext_getElem?
    intro k
    rw [List.getElem?_map]
    rcases lt_or_ge k ps.length with hk | hk
    · have hp : ps[k]? = some ps[k] := by simp [hk]
      obtain ⟨c, hc, hm⟩ := h4 k _ hp
      obtain ⟨c', hc', hm'⟩ := g4 k _ hp
      obtain rfl : c = c' := Option.some.inj (hc.symm.trans hc')
      rw [hm, hm', h3]
      simp
    · rw [List.getElem?_eq_none (by omega), List.getElem?_eq_none (by omega)]
      rfl
  · have hex : ∃ k, ps[k]? = some p := List.mem_iff_getElem?.1 hp
    classical
    have hk := Nat.find_spec hex
    have hmin : ∀ j < Nat.find hex, ps[j]? ≠ some p := fun j hj => Nat.find_min hex hj
    generalize Nat.find hex = k at hk hmin
    obtain ⟨c, -, hm⟩ := h4 k p hk
    have hnot : p ∉ ps.take k := by
      intro hin
      obtain ⟨j, hj⟩ := List.mem_iff_getElem?.1 hin
      rw [List.getElem?_take] at hj
      split at hj
      · exact hmin j ‹_› hj
      · cases hj
    rw [if_pos ⟨by cases p <;> rfl, hnot⟩] at hm
    exact ⟨_, List.mem_of_getElem? hm, rfl⟩

/-! ### The script -/

/-- The phases of the first `j` steps of a layer with the ratio 4 : 2. -/
def Spec.phases42 (j : ℕ) : List Phase := (List.range j).map fun k => if k % 6 < 4 then .su4 else .su8

theorem callsBefore_single (k : ℕ) : callsBefore [(0 : Fin 1)] 0 k = k := by
  rw [callsBefore, List.filter_eq_self.2 (by intro a _; simp [Nat.mod_one]), List.length_range]

/-- What a run with this layer alone reports. -/
theorem zass_phases {n : ℕ} {E : LayerEnv n} {eigh : EighFn n} {rnd : ℕ → Matrix (Fin (2 ^ n)) (Fin (2 ^ n)) ℝ} {ret : CircuitRet} {ops : List (NpMat × List ℤ)}
    {params : List (List ℝ)} {gs : List (Gate n)} {args : ApproxArgs} {L : ZassLayer n} {out : OptOut (ApproxItem n) × (Fin 1 → AnyLayer n)}
    (hL : zassLayer n (gs.map Gate.obs) {} false false (4, 2) = .ok L) (hz : args.returnZassenhaus = .bool true)
    (h : approximateLieOptimizer E eigh rnd ret ops params (gs.map Gate.obs) (fun _ : Fin 1 => .zass L) [0] args = .ok out) :
    ∃ j, (approxCosts out.1).length = j + 1 ∧ approxZassenhaus out.1 = some ((phases42 j).map some) := by
  obtain ⟨V, W, j, zs, -, -, hl, -, -, hzo, hzl, hze⟩ := C41_reported _ _ _ _ _ _ _ _ _ _ _ h hz 0 gs {} false false (4, 2) L hL rfl
  refine ⟨j, hl, ?_⟩
  rw [hzo]
  congr 1
  apply List.ext_getElem?
  intro k
  rcases lt_or_ge k j with hk | hk
  · obtain ⟨Lk, Lk', -, -, h4, h8⟩ := hze k hk (by simp [Nat.mod_one])
    rw [callsBefore_single] at h4 h8
    by_cases hs : k % 6 < 4
    · rw [(h4 (by simpa [Scheduled] using hs)).1]
      simp [phases42, hk, hs]
    · rw [(h8 (by simpa [Scheduled] using hs)).1]
      simp [phases42, hk, hs]
  · rw [List.getElem?_eq_none (by omega), List.getElem?_eq_none (by simp [phases42]; omega)]

/-- The arguments of the run. -/
noncomputable def zassMainArgs : ApproxArgs := { eta := .float 0.1, returnZassenhaus := .bool true }

theorem zassMainArgs_valid : ApproxValid zassMainArgs 40 0.1 (some (.fin 1e-3)) ⟨false, false, false, false, false, false, true⟩ :=
  ⟨rfl, by norm_num, rfl, by norm_num, by norm_num, ⟨rfl, by norm_num⟩, rfl, rfl, rfl, rfl, rfl, rfl, rfl, rfl⟩

/-- The label of the marker of step `k`. -/
def Spec.label42 (k : ℕ) : Option String := if k = 0 then some "SU(4) layer" else if k = 4 then some "Zass. SU(8) layer" else none

theorem phases42_label (j k : ℕ) (hk : k < j) (p : Phase) (hp : (phases42 j)[k]? = some p) :
    (if p ∉ (phases42 j).take k then some (phaseLabel p) else none) = label42 k := by
  have hp' : p = if k % 6 < 4 then .su4 else .su8 := by
    have : (phases42 j)[k]? = some (if k % 6 < 4 then .su4 else .su8) := by simp [phases42, hk]
    exact (Option.some.inj (hp.symm.trans this))
  have htake : (phases42 j).take k = phases42 k := by rw [phases42, ← List.map_take, List.take_range, Nat.min_eq_left hk.le, phases42]
  have hmem : ∀ q, q ∈ phases42 k ↔ ∃ i < k, q = if i % 6 < 4 then .su4 else .su8 := by
    intro q; simp only [phases42, List.mem_map, List.mem_range, eq_comm]
  rw [htake, label42]
  by_cases h4 : k % 6 < 4
  · rw [if_pos h4] at hp'
    subst hp'
    by_cases h0 : k = 0
    · subst h0; rfl
    · rw [if_neg (not_not.2 ((hmem .su4).2 ⟨0, by omega, rfl⟩)), if_neg h0, if_neg (by rintro rfl; omega)]
  · rw [if_neg h4] at hp'
    subst hp'
    by_cases h0 : k = 4
    · subst h0
      rw [if_pos (by rw [hmem]; rintro ⟨i, hi, h⟩; rw [if_pos (by omega)] at h; cases h)]
      rfl
    · rw [if_neg (not_not.2 ((hmem .su8).2 ⟨4, by omega, rfl⟩)), if_neg (by rintro rfl; omega), if_neg h0]

/-- C137.  If the run of the script raises, the script ends with that exception and saves nothing.  Otherwise it saves its one figure, which shows the following.
The curve is the distance of the costs from the smallest eigenvalue, `-1 - √5`, and begins at the cost of the circuit; the script has at least eleven and at most 41 costs.
The dashed line `Minimum` is at `-1 - √5` itself, which is negative, on an axis that is logarithmic; the curve is nowhere negative, so it is above the line by more than three.
There is one marker per step, on the cost from which the step starts, and none on the last cost; the steps 4, 5 of every six are navy; the labels are on the markers 0 and 4. -/
theorem C137_script (E : LayerEnv 3) (hsvd : ValidSvd E.svd) (eigh : EighFn 3) (he : ValidEigh eigh) (rnd : ℕ → Matrix (Fin (2 ^ 3)) (Fin (2 ^ 3)) ℝ) (fs : List OutFile) :
    ∃ L, zassLayer 3 zassObservables {} (ratio := (4, 2)) = .ok L ∧
      (∀ e, approximateLieOptimizer E eigh rnd .state (zassCircuit 0.2 1.4) [] zassObservables (fun _ : Fin 1 => .zass L) [0] zassMainArgs = .error e →
        zassMainScript E eigh rnd fs = (.error e, fs)) ∧
      ∀ out, approximateLieOptimizer E eigh rnd .state (zassCircuit 0.2 1.4) [] zassObservables (fun _ : Fin 1 => .zass L) [0] zassMainArgs = .ok out →
        ∃ fig : ZassFigure, zassMainScript E eigh rnd fs = (.ok fig, fs ++ [.figure "su8_zass_optimizer_multi_obs_3"]) ∧
          fig.curve = (approxCosts out.1).map (fun c => c + 1 + Real.sqrt 5) ∧
          fig.minimum = List.replicate fig.curve.length (-1 - Real.sqrt 5) ∧ (∀ y ∈ fig.curve, 0 ≤ y) ∧
          fig.curve[0]? = some (2 * Real.cos 1.4 * Real.cos 0.2 + Real.sin 0.2 - Real.sin 0.2 * Real.sin 1.4 * Real.cos 0.2 + 1 + Real.sqrt 5) ∧
          11 ≤ fig.curve.length ∧ fig.curve.length ≤ 41 ∧ fig.markers.length + 1 = fig.curve.length ∧
          ∀ k < fig.markers.length, ∃ y, fig.curve[k]? = some y ∧ fig.markers[k]? = some ⟨k, y, decide (4 ≤ k % 6), label42 k⟩ := by
  obtain ⟨L, hL⟩ := zassLayer_default le_rfl zassGates (4, 2)
  rw [zassObservables_eq]
  have hmin : minEigenvalue eigh (zassGates.map (fun g => full 3 g.ws g.A)).sum = -1 - Real.sqrt 5 := by
    obtain ⟨U, hU, hc⟩ := zass_attained
    have hT : (zassGates.map (fun g => full 3 g.ws g.A)).sum = zassHam := zassGates_total
    rw [hT]
    refine minEigenvalue_eq he ?_ zass_smallest hU hc
    rw [zassHam]
    simp only [Matrix.conjTranspose_add, pauliWord_herm]
  refine ⟨L, hL, fun e herr => ?_, fun out hout => ?_⟩
  · unfold zassMainArgs at herr
    rw [zassMainScript, zassObservables_eq]
    rw [Script.bind_ok (Script.call_ok (C08_hamiltonian_default 3 _) _), Script.bind_ok (Script.call_ok hL _), Script.bind_error (Script.call_error herr _)]
  · have hout' := hout
    unfold zassMainArgs at hout'
    obtain ⟨j, hj, hzs⟩ := zass_phases hL rfl hout
    obtain ⟨-, N', e', t', F, hv', V', W', j', r, -, -, -, -, ho, -⟩ := approx_outcome _ _ _ _ _ _ _ _ _ _ _ hout
    have hF : F = ⟨false, false, false, false, false, false, true⟩ := by
      obtain ⟨a, b, c, d, p, e, f⟩ := F
      have hv := zassMainArgs_valid
      have h1 := hv'.flagS; have h2 := hv'.flagO; have h3 := hv'.flagU; have h4 := hv'.flagG; have h5 := hv'.flagP; have h6 := hv'.flagR; have h7 := hv'.flagZ
      rw [hv.flagS] at h1; rw [hv.flagO] at h2; rw [hv.flagU] at h3; rw [hv.flagG] at h4; rw [hv.flagP] at h5; rw [hv.flagR] at h6; rw [hv.flagZ] at h7
      simp only [BoolArg.bool.injEq] at h1 h2 h3 h4 h5 h6 h7
      simp [← h1, ← h2, ← h3, ← h4, ← h5, ← h6, ← h7]
    obtain ⟨N, hN, e2, -, V, W, j2, hj1, hj2, h0, -, ho0, -, hstep, hW0, -, hWV, hW, hlen, hcost, -, -, -⟩ := C50_trace _ _ _ _ _ _ _ _ _ _ _ hout
    obtain rfl : j2 = j := by omega
    have hN40 : N = 40 := by have := hN.symm.trans zassMainArgs_valid.nsteps; simp at this; exact_mod_cast this
    have hV0 : (V 0).U = zassState 0.2 1.4 := Except.ok.inj (h0.symm.trans (zass_compile _ _))
    have hall := approx_run_unitary (by norm_num) E hsvd he (by rw [hV0]; exact zassState_unitary _ _)
      (by rw [ho0]; exact fun i => unitInv_fresh (by norm_num) (.zass zassGates {} false false (4, 2) L hL)) hstep hW0 hWV hW
    have hr := approxOutput_read r F
    have h1 : out.1 = approxOutput r F := by rw [ho]
    rw [← h1] at hr
    have hcs := hr.1
    have hzz := hr.2.2.2.2.2.2
    rw [hzs, hF] at hzz
    simp only [if_true, Option.some.injEq] at hzz
    have hx : out.1 = .tuple [.costs (approxCosts out.1), .zassenhaus ((phases42 j2).map some)] := by rw [hcs, hzz, h1, hF]; rfl
    obtain ⟨N3, t3, hN3, -, -, -, hge⟩ := C51_first_flat_step _ _ _ _ _ _ _ _ _ _ _ hout rfl _ rfl
    have hN3' : N3 = 40 := by have := hN3.symm.trans zassMainArgs_valid.nsteps; simp at this; exact_mod_cast this
    rw [hN3'] at hge
    norm_num at hge
    set cs := approxCosts out.1 with hcsd
    have hlow : ∀ c ∈ cs, -1 - Real.sqrt 5 ≤ c := by
      intro c hc
      obtain ⟨k, hk⟩ := List.mem_iff_getElem?.1 hc
      have hkl : k < cs.length := by
        by_contra hcon
        rw [List.getElem?_eq_none (by omega)] at hk
        cases hk
      have := hcost k (by omega)
      rw [hk] at this
      rw [Option.some.inj this, zassGates_total]
      exact zass_smallest _ (hall k (by omega)).1
    obtain ⟨ms, fl', hm, hml, hmk⟩ := C137_markers cs (-1 - Real.sqrt 5) (phases42 j2) (by simp [phases42]; omega)
    have habs : ∀ c ∈ cs, |c - (-1 - Real.sqrt 5)| = c + 1 + Real.sqrt 5 := fun c hc => by
      rw [abs_of_nonneg (by linarith [hlow c hc])]; ring
    have hml' : ms.length = j2 := by rw [hml]; simp [phases42]
    refine ⟨⟨cs.map (fun c => |c - (-1 - Real.sqrt 5)|), List.replicate cs.length (-1 - Real.sqrt 5), ms⟩, ?_, ?_, by simp, ?_, ?_, by simpa using hge, by simp; omega, by simp; omega, ?_⟩
    · rw [zassMainScript, zassObservables_eq]
      rw [Script.bind_ok (Script.call_ok (C08_hamiltonian_default 3 _) _), Script.bind_ok (Script.call_ok hL _), Script.bind_ok (Script.call_ok hout' _)]
      obtain ⟨o1, o2⟩ := out
      have hx' : o1 = _ := hx
      clear_value cs
      subst hx'
      refine (Script.bind_ok (Script.call_ok (rfl : unpackPair _ = .ok (ApproxItem.costs cs, ApproxItem.zassenhaus ((phases42 j2).map some))) _)).trans ?_
      refine (Script.bind_ok (Script.call_ok (rfl : asCosts _ = .ok cs) _)).trans ?_
      refine (Script.bind_ok (Script.call_ok (rfl : asPhases _ = .ok ((phases42 j2).map some)) _)).trans ?_
      rw [hmin]
      refine (Script.bind_ok (Script.call_ok hm _)).trans ?_
      exact Script.bind_ok (Script.write_ok _ _)
    · exact List.map_congr_left habs
    · intro y hy
      obtain ⟨c, -, rfl⟩ := List.mem_map.1 hy
      exact abs_nonneg _
    · have h00 := hcost 0 (by omega)
      rw [hV0, zassGates_total, zassState_cost] at h00
      rw [List.getElem?_map, h00, Option.map_some, habs _ (List.mem_of_getElem? h00)]
    · intro k hk
      have hk' : k < j2 := by simpa [hml'] using hk
      have hp : (phases42 j2)[k]? = some (if k % 6 < 4 then .su4 else .su8) := by simp [phases42, hk']
      obtain ⟨c, hc, hmm⟩ := hmk k _ hp
      refine ⟨|c - (-1 - Real.sqrt 5)|, by rw [List.getElem?_map, hc]; rfl, ?_⟩
      rw [hmm, phases42_label _ _ hk' _ hp]
      congr 2
      by_cases h4 : k % 6 < 4
      · simp [h4]
      · simp [h4]; omega

/-- C137 (`tfim_zassenhaus`).  If its run succeeds, the first figure has fifty markers with both labels, whatever the ground energy; the second figure has the same fifty markers
and no label. -/
theorem C137_tfim {n : ℕ} (hn : 3 ≤ n) (E : LayerEnv n) (eigh : EighFn n) (rnd : ℕ → Matrix (Fin (2 ^ n)) (Fin (2 ^ n)) ℝ) (L : ZassLayer n)
    (hL : zassLayer n (tfimObservables n) {} (ratio := (4, 2)) = .ok L) (out : OptOut (ApproxItem n) × (Fin 1 → AnyLayer n))
    (h : approximateLieOptimizer E eigh rnd .state (tfimCircuit n) [] (tfimObservables n) (fun _ : Fin 1 => .zass L) [0] zassArgs = .ok out) (gs : ℝ) :
    ∃ zs ms ms', approxZassenhaus out.1 = some zs ∧ tfimZassMarkers (approxCosts out.1) gs zs = .ok (ms, ms') ∧ ms.length = 50 ∧
      (∃ m ∈ ms, m.label = some "SU(4) layer") ∧ (∃ m ∈ ms, m.label = some "Zass. SU(8) layer") ∧ ms' = ms.map (fun m => { m with label := none }) := by
  rw [tfimGates_obs (by omega)] at hL h
  obtain ⟨j, hj, hz⟩ := zass_phases hL rfl h
  obtain ⟨N, hN, h51⟩ := C51_no_tolerance _ _ _ _ _ _ _ _ _ _ _ h rfl
  obtain rfl : N = 50 := by have := hN.symm.trans zassArgs_valid.nsteps; simp at this; exact_mod_cast this
  have hj50 : j = 50 := by have := h51.1; omega
  subst hj50
  obtain ⟨ms, ms', hm, hms, hlab⟩ := C137_second (approxCosts out.1) gs (phases42 50) (by simp [phases42]; omega)
  obtain ⟨ms1, fl, h1, h2, -⟩ := markerLoop_ok (approxCosts out.1) gs (phases42 50) 0 {} (by simp [phases42]; omega)
  have hmm : ms = ms1 := by
    rw [tfimZassMarkers, h1, ok_bind] at hm
    obtain ⟨ms2, fl2, h3, -⟩ := markerLoop_ok (approxCosts out.1) gs (phases42 50) 0 fl (by simp [phases42]; omega)
    simp only [h3, ok_bind] at hm
    exact (Prod.mk.inj (Except.ok.inj hm)).1.symm
  refine ⟨_, ms, ms', hz, hm, by rw [hmm, h2]; simp [phases42], hlab .su4 ?_, hlab .su8 ?_, hms⟩
  · exact List.mem_map.2 ⟨0, by simp, rfl⟩
  · exact List.mem_map.2 ⟨4, by simp, rfl⟩

/-! ### Examples -/

/-- The hypotheses of C137 can be met; the script then saves its one figure or nothing. -/
example : ∃ (E : LayerEnv 3) (eigh : EighFn 3), ValidSvd E.svd ∧ ValidEigh eigh ∧
    ((zassMainScript E eigh (fun _ => 0) []).2 = [] ∨ (zassMainScript E eigh (fun _ => 0) []).2 = [.figure "su8_zass_optimizer_multi_obs_3"]) := by
  obtain ⟨svd, hs⟩ := exists_validSvd 3
  obtain ⟨gd, hgd⟩ := exists_validGd
  obtain ⟨eigh, he⟩ := exists_validEigh 3
  refine ⟨⟨svd, ⟨List.reverse, List.reverse_perm⟩, gd⟩, eigh, hs, he, ?_⟩
  obtain ⟨L, -, h1, h2⟩ := C137_script ⟨svd, ⟨List.reverse, List.reverse_perm⟩, gd⟩ hs eigh he (fun _ => 0) []
  generalize hr : approximateLieOptimizer _ eigh _ _ _ _ _ (fun _ : Fin 1 => AnyLayer.zass L) _ _ = r at h1 h2
  cases r with
  | error e => left; rw [h1 e rfl]
  | ok out => right; obtain ⟨fig, hf, -⟩ := h2 out rfl; rw [hf]; rfl

/-- Seven steps and eight costs: seven markers, the first of which has a label. -/
example : ∃ ms fl, markerLoop [7, 6, 5, 4, 3, 2, 1, 0] (-1) 0 ((phases42 7).map some) {} = .ok (ms, fl) ∧ ms.length = 7 ∧ ms[0]? = some ⟨0, 8, false, some "SU(4) layer"⟩ ∧
    ms[4]? = some ⟨4, 4, true, some "Zass. SU(8) layer"⟩ ∧ ms[5]? = some ⟨5, 3, true, none⟩ := by
  obtain ⟨ms, fl, h, hl, hk⟩ := C137_markers [7, 6, 5, 4, 3, 2, 1, 0] (-1) (phases42 7) (by simp [phases42])
  refine ⟨ms, fl, h, by rw [hl]; rfl, ?_, ?_, ?_⟩
  · obtain ⟨c, hc, hm⟩ := hk 0 .su4 rfl
    obtain rfl : (7 : ℝ) = c := by simpa using hc
    rw [hm]; norm_num; decide
  · obtain ⟨c, hc, hm⟩ := hk 4 .su8 rfl
    obtain rfl : (3 : ℝ) = c := by simpa using hc
    rw [hm]; norm_num; decide
  · obtain ⟨c, hc, hm⟩ := hk 5 .su8 rfl
    obtain rfl : (2 : ℝ) = c := by simpa using hc
    rw [hm]; norm_num; decide

end Oranssi
