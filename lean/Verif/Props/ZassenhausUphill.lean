import Verif.Props.ZassenhausSymmetry

/-! # C118: the SU(8) step of `ZassenhausLayer` can go uphill

The step rotates along a pair direction `B` by an angle computed from the gradient of the commutator and the previous angle.  The gradient of `B` does not enter; whether the
signs agree is only printed. -/

namespace Oranssi
open Spec
open scoped Matrix

variable {n : ℕ}

/-- The cost along a rotation. -/
theorem rotation_cost (H P U : QMat n) (hP : P * P = 1) (hP' : Pᴴ = P) (t : ℝ) : cost H (NormedSpace.exp ((-Complex.I * (t : ℂ)) • P) * U) =
    cost H U * Real.cos t ^ 2 + cost H (P * U) * Real.sin t ^ 2 - grad H U P * (Real.cos t * Real.sin t) := by
  set x : Ket n := fun i => U i 0 with hx
  have hcol : (fun i => (NormedSpace.exp ((-Complex.I * (t : ℂ)) • P) * U) i 0) = ((Real.cos t : ℝ) : ℂ) • x + (-Complex.I * ((Real.sin t : ℝ) : ℂ)) • (P *ᵥ x) := by
    rw [exp_neg_I_smul_involution P hP]
    funext i
    rw [Matrix.sub_mul, Matrix.smul_mul, Matrix.smul_mul, Matrix.one_mul]
    simp only [Matrix.sub_apply, Matrix.smul_apply, Pi.add_apply, Pi.smul_apply, hx, smul_eq_mul]
    rw [show (P *ᵥ fun i => U i 0) i = (P * U) i 0 from rfl]
    ring
  have hPx : ∀ z : Ket n, star (P *ᵥ x) ⬝ᵥ z = star x ⬝ᵥ P *ᵥ z := fun z => by
    rw [Matrix.star_mulVec, hP', ← Matrix.dotProduct_mulVec]
  rw [cost, hcol, cost, cost, grad, mul_column, Matrix.sub_mulVec, ← Matrix.mulVec_mulVec, ← Matrix.mulVec_mulVec]
  simp only [star_add, star_smul, Matrix.mulVec_add, Matrix.mulVec_smul, add_dotProduct, dotProduct_add, smul_dotProduct, dotProduct_smul, dotProduct_sub, ← hx, hPx]
  generalize star x ⬝ᵥ H *ᵥ x = a
  generalize star x ⬝ᵥ P *ᵥ H *ᵥ x = b
  generalize star x ⬝ᵥ H *ᵥ P *ᵥ x = c
  generalize star x ⬝ᵥ P *ᵥ H *ᵥ P *ᵥ x = d
  generalize Real.cos t = C
  generalize Real.sin t = S
  simp [Complex.add_re, Complex.mul_re, Complex.mul_im]
  ring

/-- Small steps along a direction with a gradient go down or up according to the sign of the angle. -/
theorem small_step (H P U : QMat n) (hP : P * P = 1) (hP' : Pᴴ = P) (r : ℝ) (hg : grad H U P ≠ 0) (hr : r ≠ 0) : ∃ e₀ > 0, ∀ e, 0 < e → e < e₀ →
    (0 < r * grad H U P → cost H (NormedSpace.exp ((-Complex.I * ((e * r : ℝ) : ℂ)) • P) * U) < cost H U) ∧
    (r * grad H U P < 0 → cost H U < cost H (NormedSpace.exp ((-Complex.I * ((e * r : ℝ) : ℂ)) • P) * U)) := by
  set g := grad H U P with hgdef
  set D := cost H (P * U) - cost H U with hD
  have hr' := abs_pos.2 hr
  have hg' := abs_pos.2 hg
  refine ⟨min 1 (|g| / (2 * (|D| + 1))) / |r|, by positivity, fun e he he' => ?_⟩
  have ht : |e * r| < min 1 (|g| / (2 * (|D| + 1))) := by
    rw [abs_mul, abs_of_pos he]
    exact (lt_div_iff₀ hr').1 he'
  obtain ⟨t1, t2⟩ := lt_min_iff.1 ht
  rw [rotation_cost H P U hP hP', ← hgdef]
  set t := e * r with htdef
  have hcos : 1 / 2 ≤ Real.cos t := by
    have := Real.one_sub_sq_div_two_le_cos (x := t)
    have h2 : t ^ 2 ≤ 1 := by rw [← sq_abs]; nlinarith [abs_nonneg t]
    linarith
  have hsin : |Real.sin t| ≤ |t| := Real.abs_sin_le_abs
  have hDs : |D * Real.sin t| < |g| * Real.cos t := by
    rw [abs_mul]
    have h3 : |D| * |Real.sin t| ≤ |D| * |t| := mul_le_mul_of_nonneg_left hsin (abs_nonneg _)
    have h4 : |D| * |t| ≤ (|D| + 1) * |t| := by nlinarith [abs_nonneg t]
    have h5 : (|D| + 1) * |t| < |g| / 2 := by
      rw [lt_div_iff₀ (by positivity)] at t2
      linarith
    nlinarith
  obtain ⟨h6, h7⟩ := abs_lt.1 hDs
  have e1 : cost H U * Real.cos t ^ 2 + cost H (P * U) * Real.sin t ^ 2 - g * (Real.cos t * Real.sin t) =
      cost H U + Real.sin t * (D * Real.sin t - g * Real.cos t) := by
    have := Real.sin_sq_add_cos_sq t
    rw [show Real.cos t ^ 2 = 1 - Real.sin t ^ 2 by linarith, hD]
    ring
  rw [e1]
  have hb := abs_lt.1 t1
  have hpi := Real.pi_gt_three
  have hsign : ∀ {x : ℝ}, 0 < x → x < 1 → 0 < Real.sin x := fun h1 h2 => Real.sin_pos_of_pos_of_lt_pi h1 (by linarith)
  constructor
  · intro h
    rcases lt_or_gt_of_ne hr with hn | hp
    · have hgn : g < 0 := by by_contra hc; nlinarith
      have : Real.sin t < 0 := by
        have := hsign (x := -t) (by rw [htdef]; nlinarith) (by linarith)
        rw [Real.sin_neg] at this
        linarith
      rw [abs_of_neg hgn] at h6 h7
      nlinarith
    · have hgp : 0 < g := by by_contra hc; nlinarith
      have : 0 < Real.sin t := hsign (by rw [htdef]; positivity) hb.2
      rw [abs_of_pos hgp] at h6 h7
      nlinarith
  · intro h
    rcases lt_or_gt_of_ne hr with hn | hp
    · have hgp : 0 < g := by by_contra hc; nlinarith
      have : Real.sin t < 0 := by
        have := hsign (x := -t) (by rw [htdef]; nlinarith) (by linarith)
        rw [Real.sin_neg] at this
        linarith
      rw [abs_of_pos hgp] at h6 h7
      nlinarith
    · have hgn : g < 0 := by by_contra hc; nlinarith
      have : 0 < Real.sin t := hsign (by rw [htdef]; positivity) hb.2
      rw [abs_of_neg hgn] at h6 h7
      nlinarith

/-- C118 (exact cost): after any history, a successful call in the phase `su8` with step size `eta` gives the circuit `V eta`, where `V e` is the old circuit rotated along a pair
direction `B` with gradient `g ≠ 0` by the angle `t = e·ω/2ⁿ`, and `ω = -(2 g_AB/η)/σ ≠ 0`.  The cost of `V e` is `c cos² t + c' sin² t - g cos t sin t`, where `c` is the old cost
and `c'` that of the old circuit followed by `B`.  For small step sizes it is below `c` if `ω g` is positive and above `c` if it is negative. -/
theorem C118_step (ord ord' : SetOrder ℕ) (gs : List (Gate n)) (args : LayerArgs) (b2 : Bool) (r : ℤ × ℤ) (L₀ L L' : ZassLayer n)
    (hL : zassLayer n (gs.map Gate.obs) args false b2 r = .ok L₀) (Us : List (QMat n)) (h : L₀.runAll ord Us = .ok L) (hp : L.phase = .su8) (U X : QMat n)
    (hcall : L.call ord' U = .ok (X, L')) :
    ∃ wa qa wb qb w q σ η, L.currentPauli = some (letterStr wa, qa) ∧ L.previousEta = some η ∧ IsCandidate n wa qa wb qb w q σ ∧
      ∃ (B : QMat n) (ω : ℝ) (V : ℝ → QMat n), B = pauliWord (placed n wb qb) ∧ ω = -(grad (totalObs gs) U (pauliWord (placed n w q)) * 2 / η) / σ ∧
      ω * grad (totalObs gs) U B ≠ 0 ∧ X = V L.eta ∧
      (∀ e t, t = e * ω / 2 ^ n → V e = NormedSpace.exp ((-Complex.I * (t : ℂ)) • B) * U ∧ cost (totalObs gs) (V e) =
        cost (totalObs gs) U * Real.cos t ^ 2 + cost (totalObs gs) (B * U) * Real.sin t ^ 2 - grad (totalObs gs) U B * (Real.cos t * Real.sin t)) ∧
      ∃ e₀ > 0, ∀ e, 0 < e → e < e₀ → (0 < ω * grad (totalObs gs) U B → cost (totalObs gs) (V e) < cost (totalObs gs) U) ∧
        (ω * grad (totalObs gs) U B < 0 → cost (totalObs gs) U < cost (totalObs gs) (V e)) := by
  have hg := zassGood_run Us L₀ L (zassGood_init hL) h
  obtain ⟨wa, qa, η, ha, hcur, hη⟩ := hg.cur.resolve_left (by rw [hp]; simp)
  rw [ZassLayer.call, hp] at hcall
  dsimp only at hcall
  rcases su8_call ord' hg ha hcur hη U with ⟨wb, qb, w, q, σ, hcand, hAB, hB, k1, k2⟩ | ⟨-, k⟩
  swap
  · rw [k] at hcall; simp at hcall
  by_cases h0 : η = 0
  · rw [k1 h0] at hcall; simp at hcall
  obtain ⟨L'', m1, -⟩ := k2 h0
  rw [m1] at hcall
  obtain ⟨rfl, -⟩ := Prod.mk.inj (Except.ok.inj hcall)
  have hσ : σ ≠ 0 := by rcases hcand.sign with h | h <;> rw [h] <;> norm_num
  have hAB0 : grad (totalObs gs) U (pauliWord (placed n w q)) ≠ 0 := by
    intro hc
    rw [hc] at hAB
    norm_num at hAB
  set ω := -(grad (totalObs gs) U (pauliWord (placed n w q)) * 2 / η) / σ with hω
  have hω0 : ω ≠ 0 := div_ne_zero (neg_ne_zero.2 (div_ne_zero (mul_ne_zero hAB0 two_ne_zero) h0)) hσ
  refine ⟨wa, qa, wb, qb, w, q, σ, η, hcur, hη, hcand, _, ω, fun e => NormedSpace.exp ((-Complex.I * ((e * ω / 2 ^ n : ℝ) : ℂ)) • pauliWord (placed n wb qb)) * U, rfl, hω,
    mul_ne_zero hω0 hB, rfl, fun e t ht => ?_, ?_⟩
  · subst ht
    exact ⟨rfl, rotation_cost _ _ _ (pauliWord_sq _) (pauliWord_herm _) _⟩
  · have h2 : (0 : ℝ) < 2 ^ n := by positivity
    obtain ⟨e₀, he₀, hs⟩ := small_step (totalObs gs) _ U (pauliWord_sq (placed n wb qb)) (pauliWord_herm _) (ω / 2 ^ n) hB (div_ne_zero hω0 h2.ne')
    refine ⟨e₀, he₀, fun e h3 h4 => ?_⟩
    have h5 := hs e h3 h4
    rw [show e * (ω / 2 ^ n) = e * ω / 2 ^ n by ring, show ω / 2 ^ n * grad (totalObs gs) U (pauliWord (placed n wb qb)) =
      ω * grad (totalObs gs) U (pauliWord (placed n wb qb)) / 2 ^ n by ring] at h5
    exact ⟨fun h6 => h5.1 (div_pos h6 h2), fun h6 => h5.2 (div_neg_of_neg_of_pos h6 h2)⟩

/-! ### Two calls -/

/-- Two observables on three qubits: X on the qubits 0 and 1, and X on qubit 2. -/
noncomputable def upObs : List (Gate 3) := [bondObs 0 1 (by omega) (by omega) (by omega) .X .X, siteObs 2 (by omega) .X]

theorem upObs_total : totalObs upObs = pauliWord (placed 3 [.X, .X] [0, 1]) + pauliWord (placed 3 [.X] [2]) := by
  simp only [totalObs, upObs, List.map_cons, List.map_nil, List.sum_cons, List.sum_nil, add_zero, bondObs_full, siteObs_full]

/-- The first column of the circuits: `c|000⟩ + s|110⟩`. -/
def InPlane (U : QMat 3) (c s : ℝ) : Prop := (fun i => U i 0) = (c : ℂ) • (Pi.single 0 1 : Ket 3) + (s : ℂ) • (Pi.single 6 1 : Ket 3)

theorem plane_quad (M : QMat 3) (c s : ℝ) : star ((c : ℂ) • (Pi.single 0 1 : Ket 3) + (s : ℂ) • (Pi.single 6 1 : Ket 3)) ⬝ᵥ M *ᵥ ((c : ℂ) • (Pi.single 0 1 : Ket 3) + (s : ℂ) • (Pi.single 6 1 : Ket 3)) =
    c * c * M 0 0 + c * s * M 0 6 + s * c * M 6 0 + s * s * M 6 6 := by
  have e : ∀ i j : Fin (2 ^ 3), star (Pi.single i 1 : Ket 3) ⬝ᵥ M *ᵥ (Pi.single j 1 : Ket 3) = M i j := fun i j => by
    rw [Matrix.mulVec_single_one, ← Pi.single_star, star_one, single_one_dotProduct]
    rfl
  simp only [star_add, star_smul, Matrix.mulVec_add, Matrix.mulVec_smul, add_dotProduct, dotProduct_add, smul_dotProduct, dotProduct_smul, e, smul_eq_mul, Complex.star_def,
    Complex.conj_ofReal]
  ring

/-- Expectation of two letters in the state `c|00⟩ + s|11⟩`. -/
noncomputable def pairExp (c s : ℝ) : Letter → Letter → ℝ
  | .I, .I => c ^ 2 + s ^ 2
  | .Z, .Z => c ^ 2 + s ^ 2
  | .I, .Z => c ^ 2 - s ^ 2
  | .Z, .I => c ^ 2 - s ^ 2
  | .X, .X => 2 * (c * s)
  | .Y, .Y => -(2 * (c * s))
  | _, _ => 0

/-- The gradients of both observables in such a circuit. -/
noncomputable def planeGrad (c s : ℝ) : Letter → Letter → Letter → ℝ
  | a, b, .Y => -2 * pairExp c s a b
  | .X, .Y, .I => -2 * (c ^ 2 - s ^ 2)
  | .Y, .X, .I => -2 * (c ^ 2 - s ^ 2)
  | .X, .Y, .Z => -2 * (c ^ 2 - s ^ 2)
  | .Y, .X, .Z => -2 * (c ^ 2 - s ^ 2)
  | _, _, _ => 0

theorem grad_plane {U : QMat 3} {c s : ℝ} (hU : InPlane U c s) (w : Fin 3 → Letter) : grad (totalObs upObs) U (pauliWord w) = planeGrad c s (w 0) (w 1) (w 2) := by
  rw [grad, hU, plane_quad, upObs_total, mul_add, add_mul, pauliWord, pauliWord, pauliWord, tensor_mul, tensor_mul, tensor_mul, tensor_mul]
  simp only [tensor, Fin.prod_univ_three, Matrix.sub_apply, Matrix.add_apply]
  have e0 : placed 3 [.X] [2] 0 = .I := by decide
  have e1 : placed 3 [.X] [2] 1 = .I := by decide
  have e2 : placed 3 [.X] [2] 2 = .X := by decide
  have f0 : placed 3 [.X, .X] [0, 1] 0 = .X := by decide
  have f1 : placed 3 [.X, .X] [0, 1] 1 = .X := by decide
  have f2 : placed 3 [.X, .X] [0, 1] 2 = .I := by decide
  have b0 : ∀ q : Fin 3, bit 3 ((0 : Fin (2 ^ 3)) : ℕ) q = 0 := fun q => by simp [bit]
  have b60 : bit 3 ((6 : Fin (2 ^ 3)) : ℕ) ((0 : Fin 3) : ℕ) = 1 := by decide
  have b61 : bit 3 ((6 : Fin (2 ^ 3)) : ℕ) ((1 : Fin 3) : ℕ) = 1 := by decide
  have b62 : bit 3 ((6 : Fin (2 ^ 3)) : ℕ) ((2 : Fin 3) : ℕ) = 0 := by decide
  simp only [e0, e1, e2, f0, f1, f2, b0, b60, b61, b62]
  generalize w 0 = x
  generalize w 1 = y
  generalize w 2 = z
  cases z <;> cases x <;> cases y <;> simp [Letter.mat, planeGrad, pairExp] <;> ring

theorem cost_plane {U : QMat 3} {c s : ℝ} (hU : InPlane U c s) : cost (totalObs upObs) U = 2 * (c * s) := by
  rw [cost, hU, plane_quad, upObs_total]
  simp only [Matrix.add_apply, pauliWord, tensor, Fin.prod_univ_three]
  have e0 : placed 3 [.X] [2] 0 = .I := by decide
  have e1 : placed 3 [.X] [2] 1 = .I := by decide
  have e2 : placed 3 [.X] [2] 2 = .X := by decide
  have f0 : placed 3 [.X, .X] [0, 1] 0 = .X := by decide
  have f1 : placed 3 [.X, .X] [0, 1] 1 = .X := by decide
  have f2 : placed 3 [.X, .X] [0, 1] 2 = .I := by decide
  have b0 : ∀ q : Fin 3, bit 3 ((0 : Fin (2 ^ 3)) : ℕ) q = 0 := fun q => by simp [bit]
  have b60 : bit 3 ((6 : Fin (2 ^ 3)) : ℕ) ((0 : Fin 3) : ℕ) = 1 := by decide
  have b61 : bit 3 ((6 : Fin (2 ^ 3)) : ℕ) ((1 : Fin 3) : ℕ) = 1 := by decide
  have b62 : bit 3 ((6 : Fin (2 ^ 3)) : ℕ) ((2 : Fin 3) : ℕ) = 0 := by decide
  simp only [e0, e1, e2, f0, f1, f2, b0, b60, b61, b62]
  simp [Letter.mat]
  ring

theorem plane_rotation (θ : ℝ) : InPlane (NormedSpace.exp ((-Complex.I * (θ : ℂ)) • pauliWord (placed 3 [.X, .Y] [0, 1])) * 1) (Real.cos θ) (Real.sin θ) := by
  rw [InPlane, exp_neg_I_smul_involution _ (pauliWord_sq _), mul_one]
  funext i
  have f0 : placed 3 [.X, .Y] [0, 1] 0 = .X := by decide
  have f1 : placed 3 [.X, .Y] [0, 1] 1 = .Y := by decide
  have f2 : placed 3 [.X, .Y] [0, 1] 2 = .I := by decide
  simp only [Matrix.sub_apply, Matrix.smul_apply, pauliWord, tensor, Fin.prod_univ_three, f0, f1, f2, Pi.add_apply, Pi.smul_apply, Pi.single_apply, Matrix.one_apply, smul_eq_mul]
  fin_cases i <;> simp [bit, Letter.mat]
  change -(Complex.I * Complex.sin θ * (Complex.I * (1 : Mat2) 0 0)) = Complex.sin θ
  rw [Matrix.one_apply_eq, mul_one, mul_right_comm, Complex.I_mul_I]
  ring

theorem up_first : IsFirstMax (fun e : Key × QMat 3 => |grad (totalObs upObs) 1 e.2|) (stdDict 3 (allWords [2])) (("XY", [0, 1]), pauliWord (placed 3 [.X, .Y] [0, 1])) := by
  have h1 : InPlane (1 : QMat 3) 1 0 := by
    have := plane_rotation 0
    simpa using this
  have e1 : allWords [2] = [Letter.X, .X] :: [.X, .Y] :: (wordsXYZ 2).tail.tail := by decide
  have e2 : combinations (List.range 3) 2 = [[0, 1], [0, 2], [1, 2]] := by decide
  have hY : grad (totalObs upObs) 1 (pauliWord (placed 3 [.X, .Y] [0, 1])) = -2 := by
    rw [grad_plane h1, show placed 3 [.X, .Y] [0, 1] 0 = .X by decide, show placed 3 [.X, .Y] [0, 1] 1 = .Y by decide, show placed 3 [.X, .Y] [0, 1] 2 = .I by decide, planeGrad]
    norm_num
  refine ⟨stdDict 3 [[.X, .X]], (("XY", [0, 2]), pauliWord (placed 3 [.X, .Y] [0, 2])) :: (("XY", [1, 2]), pauliWord (placed 3 [.X, .Y] [1, 2])) ::
    stdDict 3 (wordsXYZ 2).tail.tail, ?_, ?_, ?_⟩
  · rw [e1, stdDict_cons, stdDict_cons 3 [.X, .Y], stdDict_cons 3 [.X, .X] [], show ([Letter.X, .X] : List Letter).length = 2 from rfl,
      show ([Letter.X, .Y] : List Letter).length = 2 from rfl, e2]
    rfl
  · intro e he
    simp only [hY]
    have h0 : grad (totalObs upObs) 1 e.2 = 0 := by
      obtain ⟨w, hw, q, hq, rfl⟩ := mem_stdDict.1 he
      obtain rfl := List.mem_singleton.1 hw
      rw [show ([Letter.X, .X] : List Letter).length = 2 from rfl, e2] at hq
      simp only [List.mem_cons, List.not_mem_nil, or_false] at hq
      simp only [grad_plane h1]
      rcases hq with rfl | rfl | rfl
      · rw [show placed 3 [.X, .X] [0, 1] 0 = .X by decide, show placed 3 [.X, .X] [0, 1] 1 = .X by decide, show placed 3 [.X, .X] [0, 1] 2 = .I by decide, planeGrad] <;> simp
      · rw [show placed 3 [.X, .X] [0, 2] 0 = .X by decide, show placed 3 [.X, .X] [0, 2] 1 = .I by decide, show placed 3 [.X, .X] [0, 2] 2 = .X by decide, planeGrad] <;> simp
      · rw [show placed 3 [.X, .X] [1, 2] 0 = .I by decide, show placed 3 [.X, .X] [1, 2] 1 = .X by decide, show placed 3 [.X, .X] [1, 2] 2 = .X by decide, planeGrad] <;> simp
    rw [h0]
    norm_num
  · have hle : ∀ x y z, |planeGrad 1 0 x y z| ≤ 2 := by
      intro x y z
      cases z <;> cases x <;> cases y <;> simp [planeGrad, pairExp]
    intro e he
    have : ∃ v, e.2 = pauliWord v := by
      simp only [List.mem_cons] at he
      rcases he with rfl | rfl | he
      · exact ⟨_, rfl⟩
      · exact ⟨_, rfl⟩
      · exact stdDict_words e he
    obtain ⟨v, hv⟩ := this
    simp only [hv, hY, grad_plane h1]
    rw [show |(-2 : ℝ)| = 2 by norm_num]
    exact hle _ _ _

/-- The pair directions that share one qubit with the qubits 0 and 1. -/
theorem pair_cases {wb : List Letter} {qb : List ℕ} (h : IsDirection 3 2 wb qb) (hs : (qb.filter (fun x => x ∈ [0, 1])).length = 1) :
    ∃ a b, wb = [a, b] ∧ (qb = [0, 2] ∨ qb = [1, 2]) := by
  obtain ⟨a, b, rfl⟩ := List.length_eq_two.1 h.letters
  obtain ⟨i, j, rfl⟩ := List.length_eq_two.1 h.qubits
  refine ⟨a, b, rfl, ?_⟩
  have h1 : i < j := by simpa using h.increasing
  have h2 : j < 3 := h.valid j (by simp)
  have : (i, j) = (0, 1) ∨ (i, j) = (0, 2) ∨ (i, j) = (1, 2) := by simp only [Prod.mk.injEq]; omega
  rcases this with h | h | h <;> obtain ⟨rfl, rfl⟩ := Prod.mk.inj h
  · simp at hs
  · exact .inl rfl
  · exact .inr rfl

/-- Among those, only ZY has a gradient. -/
theorem zy_only {U : QMat 3} {c s : ℝ} (hU : InPlane U c s) {wb : List Letter} {qb : List ℕ} (h : IsDirection 3 2 wb qb)
    (hs : (qb.filter (fun x => x ∈ [0, 1])).length = 1) (hg : grad (totalObs upObs) U (pauliWord (placed 3 wb qb)) ≠ 0) : wb = [.Z, .Y] ∧ (qb = [0, 2] ∨ qb = [1, 2]) := by
  obtain ⟨a, b, rfl, hq⟩ := pair_cases h hs
  have ha : a ≠ .I := fun hc => h.noI (by simp [hc])
  have hb : b ≠ .I := fun hc => h.noI (by simp [hc])
  refine ⟨?_, hq⟩
  rw [grad_plane hU] at hg
  rcases hq with rfl | rfl
  · rw [show placed 3 [a, b] [0, 2] 0 = a from rfl, show placed 3 [a, b] [0, 2] 1 = .I from rfl, show placed 3 [a, b] [0, 2] 2 = b from rfl] at hg
    cases a <;> cases b <;> simp_all [planeGrad, pairExp]
  · rw [show placed 3 [a, b] [1, 2] 0 = .I from rfl, show placed 3 [a, b] [1, 2] 1 = a from rfl, show placed 3 [a, b] [1, 2] 2 = b from rfl] at hg
    cases a <;> cases b <;> simp_all [planeGrad, pairExp]

theorem up_comm02 : pauliWord (placed 3 [.X, .Y] [0, 1]) * pauliWord (placed 3 [.Z, .Y] [0, 2]) - pauliWord (placed 3 [.Z, .Y] [0, 2]) * pauliWord (placed 3 [.X, .Y] [0, 1]) =
    (Complex.I * ((-2 : ℝ) : ℂ)) • pauliWord (placed 3 [.Y, .Y, .Y] [0, 1, 2]) := by
  have h1 : Letter.X.mat * Letter.Z.mat = (-Complex.I) • Letter.Y.mat := by
    ext i j; fin_cases i <;> fin_cases j <;> simp [Letter.mat, Matrix.mul_apply, Fin.sum_univ_two]
  have h2 : Letter.Z.mat * Letter.X.mat = Complex.I • Letter.Y.mat := by
    ext i j; fin_cases i <;> fin_cases j <;> simp [Letter.mat, Matrix.mul_apply, Fin.sum_univ_two]
  have h3 : Letter.I.mat = 1 := by
    ext i j; fin_cases i <;> fin_cases j <;> simp [Letter.mat]
  simp only [pauliWord, tensor_mul]
  ext r c
  simp [tensor, Fin.prod_univ_three, placed, List.idxOf, List.findIdx_cons, h1, h2, h3]
  ring

theorem up_comm12 : pauliWord (placed 3 [.X, .Y] [0, 1]) * pauliWord (placed 3 [.Z, .Y] [1, 2]) - pauliWord (placed 3 [.Z, .Y] [1, 2]) * pauliWord (placed 3 [.X, .Y] [0, 1]) =
    (Complex.I * ((2 : ℝ) : ℂ)) • pauliWord (placed 3 [.X, .X, .Y] [0, 1, 2]) := by
  have h1 : Letter.Y.mat * Letter.Z.mat = Complex.I • Letter.X.mat := by
    ext i j; fin_cases i <;> fin_cases j <;> simp [Letter.mat, Matrix.mul_apply, Fin.sum_univ_two]
  have h2 : Letter.Z.mat * Letter.Y.mat = (-Complex.I) • Letter.X.mat := by
    ext i j; fin_cases i <;> fin_cases j <;> simp [Letter.mat, Matrix.mul_apply, Fin.sum_univ_two]
  have h3 : Letter.I.mat = 1 := by
    ext i j; fin_cases i <;> fin_cases j <;> simp [Letter.mat]
  simp only [pauliWord, tensor_mul]
  ext r c
  simp [tensor, Fin.prod_univ_three, placed, List.idxOf, List.findIdx_cons, h1, h2, h3]
  ring

/-- The quotient of gradient and sign does not depend on how the commutator is written. -/
theorem grad_sign (H U P P' : QMat n) (σ σ' : ℝ) (hσ : σ = 2 ∨ σ = -2) (hσ' : σ' = 2 ∨ σ' = -2) (h : (Complex.I * (σ : ℂ)) • P = (Complex.I * (σ' : ℂ)) • P') :
    grad H U P / σ = grad H U P' / σ' := by
  have e : P = ((σ' / σ : ℝ) : ℂ) • P' := by
    have hI : Complex.I * (σ : ℂ) ≠ 0 := by
      refine mul_ne_zero Complex.I_ne_zero (Complex.ofReal_ne_zero.2 ?_)
      rcases hσ with h | h <;> rw [h] <;> norm_num
    have := congrArg (fun M => (Complex.I * (σ : ℂ))⁻¹ • M) h
    simp only [smul_smul, inv_mul_cancel₀ hI, one_smul] at this
    rw [this]
    congr 1
    push_cast
    field_simp
  have hlin : ∀ r : ℝ, grad H U ((r : ℂ) • P') = r * grad H U P' := fun r => by
    rw [grad, grad, smul_mul_assoc, mul_smul_comm, ← smul_sub, Matrix.smul_mulVec, dotProduct_smul, smul_eq_mul, Complex.im_ofReal_mul]
  rw [e, hlin]
  rcases hσ with rfl | rfl <;> rcases hσ' with rfl | rfl <;> ring

theorem cost_flipped {H B U : QMat n} (hB : B * B = 1) (hB' : Bᴴ = B) (h : B * H = -(H * B)) : cost H (B * U) = -cost H U := by
  rw [cost, cost, mul_column, Matrix.star_mulVec, hB', ← Matrix.dotProduct_mulVec, Matrix.mulVec_mulVec, Matrix.mulVec_mulVec, h, Matrix.neg_mul, mul_assoc, hB, mul_one,
    Matrix.neg_mulVec, dotProduct_neg, Complex.neg_re]

theorem up_anti (q : ℕ) (hq : q = 0 ∨ q = 1) : pauliWord (placed 3 [.Z, .Y] [q, 2]) * totalObs upObs = -(totalObs upObs * pauliWord (placed 3 [.Z, .Y] [q, 2])) := by
  rw [upObs_total, mul_add, add_mul, pauliWord_swap, pauliWord_swap (placed 3 [.Z, .Y] [q, 2]) (placed 3 [.X] [2]), Fin.prod_univ_three, Fin.prod_univ_three]
  have e : ∀ M N : QMat 3, -(M + N) = (-1 : ℂ) • M + (-1 : ℂ) • N := fun M N => by rw [neg_one_smul, neg_one_smul, neg_add]
  rw [e]
  rcases hq with rfl | rfl
  · congr 2 <;> simp [placed, List.idxOf, List.findIdx_cons, letterSign]
  · congr 2 <;> simp [placed, List.idxOf, List.findIdx_cons, letterSign]

theorem zassLayer_eta (hn : 3 ≤ n) (gs : List (Gate n)) (r : ℤ × ℤ) (e : ℝ) (h0 : 0 ≤ e) (h1 : e ≤ 1) :
    ∃ L, zassLayer n (gs.map Gate.obs) { eta := some (.float e) } false false r = .ok L ∧ L.eta = e := by
  obtain ⟨a0, k0, k1, k2, k3, k4⟩ := algebraSU8_attrs n false false
  have hl2 : (lens8 false false).Nodup := by simp [lens8]
  have h02 : 0 ∉ lens8 false false := by simp [lens8]
  have hne : ∀ w ∈ allWords (lens8 false false), w ≠ [] := fun w hw hc => h02 (by simpa [hc] using (mem_allWords.1 hw).1)
  have ha := getAll8_std (allWords_nodup hl2) hne _ k1 k2 k4 [] (Or.inl rfl) k3
  obtain ⟨m1, m2, m3, m4⟩ := algebraSU4_attrs n false
  have kl : ∀ w ∈ allWords (if false then [1, 2] else [2]), w.length = 1 ∨ w.length = 2 := fun w hw => by
    have := (mem_allWords.1 hw).1; simp at this; simp [this]
  have hka := getAll_std (allWords_nodup (by simp)) kl _ m1 m2 m3 [] (Or.inl rfl) m4
  obtain ⟨a2, hk2, -⟩ := C27_su2 n
  rw [zassLayer, promoteAll_gates, k0, hka, hk2]
  simp only [bind, Except.bind, ha]
  rw [show validateEta (Option.getD (some (PyVal.float e)) (.float 0.1)) = .ok e from validateEta_float h0 h1, show pyAssert (n ≥ 3) = .ok () from by simp [pyAssert, hn]]
  exact ⟨_, rfl, rfl⟩

theorem up_calls (ord : SetOrder ℕ) (e : ℝ) (h0 : 0 < e) (h1 : e ≤ 1) : ∃ L₀ V₁ L₁ V₂ L₂, zassLayer 3 (upObs.map Gate.obs) { eta := some (.float e) } = .ok L₀ ∧
    L₀.call ord 1 = .ok (V₁, L₁) ∧ L₁.phase = .su8 ∧ (∃ c s, InPlane V₁ c s) ∧ L₁.call ord V₁ = .ok (V₂, L₂) ∧ cost (totalObs upObs) 1 = 0 ∧ cost (totalObs upObs) V₁ = -(√2 / 2) ∧
    cost (totalObs upObs) V₂ = √2 / 2 * (Real.sin (2 * (e * √2 / (4 * Real.pi))) - Real.cos (2 * (e * √2 / (4 * Real.pi)))) ∧
    cost (totalObs upObs) V₁ < cost (totalObs upObs) V₂ := by
  obtain ⟨L₀, hL, heta⟩ := zassLayer_eta le_rfl upObs (1, 1) e h0.le h1
  have hg := zassGood_init hL
  obtain ⟨-, -, -, -, -, hr, hc0, hp, -⟩ := zassLayer_inv hL
  obtain ⟨V₁, L₁, hc1⟩ := C43_su4_partial ord upObs { eta := some (.float e) } false (1, 1) L₀ L₀ hL [] rfl hp 1
  obtain ⟨-, eeta, -, -, -, -, h5, -⟩ := zass_call_phase hc1
  obtain ⟨hc1', -, hp1⟩ := h5 hp
  rw [hr, hc0] at hp1
  have hp1' : L₁.phase = .su8 := hp1
  have hg1 := (zassGood_step hg hc1).1
  obtain ⟨k, P, hmax, hcur, η, hroto, hη⟩ := su4_call le_rfl hg hc1'
  obtain ⟨rfl, rfl⟩ := Prod.mk.inj (IsFirstMax_unique hmax up_first)
  -- the first call
  have hpi := Real.pi_pos
  have hcost : ∀ t : ℝ, cost (totalObs upObs) (NormedSpace.exp ((-Complex.I * ((t / 2 ^ 2 : ℝ) : ℂ)) • pauliWord (placed 3 [.X, .Y] [0, 1])) * 1) = Real.sin (t / 2) := fun t => by
    rw [cost_plane (plane_rotation _), show t / 2 = 2 * (t / 2 ^ 2) by ring, Real.sin_two_mul]
    ring
  have hs : 0 < Real.sin (Real.pi / 2 / 2) := Real.sin_pos_of_pos_of_lt_pi (by positivity) (by linarith)
  have hro := rotosolve_ok (pauliWord (placed 3 [.X, .Y] [0, 1])) 1 upObs 2
  simp only [hcost] at hro
  rw [show -(Real.pi / 2) / 2 = -(Real.pi / 2 / 2) by ring, Real.sin_neg, zero_div, Real.sin_zero, show (2 : ℝ) * 0 - Real.sin (Real.pi / 2 / 2) - -Real.sin (Real.pi / 2 / 2) = 0 by ring,
    show arctan2 0 (Real.sin (Real.pi / 2 / 2) - -Real.sin (Real.pi / 2 / 2)) = 0 from by
      rw [arctan2]; exact Complex.arg_ofReal_of_nonneg (x := Real.sin (Real.pi / 2 / 2) - -Real.sin (Real.pi / 2 / 2)) (by linarith)] at hro
  rw [show ("XY" : String).toList.length = 2 from by decide, hro] at hroto
  obtain ⟨hV₁, hη'⟩ := Prod.mk.inj (Except.ok.inj hroto)
  have hplane := plane_rotation (((-Real.pi / 2 - 0) / 2 ^ 2 : ℝ))
  rw [hV₁] at hplane
  rw [sub_zero] at hη' hplane
  set C := Real.cos (-Real.pi / 2 / 2 ^ 2) with hC
  set S := Real.sin (-Real.pi / 2 / 2 ^ 2) with hS
  have k1 : C ^ 2 - S ^ 2 = √2 / 2 := by
    rw [hC, hS, ← Real.cos_two_mul', show 2 * (-Real.pi / 2 / 2 ^ 2) = -(Real.pi / 4) by ring, Real.cos_neg, Real.cos_pi_div_four]
  have k2 : 2 * (C * S) = -(√2 / 2) := by
    rw [show 2 * (C * S) = 2 * S * C by ring, hC, hS, ← Real.sin_two_mul, show 2 * (-Real.pi / 2 / 2 ^ 2) = -(Real.pi / 4) by ring, Real.sin_neg, Real.sin_pi_div_four]
  have hcV₁ : cost (totalObs upObs) V₁ = -(√2 / 2) := by rw [cost_plane hplane, k2]
  have hc : cost (totalObs upObs) 1 = 0 := by
    have := hcost 0
    simpa using this
  have hY3 : grad (totalObs upObs) V₁ (pauliWord (placed 3 [.Y, .Y, .Y] [0, 1, 2])) = -√2 := by
    rw [grad_plane hplane, show placed 3 [.Y, .Y, .Y] [0, 1, 2] 0 = .Y from rfl, show placed 3 [.Y, .Y, .Y] [0, 1, 2] 1 = .Y from rfl,
      show placed 3 [.Y, .Y, .Y] [0, 1, 2] 2 = .Y from rfl, planeGrad, pairExp, k2]
    ring
  have hX2 : grad (totalObs upObs) V₁ (pauliWord (placed 3 [.X, .X, .Y] [0, 1, 2])) = √2 := by
    rw [grad_plane hplane, show placed 3 [.X, .X, .Y] [0, 1, 2] 0 = .X from rfl, show placed 3 [.X, .X, .Y] [0, 1, 2] 1 = .X from rfl,
      show placed 3 [.X, .X, .Y] [0, 1, 2] 2 = .Y from rfl, planeGrad, pairExp, k2]
    ring
  have hB : ∀ q, q = 0 ∨ q = 1 → grad (totalObs upObs) V₁ (pauliWord (placed 3 [.Z, .Y] [q, 2])) = -√2 := by
    rintro q (rfl | rfl)
    · rw [grad_plane hplane, show placed 3 [.Z, .Y] [0, 2] 0 = .Z from rfl, show placed 3 [.Z, .Y] [0, 2] 1 = .I from rfl, show placed 3 [.Z, .Y] [0, 2] 2 = .Y from rfl, planeGrad, pairExp, k1]
      ring
    · rw [grad_plane hplane, show placed 3 [.Z, .Y] [1, 2] 0 = .I from rfl, show placed 3 [.Z, .Y] [1, 2] 1 = .Z from rfl, show placed 3 [.Z, .Y] [1, 2] 2 = .Y from rfl, planeGrad, pairExp, k1]
      ring
  have h2 : 0 < √2 := Real.sqrt_pos.2 two_pos
  have ha : IsDirection 3 2 [.X, .Y] [0, 1] := ⟨rfl, rfl, by simp, by simp, by simp⟩
  have hη0 : η ≠ 0 := by rw [← hη']; exact (div_neg_of_neg_of_pos (neg_neg_of_pos hpi) two_pos).ne
  rcases su8_call ord hg1 ha (hcur.trans (by rfl)) hη V₁ with ⟨wb, qb, w, q, σ, hcand, -, hgB, -, m⟩ | ⟨hno, -⟩
  swap
  · refine absurd ⟨?_, ?_⟩ (hno [.Z, .Y] [0, 2] [.Y, .Y, .Y] [0, 1, 2] (-2) ⟨⟨rfl, rfl, by simp, by simp, by simp⟩, ⟨rfl, rfl, by simp, by simp, by simp⟩, by decide, Or.inr rfl, up_comm02⟩)
    · rw [hY3, abs_neg, abs_of_pos h2]
      have := Real.one_lt_sqrt_two
      norm_num
      linarith
    · rw [hB 0 (.inl rfl)]
      exact neg_ne_zero.2 h2.ne'
  obtain ⟨rfl, hq⟩ := zy_only hplane hcand.pair hcand.shared hgB
  have hqi : ∃ i, (i = 0 ∨ i = 1) ∧ qb = [i, 2] := by rcases hq with rfl | rfl <;> exact ⟨_, by simp, rfl⟩
  have hratio : grad (totalObs upObs) V₁ (pauliWord (placed 3 w q)) / σ = √2 / 2 := by
    rcases hq with rfl | rfl
    · rw [grad_sign (totalObs upObs) V₁ _ _ σ (-2) hcand.sign (.inr rfl) (hcand.comm.symm.trans up_comm02), hY3]
      ring
    · rw [grad_sign (totalObs upObs) V₁ _ _ σ 2 hcand.sign (.inl rfl) (hcand.comm.symm.trans up_comm12), hX2]
  obtain ⟨i, hi, rfl⟩ := hqi
  obtain ⟨L₂, hc2, -⟩ := m hη0
  have ht : L₁.eta * (-(grad (totalObs upObs) V₁ (pauliWord (placed 3 w q)) * 2 / η) / σ) / 2 ^ 3 = e * √2 / (4 * Real.pi) := by
    rw [show -(grad (totalObs upObs) V₁ (pauliWord (placed 3 w q)) * 2 / η) / σ = -(grad (totalObs upObs) V₁ (pauliWord (placed 3 w q)) / σ) * 2 / η by ring, hratio, eeta, heta, ← hη']
    field_simp
    norm_num
  rw [ht] at hc2
  set t := e * √2 / (4 * Real.pi) with htdef
  have hcV₂ : cost (totalObs upObs) (NormedSpace.exp ((-Complex.I * (t : ℂ)) • pauliWord (placed 3 [.Z, .Y] [i, 2])) * V₁) = √2 / 2 * (Real.sin (2 * t) - Real.cos (2 * t)) := by
    rw [rotation_cost _ _ _ (pauliWord_sq _) (pauliWord_herm _), cost_flipped (pauliWord_sq _) (pauliWord_herm _) (up_anti i hi), hcV₁, hB i hi, Real.sin_two_mul, Real.cos_two_mul']
    ring
  refine ⟨L₀, V₁, L₁, _, L₂, hL, hc1, hp1', ⟨C, S, hplane⟩, by rw [ZassLayer.call, hp1']; exact hc2, hc, hcV₁, hcV₂, ?_⟩
  rw [hcV₁, hcV₂]
  have ht0 : 0 < t := by rw [htdef]; positivity
  have ht1 : 2 * t < Real.pi := by
    have h3 := Real.pi_gt_three
    have h4 : √2 < 2 := by rw [Real.sqrt_lt' two_pos]; norm_num
    rw [htdef, show 2 * (e * √2 / (4 * Real.pi)) = e * √2 / (2 * Real.pi) by field_simp; norm_num, div_lt_iff₀ (by positivity)]
    nlinarith
  have hsin := Real.sin_pos_of_pos_of_lt_pi (x := 2 * t) (by linarith) ht1
  have hcos := Real.cos_le_one (2 * t)
  nlinarith

/-- C118 (uphill): three qubits in the state `|000⟩`, the observables X on the qubits 0 and 1 and X on qubit 2, ratio `(1, 1)`.  For every step size `e` with `0 < e ≤ 1` both the call
in the phase `su4` and that in the phase `su8` succeed; the first brings the cost from 0 to `-√2/2`, and the second raises it again, to `√2/2 (sin 2t - cos 2t)` with `t = e√2/(4π)`. -/
theorem C118_uphill (ord : SetOrder ℕ) (e : ℝ) (h0 : 0 < e) (h1 : e ≤ 1) : ∃ L₀ V₁ L₁ V₂ L₂, zassLayer 3 (upObs.map Gate.obs) { eta := some (.float e) } = .ok L₀ ∧
    L₀.call ord 1 = .ok (V₁, L₁) ∧ L₁.phase = .su8 ∧ L₁.call ord V₁ = .ok (V₂, L₂) ∧ cost (totalObs upObs) 1 = 0 ∧ cost (totalObs upObs) V₁ = -(√2 / 2) ∧
    cost (totalObs upObs) V₂ = √2 / 2 * (Real.sin (2 * (e * √2 / (4 * Real.pi))) - Real.cos (2 * (e * √2 / (4 * Real.pi)))) ∧
    cost (totalObs upObs) V₁ < cost (totalObs upObs) V₂ := by
  obtain ⟨L₀, V₁, L₁, V₂, L₂, h2, h3, h4, -, h5⟩ := up_calls ord e h0 h1
  exact ⟨L₀, V₁, L₁, V₂, L₂, h2, h3, h4, h5⟩

/-! ### Examples -/

/-- The hypotheses of `C117_su8` and `C118_step` are met by these two calls, with the symmetry Z on the qubits 0 and 1 and the eigenvalue 1. -/
example (ord : SetOrder ℕ) : ∃ L₀ L L' U V, zassLayer 3 (upObs.map Gate.obs) { eta := some (.float 0.1) } false false (1, 1) = .ok L₀ ∧ L₀.runAll ord [1] = .ok L ∧ L.phase = .su8 ∧
    (∀ g ∈ upObs, Commute (pauliWord (placed 3 [.Z, .Z] [0, 1])) (full 3 g.ws g.A)) ∧ InSector (pauliWord (placed 3 [.Z, .Z] [0, 1])) 1 (fun i => U i 0) ∧
    L.call ord U = .ok (V, L') := by
  obtain ⟨L₀, V₁, L₁, V₂, L₂, h2, h3, h4, ⟨c, s, hU⟩, h5, -⟩ := up_calls ord 0.1 (by norm_num) (by norm_num)
  refine ⟨L₀, L₁, L₂, V₁, V₂, h2, by rw [ZassLayer.runAll, h3]; rfl, h4, ?_, ?_, h5⟩
  · intro g hg
    simp only [upObs, List.mem_cons, List.not_mem_nil, or_false] at hg
    rcases hg with rfl | rfl
    · rw [bondObs_full, Commute, SemiconjBy, pauliWord_swap, Fin.prod_univ_three]
      simp [placed, List.idxOf, List.findIdx_cons, letterSign]
    · rw [siteObs_full, Commute, SemiconjBy, pauliWord_swap, Fin.prod_univ_three]
      simp [placed, List.idxOf, List.findIdx_cons, letterSign]
  · rw [InSector, hU, one_smul, Matrix.mulVec_add, Matrix.mulVec_smul, Matrix.mulVec_smul, Matrix.mulVec_single_one, Matrix.mulVec_single_one]
    have f0 : placed 3 [.Z, .Z] [0, 1] 0 = .Z := by decide
    have f1 : placed 3 [.Z, .Z] [0, 1] 1 = .Z := by decide
    have f2 : placed 3 [.Z, .Z] [0, 1] 2 = .I := by decide
    funext i
    simp only [Pi.add_apply, Pi.smul_apply, Matrix.col_apply, pauliWord, tensor, Fin.prod_univ_three, f0, f1, f2, Pi.single_apply, smul_eq_mul]
    fin_cases i <;> simp [bit, Letter.mat]
    · change (c : ℂ) * (1 : Mat2) 0 0 = c
      rw [Matrix.one_apply_eq, mul_one]
    · change (s : ℂ) * (1 : Mat2) 0 0 = s
      rw [Matrix.one_apply_eq, mul_one]

end Oranssi
