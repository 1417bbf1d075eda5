import Verif.Spec.Overlap
import Verif.Props.InvolutionRun
import Verif.Props.Variational
import Mathlib.Analysis.InnerProductSpace.PiL2

/-! # C92: the exact step is the steepest one

Among all states within the distance that the exact step moves, the exact step reaches the one with the smallest cost (one involutory observable). -/

namespace Oranssi
open Spec
open scoped Matrix

variable {n : ℕ}

/-- The overlap with the state after a step along the commutator with an involution. -/
theorem overlap_involution_step {U O : QMat n} (hU : Unitary U) (hO : Oᴴ = O) (hO2 : O * O = 1) (x t : ℝ) (hx : cost O U = Real.cos x) :
    star (fun i => U i 0) ⬝ᵥ (fun i => (NormedSpace.exp ((t : ℂ) • riemannGen O U) * U) i 0) = ((Real.cos (t * Real.sin x) : ℝ) : ℂ) := by
  set R := density U with hR
  set K := riemannGen O U with hK
  set c : ℂ := ((Real.cos x : ℝ) : ℂ) with hc
  have hid : R * R = R := density_idem hU
  have hsand : R * O * R = c • R := by rw [hR, density_sandwich, expect_real U O hO, hx]
  have htr : R.trace = 1 := density_trace hU
  have htrO : (R * O).trace = c := by rw [hR, ← expect_trace, expect_real U O hO, hx]
  have hKR : K * R = c • R - O * R := by
    rw [hK, riemannGen, ← hR, Matrix.sub_mul, hsand, Matrix.mul_assoc O R R, hid]
  have hs2 : c * c = 1 - ((Real.sin x ^ 2 : ℝ) : ℂ) := by
    rw [hc, ← Complex.ofReal_mul, ← Complex.ofReal_one, ← Complex.ofReal_sub]
    congr 1
    have := Real.sin_sq_add_cos_sq x
    nlinarith
  have hKKR : K * (K * R) = -((Real.sin x ^ 2 : ℝ) : ℂ) • R := by
    have h1 : K * (O * R) = R - c • (O * R) := by
      rw [hK, riemannGen, ← hR, Matrix.sub_mul, ← Matrix.mul_assoc, Matrix.mul_assoc R O O, hO2, Matrix.mul_one, hid, Matrix.mul_assoc O R (O * R),
        ← Matrix.mul_assoc R O R, hsand, Matrix.mul_smul]
    rw [hKR, Matrix.mul_sub, Matrix.mul_smul, hKR, h1]
    have : -((Real.sin x ^ 2 : ℝ) : ℂ) = c * c - 1 := by rw [hs2]; ring
    rw [this, sub_smul, one_smul, smul_sub, mul_smul]
    abel
  obtain ⟨b, hb0, hb, hbs⟩ := exists_sinc (Real.sin x)
  have hER := exp_smul_mul_of_sq K R (Real.sin x) hKKR b hb0 hb hbs t
  have h1 : (fun i => (NormedSpace.exp ((t : ℂ) • K) * U) i 0) = NormedSpace.exp ((t : ℂ) • K) *ᵥ (fun i => U i 0) := rfl
  rw [h1, expect_trace, Matrix.trace_mul_comm, hER, hKR, Matrix.trace_add, Matrix.trace_smul, Matrix.trace_smul, Matrix.trace_sub, Matrix.trace_smul, htr,
    Matrix.trace_mul_comm O R, htrO]
  simp

/-- The scalar product and Cauchy's inequality for columns. -/
theorem dot_le (a b : Fin (2 ^ n) → ℂ) : ‖star a ⬝ᵥ b‖ ^ 2 ≤ (star a ⬝ᵥ a).re * (star b ⬝ᵥ b).re := by
  have h := norm_inner_le_norm (𝕜 := ℂ) (WithLp.toLp 2 a) (WithLp.toLp 2 b)
  have hn : ∀ c : Fin (2 ^ n) → ℂ, ‖(WithLp.toLp 2 c : EuclideanSpace ℂ (Fin (2 ^ n)))‖ ^ 2 = (star c ⬝ᵥ c).re := by
    intro c
    rw [← inner_self_eq_norm_sq (𝕜 := ℂ), EuclideanSpace.inner_toLp_toLp, dotProduct_comm]
    rfl
  rw [EuclideanSpace.inner_toLp_toLp, dotProduct_comm] at h
  rw [← hn, ← hn, ← mul_pow]
  exact pow_le_pow_left₀ (norm_nonneg _) h 2

theorem cost_eq_dot (O U : QMat n) (hO : Oᴴ = O) (c : ℝ) (hc : O * O = (c : ℂ) • O) :
    (star (O *ᵥ (fun i => U i 0)) ⬝ᵥ (O *ᵥ (fun i => U i 0))).re = c * cost O U := by
  rw [Matrix.star_mulVec, ← Matrix.dotProduct_mulVec, Matrix.mulVec_mulVec, hO, hc, Matrix.smul_mulVec, dotProduct_smul, smul_eq_mul, Complex.re_ofReal_mul, cost]

/-- States whose expectations of an involutory observable are `cos x` and `cos y` have an overlap of at most `cos ((x - y) / 2)`. -/
theorem overlap_le {U V O : QMat n} (hU : Unitary U) (hV : Unitary V) (hO : Oᴴ = O) (hO2 : O * O = 1) {x y : ℝ} (hx0 : 0 ≤ x) (hx1 : x ≤ Real.pi)
    (hy0 : 0 ≤ y) (hy1 : y ≤ Real.pi) (hx : cost O U = Real.cos x) (hy : cost O V = Real.cos y) : overlap U V ≤ Real.cos ((x - y) / 2) := by
  set u : Fin (2 ^ n) → ℂ := fun i => U i 0 with hu
  set v : Fin (2 ^ n) → ℂ := fun i => V i 0 with hv
  have hAH : (1 + O)ᴴ = 1 + O := by rw [Matrix.conjTranspose_add, Matrix.conjTranspose_one, hO]
  have hBH : (1 + -O)ᴴ = 1 + -O := by rw [Matrix.conjTranspose_add, Matrix.conjTranspose_one, Matrix.conjTranspose_neg, hO]
  have hA2 : (1 + O) * (1 + O) = ((2 : ℝ) : ℂ) • (1 + O) := by
    simp only [Matrix.add_mul, Matrix.mul_add, hO2, Matrix.one_mul, Matrix.mul_one]
    rw [show ((2 : ℝ) : ℂ) = 2 by norm_num, two_smul]
    abel
  have hB2 : (1 + -O) * (1 + -O) = ((2 : ℝ) : ℂ) • (1 + -O) := by
    simp only [Matrix.add_mul, Matrix.mul_add, Matrix.neg_mul, Matrix.mul_neg, neg_neg, hO2, Matrix.one_mul, Matrix.mul_one]
    rw [show ((2 : ℝ) : ℂ) = 2 by norm_num, two_smul]
    abel
  have hsum : star ((1 + O) *ᵥ u) ⬝ᵥ ((1 + O) *ᵥ v) + star ((1 + -O) *ᵥ u) ⬝ᵥ ((1 + -O) *ᵥ v) = 4 * (star u ⬝ᵥ v) := by
    rw [Matrix.star_mulVec, Matrix.star_mulVec, ← Matrix.dotProduct_mulVec, ← Matrix.dotProduct_mulVec, Matrix.mulVec_mulVec, Matrix.mulVec_mulVec, hAH, hBH, hA2, hB2,
      ← dotProduct_add, ← Matrix.add_mulVec, ← smul_add, show (1 + O) + (1 + -O) = (2 : ℂ) • (1 : QMat n) by rw [two_smul]; abel, smul_smul, Matrix.smul_mulVec,
      Matrix.one_mulVec, dotProduct_smul, smul_eq_mul]
    norm_num
  have hcos : ∀ z : ℝ, 1 + Real.cos z = 2 * Real.cos (z / 2) ^ 2 := fun z => by
    have := Real.cos_sq (z / 2)
    rw [show 2 * (z / 2) = z by ring] at this
    linarith
  have hsin : ∀ z : ℝ, 1 - Real.cos z = 2 * Real.sin (z / 2) ^ 2 := fun z => by
    have := hcos z
    have h2 := Real.sin_sq_add_cos_sq (z / 2)
    linarith
  have hA : ∀ {W : QMat n}, Unitary W → ∀ z, cost O W = Real.cos z →
      (star ((1 + O) *ᵥ (fun i => W i 0)) ⬝ᵥ ((1 + O) *ᵥ (fun i => W i 0))).re = (2 * Real.cos (z / 2)) ^ 2 := by
    intro W hW z hz
    rw [cost_eq_dot _ _ hAH 2 hA2, cost_add, cost_one hW, hz, hcos]
    ring
  have hB : ∀ {W : QMat n}, Unitary W → ∀ z, cost O W = Real.cos z →
      (star ((1 + -O) *ᵥ (fun i => W i 0)) ⬝ᵥ ((1 + -O) *ᵥ (fun i => W i 0))).re = (2 * Real.sin (z / 2)) ^ 2 := by
    intro W hW z hz
    rw [cost_eq_dot _ _ hBH 2 hB2, cost_add, cost_neg, cost_one hW, hz, ← sub_eq_add_neg, hsin]
    ring
  have c1 := dot_le ((1 + O) *ᵥ u) ((1 + O) *ᵥ v)
  have c2 := dot_le ((1 + -O) *ᵥ u) ((1 + -O) *ᵥ v)
  rw [hA hU x hx, hA hV y hy, ← mul_pow] at c1
  rw [hB hU x hx, hB hV y hy, ← mul_pow] at c2
  have p1 : 0 ≤ Real.cos (x / 2) := Real.cos_nonneg_of_mem_Icc ⟨by linarith, by linarith⟩
  have p2 : 0 ≤ Real.cos (y / 2) := Real.cos_nonneg_of_mem_Icc ⟨by linarith, by linarith⟩
  have p3 : 0 ≤ Real.sin (x / 2) := Real.sin_nonneg_of_nonneg_of_le_pi (by linarith) (by linarith)
  have p4 : 0 ≤ Real.sin (y / 2) := Real.sin_nonneg_of_nonneg_of_le_pi (by linarith) (by linarith)
  have d1 := (sq_le_sq₀ (norm_nonneg _) (by positivity)).1 c1
  have d2 := (sq_le_sq₀ (norm_nonneg _) (by positivity)).1 c2
  have h4 : 4 * overlap U V ≤ 2 * Real.cos (x / 2) * (2 * Real.cos (y / 2)) + 2 * Real.sin (x / 2) * (2 * Real.sin (y / 2)) := by
    have : 4 * overlap U V = ‖4 * (star u ⬝ᵥ v)‖ := by rw [norm_mul, overlap, show ‖(4 : ℂ)‖ = 4 by norm_num]
    rw [this, ← hsum]
    exact (norm_add_le _ _).trans (add_le_add d1 d2)
  rw [show (x - y) / 2 = x / 2 - y / 2 by ring, Real.cos_sub]
  linarith

theorem sin_le_pi_sub {x : ℝ} (hx : x ≤ Real.pi) : Real.sin x ≤ Real.pi - x := by
  rw [← Real.sin_pi_sub]
  exact Real.sin_le (by linarith)

section
variable {eigh : EighFn n} {g : Gate n} {U V : QMat n} {e : ℝ}

/-- C92.  How far the exact step moves the state: the overlap is `cos (eta sin x / 2)`, where the cost is `cos x`. -/
theorem C92_distance (he : ValidEigh eigh) (hA : g.Aᴴ = g.A) (hA2 : g.A * g.A = 1) (hU : Unitary U) (h0 : 0 ≤ e) (h1 : e ≤ 1) (x : ℝ)
    (hx : cost (full n g.ws g.A) U = Real.cos x) (hV : exactUpdate eigh e g.obs U = .ok V) :
    overlap U V = Real.cos (e * Real.sin x / 2) ∧ cost (full n g.ws g.A) V = Real.cos (x + e * Real.sin x) := by
  have hO : (full n g.ws g.A)ᴴ = full n g.ws g.A := by rw [← full_conjTranspose rfl g.valid.2, hA]
  have hO2 : full n g.ws g.A * full n g.ws g.A = 1 := by rw [← full_mul rfl g.valid, hA2, full_one rfl g.valid]
  rw [C47_riemannian_step eigh he e g hA hA2] at hV
  obtain rfl := Except.ok.inj hV
  constructor
  · rw [overlap, overlap_involution_step hU hO hO2 x _ hx, Complex.norm_real, Real.norm_eq_abs, abs_of_nonneg]
    · congr 1; ring
    · have := Real.abs_sin_le_one x
      refine Real.cos_nonneg_of_neg_pi_div_two_le_of_le ?_ ?_ <;> nlinarith [Real.pi_gt_three, abs_le.1 this]
  · rw [cost_involution_step hU hO hO2 _ _ hx]
    congr 1; ring

/-- C92.  The exact step is the steepest one: every state at least as close to the present one as the state that the exact step reaches has at least its cost. -/
theorem C92_steepest (he : ValidEigh eigh) (hA : g.Aᴴ = g.A) (hA2 : g.A * g.A = 1) (hU : Unitary U) (h0 : 0 ≤ e) (h1 : e ≤ 1)
    (hV : exactUpdate eigh e g.obs U = .ok V) (W : QMat n) (hW : Unitary W) (hWU : overlap U V ≤ overlap U W) :
    cost (full n g.ws g.A) V ≤ cost (full n g.ws g.A) W := by
  have hO : (full n g.ws g.A)ᴴ = full n g.ws g.A := by rw [← full_conjTranspose rfl g.valid.2, hA]
  have hO2 : full n g.ws g.A * full n g.ws g.A = 1 := by rw [← full_mul rfl g.valid, hA2, full_one rfl g.valid]
  obtain ⟨bU1, bU2⟩ := cost_involution_bounds hU hO hO2
  obtain ⟨bW1, bW2⟩ := cost_involution_bounds hW hO hO2
  set x := Real.arccos (cost (full n g.ws g.A) U) with hx
  set y := Real.arccos (cost (full n g.ws g.A) W) with hy
  have hxc : cost (full n g.ws g.A) U = Real.cos x := (Real.cos_arccos bU1 bU2).symm
  have hyc : cost (full n g.ws g.A) W = Real.cos y := (Real.cos_arccos bW1 bW2).symm
  have x0 : 0 ≤ x := Real.arccos_nonneg _
  have x1 : x ≤ Real.pi := Real.arccos_le_pi _
  have y0 : 0 ≤ y := Real.arccos_nonneg _
  have y1 : y ≤ Real.pi := Real.arccos_le_pi _
  obtain ⟨hov, hVc⟩ := C92_distance he hA hA2 hU h0 h1 x hxc hV
  have hs0 : 0 ≤ Real.sin x := Real.sin_nonneg_of_nonneg_of_le_pi x0 x1
  have hs1 : Real.sin x ≤ Real.pi - x := sin_le_pi_sub x1
  have hs : e * Real.sin x ≤ Real.sin x := by nlinarith
  have hle := hov ▸ hWU.trans (overlap_le hU hW hO hO2 x0 x1 y0 y1 hxc hyc)
  have hdist : y ≤ x + e * Real.sin x := by
    by_contra hlt
    push Not at hlt
    have := Real.cos_lt_cos_of_nonneg_of_le_pi (x := e * Real.sin x / 2) (y := (y - x) / 2) (by positivity) (by linarith) (by linarith)
    rw [show (x - y) / 2 = -((y - x) / 2) by ring, Real.cos_neg] at hle
    linarith
  rw [hVc, hyc]
  exact Real.cos_le_cos_of_nonneg_of_le_pi y0 (by linarith) hdist

end

theorem dot_rot (a b : ℝ) : star (fun i => rot a i 0) ⬝ᵥ (fun i => rot b i 0) = ((Real.cos (b - a) : ℝ) : ℂ) := by
  change ∑ i : Fin 2, star ((!![((Real.cos a : ℝ) : ℂ), -((Real.sin a : ℝ) : ℂ); ((Real.sin a : ℝ) : ℂ), ((Real.cos a : ℝ) : ℂ)] : Matrix (Fin 2) (Fin 2) ℂ) i 0) *
    ((!![((Real.cos b : ℝ) : ℂ), -((Real.sin b : ℝ) : ℂ); ((Real.sin b : ℝ) : ℂ), ((Real.cos b : ℝ) : ℂ)] : Matrix (Fin 2) (Fin 2) ℂ) i 0) = _
  rw [Real.cos_sub, Fin.sum_univ_two]
  simp [Complex.conj_ofReal, -Complex.ofReal_cos, -Complex.ofReal_sin]
  ring

/-- Hypotheses of C92: a rotated qubit, the observable Z and a step of size one half; the state as far away in the other direction is among the competitors. -/
example : ∃ (eigh : EighFn 1) (U V W : QMat 1), ValidEigh eigh ∧ gateZ.Aᴴ = gateZ.A ∧ gateZ.A * gateZ.A = 1 ∧ Unitary U ∧
    exactUpdate eigh (1 / 2) gateZ.obs U = .ok V ∧ Unitary W ∧ W ≠ V ∧ overlap U V ≤ overlap U W := by
  obtain ⟨eigh, he⟩ := exists_validEigh 1
  set d := 1 / 2 / 2 * Real.sin (2 * (1 / 2)) with hd
  have h := exactUpdates_single eigh (1 / 2) gateZ (rot (1 / 2))
  rw [exact_rot he] at h
  have hs : 0 < Real.sin (2 * (1 / 2)) := Real.sin_pos_of_pos_of_lt_pi (by norm_num) (by linarith [Real.pi_gt_three])
  have hs1 := Real.sin_le_one (2 * (1 / 2))
  refine ⟨eigh, rot (1 / 2), rot (1 / 2 + d), rot (1 / 2 - d), he, gateZ_herm, gateZ_sq, rot_unitary _, h.symm, rot_unitary _, fun heq => ?_, ?_⟩
  · have := congrArg (cost matZ) heq
    rw [cost_rot, cost_rot] at this
    have hlt := Real.cos_lt_cos_of_nonneg_of_le_pi (x := 2 * (1 / 2 - d)) (y := 2 * (1 / 2 + d)) (by linarith) (by linarith [Real.pi_gt_three]) (by linarith)
    linarith
  · rw [overlap, overlap, dot_rot, dot_rot, show 1 / 2 + d - 1 / 2 = d by ring, show 1 / 2 - d - 1 / 2 = -d by ring, Real.cos_neg]

end Oranssi
