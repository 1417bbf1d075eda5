import Mathlib.LinearAlgebra.Matrix.Rank
import Mathlib.Analysis.Real.Pi.Bounds
import Verif.Model.Plot

/-! # C63, C64, C70: the Bloch sphere -/

namespace Oranssi
open scoped Matrix

/-- A pure state of one qubit as density matrix: a Hermitian projector of rank one. -/
structure Spec.IsPure (rho : Matrix (Fin 2) (Fin 2) ℂ) : Prop where
  herm : rhoᴴ = rho
  proj : rho * rho = rho
  trace : rho.trace = 1
  rank : rho.rank = 1

/-- The Bloch vector `tr(rho X), tr(rho Y), tr(rho Z)`. -/
noncomputable def Spec.blochVector (rho : Matrix (Fin 2) (Fin 2) ℂ) : ℂ × ℂ × ℂ :=
  ((rho * !![0, 1; 1, 0]).trace, (rho * !![0, -Complex.I; Complex.I, 0]).trace, (rho * !![1, 0; 0, -1]).trace)

open Spec

theorem sphericalToState_eq (phi theta : ℝ) : sphericalToState phi theta =
    !![(Real.cos (theta / 2) : ℂ) * (Real.cos (theta / 2) : ℂ), (Real.cos (theta / 2) : ℂ) * (Complex.exp (-(Complex.I * (phi : ℂ))) * (Real.sin (theta / 2) : ℂ));
      Complex.exp (Complex.I * (phi : ℂ)) * (Real.sin (theta / 2) : ℂ) * (Real.cos (theta / 2) : ℂ), (Real.sin (theta / 2) : ℂ) * (Real.sin (theta / 2) : ℂ)] := by
  have hc : (starRingEnd ℂ) (Complex.exp (Complex.I * (phi : ℂ))) = Complex.exp (-(Complex.I * (phi : ℂ))) := by
    rw [← Complex.exp_conj, map_mul, Complex.conj_I, Complex.conj_ofReal, neg_mul]
  have he : Complex.exp (Complex.I * (phi : ℂ)) * Complex.exp (-(Complex.I * (phi : ℂ))) = 1 := by rw [← Complex.exp_add, add_neg_cancel, Complex.exp_zero]
  ext i j
  fin_cases i <;> fin_cases j
  · simp [sphericalToState, Matrix.vecMulVec_apply, -Complex.ofReal_cos, -Complex.ofReal_sin]
  · simp [sphericalToState, Matrix.vecMulVec_apply, hc, -Complex.ofReal_cos, -Complex.ofReal_sin]
  · simp [sphericalToState, Matrix.vecMulVec_apply, -Complex.ofReal_cos, -Complex.ofReal_sin]
  · simp [sphericalToState, Matrix.vecMulVec_apply, hc, -Complex.ofReal_cos, -Complex.ofReal_sin]
    linear_combination ((Real.sin (theta / 2) : ℂ) * (Real.sin (theta / 2) : ℂ)) * he

theorem rank_ne_zero {rho : Matrix (Fin 2) (Fin 2) ℂ} (h : rho ≠ 0) : rho.rank ≠ 0 := by
  intro h0
  rw [Matrix.rank, Submodule.finrank_eq_zero, LinearMap.range_eq_bot] at h0
  apply h
  ext i j
  have := congrFun (LinearMap.congr_fun h0 (Pi.single j 1)) i
  simpa using this

/-- C63. -/
theorem C63_pure_state (phi theta : ℝ) : IsPure (sphericalToState phi theta) ∧
    blochVector (sphericalToState phi theta) = (((Real.sin theta * Real.cos phi : ℝ) : ℂ), ((Real.sin theta * Real.sin phi : ℝ) : ℂ), ((Real.cos theta : ℝ) : ℂ)) := by
  have h1 : (Real.cos (theta / 2) : ℂ) * (Real.cos (theta / 2) : ℂ) + (Real.sin (theta / 2) : ℂ) * (Real.sin (theta / 2) : ℂ) = 1 := by
    have := Real.cos_sq_add_sin_sq (theta / 2)
    rw [← Complex.ofReal_mul, ← Complex.ofReal_mul, ← Complex.ofReal_add, ← Complex.ofReal_one, ← this, sq, sq]
  have he : Complex.exp (Complex.I * (phi : ℂ)) * Complex.exp (-(Complex.I * (phi : ℂ))) = 1 := by rw [← Complex.exp_add, add_neg_cancel, Complex.exp_zero]
  have hc : (starRingEnd ℂ) (Complex.exp (Complex.I * (phi : ℂ))) = Complex.exp (-(Complex.I * (phi : ℂ))) := by
    rw [← Complex.exp_conj, map_mul, Complex.conj_I, Complex.conj_ofReal, neg_mul]
  have htr : (sphericalToState phi theta).trace = 1 := by
    rw [sphericalToState_eq, Matrix.trace_fin_two]
    simpa [-Complex.ofReal_cos, -Complex.ofReal_sin] using h1
  refine ⟨⟨?_, ?_, htr, ?_⟩, ?_⟩
  · rw [sphericalToState, Matrix.conjTranspose_vecMulVec, star_star]
  · rw [sphericalToState_eq, Matrix.mul_fin_two]
    generalize (Real.cos (theta / 2) : ℂ) = c at h1 ⊢
    generalize (Real.sin (theta / 2) : ℂ) = s at h1 ⊢
    generalize Complex.exp (Complex.I * (phi : ℂ)) = e at he ⊢
    generalize Complex.exp (-(Complex.I * (phi : ℂ))) = f at he ⊢
    ext i j
    fin_cases i <;> fin_cases j <;> simp
    · linear_combination (c * c * s * s) * he + c * c * h1
    · linear_combination c * f * s * h1
    · linear_combination c * e * s * h1
    · linear_combination (c * c * s * s) * he + s * s * h1
  · refine le_antisymm (Matrix.rank_vecMulVec_le _ _) (Nat.one_le_iff_ne_zero.mpr (rank_ne_zero ?_))
    intro h0
    rw [h0] at htr
    simp at htr
  · have h2 : (Real.sin theta : ℂ) = 2 * (Real.sin (theta / 2) : ℂ) * (Real.cos (theta / 2) : ℂ) := by
      have := Real.sin_two_mul (theta / 2)
      rw [mul_div_cancel₀ _ (by norm_num : (2 : ℝ) ≠ 0)] at this
      exact_mod_cast this
    have h3 : (Real.cos theta : ℂ) = (Real.cos (theta / 2) : ℂ) * (Real.cos (theta / 2) : ℂ) - (Real.sin (theta / 2) : ℂ) * (Real.sin (theta / 2) : ℂ) := by
      have := Real.cos_two_mul' (theta / 2)
      rw [mul_div_cancel₀ _ (by norm_num : (2 : ℝ) ≠ 0)] at this
      rw [this]
      push_cast
      ring
    have h4 : (Real.cos phi : ℂ) = (Complex.exp (Complex.I * (phi : ℂ)) + Complex.exp (-(Complex.I * (phi : ℂ)))) / 2 := by
      rw [Complex.ofReal_cos, Complex.cos]
      ring_nf
    have h5 : (Real.sin phi : ℂ) = (Complex.exp (-(Complex.I * (phi : ℂ))) - Complex.exp (Complex.I * (phi : ℂ))) * Complex.I / 2 := by
      rw [Complex.ofReal_sin, Complex.sin]
      ring_nf
    rw [blochVector, Complex.ofReal_mul, Complex.ofReal_mul, h2, h3, h4, h5, sphericalToState_eq, Matrix.mul_fin_two, Matrix.mul_fin_two, Matrix.mul_fin_two]
    simp only [Matrix.trace_fin_two, Prod.mk.injEq]
    generalize (Real.cos (theta / 2) : ℂ) = c
    generalize (Real.sin (theta / 2) : ℂ) = s
    refine ⟨?_, ?_, ?_⟩ <;> simp <;> ring

theorem pyMod_id {x m : ℝ} (h0 : 0 ≤ x) (h1 : x < m) : pyMod x m = x := by
  have hm : 0 < m := lt_of_le_of_lt h0 h1
  have : ⌊x / m⌋ = 0 := by
    rw [Int.floor_eq_zero_iff]
    exact ⟨div_nonneg h0 hm.le, (div_lt_one hm).mpr h1⟩
  rw [pyMod, this]
  simp

theorem pyMod_neg {x m : ℝ} (h0 : -m ≤ x) (h1 : x < 0) (hm : 0 < m) : pyMod x m = x + m := by
  have : ⌊x / m⌋ = -1 := by
    rw [Int.floor_eq_iff]
    refine ⟨?_, ?_⟩
    · push_cast; rw [le_div_iff₀ hm]; linarith
    · push_cast; rw [div_lt_iff₀ hm]; linarith
  rw [pyMod, this]
  push_cast
  ring

/-- The angle of `r (cos φ, sin φ)` modulo `2π`. -/
theorem arg_mod (r phi : ℝ) (hr : 0 < r) (h0 : 0 ≤ phi) (h1 : phi < 2 * Real.pi) : pyMod (Complex.arg ⟨r * Real.cos phi, r * Real.sin phi⟩) (2 * Real.pi) = phi := by
  have hpi := Real.pi_pos
  have key : ∀ t : ℝ, -Real.pi < t → t ≤ Real.pi → Complex.arg ⟨r * Real.cos t, r * Real.sin t⟩ = t := by
    intro t ht1 ht2
    have := Complex.arg_mul_cos_add_sin_mul_I hr ⟨ht1, ht2⟩
    refine Eq.trans (congrArg Complex.arg ?_) this
    apply Complex.ext <;> simp [Complex.cos_ofReal_re, Complex.sin_ofReal_re, Complex.sin_ofReal_im, Complex.cos_ofReal_im]
  by_cases h : phi ≤ Real.pi
  · rw [key phi (by linarith) h, pyMod_id h0 h1]
  · push Not at h
    have := key (phi - 2 * Real.pi) (by linarith) (by linarith)
    rw [Real.cos_sub_two_pi, Real.sin_sub_two_pi] at this
    rw [this, pyMod_neg (by linarith) (by linarith) (by linarith)]
    ring

/-- What `state_to_spherical` computes from a matrix of trace 1 with real Bloch vector `(x, y, z)`. -/
theorem stateToSpherical_of {rho : Matrix (Fin 2) (Fin 2) ℂ} {x y z : ℝ} (ht : rho.trace = 1) (hb : blochVector rho = ((x : ℂ), (y : ℂ), (z : ℂ)))
    (h0 : -1 ≤ z) (h1 : z ≤ 1) : stateToSpherical rho = .ok
      (if isCloseTo (pyMod (Complex.arg ⟨x, y⟩) (2 * Real.pi)) (2 * Real.pi) 1e-3 then 0 else pyMod (Complex.arg ⟨x, y⟩) (2 * Real.pi), Real.arccos z) := by
  have hpi := Real.pi_pos
  have hpi3 := Real.pi_gt_three
  have hx := congrArg Complex.re (congrArg Prod.fst hb)
  have hy := congrArg Complex.re (congrArg (fun v => v.2.1) hb)
  have hz := congrArg Complex.re (congrArg (fun v => v.2.2) hb)
  simp only [blochVector, Complex.ofReal_re] at hx hy hz
  have ha : ‖rho.trace - 1‖ ≤ 1e-8 + 1e-5 * ‖(1 : ℂ)‖ := by
    rw [ht, sub_self, norm_zero]
    norm_num
  have hm : pyMod (Real.arccos z) (2 * Real.pi) = Real.arccos z := pyMod_id (Real.arccos_nonneg _) (by linarith [Real.arccos_le_pi z])
  have hnc : isCloseTo (Real.arccos z) (2 * Real.pi) 1e-3 = false := by
    rw [isCloseTo, decide_eq_false_iff_not, not_le, abs_of_pos (by linarith : 0 < 2 * Real.pi), abs_of_neg (by linarith [Real.arccos_le_pi z])]
    have := Real.arccos_le_pi z
    nlinarith
  unfold stateToSpherical
  simp only [hx, hy, hz]
  rw [pyAssert, if_pos ha, if_pos ⟨h0, h1⟩]
  simp only [bind, Except.bind]
  rw [hm, hnc]
  simp

/-- Angles so close below `2π` that `state_to_spherical` returns 0. -/
def Spec.Snapped (phi : ℝ) : Prop := 2 * Real.pi - phi ≤ 1e-3 + 1e-5 * (2 * Real.pi)

theorem isCloseTo_snapped {phi : ℝ} (h1 : phi < 2 * Real.pi) : isCloseTo phi (2 * Real.pi) 1e-3 = true ↔ Snapped phi := by
  have hpi := Real.pi_pos
  rw [isCloseTo, decide_eq_true_eq, abs_of_pos (by linarith : 0 < 2 * Real.pi), abs_of_neg (by linarith), neg_sub]
  rfl

theorem spherical_round_trip (phi theta : ℝ) (h0 : 0 < theta) (h1 : theta < Real.pi) (h2 : 0 ≤ phi) (h3 : phi < 2 * Real.pi) :
    stateToSpherical (sphericalToState phi theta) = .ok (if isCloseTo phi (2 * Real.pi) 1e-3 then 0 else phi, theta) := by
  obtain ⟨hp, hb⟩ := C63_pure_state phi theta
  rw [stateToSpherical_of hp.trace hb (Real.neg_one_le_cos _) (Real.cos_le_one _), arg_mod _ _ (Real.sin_pos_of_pos_of_lt_pi h0 h1) h2 h3,
    Real.arccos_cos h0.le h1.le]

/-- C64 (true part): the angles come back, unless `phi` is just below `2π`. -/
theorem C64_round_trip_partial (phi theta : ℝ) (h0 : 0 < theta) (h1 : theta < Real.pi) (h2 : 0 ≤ phi) (h3 : phi < 2 * Real.pi) (hs : ¬ Snapped phi) :
    stateToSpherical (sphericalToState phi theta) = .ok (phi, theta) := by
  rw [spherical_round_trip phi theta h0 h1 h2 h3, if_neg (fun h => hs ((isCloseTo_snapped h3).mp h))]

/-- C64 is false: every angle `phi` just below `2π` comes back as 0. -/
theorem C64_refuted (phi theta : ℝ) (h0 : 0 < theta) (h1 : theta < Real.pi) (h2 : 0 < phi) (h3 : phi < 2 * Real.pi) (hs : Snapped phi) :
    stateToSpherical (sphericalToState phi theta) = .ok (0, theta) ∧ (0 : ℝ) ≠ phi := by
  rw [spherical_round_trip phi theta h0 h1 h2.le h3, if_pos ((isCloseTo_snapped h3).mpr hs)]
  exact ⟨rfl, h2.ne⟩

/-- C64, the poles: for `theta = 0` and `theta = π` the angle `phi` is lost. -/
theorem C64_poles (phi theta : ℝ) (h : theta = 0 ∨ theta = Real.pi) : stateToSpherical (sphericalToState phi theta) = .ok (0, theta) := by
  have hpi := Real.pi_pos
  have hpi3 := Real.pi_gt_three
  obtain ⟨hp, hb⟩ := C63_pure_state phi theta
  have hs : Real.sin theta = 0 := by rcases h with rfl | rfl <;> simp
  have ht : Real.arccos (Real.cos theta) = theta := by rcases h with rfl | rfl <;> simp
  rw [stateToSpherical_of hp.trace hb (Real.neg_one_le_cos _) (Real.cos_le_one _), ht, hs]
  have : Complex.arg ⟨0 * Real.cos phi, 0 * Real.sin phi⟩ = 0 := by
    rw [zero_mul, zero_mul]; exact Complex.arg_zero
  rw [this, pyMod_id le_rfl (by linarith)]
  simp

/-- Angles that meet the hypotheses. -/
example : ¬ Snapped 1 ∧ Snapped (2 * Real.pi - 1e-3) ∧ 0 < 2 * Real.pi - 1e-3 ∧ 2 * Real.pi - 1e-3 < 2 * Real.pi ∧ (0 : ℝ) < 1 ∧ (1 : ℝ) < Real.pi := by
  have hpi3 := Real.pi_gt_three
  have hpi4 := Real.pi_lt_four
  refine ⟨?_, ?_, by linarith, by linarith, by norm_num, by linarith⟩
  · rw [Snapped, not_le]; nlinarith
  · rw [Snapped]; nlinarith

/-- A pure state is determined by its Bloch vector, which is a real unit vector. -/
theorem pure_bloch {rho : Matrix (Fin 2) (Fin 2) ℂ} (h : IsPure rho) : ∃ x y z : ℝ, blochVector rho = ((x : ℂ), (y : ℂ), (z : ℂ)) ∧ x ^ 2 + y ^ 2 + z ^ 2 = 1 := by
  have h00 := congrFun (congrFun h.herm 0) 0
  have h01 := congrFun (congrFun h.herm 0) 1
  have h11 := congrFun (congrFun h.herm 1) 1
  have p00 := congrFun (congrFun h.proj 0) 0
  have ht := h.trace
  rw [Matrix.trace_fin_two] at ht
  simp only [Matrix.conjTranspose_apply, Matrix.mul_apply, Fin.sum_univ_two] at h00 h01 h11 p00
  obtain ⟨a, ha⟩ : ∃ a : ℝ, rho 0 0 = a := ⟨_, (Complex.conj_eq_iff_re.mp h00).symm⟩
  obtain ⟨d, hd⟩ : ∃ a : ℝ, rho 1 1 = a := ⟨_, (Complex.conj_eq_iff_re.mp h11).symm⟩
  obtain ⟨u, v, hb⟩ : ∃ u v : ℝ, rho 0 1 = u + v * Complex.I := ⟨_, _, (Complex.re_add_im _).symm⟩
  have hc : rho 1 0 = u - v * Complex.I := by
    have h10 := congrFun (congrFun h.herm 1) 0
    rw [Matrix.conjTranspose_apply, hb] at h10
    rw [← h10]
    simp
    ring
  rw [ha, hd] at ht
  have ht' : a + d = 1 := by exact_mod_cast ht
  rw [ha, hb, hc] at p00
  have q : a * a + (u * u + v * v) = a := by
    have : ((a * a + (u * u + v * v) : ℝ) : ℂ) = ((a : ℝ) : ℂ) := by
      rw [← p00]
      push_cast
      linear_combination (v : ℂ) ^ 2 * Complex.I_sq
    exact_mod_cast this
  refine ⟨2 * u, -2 * v, a - d, ?_, ?_⟩
  · simp only [blochVector, Matrix.trace_fin_two, Matrix.mul_apply, Fin.sum_univ_two, ha, hb, hc, hd]
    refine Prod.ext ?_ (Prod.ext ?_ ?_) <;> simp
    · ring
    · linear_combination (2 * v : ℂ) * Complex.I_sq
    · ring
  · obtain rfl : d = 1 - a := by linarith
    nlinarith

theorem eq_of_bloch {rho sigma : Matrix (Fin 2) (Fin 2) ℂ} (ht : rho.trace = sigma.trace) (hb : blochVector rho = blochVector sigma) : rho = sigma := by
  have hx := congrArg Prod.fst hb
  have hy := congrArg (fun v => v.2.1) hb
  have hz := congrArg (fun v => v.2.2) hb
  simp [blochVector, Matrix.trace_fin_two, Matrix.mul_apply, Fin.sum_univ_two] at hx hy hz
  rw [Matrix.trace_fin_two, Matrix.trace_fin_two] at ht
  ext i j
  have hI := Complex.I_sq
  fin_cases i <;> fin_cases j <;> simp
  · linear_combination (ht + hz) / 2
  · linear_combination hx / 2 - Complex.I * hy / 2 + (rho 0 1 - rho 1 0 - sigma 0 1 + sigma 1 0) / 2 * hI
  · linear_combination hx / 2 + Complex.I * hy / 2 - (rho 0 1 - rho 1 0 - sigma 0 1 + sigma 1 0) / 2 * hI
  · linear_combination (ht - hz) / 2

/-- Every point of the unit sphere has spherical coordinates: the ones `state_to_spherical` computes before it rounds. -/
theorem sphere_coords {x y z : ℝ} (h : x ^ 2 + y ^ 2 + z ^ 2 = 1) :
    let phi := pyMod (Complex.arg ⟨x, y⟩) (2 * Real.pi)
    (0 ≤ phi ∧ phi < 2 * Real.pi) ∧ x = Real.sin (Real.arccos z) * Real.cos phi ∧ y = Real.sin (Real.arccos z) * Real.sin phi ∧ z = Real.cos (Real.arccos z) := by
  have hpi := Real.pi_pos
  intro phi
  have hz0 : -1 ≤ z := by nlinarith [sq_nonneg x, sq_nonneg y]
  have hz1 : z ≤ 1 := by nlinarith [sq_nonneg x, sq_nonneg y]
  have hs : Real.sin (Real.arccos z) = ‖(⟨x, y⟩ : ℂ)‖ := by
    rw [Real.sin_arccos, Complex.norm_def, Complex.normSq_mk]
    congr 1
    linarith
  have hphi : phi = Complex.arg ⟨x, y⟩ ∨ phi = Complex.arg ⟨x, y⟩ + 2 * Real.pi := by
    have ha := Complex.neg_pi_lt_arg ⟨x, y⟩
    have hb := Complex.arg_le_pi ⟨x, y⟩
    by_cases h0 : 0 ≤ Complex.arg ⟨x, y⟩
    · exact Or.inl (pyMod_id h0 (by linarith))
    · exact Or.inr (pyMod_neg (by linarith) (by linarith) (by linarith))
  have hcs : Real.cos phi = Real.cos (Complex.arg ⟨x, y⟩) ∧ Real.sin phi = Real.sin (Complex.arg ⟨x, y⟩) := by
    rcases hphi with h | h <;> rw [h] <;> simp
  refine ⟨?_, ?_, ?_, (Real.cos_arccos hz0 hz1).symm⟩
  · have ha := Complex.neg_pi_lt_arg ⟨x, y⟩
    have hb := Complex.arg_le_pi ⟨x, y⟩
    by_cases h0 : 0 ≤ Complex.arg ⟨x, y⟩
    · have : phi = _ := pyMod_id h0 (by linarith)
      rw [this]
      exact ⟨h0, by linarith⟩
    · have : phi = _ := pyMod_neg (m := 2 * Real.pi) (by linarith) (by linarith) (by linarith)
      rw [this]
      exact ⟨by linarith, by linarith⟩
  · rw [hs, hcs.1, Complex.norm_mul_cos_arg]
  · rw [hs, hcs.2, Complex.norm_mul_sin_arg]

/-- C70: for every pure state the function returns angles of that state, except that an angle `phi` just below `2π` is replaced by 0.
There is no further exception, and the function does not fail. -/
theorem C70_pure_states_partial (rho : Matrix (Fin 2) (Fin 2) ℂ) (h : IsPure rho) : ∃ phi theta : ℝ, (0 ≤ phi ∧ phi < 2 * Real.pi) ∧ (0 ≤ theta ∧ theta ≤ Real.pi) ∧
    sphericalToState phi theta = rho ∧ (¬ Snapped phi → stateToSpherical rho = .ok (phi, theta)) ∧ (Snapped phi → stateToSpherical rho = .ok (0, theta)) := by
  obtain ⟨x, y, z, hb, hn⟩ := pure_bloch h
  have hz0 : -1 ≤ z := by nlinarith [sq_nonneg x, sq_nonneg y]
  have hz1 : z ≤ 1 := by nlinarith [sq_nonneg x, sq_nonneg y]
  have hres := stateToSpherical_of h.trace hb hz0 hz1
  have hsph := sphere_coords hn
  simp only at hsph
  revert hsph hres
  generalize pyMod (Complex.arg ⟨x, y⟩) (2 * Real.pi) = phi
  intro hres ⟨h1, hx, hy, hz⟩
  obtain ⟨hp, hb'⟩ := C63_pure_state phi (Real.arccos z)
  refine ⟨phi, Real.arccos z, h1, ⟨Real.arccos_nonneg _, Real.arccos_le_pi _⟩, eq_of_bloch (hp.trace.trans h.trace.symm) ?_, fun hs => ?_, fun hs => ?_⟩
  · rw [hb, hb', ← hx, ← hy, ← hz]
  · rw [hres, if_neg (fun h => hs ((isCloseTo_snapped h1.2).mp h))]
  · rw [hres, if_pos ((isCloseTo_snapped h1.2).mpr hs)]

/-- C70 is false as stated: for the states just below `phi = 2π` the returned angles belong to another state. -/
theorem C70_refuted : ∃ rho : Matrix (Fin 2) (Fin 2) ℂ, IsPure rho ∧ ∃ phi theta : ℝ, stateToSpherical rho = .ok (phi, theta) ∧ sphericalToState phi theta ≠ rho := by
  have hpi := Real.pi_pos
  have hpi3 := Real.pi_gt_three
  refine ⟨sphericalToState (2 * Real.pi - 1e-3) (Real.pi / 2), (C63_pure_state _ _).1, 0, Real.pi / 2,
    (C64_refuted _ _ (by linarith) (by linarith) (by linarith) (by linarith) ?_).1, fun h => ?_⟩
  · rw [Snapped]; nlinarith
  · have hb := (C63_pure_state 0 (Real.pi / 2)).2
    rw [h, (C63_pure_state _ _).2] at hb
    have hy := congrArg (fun v => v.2.1) hb
    simp only [Real.sin_pi_div_two, one_mul, Real.sin_zero, Complex.ofReal_zero, Complex.ofReal_eq_zero, Real.sin_two_pi_sub, neg_eq_zero] at hy
    exact absurd hy (Real.sin_pos_of_pos_of_lt_pi (by norm_num) (by linarith)).ne'

/-- A pure state. -/
example : IsPure !![1 / 2, 1 / 2; 1 / 2, 1 / 2] := by
  have h := (C63_pure_state 0 (Real.pi / 2)).1
  have : sphericalToState 0 (Real.pi / 2) = !![1 / 2, 1 / 2; 1 / 2, 1 / 2] := by
    apply eq_of_bloch
    · rw [h.trace, Matrix.trace_fin_two]; norm_num
    · rw [(C63_pure_state _ _).2]
      simp [blochVector, Matrix.trace_fin_two, Matrix.mul_apply, Fin.sum_univ_two]
      norm_num
  exact this ▸ h

end Oranssi
