import Verif.Model.RedBlueScript
import Verif.Props.RedBlue
import Verif.Props.Scripts
import Verif.Props.Bloch
import Verif.Props.RunUnitary
import Verif.Props.SumOnly
import Verif.Props.AlgebraGraphsMain

/-! # C132: what experiments_paper/red_blue_comparison.py draws -/

namespace Oranssi
open Spec
open scoped Matrix

/-- `(φ, θ)` are spherical coordinates of the state of the one-qubit circuit `U`; an angle `φ` just below a full turn may have been replaced by `0`. -/
structure Spec.Located (U : QMat 1) (p : ℝ × ℝ) : Prop where
  phi0 : 0 ≤ p.1
  phi1 : p.1 < 2 * Real.pi
  theta0 : 0 ≤ p.2
  theta1 : p.2 ≤ Real.pi
  x : p.1 ≠ 0 → Real.sin p.2 * Real.cos p.1 = cost matX U
  y : p.1 ≠ 0 → Real.sin p.2 * Real.sin p.1 = cost matY U
  z : Real.cos p.2 = cost matZ U
  snapped : p.1 = 0 → |Real.sin p.2 - cost matX U| ≤ 0.00108 ∧ |cost matY U| ≤ 0.00108

theorem bloch_entries {U : QMat 1} (hU : Unitary U) : cost matX U ^ 2 + cost matY U ^ 2 + cost matZ U ^ 2 = 1 ∧
    (Matrix.vecMulVec (stateFromUnitary U) (star (stateFromUnitary U)) : Matrix (Fin 2) (Fin 2) ℂ).trace = 1 ∧
    blochVector (Matrix.vecMulVec (stateFromUnitary U) (star (stateFromUnitary U))) = ((cost matX U : ℂ), (cost matY U : ℂ), (cost matZ U : ℂ)) := by
  have h := congrFun (congrFun hU 0) 0
  set u : Fin 2 → ℂ := stateFromUnitary U with hu
  have hn : (u 0).re ^ 2 + (u 0).im ^ 2 + (u 1).re ^ 2 + (u 1).im ^ 2 = 1 := by
    have h' : ∑ i : Fin 2, star (u i) * u i = 1 := h
    rw [Fin.sum_univ_two] at h'
    have := congrArg Complex.re h'
    simp at this
    linarith
  have hx : cost matX U = 2 * ((u 0).re * (u 1).re + (u 0).im * (u 1).im) := by
    change (star u ⬝ᵥ ((!![0, 1; 1, 0] : Matrix (Fin 2) (Fin 2) ℂ) *ᵥ u)).re = _
    simp [dotProduct, Matrix.mulVec, Fin.sum_univ_two]
    ring
  have hy : cost matY U = 2 * ((u 0).re * (u 1).im - (u 0).im * (u 1).re) := by
    change (star u ⬝ᵥ ((!![0, -Complex.I; Complex.I, 0] : Matrix (Fin 2) (Fin 2) ℂ) *ᵥ u)).re = _
    simp [dotProduct, Matrix.mulVec, Fin.sum_univ_two]
    ring
  have hz : cost matZ U = (u 0).re * (u 0).re + (u 0).im * (u 0).im - (u 1).re * (u 1).re - (u 1).im * (u 1).im := by
    change (star u ⬝ᵥ ((!![1, 0; 0, -1] : Matrix (Fin 2) (Fin 2) ℂ) *ᵥ u)).re = _
    simp [dotProduct, Matrix.mulVec, Fin.sum_univ_two]
    ring
  refine ⟨?_, ?_, ?_⟩
  · rw [hx, hy, hz]
    linear_combination ((u 0).re ^ 2 + (u 0).im ^ 2 + (u 1).re ^ 2 + (u 1).im ^ 2 + 1) * hn
  · rw [Matrix.trace_fin_two]
    simp only [Matrix.vecMulVec_apply, Pi.star_apply]
    apply Complex.ext
    · simp; linarith
    · simp; ring
  · rw [blochVector, hx, hy, hz]
    simp only [Matrix.trace_fin_two, Matrix.mul_apply, Fin.sum_univ_two, Matrix.vecMulVec_apply, Pi.star_apply, Prod.mk.injEq]
    refine ⟨?_, ?_, ?_⟩ <;> apply Complex.ext <;> simp <;> ring

theorem sphericalPoint {U : QMat 1} (hU : Unitary U) : ∃ p, stateToSpherical (Matrix.vecMulVec (stateFromUnitary U) (star (stateFromUnitary U))) = .ok p ∧ Located U p := by
  obtain ⟨hz, ht, hb⟩ := bloch_entries hU
  set z := cost matZ U
  set x := cost matX U
  set y := cost matY U
  have hz1 : z ^ 2 ≤ 1 := by nlinarith [sq_nonneg x, sq_nonneg y]
  obtain ⟨h0, h1⟩ := abs_le.1 (abs_le_one_iff_mul_self_le_one.2 (by nlinarith : z * z ≤ 1))
  have hsin : Real.sin (Real.arccos z) = ‖(⟨x, y⟩ : ℂ)‖ := by
    rw [Real.sin_arccos, Complex.norm_eq_sqrt_sq_add_sq]
    congr 1
    linarith
  have hpi := Real.pi_pos
  set a := Complex.arg ⟨x, y⟩ with ha
  have hc : ‖(⟨x, y⟩ : ℂ)‖ * Real.cos a = x := Complex.norm_mul_cos_arg ⟨x, y⟩
  have hs : ‖(⟨x, y⟩ : ℂ)‖ * Real.sin a = y := Complex.norm_mul_sin_arg ⟨x, y⟩
  have hnn : ‖(⟨x, y⟩ : ℂ)‖ ≤ 1 := by rw [← hsin]; exact Real.sin_le_one _
  have hn0 : 0 ≤ ‖(⟨x, y⟩ : ℂ)‖ := norm_nonneg _
  generalize ‖(⟨x, y⟩ : ℂ)‖ = r at hsin hc hs hnn hn0
  have hmod : 0 ≤ pyMod a (2 * Real.pi) ∧ pyMod a (2 * Real.pi) < 2 * Real.pi ∧ Real.cos (pyMod a (2 * Real.pi)) = Real.cos a ∧ Real.sin (pyMod a (2 * Real.pi)) = Real.sin a := by
    have b1 : -Real.pi < a := Complex.neg_pi_lt_arg _
    have b2 : a ≤ Real.pi := Complex.arg_le_pi _
    rcases le_or_gt 0 a with hp | hp
    · rw [pyMod_id hp (by linarith)]
      exact ⟨hp, by linarith, rfl, rfl⟩
    · rw [pyMod_neg (by linarith) hp (by linarith), Real.cos_add_two_pi, Real.sin_add_two_pi]
      exact ⟨by linarith, by linarith, rfl, rfl⟩
  obtain ⟨m0, m1, mc, ms⟩ := hmod
  refine ⟨_, stateToSpherical_of ht hb h0 h1, ?_⟩
  set f := pyMod a (2 * Real.pi) with hf
  by_cases hcl : isCloseTo f (2 * Real.pi) 1e-3 = true
  · rw [if_pos hcl]
    have hsn := (isCloseTo_snapped m1).1 hcl
    have hd : 2 * Real.pi - f ≤ 0.00108 := by
      have := Real.pi_lt_d2
      have h2 : 2 * Real.pi - f ≤ 1e-3 + 1e-5 * (2 * Real.pi) := hsn
      norm_num at h2 ⊢
      linarith
    have hd0 : 0 ≤ 2 * Real.pi - f := by linarith
    have e1 : Real.cos f = Real.cos (2 * Real.pi - f) := by rw [Real.cos_two_pi_sub]
    have e2 : Real.sin f = -Real.sin (2 * Real.pi - f) := by rw [Real.sin_two_pi_sub, neg_neg]
    refine ⟨le_rfl, by simpa using hpi, Real.arccos_nonneg _, Real.arccos_le_pi _, fun h => absurd rfl h, fun h => absurd rfl h, Real.cos_arccos h0 h1, fun _ => ⟨?_, ?_⟩⟩
    · change |Real.sin (Real.arccos z) - x| ≤ _
      rw [hsin, ← hc, ← mc, e1]
      have c1 := Real.one_sub_sq_div_two_le_cos (x := 2 * Real.pi - f)
      have c2 := Real.cos_le_one (2 * Real.pi - f)
      rw [show r - r * Real.cos (2 * Real.pi - f) = r * (1 - Real.cos (2 * Real.pi - f)) by ring, abs_mul, abs_of_nonneg hn0, abs_of_nonneg (by linarith)]
      have : 1 - Real.cos (2 * Real.pi - f) ≤ 0.00108 := by nlinarith
      nlinarith
    · change |y| ≤ _
      rw [← hs, ← ms, e2, abs_mul, abs_of_nonneg hn0, abs_neg]
      have s1 : |Real.sin (2 * Real.pi - f)| ≤ 0.00108 := (Real.abs_sin_le_abs).trans (by rw [abs_of_nonneg hd0]; exact hd)
      nlinarith [abs_nonneg (Real.sin (2 * Real.pi - f))]
  · rw [if_neg hcl]
    refine ⟨m0, m1, Real.arccos_nonneg _, Real.arccos_le_pi _, fun _ => ?_, fun _ => ?_, Real.cos_arccos h0 h1, fun h => ⟨?_, ?_⟩⟩
    · change Real.sin (Real.arccos z) * Real.cos f = _
      rw [hsin, mc, hc]
    · change Real.sin (Real.arccos z) * Real.sin f = _
      rw [hsin, ms, hs]
    · change |Real.sin (Real.arccos z) - x| ≤ _
      have h' : f = 0 := h
      rw [h', Real.cos_zero] at mc
      rw [hsin, ← hc, ← mc, mul_one, sub_self, abs_zero]
      norm_num
    · have h' : f = 0 := h
      rw [h', Real.sin_zero] at ms
      change |y| ≤ _
      rw [← hs, ← ms, mul_zero, abs_zero]
      norm_num

theorem sphericalPath_ok (l : List (QMat 1)) (hl : ∀ U ∈ l, Unitary U) : ∃ path, sphericalPath (l.map stateFromUnitary) = .ok path ∧ List.Forall₂ Located l path := by
  obtain ⟨bs, h1, h2⟩ := mapM_forall₂ (fun U : QMat 1 => stateToSpherical (Matrix.vecMulVec (stateFromUnitary U) (star (stateFromUnitary U)))) Located l
    (fun U hU => sphericalPoint (hl U hU))
  refine ⟨bs, ?_, h2⟩
  rw [sphericalPath, List.mapM_map]
  exact h1

theorem blueLevel_eq (phi theta : ℝ) : blueLevel phi theta = Real.sin theta * Real.cos phi + Real.sin theta * Real.sin phi := by
  have h := (C63_pure_state phi theta).2
  have h1 := congrArg Prod.fst h
  have h2 := congrArg (fun p : ℂ × ℂ × ℂ => p.2.1) h
  rw [blueLevel, add_mul, Matrix.trace_add, Matrix.trace_mul_comm, Matrix.trace_mul_comm _ (sphericalToState phi theta)]
  simp only [blochVector] at h1 h2
  rw [h1, h2, ← Complex.ofReal_add, Complex.ofReal_re]

/-- The height of the landscape at the point drawn for a state. -/
theorem Spec.Located.level {U : QMat 1} {p : ℝ × ℝ} (h : Located U p) :
    (p.1 ≠ 0 → blueLevel p.1 p.2 = cost (totalObs [gateX, gateY]) U) ∧ |blueLevel p.1 p.2 - cost (totalObs [gateX, gateY]) U| ≤ 0.0022 := by
  have ht : cost (totalObs [gateX, gateY]) U = cost matX U + cost matY U := by
    rw [totalObs_pair, cost_add, show full 1 gateX.ws gateX.A = matX from full_one_qubit _, show full 1 gateY.ws gateY.A = matY from full_one_qubit _]
  have h1 : p.1 ≠ 0 → blueLevel p.1 p.2 = cost (totalObs [gateX, gateY]) U := fun h0 => by rw [blueLevel_eq, h.x h0, h.y h0, ht]
  refine ⟨h1, ?_⟩
  by_cases h0 : p.1 = 0
  · obtain ⟨h2, h3⟩ := h.snapped h0
    rw [blueLevel_eq, ht, h0, Real.cos_zero, Real.sin_zero, mul_one, mul_zero, add_zero]
    rw [abs_le] at h2 h3 ⊢
    norm_num at h2 h3 ⊢
    constructor <;> linarith
  · rw [h1 h0, sub_self, abs_zero]
    norm_num

theorem circAB_costZ (a b : ℝ) : cost matZ (circAB a b) = Real.cos a := by
  have h : star (fun i => circAB a b i 0) ⬝ᵥ (matZ *ᵥ (fun i => circAB a b i 0)) = ((Real.cos a : ℝ) : ℂ) := by
    rw [col_circAB]
    change ∑ i : Fin 2, star ((![((Real.cos (b / 2) : ℂ) - Complex.I * Real.sin (b / 2)) * Real.cos (a / 2), ((Real.cos (b / 2) : ℂ) + Complex.I * Real.sin (b / 2)) * Real.sin (a / 2)] : Fin 2 → ℂ) i) *
      ((!![1, 0; 0, -1] : Matrix (Fin 2) (Fin 2) ℂ) *ᵥ
        ![((Real.cos (b / 2) : ℂ) - Complex.I * Real.sin (b / 2)) * Real.cos (a / 2), ((Real.cos (b / 2) : ℂ) + Complex.I * Real.sin (b / 2)) * Real.sin (a / 2)]) i = _
    have h1 := Real.cos_sq_add_sin_sq (b / 2)
    have h2 : Real.cos a = Real.cos (a / 2) ^ 2 - Real.sin (a / 2) ^ 2 := by rw [← Real.cos_two_mul']; ring_nf
    rw [h2]
    generalize Real.cos (b / 2) = C at h1
    generalize Real.sin (b / 2) = S at h1
    generalize Real.cos (a / 2) = c
    generalize Real.sin (a / 2) = s
    rw [Fin.sum_univ_two]
    apply Complex.ext
    · simp [Matrix.mulVec, dotProduct, Fin.sum_univ_two, pow_two]
      linear_combination (c ^ 2 - s ^ 2) * h1
    · simp [Matrix.mulVec, dotProduct, Fin.sum_univ_two, pow_two]
      ring
  rw [cost, h, Complex.ofReal_re]

/-- The first point of both curves of the first figure. -/
theorem Spec.Located.start {p : ℝ × ℝ} (h : Located (circAB (Real.pi / 3) (Real.pi / 5)) p) : p = (Real.pi / 5, Real.pi / 3) := by
  have hpi := Real.pi_pos
  have hX : cost matX (circAB (Real.pi / 3) (Real.pi / 5)) = Real.sin (Real.pi / 3) * Real.cos (Real.pi / 5) := by
    rw [← (redBlue_costs (Real.pi / 3) (Real.pi / 5)).1, show full 1 gateX.ws gateX.A = matX from full_one_qubit _, circAB]
  have hY : cost matY (circAB (Real.pi / 3) (Real.pi / 5)) = Real.sin (Real.pi / 3) * Real.sin (Real.pi / 5) := by
    rw [← (redBlue_costs (Real.pi / 3) (Real.pi / 5)).2, show full 1 gateY.ws gateY.A = matY from full_one_qubit _, circAB]
  have hZ : cost matZ (circAB (Real.pi / 3) (Real.pi / 5)) = Real.cos (Real.pi / 3) := by
    exact circAB_costZ _ _
  have hth : p.2 = Real.pi / 3 := Real.injOn_cos ⟨h.theta0, h.theta1⟩ ⟨by linarith, by linarith⟩ (h.z.trans hZ)
  have hs3 : 0 < Real.sin (Real.pi / 3) := Real.sin_pos_of_pos_of_lt_pi (by linarith) (by linarith)
  have hne : p.1 ≠ 0 := by
    intro h0
    have := (h.snapped h0).2
    rw [hY, abs_of_pos (mul_pos hs3 (Real.sin_pos_of_pos_of_lt_pi (by linarith) (by linarith)))] at this
    have a1 := Real.mul_le_sin (x := Real.pi / 3) (by linarith) (by linarith)
    have a2 := Real.mul_le_sin (x := Real.pi / 5) (by linarith) (by linarith)
    rw [show 2 / Real.pi * (Real.pi / 3) = 2 / 3 by field_simp] at a1
    rw [show 2 / Real.pi * (Real.pi / 5) = 2 / 5 by field_simp] at a2
    nlinarith
  have c1 : Real.cos p.1 = Real.cos (Real.pi / 5) := by
    have := h.x hne
    rw [hth, hX] at this
    exact mul_left_cancel₀ hs3.ne' this
  have s1 : Real.sin p.1 = Real.sin (Real.pi / 5) := by
    have := h.y hne
    rw [hth, hY] at this
    exact mul_left_cancel₀ hs3.ne' this
  have hlt : p.1 < Real.pi := by
    by_contra hge
    have : Real.sin p.1 ≤ 0 := by
      rw [← Real.sin_sub_two_pi]
      exact Real.sin_nonpos_of_nonpos_of_neg_pi_le (by linarith [h.phi1]) (by linarith [not_lt.1 hge])
    rw [s1] at this
    exact absurd (Real.sin_pos_of_pos_of_lt_pi (by linarith : 0 < Real.pi / 5) (by linarith)) (not_lt.2 this)
  exact Prod.ext (Real.injOn_cos ⟨h.phi0, hlt.le⟩ ⟨by linarith, by linarith⟩ c1) hth

theorem pyGetItem_getLast {α : Type} {l : List α} (h : l ≠ []) : pyGetItem l (-1) = .ok (l.getLast h) := by
  have hp : 0 < l.length := List.length_pos_iff.2 h
  have h1 : pyIndex l.length (-1) = some (l.length - 1) := by rw [pyIndex, if_neg (by omega), if_pos (by omega)]; congr 1; omega
  rw [pyGetItem, h1]
  simp [List.getLast_eq_getElem, List.getElem?_eq_getElem (show l.length - 1 < l.length by omega)]

theorem forall₂_getElem? {α β : Type} {R : α → β → Prop} {l : List α} {l' : List β} (h : List.Forall₂ R l l') (k : ℕ) (b : β) (hb : l'[k]? = some b) :
    ∃ a, l[k]? = some a ∧ R a b := by
  induction h generalizing k with
  | nil => simp at hb
  | cons hr _ ih =>
    cases k with
    | zero => exact ⟨_, rfl, by simp at hb; exact hb ▸ hr⟩
    | succ k => simpa using ih k (by simpa using hb)

/-- The curve drawn for a run on the sphere: one point for every cost, in the range of the angles; the landscape at the point has the height of the cost, exactly unless the angle `φ` was
replaced by `0`, and up to `0.0022` always. -/
structure Spec.OnLandscape (costs : List ℝ) (path : List (ℝ × ℝ)) : Prop where
  length : path.length = costs.length
  point : ∀ (k : ℕ) (p : ℝ × ℝ), path[k]? = some p → 0 ≤ p.1 ∧ p.1 < 2 * Real.pi ∧ 0 ≤ p.2 ∧ p.2 ≤ Real.pi ∧
    (p.1 ≠ 0 → costs[k]? = some (blueLevel p.1 p.2)) ∧ |blueLevel p.1 p.2 - costs.getD k 0| ≤ 0.0022
  start : path[0]? = some (Real.pi / 5, Real.pi / 3)

theorem onLandscape_of {V : ℕ → QMat 1} {m : ℕ} {path : List (ℝ × ℝ)} (h0 : V 0 = circAB (Real.pi / 3) (Real.pi / 5))
    (h : List.Forall₂ Located ((List.range (m + 1)).map V) path) : OnLandscape ((List.range (m + 1)).map (fun k => cost (totalObs [gateX, gateY]) (V k))) path := by
  have hl : path.length = m + 1 := by simpa using h.length_eq.symm
  refine ⟨by simp [hl], fun k p hp => ?_, ?_⟩
  · obtain ⟨U, hU, hloc⟩ := forall₂_getElem? h k p hp
    have hk : k < m + 1 := by
      by_contra hk
      rw [List.getElem?_eq_none (by omega)] at hp
      simp at hp
    obtain rfl : V k = U := by simpa [hk] using hU
    refine ⟨hloc.phi0, hloc.phi1, hloc.theta0, hloc.theta1, fun hne => ?_, ?_⟩
    · simp [hk, hloc.level.1 hne]
    · simpa [List.getD, hk] using hloc.level.2
  · obtain ⟨p, hp⟩ : ∃ p, path[0]? = some p := ⟨path[0], List.getElem?_eq_getElem (by omega)⟩
    obtain ⟨U, hU, hloc⟩ := forall₂_getElem? h 0 p hp
    obtain rfl : V 0 = U := by simpa using hU
    rw [h0] at hloc
    rw [hp, hloc.start]

/-- The expectations of two anticommuting involutions in a run without perturbation. -/
theorem pair_flow {n : ℕ} {eigh : EighFn n} {rnd : ℕ → Matrix (Fin (2 ^ n)) (Fin (2 ^ n)) ℝ} {g g' : Gate n} {N m : ℕ} {e : ℝ} {t : Tol} {V W : ℕ → QMat n}
    (he : ValidEigh eigh) (hg : AntiPair g g') (h : (exactRules eigh rnd [g, g'] N e t false).Run V W m) (hu : ∀ k ≤ m, Unitary (V k)) (k : ℕ) (hk : k ≤ m) :
    (cost (full n g.ws g.A) (V k), cost (full n g'.ws g'.A) (V k)) = halfFlow e (cost (full n g.ws g.A) (V 0), cost (full n g'.ws g'.A) (V 0)) (2 * k) := by
  obtain ⟨hA, hA2, hB, hB2, hAB⟩ := hg
  have hO : (full n g.ws g.A)ᴴ = full n g.ws g.A := by rw [← full_conjTranspose rfl g.valid.2, hA]
  have hO2 : full n g.ws g.A * full n g.ws g.A = 1 := by rw [← full_mul rfl g.valid, hA2, full_one rfl g.valid]
  have hP : (full n g'.ws g'.A)ᴴ = full n g'.ws g'.A := by rw [← full_conjTranspose rfl g'.valid.2, hB]
  have hP2 : full n g'.ws g'.A * full n g'.ws g'.A = 1 := by rw [← full_mul rfl g'.valid, hB2, full_one rfl g'.valid]
  have hBA : full n g'.ws g'.A * full n g.ws g.A = -(full n g.ws g.A * full n g'.ws g'.A) := by rw [hAB, neg_neg]
  induction k with
  | zero => rfl
  | succ k ih =>
    have hcost := ih (by omega)
    have hWV : W k = V k := by
      cases k with
      | zero => exact h.start
      | succ k => exact h.kept k (by omega) (.inr rfl)
    have h1 : exactUpdates eigh e ([g, g'].map Gate.obs) (W k) = .ok (V (k + 1)) := h.advance k (by omega)
    obtain ⟨Q, hQ, hupd⟩ := exactUpdates_pair eigh he e g g' hA hA2 hB hB2 (V k)
    rw [hWV, hupd] at h1
    rw [← Except.ok.inj h1]
    obtain ⟨q1, q2⟩ := pair_step (hu k (by omega)) hO hO2 hP hP2 hAB e
    rw [← hQ] at q1 q2
    obtain ⟨-, r2⟩ := pair_step q1 hP hP2 hO hO2 hBA e
    rw [r2, q2, hcost, show 2 * (k + 1) = 2 * k + 1 + 1 by ring, halfFlow, halfFlow]

/-- The expectations of the two observables in the initial state of the script. -/
noncomputable def redBlueStart : ℝ × ℝ := (Real.sin (Real.pi / 3) * Real.cos (Real.pi / 5), Real.sin (Real.pi / 3) * Real.sin (Real.pi / 5))

theorem redBlueRiemann_ok {eigh : EighFn 1} (he : ValidEigh eigh) (rnd : ℕ → Matrix (Fin (2 ^ 1)) (Fin (2 ^ 1)) ℝ) : ∃ out path,
    exactLieOptimizer eigh rnd .state ((redBlueCircuit (Real.pi / 3) (Real.pi / 5)).map (fun g => (g.obs.matrix, g.obs.wires))) redBlueObservables
      { eta := .float 0.05, returnState := .bool true, nsteps := .int 100 } = .ok out ∧
    redBlueRiemann eigh rnd 0.05 100 [Real.pi / 3, Real.pi / 5] = .ok (path, exactCosts out) ∧ OnLandscape (exactCosts out) path ∧
    2 ≤ (exactCosts out).length ∧ (exactCosts out).length ≤ 101 ∧
    ∃ (V : ℕ → QMat 1) (m : ℕ), List.Forall₂ Located ((List.range (m + 1)).map V) path ∧
      (∀ k ≤ m, (cost matX (V k), cost matY (V k)) = halfFlow 0.05 redBlueStart (2 * k)) ∧
      (m = 100 ∨ ∃ k, m = k + 1 ∧ Close (some 1e-3) (cost matX (V (k + 1)) + cost matY (V (k + 1))) (cost matX (V k) + cost matY (V k))) := by
  obtain ⟨out, h⟩ := (C44_succeeds_iff eigh rnd .state [gateX, gateY] { eta := .float 0.05, returnState := .bool true, nsteps := .int 100 }
    (redBlueCircuit (Real.pi / 3) (Real.pi / 5))).mpr
    ⟨rfl, 100, 0.05, .fin 1e-3, true, false, false, false, ⟨rfl, by norm_num, rfl, by norm_num, by norm_num, ⟨rfl, by norm_num⟩, rfl, rfl, rfl, id, rfl⟩⟩
  obtain ⟨-, N, e, t, rs, p, rp, ru, hv, V, W, m, r, h0, hrun, rfl, -, hc, hs, -⟩ := exact_outcome _ _ _ _ _ _ _ h
  obtain rfl := BoolArg.bool.inj hv.flagS
  obtain rfl := BoolArg.bool.inj hv.flagR
  obtain rfl := BoolArg.bool.inj hv.flagU
  rw [if_pos rfl] at hs
  have hV0 : V 0 = circAB (Real.pi / 3) (Real.pi / 5) := by
    rw [compile_redBlue] at h0
    exact (Except.ok.inj h0).symm
  have hu := exact_run_unitary he hrun (by rw [hV0]; exact circAB_unitary _ _)
  obtain ⟨path, hp1, hp2⟩ := sphericalPath_ok ((List.range (m + 1)).map V) (by
    intro U hU
    obtain ⟨k, hk, rfl⟩ := List.mem_map.1 hU
    exact (hu k (by have := List.mem_range.1 hk; omega)).1)
  refine ⟨_, path, h, ?_, ?_, ?_⟩
  · have hops : plotDifferenceCircuit [Real.pi / 3, Real.pi / 5] = .ok ((redBlueCircuit (Real.pi / 3) (Real.pi / 5)).map (fun g => (g.obs.matrix, g.obs.wires))) :=
      plotDifference_ok _ (by simp)
    rw [redBlueRiemann, hops, ok_bind, show redBlueObservables = [gateX, gateY].map Gate.obs from rfl, h, ok_bind]
    rw [List.map_map] at hp1
    have hs' : r.states = (List.range (m + 1)).map (stateFromUnitary ∘ V) := hs
    change (do let path ← sphericalPath r.states; .ok (path, r.costs) : Py (List (ℝ × ℝ) × List ℝ)) = _
    rw [hs', hp1]
    rfl
  · rw [exactOutput_costs, hc]
    exact onLandscape_of hV0 hp2
  · rw [exactOutput_costs, hc, List.length_map, List.length_range]
    have hN : N = 100 := by have := NArg.int.inj hv.nsteps; omega
    have := hrun.bounded
    have hb : m ≤ N := this
    refine ⟨?_, by omega, V, m, hp2, ?_, ?_⟩
    · rcases hrun.ended with h | ⟨-, k, rfl, -⟩
      · have : m = N := h
        omega
      · omega
    · obtain rfl := BoolArg.bool.inj hv.flagP
      have hee : e = 0.05 := (PyVal.float.inj hv.eta).symm
      have hf := pair_flow he antiPair_XY hrun (fun k hk => (hu k hk).1)
      rw [hee, hV0, circAB, (redBlue_costs _ _).1, (redBlue_costs _ _).2, show full 1 gateX.ws gateX.A = matX from full_one_qubit _, show full 1 gateY.ws gateY.A = matY from full_one_qubit _] at hf
      exact hf
    · have htot : ∀ U : QMat 1, cost (totalObs [gateX, gateY]) U = cost matX U + cost matY U := fun U => by
        rw [totalObs_pair, cost_add, show full 1 gateX.ws gateX.A = matX from full_one_qubit _, show full 1 gateY.ws gateY.A = matY from full_one_qubit _]
      have ht : t.spec = some 1e-3 := by
        have := hv.tol
        cases t with
        | fin x => exact congrArg some (PyVal.float.inj this.1).symm
        | inf => cases this
      rcases hrun.ended with h | ⟨-, k, rfl, -, hcl⟩
      · have : m = N := h
        exact .inl (by omega)
      · refine .inr ⟨k, rfl, ?_⟩
        rw [← htot, ← htot, ← ht]
        exact hcl

theorem redBlueShift_ok {gd : ℝ → (List ℝ → Py ℝ) → List ℝ → Py (List ℝ)} (hgd : ValidGdList gd) : ∃ (out : OptOut (PsItem 1 (List ℝ))) (path : List (ℝ × ℝ))
    (ps : List (List ℝ)),
    parameterShiftOptimizer (n := 1) gd .nothing plotDifferenceCircuit [Real.pi / 3, Real.pi / 5] redBlueObservables
      { eta := .float 0.05, returnState := .bool true, returnParams := .int 1, nsteps := .int 100 } = .ok out ∧ psParams out = some ps ∧
    redBlueShift gd 0.05 100 [Real.pi / 3, Real.pi / 5] = .ok (path, (ps.map (fun r : List ℝ => pyMod (r.getD 0 0) (2 * Real.pi)),
      ps.map (fun r : List ℝ => pyMod (r.getD 1 0) (2 * Real.pi))), psCosts out) ∧ OnLandscape (psCosts out) path ∧
    ps.length = (psCosts out).length ∧ ps[0]? = some [Real.pi / 3, Real.pi / 5] ∧
    (∀ (k : ℕ) (r : List ℝ), ps[k]? = some r → (psCosts out)[k]? = some (Real.sin (r.getD 0 0) * Real.cos (r.getD 1 0) + Real.sin (r.getD 0 0) * Real.sin (r.getD 1 0))) ∧
    2 ≤ (psCosts out).length ∧ (psCosts out).length ≤ 101 := by
  obtain ⟨out, h⟩ := ps_succeeds (gs := [gateX, gateY]) (params := [Real.pi / 3, Real.pi / 5]) (fun p => p.length = 2) rfl
    (fun p hp => ⟨_, plotDifference_unitary p (by omega)⟩) (fun e p hp => by
      obtain ⟨q, h1, h2, -⟩ := gd_redBlue hgd (p := p) (by omega) e
      exact ⟨q, h1, h2.trans hp⟩)
    (args := { eta := .float 0.05, returnState := .bool true, returnParams := .int 1, nsteps := .int 100 })
    (N := 100) (e := 0.05) (t := .fin 1e-3) (rs := true) ⟨rfl, by norm_num, rfl, by norm_num, by norm_num, ⟨rfl, by norm_num⟩, rfl⟩ true rfl
  obtain ⟨-, N, e, t, rs, hv, V, m, r, hV0, hrun, rfl, hl, hc, hst, hpar⟩ := ps_outcome _ _ _ _ _ _ _ true rfl h
  obtain rfl := BoolArg.bool.inj hv.flagS
  obtain ⟨hsl, hst⟩ := hst rfl
  have hpar := hpar rfl
  have hlen : ∀ k ≤ m, (V k).length = 2 := by
    intro k
    induction k with
    | zero => intro _; rw [hV0]; rfl
    | succ k ih =>
      intro hk
      obtain ⟨p', q1, q2, -⟩ := gd_redBlue hgd (p := V k) (by have := ih (by omega); omega) e
      have hs := (hrun.advance k (by omega)).1
      rw [q1] at hs
      rw [← Except.ok.inj hs, q2]
      exact ih (by omega)
  have hU : ∀ k ≤ m, circuitUnitary 1 plotDifferenceCircuit (V k) = .ok (circAB ((V k).getD 0 0) ((V k).getD 1 0)) := fun k hk =>
    plotDifference_unitary _ (by have := hlen k hk; omega)
  set A : ℕ → QMat 1 := fun k => circAB ((V k).getD 0 0) ((V k).getD 1 0) with hA
  have hstates : r.states = ((List.range (m + 1)).map A).map stateFromUnitary := by
    apply List.ext_getElem?
    intro k
    by_cases hk : k < m + 1
    · obtain ⟨U, h1, h2⟩ := hst k (by omega)
      rw [hU k (by omega)] at h1
      rw [h2, ← Except.ok.inj h1]
      simp [hk, hA]
    · rw [List.getElem?_eq_none (by omega), List.getElem?_eq_none (by simp; omega)]
  have hcosts : r.costs = (List.range (m + 1)).map (fun k => cost (totalObs [gateX, gateY]) (A k)) := by
    apply List.ext_getElem?
    intro k
    by_cases hk : k < m + 1
    · obtain ⟨c, h1, h2⟩ := hc k (by omega)
      rw [psCost, hU k (by omega), ok_bind, totalCost_gates] at h1
      rw [h2, ← Except.ok.inj h1]
      simp [hk, hA]
    · rw [List.getElem?_eq_none (by omega), List.getElem?_eq_none (by simp; omega)]
  have hV0' : A 0 = circAB (Real.pi / 3) (Real.pi / 5) := by rw [hA]; simp [hV0]
  obtain ⟨path, hp1, hp2⟩ := sphericalPath_ok ((List.range (m + 1)).map A) (by
    intro U hU
    obtain ⟨k, hk, rfl⟩ := List.mem_map.1 hU
    exact circAB_unitary _ _)
  refine ⟨_, path, r.params, h, psOutput_params _ _ _, ?_, ?_, ?_, ?_, ?_, ?_⟩
  · rw [redBlueShift, show redBlueObservables = [gateX, gateY].map Gate.obs from rfl, h, ok_bind]
    change (do let path ← sphericalPath r.states; let drawn ← redBlueDrawn r.params; .ok (path, drawn, r.costs) : Py (List (ℝ × ℝ) × (List ℝ × List ℝ) × List ℝ)) = _
    rw [hstates, hp1, ok_bind, redBlueDrawn_ok _ (by
      rw [hpar]
      intro x hx
      obtain ⟨k, hk, rfl⟩ := List.mem_map.1 hx
      have := hlen k (by have := List.mem_range.1 hk; omega)
      omega)]
    rfl
  · rw [psOutput_costs, hcosts]
    exact onLandscape_of hV0' hp2
  · rw [psOutput_costs, hpar, hl]
    simp
  · rw [hpar]
    simp [hV0]
  · intro k x hx
    have hk : k < m + 1 := by
      by_contra hk
      rw [List.getElem?_eq_none (by rw [hpar]; simp; omega)] at hx
      simp at hx
    obtain rfl : V k = x := by simpa [hpar, hk] using hx
    obtain ⟨c, h1, h2⟩ := hc k (by omega)
    rw [show psCost 1 plotDifferenceCircuit (List.map Gate.obs [gateX, gateY]) (V k) = _ from redBlue_cost _ (by have := hlen k (by omega); omega)] at h1
    rw [psOutput_costs, h2, ← Except.ok.inj h1]
  · rw [psOutput_costs, hl]
    have hN : N = 100 := by have := NArg.int.inj hv.nsteps; omega
    have hb : m ≤ N := hrun.bounded
    refine ⟨?_, by omega⟩
    rcases hrun.ended with h | ⟨-, k, rfl, -⟩
    · have : m = N := h
      omega
    · omega

theorem redLevel_eq (a b : ℝ) : redLevel a b = .ok (Real.sin a * Real.cos b + Real.sin a * Real.sin b) := redBlue_cost [a, b] (by simp)

theorem mapM_eq_ok {α β : Type} {F : α → Py β} {f : α → β} : ∀ {l : List α}, (∀ a ∈ l, F a = .ok (f a)) → l.mapM F = .ok (l.map f)
  | [], _ => rfl
  | a :: l, h => by rw [List.mapM_cons, h a List.mem_cons_self, ok_bind, mapM_eq_ok (fun b hb => h b (List.mem_cons_of_mem _ hb))]; rfl

/-- C132.  red_blue_comparison.py runs to the end and saves its two figures.  In the first one both curves start at `(π/5, π/3)`, have one point for every cost of their run and lie on the
landscape at the height of the costs; in the second one the curve has one point for every cost of the parameter-shift run and lies on the landscape at exactly that height.  The second dot of the
first figure is at the last point, which is the one with the number `blueLabel - 1`: the labels `k = …` at the last points are one larger than the number of steps taken. -/
theorem C132_script {eigh : EighFn 1} (he : ValidEigh eigh) (rnd : ℕ → Matrix (Fin (2 ^ 1)) (Fin (2 ^ 1)) ℝ)
    {gd : ℝ → (List ℝ → Py ℝ) → List ℝ → Py (List ℝ)} (hgd : ValidGdList gd) (fs : List OutFile) :
    ∃ outE outP F, exactLieOptimizer eigh rnd .state ((redBlueCircuit (Real.pi / 3) (Real.pi / 5)).map (fun g => (g.obs.matrix, g.obs.wires))) redBlueObservables
        { eta := .float 0.05, returnState := .bool true, nsteps := .int 100 } = .ok outE ∧
      parameterShiftOptimizer (n := 1) gd .nothing plotDifferenceCircuit [Real.pi / 3, Real.pi / 5] redBlueObservables
        { eta := .float 0.05, returnState := .bool true, returnParams := .int 1, nsteps := .int 100 } = .ok outP ∧
      redBlueScript eigh rnd gd fs = (.ok F, fs ++ [.figure "bloch_sphere_difference_optimizer_2_obs_blue", .figure "bloch_sphere_difference_optimizer_2_obs_red"]) ∧
      redBlueRiemann eigh rnd 0.05 100 [Real.pi / 3, Real.pi / 5] = .ok (F.riemann, exactCosts outE) ∧
      redBlueShift gd 0.05 100 [Real.pi / 3, Real.pi / 5] = .ok (F.shift, F.params, psCosts outP) ∧
      OnLandscape (exactCosts outE) F.riemann ∧ OnLandscape (psCosts outP) F.shift ∧
      F.params.1.length = (psCosts outP).length ∧ F.params.2.length = (psCosts outP).length ∧
      (∀ (k : ℕ) (a b : ℝ), F.params.1[k]? = some a → F.params.2[k]? = some b → ∃ c : ℝ, (psCosts outP)[k]? = some c ∧ redLevel a b = .ok c) ∧
      F.params.1[0]? = some (Real.pi / 3) ∧ F.params.2[0]? = some (Real.pi / 5) ∧
      F.blueLabel = (exactCosts outE).length ∧ F.redLabel = (psCosts outP).length ∧ some F.blueDots.1 = F.riemann[0]? ∧ some F.blueDots.2 = F.riemann[F.blueLabel - 1]? ∧
      2 ≤ F.blueLabel ∧ F.blueLabel ≤ 101 ∧ 2 ≤ F.redLabel ∧ F.redLabel ≤ 101 ∧
      (∀ i < 25, ∀ j < 25, (F.blueLevels.getD i []).getD j 0 = blueLevel (2 * Real.pi * j / 24) (Real.pi * i / 24) ∧
        redLevel (2 * Real.pi * j / 24) (2 * Real.pi * i / 24) = .ok ((F.redLevels.getD i []).getD j 0)) := by
  obtain ⟨outE, path, hE, hR, hon, hl2, hl101, -⟩ := redBlueRiemann_ok he rnd
  obtain ⟨outP, path', ps, hP, hpp, hS, hon', hpl, hp0, hpc, hl2', hl101'⟩ := redBlueShift_ok hgd
  have hpi := Real.pi_pos
  have hne : path ≠ [] := List.length_pos_iff.1 (by have := hon.length; omega)
  have hfirst : pyGetItem path 0 = .ok (Real.pi / 5, Real.pi / 3) := by
    have h0 := hon.start
    have hlt : 0 < path.length := List.length_pos_iff.2 hne
    have := pyGetItem_nat hlt
    rw [List.getElem?_eq_getElem hlt] at h0
    rw [Option.some.inj h0] at this
    exact_mod_cast this
  have hlevels : (List.range 25).mapM (fun i : ℕ => (List.range 25).mapM (fun j : ℕ => redLevel (linspace0 (2 * Real.pi) 25 j) (linspace0 (2 * Real.pi) 25 i))) =
      .ok ((List.range 25).map (fun i : ℕ => (List.range 25).map (fun j : ℕ => Real.sin (linspace0 (2 * Real.pi) 25 j) * Real.cos (linspace0 (2 * Real.pi) 25 i) +
        Real.sin (linspace0 (2 * Real.pi) 25 j) * Real.sin (linspace0 (2 * Real.pi) 25 i)))) :=
    mapM_eq_ok fun i _ => mapM_eq_ok fun j _ => redLevel_eq _ _
  have hpn : 0 < ps.length := by omega
  have hd1 := pyGetItem_nat (l := ps.map (fun r : List ℝ => pyMod (r.getD 0 0) (2 * Real.pi))) (i := 0) (by simpa using hpn)
  have hd2 := pyGetItem_getLast (l := ps.map (fun r : List ℝ => pyMod (r.getD 1 0) (2 * Real.pi))) (List.length_pos_iff.1 (by simpa using hpn))
  refine ⟨outE, outP, ⟨(List.range 25).map (fun i : ℕ => (List.range 25).map (fun j : ℕ => blueLevel (linspace0 (2 * Real.pi) 25 j) (linspace0 Real.pi 25 i))),
    path, path', (exactCosts outE).length, ((Real.pi / 5, Real.pi / 3), path.getLast hne),
    (List.range 25).map (fun i : ℕ => (List.range 25).map (fun j : ℕ => Real.sin (linspace0 (2 * Real.pi) 25 j) * Real.cos (linspace0 (2 * Real.pi) 25 i) +
        Real.sin (linspace0 (2 * Real.pi) 25 j) * Real.sin (linspace0 (2 * Real.pi) 25 i))),
    (ps.map (fun r : List ℝ => pyMod (r.getD 0 0) (2 * Real.pi)), ps.map (fun r : List ℝ => pyMod (r.getD 1 0) (2 * Real.pi))), (psCosts outP).length⟩, hE, hP, ?_, hR, hS, hon, hon', ?_, ?_, ?_, ?_, ?_,
    rfl, rfl, hon.start.symm, ?_, hl2, hl101, hl2', hl101', ?_⟩
  · rw [redBlueScript, Script.bind_ok (Script.call_ok hR _)]
    refine (Script.bind_ok (Script.call_ok hS _)).trans ?_
    refine (Script.bind_ok (Script.call_ok hfirst _)).trans ?_
    refine (Script.bind_ok (Script.call_ok (pyGetItem_getLast hne) _)).trans ?_
    refine (Script.bind_ok (Script.write_ok _ _)).trans ?_
    refine (Script.bind_ok (Script.call_ok hlevels _)).trans ?_
    refine (Script.bind_ok (Script.call_ok hd1 _)).trans ?_
    refine (Script.bind_ok (Script.call_ok hd2 _)).trans ?_
    refine (Script.bind_ok (Script.write_ok _ _)).trans ?_
    simp only [List.append_assoc, List.cons_append, List.nil_append]
    rfl
  · simp [hpl]
  · simp [hpl]
  · intro k a b ha hb
    rw [List.getElem?_map] at ha hb
    obtain ⟨x, hx, rfl⟩ := Option.map_eq_some_iff.1 ha
    rw [hx] at hb
    obtain rfl := Option.some.inj hb
    refine ⟨_, hpc k x hx, ?_⟩
    rw [redLevel_eq, sin_pyMod, sin_pyMod, cos_pyMod]
  · rw [List.getElem?_map, hp0]
    simp [pyMod_id (show 0 ≤ Real.pi / 3 by linarith) (show Real.pi / 3 < 2 * Real.pi by linarith)]
  · rw [List.getElem?_map, hp0]
    simp [pyMod_id (show 0 ≤ Real.pi / 5 by linarith) (show Real.pi / 5 < 2 * Real.pi by linarith)]
  · change some (path.getLast hne) = path[(exactCosts outE).length - 1]?
    rw [← hon.length, List.getLast_eq_getElem, List.getElem?_eq_getElem]
  · intro i hi j hj
    have e1 : ∀ k : ℕ, linspace0 (2 * Real.pi) 25 k = 2 * Real.pi * k / 24 := fun k => by rw [linspace0]; norm_num
    have e2 : ∀ k : ℕ, linspace0 Real.pi 25 k = Real.pi * k / 24 := fun k => by rw [linspace0]; norm_num
    simp only [List.getD_eq_getElem?_getD, List.getElem?_map, List.getElem?_range hi, List.getElem?_range hj, Option.map_some, Option.getD_some, e1, e2]
    exact ⟨trivial, redLevel_eq _ _⟩

/-- Hypotheses of C132. -/
example : ∃ (eigh : EighFn 1) (gd : ℝ → (List ℝ → Py ℝ) → List ℝ → Py (List ℝ)), ValidEigh eigh ∧ ValidGdList gd := by
  obtain ⟨eigh, he⟩ := exists_validEigh 1
  obtain ⟨gd, hgd⟩ := exists_validGdList
  exact ⟨eigh, gd, he, hgd⟩

end Oranssi
