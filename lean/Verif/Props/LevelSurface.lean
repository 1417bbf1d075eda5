import Verif.Props.FixedPoints

/-! # C100: experiments_paper/3_sphere_level_curves.py -/

namespace Oranssi
open Spec
open scoped Matrix

/-- The level sets in coordinates. -/
theorem onLevel_iff (c r1 r2 r3 r4 : ℝ) : OnLevel c r1 r2 r3 r4 ↔
    r1 ^ 2 + r2 ^ 2 + r3 ^ 2 + r4 ^ 2 = 1 ∧ 2 * (r1 * (r3 + r4) + r2 * (r4 - r3)) = c := by
  constructor
  · rintro ⟨U, hU, h0, h1, hc⟩
    obtain ⟨-, -, hn⟩ := su2_entries hU
    rw [cost_hXY] at hc
    rw [h0, h1] at hn hc
    exact ⟨hn, hc⟩
  · rintro ⟨hn, hc⟩
    refine ⟨sphereMatrix ![r1, r2, r3] r4, sphereMatrix_unitary _ _ (by simpa using hn), ?_, ?_, ?_⟩
    · apply Complex.ext <;> simp [sphereMatrix]
    · apply Complex.ext <;> simp [sphereMatrix]
    · rw [cost_hXY]
      simp [sphereMatrix]
      linarith

/-- The radicand of `level_surface`. -/
theorem radicand_eq (r3 r4 c : ℝ) : -(r3 + r4) ^ 2 * (c ^ 2 + 8 * r3 ^ 4 - 8 * r4 ^ 2 + 8 * r4 ^ 4 + 8 * r3 ^ 2 * (-1 + 2 * r4 ^ 2)) =
    (r3 + r4) ^ 2 * (8 * (r3 ^ 2 + r4 ^ 2) * (1 - (r3 ^ 2 + r4 ^ 2)) - c ^ 2) := by ring

theorem levelSurface_some {r3 r4 c : ℝ} (h : r3 + r4 ≠ 0) (hr : 0 ≤ (r3 + r4) ^ 2 * (8 * (r3 ^ 2 + r4 ^ 2) * (1 - (r3 ^ 2 + r4 ^ 2)) - c ^ 2)) :
    levelSurface r3 r4 c = some ((-c * r3 + c * r4 - Real.sqrt ((r3 + r4) ^ 2 * (8 * (r3 ^ 2 + r4 ^ 2) * (1 - (r3 ^ 2 + r4 ^ 2)) - c ^ 2))) /
      (4 * (r3 ^ 2 + r4 ^ 2))) := by
  have hs : 4 * (r3 ^ 2 + r4 ^ 2) ≠ 0 := by
    have : 0 < (r3 + r4) ^ 2 := by positivity
    nlinarith [sq_nonneg (r3 - r4)]
  rw [levelSurface, radicand_eq, npSqrt, if_pos hr]
  dsimp only
  rw [if_neg hs]

/-- C100.  Off the line `r3 = -r4`: the value of `level_surface(r3, r4, c)` is the smallest `r2` for which there is a circuit of SU(2) with first column
`(r1 + i r2, r3 + i r4)` and cost `c` for `X + Y`, and it is `nan` when there is none. -/
theorem C100_level_partial (r3 r4 c : ℝ) (h : r3 + r4 ≠ 0) :
    (∀ r2, levelSurface r3 r4 c = some r2 → ∃ r1, OnLevel c r1 r2 r3 r4) ∧
    (∀ r1 r2, OnLevel c r1 r2 r3 r4 → ∃ m, levelSurface r3 r4 c = some m ∧ m ≤ r2) := by
  have hp : 0 < (r3 + r4) ^ 2 := by positivity
  have hs : 0 < r3 ^ 2 + r4 ^ 2 := by nlinarith [sq_nonneg (r3 - r4)]
  constructor
  · intro r2 hl
    by_cases hr : 0 ≤ (r3 + r4) ^ 2 * (8 * (r3 ^ 2 + r4 ^ 2) * (1 - (r3 ^ 2 + r4 ^ 2)) - c ^ 2)
    · rw [levelSurface_some h hr, Option.some.injEq] at hl
      set q := Real.sqrt ((r3 + r4) ^ 2 * (8 * (r3 ^ 2 + r4 ^ 2) * (1 - (r3 ^ 2 + r4 ^ 2)) - c ^ 2)) with hq
      have hq2 : q ^ 2 = (r3 + r4) ^ 2 * (8 * (r3 ^ 2 + r4 ^ 2) * (1 - (r3 ^ 2 + r4 ^ 2)) - c ^ 2) := Real.sq_sqrt hr
      have hr2 : r2 * (4 * (r3 ^ 2 + r4 ^ 2)) = -c * r3 + c * r4 - q := by
        rw [← hl, div_mul_cancel₀ _ (by positivity)]
      have hquad : 2 * (r3 ^ 2 + r4 ^ 2) * r2 ^ 2 - c * (r4 - r3) * r2 + c ^ 2 / 4 - (1 - (r3 ^ 2 + r4 ^ 2)) * (r3 + r4) ^ 2 = 0 := by
        have e : q = -c * r3 + c * r4 - r2 * (4 * (r3 ^ 2 + r4 ^ 2)) := by linarith
        rw [e] at hq2
        have : 8 * (r3 ^ 2 + r4 ^ 2) * (2 * (r3 ^ 2 + r4 ^ 2) * r2 ^ 2 - c * (r4 - r3) * r2 + c ^ 2 / 4 - (1 - (r3 ^ 2 + r4 ^ 2)) * (r3 + r4) ^ 2) = 0 := by
          linear_combination hq2
        rcases mul_eq_zero.1 this with h' | h'
        · linarith
        · exact h'
      refine ⟨(c / 2 - r2 * (r4 - r3)) / (r3 + r4), (onLevel_iff _ _ _ _ _).2 ⟨?_, ?_⟩⟩
      · field_simp
        linear_combination 4 * hquad
      · field_simp
        ring
    · rw [levelSurface, radicand_eq, npSqrt, if_neg hr] at hl
      cases hl
  · intro r1 r2 hL
    obtain ⟨hn, hc⟩ := (onLevel_iff _ _ _ _ _).1 hL
    have hsq : (r3 + r4) ^ 2 * (8 * (r3 ^ 2 + r4 ^ 2) * (1 - (r3 ^ 2 + r4 ^ 2)) - c ^ 2) = (4 * (r3 ^ 2 + r4 ^ 2) * r2 - c * (r4 - r3)) ^ 2 := by
      subst hc
      have : 1 - (r3 ^ 2 + r4 ^ 2) = r1 ^ 2 + r2 ^ 2 := by linarith
      rw [this]; ring
    have hr : 0 ≤ (r3 + r4) ^ 2 * (8 * (r3 ^ 2 + r4 ^ 2) * (1 - (r3 ^ 2 + r4 ^ 2)) - c ^ 2) := hsq ▸ sq_nonneg _
    refine ⟨_, levelSurface_some h hr, ?_⟩
    rw [div_le_iff₀ (by positivity), hsq, Real.sqrt_sq_eq_abs]
    have := neg_abs_le (4 * (r3 ^ 2 + r4 ^ 2) * r2 - c * (r4 - r3))
    have := le_abs_self (-(4 * (r3 ^ 2 + r4 ^ 2) * r2 - c * (r4 - r3)))
    rw [abs_neg] at this
    linarith

/-- C100.  On the line `r3 = -r4` the value is finite although no circuit has these coordinates: at the neighbouring grid values `±1/49` the surface that
the script draws for `c = 1` is at the height `49/4`. -/
theorem C100_refuted : levelSurface (-1 / 49) (1 / 49) 1 = some (49 / 4) ∧ ∀ r1 r2, ¬ OnLevel 1 r1 r2 (-1 / 49) (1 / 49) := by
  constructor
  · rw [levelSurface, radicand_eq, npSqrt, if_pos (by norm_num)]
    norm_num
  · intro r1 r2 hL
    obtain ⟨hn, hc⟩ := (onLevel_iff _ _ _ _ _).1 hL
    nlinarith [sq_nonneg r1]

/-- C100.  On the whole line `r3 = -r4`: the value is `c / (4 r4)`, which is the only possible `r2`, but there is a circuit with it only when
`(c / (4 r4))² + 2 r4² ≤ 1`, which is not checked; at the origin the value is `nan` also for `c = 0`, where there are circuits. -/
theorem C100_line_partial (c : ℝ) : (∀ r : ℝ, r ≠ 0 → levelSurface (-r) r c = some (c / (4 * r)) ∧
      ∀ r2, (∃ r1, OnLevel c r1 r2 (-r) r) ↔ r2 = c / (4 * r) ∧ (c / (4 * r)) ^ 2 + 2 * r ^ 2 ≤ 1) ∧
    levelSurface 0 0 c = none ∧ OnLevel 0 1 0 0 0 := by
  refine ⟨fun r hr => ⟨?_, fun r2 => ?_⟩, ?_, ?_⟩
  · rw [levelSurface, radicand_eq, npSqrt, if_pos (by simp)]
    dsimp only
    have : 4 * ((-r) ^ 2 + r ^ 2) ≠ 0 := by positivity
    rw [if_neg this]
    simp
    field_simp
  · constructor
    · rintro ⟨r1, hL⟩
      obtain ⟨hn, hc⟩ := (onLevel_iff _ _ _ _ _).1 hL
      have h2 : r2 = c / (4 * r) := by
        rw [eq_div_iff (by simpa using hr)]; linarith
      rw [← h2]
      exact ⟨rfl, by nlinarith [sq_nonneg r1]⟩
    · rintro ⟨rfl, hle⟩
      refine ⟨Real.sqrt (1 - (c / (4 * r)) ^ 2 - 2 * r ^ 2), (onLevel_iff _ _ _ _ _).2 ⟨?_, ?_⟩⟩
      · rw [Real.sq_sqrt (by linarith)]; ring
      · field_simp
        ring
  · rw [levelSurface, radicand_eq, npSqrt, if_pos (by simp)]
    simp
  · exact (onLevel_iff _ _ _ _ _).2 (by norm_num)

/-- A case for `C100_level_partial` in which there is a circuit. -/
example : (4 / 5 : ℝ) + 0 ≠ 0 ∧ ∃ m, levelSurface (4 / 5) 0 (24 / 25) = some m ∧ m ≤ 0 :=
  ⟨by norm_num, (C100_level_partial (4 / 5) 0 (24 / 25) (by norm_num)).2 (3 / 5) 0 ((onLevel_iff _ _ _ _ _).2 (by norm_num))⟩

end Oranssi
