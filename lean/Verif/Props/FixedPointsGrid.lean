import Mathlib.Tactic.IntervalCases
import Verif.Model.FixedPointsGrid
import Verif.Props.FixedPoints
import Verif.Lemmas.Greedy
import Verif.Lemmas.PauliOp

/-! # The grid of fixed_points.py (C98, C120) -/

namespace Oranssi
open Oranssi.Spec
open scoped Matrix

/-- C98.  Outside of the ball the script stores zeros. -/
theorem C98_outside (r : Fin 3 → ℝ) (h : 1 < r 0 ^ 2 + r 1 ^ 2 + r 2 ^ 2) : fixedPointsRow r = .ok (![0, 0, 0], 0) := by
  obtain ⟨H, hH⟩ : ∃ H, getHamiltonianMatrix 1 fpObservables none = .ok H := by
    cases hh : getHamiltonianMatrix 1 fpObservables none with
    | ok H => exact ⟨H, rfl⟩
    | error e =>
      have := fixedPointsRow_in (r := ![0, 0, 0]) (by simp)
      rw [fixedPointsRow, hh] at this
      cases this
  rw [fixedPointsRow, hH, fpUnitary_out h]
  rfl

example : fixedPointsRow ![1, 1, 1] = .ok (![0, 0, 0], 0) := C98_outside _ (by simp)

/-- The entry of `costs` for a point. -/
noncomputable def Spec.fpEntry (r : Fin 3 → ℝ) : ℝ :=
  if r 0 ^ 2 + r 1 ^ 2 + r 2 ^ 2 ≤ 1 then
    r 0 ^ 2 - r 1 ^ 2 - 2 * r 0 * r 1 - r 2 ^ 2 + Real.sqrt (1 - (r 0 ^ 2 + r 1 ^ 2 + r 2 ^ 2)) ^ 2 - 2 * r 2 * Real.sqrt (1 - (r 0 ^ 2 + r 1 ^ 2 + r 2 ^ 2))
  else 0

theorem fixedPointsRow_entry (r : Fin 3 → ℝ) : ∃ g, fixedPointsRow r = .ok (g, fpEntry r) := by
  by_cases h : r 0 ^ 2 + r 1 ^ 2 + r 2 ^ 2 ≤ 1
  · have e : (sphereMatrix r (fourth r) * fpRho * (sphereMatrix r (fourth r))ᴴ * (hXY : Matrix (Fin 2) (Fin 2) ℂ)).trace.re = fpEntry r := by
      rw [fpEntry, if_pos h, stored_eq, ← fourth]
      simp [sphereMatrix]
      ring
    exact ⟨_, (fixedPointsRow_in h).trans (by rw [e])⟩
  · exact ⟨![0, 0, 0], (C98_outside r (not_le.1 h)).trans (by rw [fpEntry, if_neg h])⟩

theorem fpRows_ok (gran : ℕ) : ∃ rows, fpRows gran = .ok rows ∧ rows.map Prod.snd = (List.range (gran ^ 3)).map (fun i => fpEntry (fpPoint gran i)) := by
  choose g hg using fixedPointsRow_entry
  refine ⟨_, mapM_ok _ (fun i => (g (fpPoint gran i), fpEntry (fpPoint gran i))) _ (fun i _ => hg _), ?_⟩
  rw [List.map_map]
  rfl

/-- **C120**: the script prints the coordinates of a smallest entry of `costs` with the first two exchanged. -/
theorem C120_swapped_partial {gran : ℕ} (h : 0 < gran) : ∃ rows, fpRows gran = .ok rows ∧
    rows.map Prod.snd = (List.range (gran ^ 3)).map (fun i => fpEntry (fpPoint gran i)) ∧ ∃ i < gran ^ 3, ∃ p, fpMinimum gran = .ok p ∧ p 0 = fpPoint gran i 1 ∧ p 1 = fpPoint gran i 0 ∧ p 2 = fpPoint gran i 2 ∧
    (∀ j < gran ^ 3, fpEntry (fpPoint gran i) ≤ fpEntry (fpPoint gran j)) ∧ ∀ j < i, fpEntry (fpPoint gran i) < fpEntry (fpPoint gran j) := by
  obtain ⟨rows, hr, hc⟩ := fpRows_ok gran
  have hlen : (rows.map Prod.snd).length = gran ^ 3 := by rw [hc]; simp
  have hget : ∀ i < gran ^ 3, (rows.map Prod.snd).getD i 0 = fpEntry (fpPoint gran i) := by
    intro i hi
    rw [hc, List.getD_eq_getElem?_getD, List.getElem?_map, List.getElem?_range hi]
    rfl
  have hne : (List.range (rows.map Prod.snd).length).map (fun i => (i, -((rows.map Prod.snd).getD i 0))) ≠ [] := by
    rw [hlen]
    have : 0 < gran ^ 3 := by positivity
    simp; omega
  obtain ⟨e, he, hmax'⟩ := pyArgmax_spec _ hne
  obtain ⟨i, rfl, hmax⟩ := isFirstMax_map _ _ _ _ hmax'
  clear hmax'
  rw [hlen] at hmax
  have hi : i < gran ^ 3 := List.mem_range.1 hmax.mem
  refine ⟨rows, hr, hc, i, hi, ![fpGrid gran (i / gran ^ 2), fpGrid gran (i / gran % gran), fpGrid gran (i % gran)], ?_, rfl, rfl, rfl, ?_, ?_⟩
  · rw [fpMinimum, hr]
    change (npArgmin _ >>= _) = _
    rw [npArgmin, he]
    rfl
  · intro j hj
    have := hmax.le j (List.mem_range.2 hj)
    dsimp only at this
    rw [hget i hi, hget j hj] at this
    linarith
  · intro j hj
    obtain ⟨l₁, l₂, e, h1, -⟩ := hmax
    have hl : l₁.length = i := by
      have := congrArg (fun l => l[l₁.length]?) e
      simp only [List.getElem?_append_right (le_refl _), Nat.sub_self, List.getElem?_cons_zero] at this
      obtain ⟨h2, h3⟩ := List.getElem?_eq_some_iff.1 this
      simpa using h3
    have hjm : j ∈ l₁ := by
      have h2 : j < l₁.length := by omega
      have := congrArg (fun l => l[j]?) e
      simp only [List.getElem?_append_left h2, List.getElem?_range (hj.trans hi)] at this
      exact List.mem_of_getElem? this.symm
    have := h1 j hjm
    dsimp only at this
    rw [hget i hi, hget j (hj.trans hi)] at this
    linarith

/-! ## The grid of the script -/

theorem fpGrid_20 (k : ℕ) : fpGrid 20 k = (2 * k - 19) / 19 := by
  rw [fpGrid]; push_cast; ring

/-- The entry in units of 1/361. -/
noncomputable def bigEntry (x y z : ℝ) : ℝ := x ^ 2 - y ^ 2 - 2 * x * y - z ^ 2 + (361 - (x ^ 2 + y ^ 2 + z ^ 2)) - 2 * z * Real.sqrt (361 - (x ^ 2 + y ^ 2 + z ^ 2))

theorem fpEntry_scaled {x y z : ℝ} (h : x ^ 2 + y ^ 2 + z ^ 2 ≤ 361) : 361 * fpEntry ![x / 19, y / 19, z / 19] = bigEntry x y z := by
  have e : 1 - ((x / 19) ^ 2 + (y / 19) ^ 2 + (z / 19) ^ 2) = (361 - (x ^ 2 + y ^ 2 + z ^ 2)) / 19 ^ 2 := by ring
  have hs : Real.sqrt (1 - ((x / 19) ^ 2 + (y / 19) ^ 2 + (z / 19) ^ 2)) = Real.sqrt (361 - (x ^ 2 + y ^ 2 + z ^ 2)) / 19 := by
    rw [e, Real.sqrt_div' _ (by positivity), Real.sqrt_sq (by norm_num)]
  have hq : Real.sqrt (361 - (x ^ 2 + y ^ 2 + z ^ 2)) ^ 2 = 361 - (x ^ 2 + y ^ 2 + z ^ 2) := Real.sq_sqrt (by linarith)
  have hc : (![x / 19, y / 19, z / 19] : Fin 3 → ℝ) 0 ^ 2 + (![x / 19, y / 19, z / 19] : Fin 3 → ℝ) 1 ^ 2 + (![x / 19, y / 19, z / 19] : Fin 3 → ℝ) 2 ^ 2 ≤ 1 := by
    simp only [Matrix.cons_val]
    linarith
  rw [fpEntry, if_pos hc]
  simp only [Matrix.cons_val]
  rw [hs, bigEntry]
  generalize Real.sqrt (361 - (x ^ 2 + y ^ 2 + z ^ 2)) = w at *
  rw [← hq]
  ring

theorem fpEntry_scaled_out {x y z : ℝ} (h : 361 < x ^ 2 + y ^ 2 + z ^ 2) : fpEntry ![x / 19, y / 19, z / 19] = 0 := by
  rw [fpEntry, if_neg]
  simp only [Matrix.cons_val, not_le]
  linarith

theorem fpPoint_20 (i : ℕ) : fpPoint 20 i = ![(2 * ((i / 20 % 20 : ℕ) : ℝ) - 19) / 19, (2 * ((i / 400 : ℕ) : ℝ) - 19) / 19, (2 * ((i % 20 : ℕ) : ℝ) - 19) / 19] := by
  rw [fpPoint, fpGrid_20, fpGrid_20, fpGrid_20, show 20 ^ 2 = 400 by norm_num]

/-- A good grid point. -/
theorem fpEntry_3398 : 361 * fpEntry (fpPoint 20 3398) < -508.5 := by
  have h : fpPoint 20 3398 = ![(-1 : ℝ) / 19, (-3 : ℝ) / 19, (17 : ℝ) / 19] := by
    rw [fpPoint_20]; norm_num
  rw [h, fpEntry_scaled (by norm_num), bigEntry]
  have h1 : (7.87 : ℝ) < Real.sqrt (361 - ((-1) ^ 2 + (-3) ^ 2 + 17 ^ 2)) := Real.lt_sqrt_of_sq_lt (by norm_num)
  nlinarith

theorem bigEntry_diag {x y : ℝ} {z : ℤ} (hx : 1 ≤ x ^ 2) (hx' : x ^ 2 = 1 ∨ 9 ≤ x ^ 2) (hxy : x ^ 2 = y ^ 2) (h : x ^ 2 + y ^ 2 + (z : ℝ) ^ 2 ≤ 361) : -508.5 < bigEntry x y z := by
  rw [bigEntry]
  set w := Real.sqrt (361 - (x ^ 2 + y ^ 2 + (z : ℝ) ^ 2)) with hw
  have hw0 : 0 ≤ w := Real.sqrt_nonneg _
  have hw2 : w ^ 2 = 361 - (x ^ 2 + y ^ 2 + (z : ℝ) ^ 2) := Real.sq_sqrt (by linarith)
  have hz : (z : ℝ) ^ 2 + w ^ 2 = 361 - 2 * x ^ 2 := by linarith
  have hb : (w ^ 2 - (z : ℝ) ^ 2 - 2 * z * w) ^ 2 ≤ 2 * ((z : ℝ) ^ 2 + w ^ 2) ^ 2 := by nlinarith [sq_nonneg (w ^ 2 - (z : ℝ) ^ 2 + 2 * z * w)]
  have hpos : 0 ≤ (z : ℝ) ^ 2 + w ^ 2 := by positivity
  have hb' : -(1.41422 * ((z : ℝ) ^ 2 + w ^ 2)) ≤ w ^ 2 - (z : ℝ) ^ 2 - 2 * z * w := by
    apply neg_le_of_abs_le
    apply abs_le_of_sq_le_sq _ (by positivity)
    nlinarith
  have hprod : 2 * x * y = 2 * x ^ 2 ∨ 2 * x * y = -(2 * x ^ 2) := by
    rcases sq_eq_sq_iff_eq_or_eq_neg.1 hxy with h | h
    · left; rw [h]; ring
    · right; rw [h]; ring
  rw [← hw2]
  rcases hx' with h1 | h9
  · rcases hprod with e | e
    · -- the only case that needs the grid
      have hzb : z ≤ 18 := by
        by_contra hc
        have : (19 : ℝ) ≤ z := by exact_mod_cast (by omega : (19 : ℤ) ≤ z)
        nlinarith
      have key : 2 * (z : ℝ) ^ 2 + 2 * z * w ≤ 865 := by
        have hM : (z : ℝ) ^ 2 + w ^ 2 = 359 := by rw [hz, h1]; norm_num
        rcases lt_or_ge z 16 with hlt | hge
        · rcases lt_or_ge z 0 with hn | hp
          · have h0 : (z : ℝ) < 0 := by exact_mod_cast hn
            have h1 : (z : ℝ) * w ≤ 0 := mul_nonpos_of_nonpos_of_nonneg h0.le hw0
            have h2 : 0 ≤ w ^ 2 := sq_nonneg w
            linarith
          · have h0 : (0 : ℝ) ≤ z := by exact_mod_cast hp
            have h15 : (z : ℝ) ≤ 15 := by exact_mod_cast (by omega : z ≤ 15)
            have h2 : (z : ℝ) ^ 2 ≤ 225 := by nlinarith
            have h3 := sq_nonneg ((z : ℝ) - w)
            linarith
        · have : z = 16 ∨ z = 17 ∨ z = 18 := by omega
          rcases this with rfl | rfl | rfl <;> push_cast at hM ⊢
          · have : w ≤ 10.2 := by nlinarith
            nlinarith
          · have : w ≤ 8.4 := by nlinarith
            nlinarith
          · have : w ≤ 6 := by nlinarith
            nlinarith
      linarith
    · linarith
  · rcases hprod with e | e <;> linarith

theorem odd_sq (k : ℕ) : (1 : ℝ) ≤ (2 * (k : ℝ) - 19) ^ 2 ∧ ((2 * (k : ℝ) - 19) ^ 2 = 1 ∨ 9 ≤ (2 * (k : ℝ) - 19) ^ 2) := by
  have h : (2 * (k : ℤ) - 19) ^ 2 = 1 ∨ 9 ≤ (2 * (k : ℤ) - 19) ^ 2 := by
    have : 2 * (k : ℤ) - 19 = 1 ∨ 2 * (k : ℤ) - 19 = -1 ∨ 3 ≤ 2 * (k : ℤ) - 19 ∨ 2 * (k : ℤ) - 19 ≤ -3 := by omega
    rcases this with h | h | h | h
    · left; rw [h]; norm_num
    · left; rw [h]; norm_num
    · right; nlinarith
    · right; nlinarith
  have h' : (2 * (k : ℝ) - 19) ^ 2 = 1 ∨ 9 ≤ (2 * (k : ℝ) - 19) ^ 2 := by
    rcases h with h | h
    · left; exact_mod_cast h
    · right; exact_mod_cast h
  refine ⟨?_, h'⟩
  rcases h' with h' | h' <;> linarith

/-- At a smallest entry the first two coordinates have different squares. -/
theorem minimum_off_diag {i : ℕ} (hmin : fpEntry (fpPoint 20 i) ≤ fpEntry (fpPoint 20 3398)) :
    fpPoint 20 i 0 ^ 2 + fpPoint 20 i 1 ^ 2 + fpPoint 20 i 2 ^ 2 ≤ 1 ∧ fpPoint 20 i 0 ^ 2 ≠ fpPoint 20 i 1 ^ 2 := by
  have hg := fpEntry_3398
  rw [fpPoint_20] at hmin ⊢
  obtain ⟨hx, hx'⟩ := odd_sq (i / 20 % 20)
  set x : ℝ := 2 * ((i / 20 % 20 : ℕ) : ℝ) - 19
  set y : ℝ := 2 * ((i / 400 : ℕ) : ℝ) - 19
  have hz : ∃ z : ℤ, (2 * ((i % 20 : ℕ) : ℝ) - 19) = (z : ℝ) := ⟨2 * ((i % 20 : ℕ) : ℤ) - 19, by push_cast; rfl⟩
  obtain ⟨z, hz⟩ := hz
  rw [hz] at hmin ⊢
  by_cases hb : x ^ 2 + y ^ 2 + (z : ℝ) ^ 2 ≤ 361
  · simp only [Matrix.cons_val]
    refine ⟨by nlinarith, fun e => ?_⟩
    have hxy : x ^ 2 = y ^ 2 := by
      have : (x / 19) ^ 2 * 361 = (y / 19) ^ 2 * 361 := by rw [e]
      nlinarith
    have h1 := bigEntry_diag hx hx' hxy hb
    rw [← fpEntry_scaled hb] at h1
    linarith
  · rw [fpEntry_scaled_out (not_le.1 hb)] at hmin
    linarith

/-- **C120**: the point that the script prints is not a point with the smallest entry. -/
theorem C120_refuted : ∃ p, fpMinimum 20 = .ok p ∧ ∃ i < 20 ^ 3, ∃ g g' c c', fixedPointsRow p = .ok (g, c) ∧ fixedPointsRow (fpPoint 20 i) = .ok (g', c') ∧ c' < c := by
  obtain ⟨-, -, -, i, hi, p, hp, h0, h1, h2, hmin, -⟩ := C120_swapped_partial (gran := 20) (by norm_num)
  refine ⟨p, hp, i, hi, ?_⟩
  obtain ⟨g, hg⟩ := fixedPointsRow_entry p
  obtain ⟨g', hg'⟩ := fixedPointsRow_entry (fpPoint 20 i)
  refine ⟨g, g', _, _, hg, hg', ?_⟩
  obtain ⟨hb, hne⟩ := minimum_off_diag (hmin 3398 (by norm_num))
  -- the printed point is a grid point as well
  have hj : p = fpPoint 20 (400 * (i / 20 % 20) + 20 * (i / 400) + i % 20) := by
    have hi' : i < 8000 := by simpa using hi
    have e1 : (400 * (i / 20 % 20) + 20 * (i / 400) + i % 20) / 20 % 20 = i / 400 := by omega
    have e2 : (400 * (i / 20 % 20) + 20 * (i / 400) + i % 20) / 400 = i / 20 % 20 := by omega
    have e3 : (400 * (i / 20 % 20) + 20 * (i / 400) + i % 20) % 20 = i % 20 := by omega
    rw [fpPoint_20, e1, e2, e3]
    rw [fpPoint_20] at h0 h1 h2
    funext q
    fin_cases q
    · exact h0
    · exact h1
    · exact h2
  have hle : fpEntry (fpPoint 20 i) ≤ fpEntry p := by
    rw [hj]
    exact hmin _ (by have hi' : i < 8000 := by simpa using hi
                     norm_num; omega)
  refine lt_of_le_of_ne hle (fun e => hne ?_)
  rw [fpEntry, fpEntry, if_pos hb, h0, h1, h2, if_pos (by linarith),
    show fpPoint 20 i 1 ^ 2 + fpPoint 20 i 0 ^ 2 + fpPoint 20 i 2 ^ 2 = fpPoint 20 i 0 ^ 2 + fpPoint 20 i 1 ^ 2 + fpPoint 20 i 2 ^ 2 by ring] at e
  linarith

/-- The hypothesis of `C120_swapped_partial` for a grid of three points per axis. -/
example : ∃ p, fpMinimum 3 = .ok p := by
  obtain ⟨-, -, -, -, -, p, hp, -⟩ := C120_swapped_partial (gran := 3) (by norm_num)
  exact ⟨p, hp⟩

end Oranssi
