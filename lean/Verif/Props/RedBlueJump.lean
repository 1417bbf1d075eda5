import Verif.Props.RedBlueScript

/-! # C133: the solid curve of the first figure of red_blue_comparison.py jumps across the figure -/

namespace Oranssi
open Spec
open scoped Matrix

/-- A half step with `eta = 0.05` in coordinates. -/
theorem halfStep_05 {s : ℝ × ℝ} (h : Inner s) : ∃ p q : ℝ, 0.99875 ≤ p ∧ p ≤ 1 ∧ 0.04996 ≤ q ∧ q ≤ 0.05 ∧ 0 < p + s.1 * q ∧
    halfStep 0.05 s = (s.2 * (p + s.1 * q), s.1 * (p + s.1 * q) - q) ∧ Inner (halfStep 0.05 s) ∧ height (halfStep 0.05 s) = height s * (p + s.1 * q) := by
  obtain ⟨x, x', h0, hx', -, -, hs, hs', -, hc, hst, hin, hh⟩ := halfStep_inner (κ := 0.05) (by norm_num) (by norm_num) h
  have hs1 := Real.sin_le_one x
  set d := 0.05 * Real.sin x with hd
  have hd0 : 0 < d := by positivity
  have hd1 : d ≤ 0.05 := by rw [hd]; linarith
  have hq1 : Real.sin d ≤ d := Real.sin_le hd0.le
  have hq0 : d - d ^ 3 / 6 < Real.sin d := Real.sin_gt_sub_cube hd0
  have hp0 : 1 - d ^ 2 / 2 ≤ Real.cos d := Real.one_sub_sq_div_two_le_cos
  have hsq := Real.sin_sq_add_cos_sq x
  have hr : Real.sin x' / Real.sin x = Real.cos d + s.1 * (Real.sin d / Real.sin x) := by
    rw [hx', Real.sin_add, ← hc]
    field_simp
  have hcx : Real.cos x' = s.1 * (Real.cos d + s.1 * (Real.sin d / Real.sin x)) - Real.sin d / Real.sin x := by
    rw [hx', Real.cos_add, hc]
    field_simp
    linear_combination (-Real.sin d) * hsq
  refine ⟨Real.cos d, Real.sin d / Real.sin x, by nlinarith, Real.cos_le_one _, ?_, ?_, ?_, ?_, hin, ?_⟩
  · rw [le_div_iff₀ hs]
    have h3 : d ^ 2 ≤ 0.0025 := by nlinarith
    have h4 : d ^ 3 ≤ 0.0025 * d := by nlinarith
    have : 0.04996 * Real.sin x = 0.9992 * d := by rw [hd]; ring
    rw [this]
    linarith
  · rw [div_le_iff₀ hs]
    exact hq1
  · rw [← hr]; positivity
  · rw [hst, hr, hcx]
  · rw [hh, hr]

/-- Where the run of the script is until its second expectation becomes negative. -/
structure Quarter (s : ℝ × ℝ) : Prop where
  inner : Inner s
  x0 : 0 < s.1
  x1 : s.1 ≤ 0.701
  y0 : -0.0012 ≤ s.2
  y1 : s.2 ≤ 0.51
  side : 1.03 * s.2 + 0.35 * height s ≤ s.1

/-- The arithmetic of a full step. -/
theorem quarter_arith {x y H p q p' q' : ℝ} (x0 : 0 < x) (x1 : x ≤ 0.701) (y0 : -0.0012 ≤ y) (y1 : y ≤ 0.51) (hH : 0.498 ≤ H) (hside : 1.03 * y + 0.35 * H ≤ x)
    (p0 : 0.99875 ≤ p) (p1 : p ≤ 1) (q0 : 0.04996 ≤ q) (q1 : q ≤ 0.05) (p0' : 0.99875 ≤ p') (p1' : p' ≤ 1) (q0' : 0.04996 ≤ q') (q1' : q' ≤ 0.05) (c d : ℝ)
    (hc : c = p + x * q) (hd : d = p' + y * c * q') :
    0 < (x * c - q) * d ∧ (x * c - q) * d ≤ 0.701 ∧ y * c * d - q' ≤ y - 0.016 ∧ 1.03 * (y * c * d - q') + 0.35 * (H * c * d) ≤ (x * c - q) * d ∧
      (x * c - q) * d + (y * c * d - q') ≤ x + y - 0.02 ∧ x - 0.06 ≤ (x * c - q) * d ∧ (x * c - q) * d ≤ x ∧ y - 0.06 ≤ y * c * d - q' := by
  have xq1 : x * q ≤ 0.701 * 0.05 := mul_le_mul x1 q1 (by linarith) (by norm_num)
  have xq0 : 0 ≤ x * q := mul_nonneg x0.le (by linarith)
  have c1 : c ≤ 1.03505 := by rw [hc]; linarith
  have c2 : 0.99875 ≤ c := by rw [hc]; linarith
  clear hc xq1 xq0 p0 p1
  have z1 : y * c ≤ 0.528 := by
    rcases le_total 0 y with hy | hy
    · have := mul_le_mul y1 c1 (by linarith) (by norm_num)
      linarith
    · have := mul_nonpos_of_nonpos_of_nonneg hy (by linarith : 0 ≤ c)
      linarith
  have z2 : -0.00125 ≤ y * c := by
    have := mul_le_mul_of_nonneg_right y0 (by linarith : 0 ≤ c)
    linarith
  have w1 : y * c * q' ≤ 0.0264 := by
    have := mul_le_mul_of_nonneg_right z1 (by linarith : 0 ≤ q')
    linarith
  have w2 : -0.0001 ≤ y * c * q' := by
    have := mul_le_mul_of_nonneg_right z2 (by linarith : 0 ≤ q')
    linarith
  have d1 : d ≤ 1.0264 := by rw [hd]; linarith
  have d2 : 0.9985 ≤ d := by rw [hd]; linarith
  clear hd w1 w2 p0' p1' z1 z2
  have hcd1 : c * d ≤ 1.0624 := by
    have := mul_le_mul c1 d1 (by linarith) (by norm_num)
    linarith
  have hcd2 : 0.997 ≤ c * d := by
    have := mul_le_mul c2 d2 (by norm_num) (by linarith)
    linarith
  have qd1 : q * d ≤ 0.05 * 1.0264 := mul_le_mul q1 d1 (by linarith) (by norm_num)
  have qd2 : 0.04996 * 0.9985 ≤ q * d := mul_le_mul q0 d2 (by norm_num) (by linarith)
  have e1 : (x * c - q) * d = x * (c * d) - q * d := by ring
  have e2 : y * c * d = y * (c * d) := by ring
  have e3 : H * c * d = H * (c * d) := by ring
  rw [e1, e2, e3]
  generalize c * d = m at *
  generalize q * d = r at *
  have hs : 1.03 * (y * m - q') + 0.35 * (H * m) ≤ x * m - r := by
    have := mul_le_mul_of_nonneg_right hside (by linarith : 0 ≤ m)
    linarith
  have hx : x * m ≤ 0.701 * 1.0624 := mul_le_mul x1 hcd1 (by linarith) (by norm_num)
  have hx' : 0 ≤ x * (m - 0.997) := mul_nonneg x0.le (by linarith)
  have hy : 0 ≤ (0.51 - y) * (m - 0.997) := mul_nonneg (by linarith) (by linarith)
  have hy' : 0 ≤ (y + 0.0012) * (m - 0.997) := mul_nonneg (by linarith) (by linarith)
  have hxx : 0 ≤ (0.701 - x) * (m - 0.997) := mul_nonneg (by linarith) (by linarith)
  have hHm : 0.498 * 0.997 ≤ H * m := mul_le_mul hH hcd2 (by norm_num) (by linarith)
  refine ⟨?_, ?_, ?_, hs, ?_, ?_, ?_, ?_⟩ <;> linarith

theorem Quarter.step {s : ℝ × ℝ} (h : Quarter s) : Inner (halfStep 0.05 (halfStep 0.05 s)) ∧ 0 < (halfStep 0.05 (halfStep 0.05 s)).1 ∧
    (halfStep 0.05 (halfStep 0.05 s)).1 ≤ 0.701 ∧ (halfStep 0.05 (halfStep 0.05 s)).2 ≤ s.2 - 0.016 ∧
    1.03 * (halfStep 0.05 (halfStep 0.05 s)).2 + 0.35 * height (halfStep 0.05 (halfStep 0.05 s)) ≤ (halfStep 0.05 (halfStep 0.05 s)).1 ∧
    (halfStep 0.05 (halfStep 0.05 s)).1 + (halfStep 0.05 (halfStep 0.05 s)).2 ≤ s.1 + s.2 - 0.02 ∧
    s.1 - 0.06 ≤ (halfStep 0.05 (halfStep 0.05 s)).1 ∧ (halfStep 0.05 (halfStep 0.05 s)).1 ≤ s.1 ∧ s.2 - 0.06 ≤ (halfStep 0.05 (halfStep 0.05 s)).2 := by
  obtain ⟨hin, x0, x1, y0, y1, hside⟩ := h
  obtain ⟨p, q, p0, p1, q0, q1, -, hst, hin', hh'⟩ := halfStep_05 hin
  obtain ⟨p', q', p0', p1', q0', q1', -, hst', hin'', hh''⟩ := halfStep_05 hin'
  have hhp := height_pos hin
  have hsq := height_sq hin
  have hH : 0.498 ≤ height s := by
    have hx2 : s.1 ^ 2 ≤ 0.701 ^ 2 := pow_le_pow_left₀ x0.le x1 2
    have hy2 : s.2 ^ 2 ≤ 0.51 ^ 2 := sq_le_sq' (by linarith) y1
    have : (0.498 : ℝ) ^ 2 ≤ height s ^ 2 := by rw [hsq]; norm_num at hx2 hy2 ⊢; linarith
    exact le_of_sq_le_sq this hhp.le
  have e1 : (halfStep 0.05 s).1 = s.2 * (p + s.1 * q) := by rw [hst]
  have e2 : (halfStep 0.05 s).2 = s.1 * (p + s.1 * q) - q := by rw [hst]
  rw [e1, e2] at hst'
  rw [hh', e1] at hh''
  have key := quarter_arith x0 x1 y0 y1 hH hside p0 p1 q0 q1 p0' p1' q0' q1' _ _ rfl rfl
  have f1 : (halfStep 0.05 (halfStep 0.05 s)).1 = (s.1 * (p + s.1 * q) - q) * (p' + s.2 * (p + s.1 * q) * q') := by rw [hst']
  have f2 : (halfStep 0.05 (halfStep 0.05 s)).2 = s.2 * (p + s.1 * q) * (p' + s.2 * (p + s.1 * q) * q') - q' := by rw [hst']
  rw [f1, f2, hh'']
  obtain ⟨k1, k2, k3, k4, k5, k6⟩ := key
  exact ⟨hin'', k1, k2, k3, k4, k5, k6⟩

theorem quarter_start : Quarter redBlueStart ∧ 0.5 ≤ redBlueStart.2 := by
  have h3 : Real.sin (Real.pi / 3) = Real.sqrt 3 / 2 := Real.sin_pi_div_three
  have hc : Real.cos (Real.pi / 5) = (1 + Real.sqrt 5) / 4 := Real.cos_pi_div_five
  have q3 := Real.sq_sqrt (show (0 : ℝ) ≤ 3 by norm_num)
  have q5 := Real.sq_sqrt (show (0 : ℝ) ≤ 5 by norm_num)
  have a3 : Real.sqrt 3 < 1.73206 := by rw [Real.sqrt_lt' (by norm_num)]; norm_num
  have b3 : 1.73204 < Real.sqrt 3 := by rw [Real.lt_sqrt (by norm_num)]; norm_num
  have a5 : Real.sqrt 5 < 2.23607 := by rw [Real.sqrt_lt' (by norm_num)]; norm_num
  have b5 : 2.23606 < Real.sqrt 5 := by rw [Real.lt_sqrt (by norm_num)]; norm_num
  have hs0 : 0 < Real.sin (Real.pi / 5) := Real.sin_pos_of_pos_of_lt_pi (by positivity) (by linarith [Real.pi_pos])
  have hsc := Real.sin_sq_add_cos_sq (Real.pi / 5)
  rw [hc] at hsc
  have hss : Real.sin (Real.pi / 5) ^ 2 = (10 - 2 * Real.sqrt 5) / 16 := by linarith
  have as : Real.sin (Real.pi / 5) < 0.5878 := by
    refine lt_of_pow_lt_pow_left₀ 2 (by norm_num) ?_
    rw [hss]; norm_num; linarith
  have bs : 0.5877 < Real.sin (Real.pi / 5) := by
    refine lt_of_pow_lt_pow_left₀ 2 hs0.le ?_
    rw [hss]; norm_num; linarith
  have hH : height redBlueStart = 1 / 2 := by
    have e := Real.sin_sq_add_cos_sq (Real.pi / 5)
    have : (1 : ℝ) - redBlueStart.1 ^ 2 - redBlueStart.2 ^ 2 = (1 / 2) ^ 2 := by
      simp only [redBlueStart, h3]
      linear_combination (-(Real.sqrt 3 ^ 2 / 4)) * e - q3 / 4
    rw [height, this, Real.sqrt_sq (by norm_num)]
  have e1 : redBlueStart.1 = Real.sqrt 3 / 2 * ((1 + Real.sqrt 5) / 4) := by rw [redBlueStart, h3, hc]
  have e2 : redBlueStart.2 = Real.sqrt 3 / 2 * Real.sin (Real.pi / 5) := by rw [redBlueStart, h3]
  have lx : redBlueStart.1 ≤ 0.701 := by
    rw [e1]
    have := mul_le_mul a3.le (show (1 + Real.sqrt 5) / 4 ≤ 0.80902 by linarith) (by linarith) (by norm_num)
    linarith
  have lx' : 0.7005 ≤ redBlueStart.1 := by
    rw [e1]
    have := mul_le_mul b3.le (show 0.80901 ≤ (1 + Real.sqrt 5) / 4 by linarith) (by norm_num) (by linarith)
    linarith
  have ly : redBlueStart.2 ≤ 0.50906 := by
    rw [e2]
    have := mul_le_mul a3.le as.le hs0.le (by norm_num)
    linarith
  have ly' : 0.5 ≤ redBlueStart.2 := by
    rw [e2]
    have := mul_le_mul b3.le bs.le (by norm_num) (by linarith)
    linarith
  refine ⟨⟨?_, by linarith, lx, by linarith, by linarith, by rw [hH]; linarith⟩, ly'⟩
  have h1 := pow_le_pow_left₀ (by linarith) lx 2
  have h2 := pow_le_pow_left₀ (by linarith) ly 2
  unfold Inner
  norm_num at h1 h2
  linarith

theorem halfFlow_two (s : ℝ × ℝ) (k : ℕ) : halfFlow 0.05 s (2 * (k + 1)) = halfStep 0.05 (halfStep 0.05 (halfFlow 0.05 s (2 * k))) := rfl

/-- The point at which the second expectation becomes negative. -/
theorem quarter_leaves : ∃ j, j ≤ 40 ∧ (∀ i < j, Quarter (halfFlow 0.05 redBlueStart (2 * i))) ∧ 0 < (halfFlow 0.05 redBlueStart (2 * j)).1 ∧
    (halfFlow 0.05 redBlueStart (2 * j)).2 < -0.0012 := by
  have hQ : ∀ j, (∀ i ≤ j, -0.0012 ≤ (halfFlow 0.05 redBlueStart (2 * i)).2) → Quarter (halfFlow 0.05 redBlueStart (2 * j)) ∧
      (halfFlow 0.05 redBlueStart (2 * j)).2 ≤ 0.51 - 0.016 * j := by
    intro j
    induction j with
    | zero => exact fun _ => ⟨quarter_start.1, by have : (halfFlow 0.05 redBlueStart (2 * 0)).2 ≤ 0.51 := quarter_start.1.y1; simpa using this⟩
    | succ j ih =>
      intro h
      obtain ⟨hq, hy⟩ := ih (fun i hi => h i (by omega))
      obtain ⟨h1, h2, h3, h4, h5, -⟩ := hq.step
      rw [← halfFlow_two] at h1 h2 h3 h4 h5
      refine ⟨⟨h1, h2, h3, h (j + 1) le_rfl, by linarith [hq.y1], h5⟩, ?_⟩
      push_cast
      linarith
  have hex : ∃ j, j ≤ 40 ∧ (halfFlow 0.05 redBlueStart (2 * j)).2 < -0.0012 := by
    by_contra hno
    push Not at hno
    have := (hQ 40 (fun i hi => hno i hi)).2
    have := hno 40 le_rfl
    norm_num at *
    linarith
  classical
  obtain ⟨hj, hy⟩ := Nat.find_spec hex
  have hmin : ∀ i < Nat.find hex, -0.0012 ≤ (halfFlow 0.05 redBlueStart (2 * i)).2 := fun i hi => by
    have := Nat.find_min hex hi
    push Not at this
    exact this (by omega)
  refine ⟨Nat.find hex, hj, fun i hi => (hQ i (fun i' hi' => hmin i' (by omega))).1, ?_, hy⟩
  cases hf : Nat.find hex with
  | zero =>
    have h0 := quarter_start.2
    rw [hf] at hy
    change redBlueStart.2 < _ at hy
    linarith
  | succ j =>
    have hq := (hQ j (fun i' hi' => hmin i' (by omega))).1
    rw [halfFlow_two]
    exact hq.step.2.1

theorem Spec.Located.front {U : QMat 1} {p : ℝ × ℝ} (h : Located U p) (hx : 0 < cost matX U) : p.1 < Real.pi / 2 ∨ 3 * Real.pi / 2 < p.1 ∧ cost matY U < 0 := by
  have hpi := Real.pi_pos
  by_cases h0 : p.1 = 0
  · left; rw [h0]; linarith
  have hs : 0 ≤ Real.sin p.2 := Real.sin_nonneg_of_nonneg_of_le_pi h.theta0 h.theta1
  rw [← h.x h0] at hx
  have hs' : 0 < Real.sin p.2 := lt_of_le_of_ne hs (fun e => by rw [← e] at hx; simp at hx)
  have hc : 0 < Real.cos p.1 := (pos_iff_pos_of_mul_pos hx).1 hs'
  by_cases h1 : p.1 < Real.pi / 2
  · exact .inl h1
  by_cases h2 : 3 * Real.pi / 2 < p.1
  · refine .inr ⟨h2, ?_⟩
    rw [← h.y h0]
    have : 0 < Real.sin (2 * Real.pi - p.1) := Real.sin_pos_of_pos_of_lt_pi (by linarith [h.phi1]) (by linarith)
    rw [Real.sin_two_pi_sub] at this
    exact mul_neg_of_pos_of_neg hs' (by linarith)
  · exact absurd hc (not_lt.2 (Real.cos_nonpos_of_pi_div_two_le_of_le (by linarith) (by linarith)))

theorem Spec.Located.near {U : QMat 1} {p : ℝ × ℝ} (h : Located U p) : |Real.sin p.2 * Real.cos p.1 - cost matX U| ≤ 0.00108 ∧
    |Real.sin p.2 * Real.sin p.1 - cost matY U| ≤ 0.00108 := by
  by_cases h0 : p.1 = 0
  · obtain ⟨h1, h2⟩ := h.snapped h0
    rw [h0, Real.cos_zero, Real.sin_zero, mul_one, mul_zero, zero_sub, abs_neg]
    exact ⟨h1, h2⟩
  · rw [h.x h0, h.y h0, sub_self, sub_self, abs_zero]
    norm_num

/-- C133.  The solid curve of the first figure jumps: two consecutive points lie in the first and in the last quarter of the horizontal axis, although the Bloch vectors they stand for differ by
at most 0.063 in each of the two coordinates that are optimized. -/
theorem C133_jump {eigh : EighFn 1} (he : ValidEigh eigh) (rnd : ℕ → Matrix (Fin (2 ^ 1)) (Fin (2 ^ 1)) ℝ)
    {gd : ℝ → (List ℝ → Py ℝ) → List ℝ → Py (List ℝ)} (hgd : ValidGdList gd) (fs fs' : List OutFile) (F : RedBlueFigures) (h : redBlueScript eigh rnd gd fs = (.ok F, fs')) :
    ∃ (k : ℕ) (p p' : ℝ × ℝ), k ≤ 40 ∧ F.riemann[k]? = some p ∧ F.riemann[k + 1]? = some p' ∧ p.1 < Real.pi / 2 ∧ 3 * Real.pi / 2 < p'.1 ∧
      |Real.sin p'.2 * Real.cos p'.1 - Real.sin p.2 * Real.cos p.1| ≤ 0.063 ∧ |Real.sin p'.2 * Real.sin p'.1 - Real.sin p.2 * Real.sin p.1| ≤ 0.063 := by
  obtain ⟨out, path, -, hR, -, -, -, V, m, hloc, hflow, hend⟩ := redBlueRiemann_ok he rnd
  have hF : F.riemann = path := by
    obtain ⟨_, _, F', -, -, hS, hR', -⟩ := C132_script he rnd hgd fs
    rw [h] at hS
    obtain rfl := Except.ok.inj (congrArg Prod.fst hS)
    rw [hR] at hR'
    exact (congrArg Prod.fst (Except.ok.inj hR')).symm
  rw [hF]
  obtain ⟨j, hj40, hq, hjx, hjy⟩ := quarter_leaves
  set s : ℕ → ℝ × ℝ := fun i => halfFlow 0.05 redBlueStart (2 * i) with hsdef
  have hstep : ∀ i < j, 0 < (s (i + 1)).1 ∧ (s (i + 1)).2 ≤ (s i).2 - 0.016 ∧ (s (i + 1)).1 + (s (i + 1)).2 ≤ (s i).1 + (s i).2 - 0.02 ∧
      (s i).1 - 0.06 ≤ (s (i + 1)).1 ∧ (s (i + 1)).1 ≤ (s i).1 ∧ (s i).2 - 0.06 ≤ (s (i + 1)).2 := by
    intro i hi
    obtain ⟨-, h2, -, h4, -, h6, h7, h8, h9⟩ := (hq i hi).step
    exact ⟨h2, h4, h6, h7, h8, h9⟩
  have hjm : j ≤ m := by
    by_contra hlt
    rcases hend with rfl | ⟨k, rfl, hcl⟩
    · omega
    · have e1 := hflow k (by omega)
      have e2 := hflow (k + 1) le_rfl
      have h3 := (hstep k (by omega)).2.2.1
      have hx := (hq k (by omega))
      have hcl' := hcl 1e-3 rfl
      rw [show cost matX (V (k + 1)) + cost matY (V (k + 1)) = (s (k + 1)).1 + (s (k + 1)).2 by rw [hsdef]; simp only; rw [← e2],
        show cost matX (V k) + cost matY (V k) = (s k).1 + (s k).2 by rw [hsdef]; simp only; rw [← e1]] at hcl'
      have b1 : 0 < (s k).1 := hx.x0
      have b2 : (s k).1 ≤ 0.701 := hx.x1
      have b3 : -0.0012 ≤ (s k).2 := hx.y0
      have b4 : (s k).2 ≤ 0.51 := hx.y1
      have hb : |(s k).1 + (s k).2| ≤ 2 := abs_le.2 ⟨by linarith, by linarith⟩
      have := (abs_le.1 (hcl'.trans (show _ ≤ (0.002 : ℝ) by norm_num at *; linarith))).1
      norm_num at this h3
      linarith
  have hV : ∀ i ≤ j, ∃ p, path[i]? = some p ∧ Located (V i) p ∧ cost matX (V i) = (s i).1 ∧ cost matY (V i) = (s i).2 ∧ 0 < (s i).1 := by
    intro i hi
    have hl : path.length = m + 1 := by simpa using hloc.length_eq.symm
    have hi' : i < path.length := by omega
    obtain ⟨U, hU, hlU⟩ := forall₂_getElem? hloc i _ (List.getElem?_eq_getElem hi')
    rw [List.getElem?_map, List.getElem?_range (by omega)] at hU
    obtain rfl := Option.some.inj hU
    have e := hflow i (by omega)
    refine ⟨_, List.getElem?_eq_getElem hi', hlU, congrArg Prod.fst e, congrArg Prod.snd e, ?_⟩
    rcases Nat.lt_or_ge i j with h | h
    · exact (hq i h).x0
    · obtain rfl : i = j := by omega
      exact hjx
  have key : ∀ i < j, ∀ p p' : ℝ × ℝ, path[i]? = some p → path[i + 1]? = some p' → p.1 < Real.pi / 2 → 3 * Real.pi / 2 < p'.1 →
      ∃ (k : ℕ) (p p' : ℝ × ℝ), k ≤ 40 ∧ path[k]? = some p ∧ path[k + 1]? = some p' ∧ p.1 < Real.pi / 2 ∧ 3 * Real.pi / 2 < p'.1 ∧
      |Real.sin p'.2 * Real.cos p'.1 - Real.sin p.2 * Real.cos p.1| ≤ 0.063 ∧ |Real.sin p'.2 * Real.sin p'.1 - Real.sin p.2 * Real.sin p.1| ≤ 0.063 := by
    intro i hi p p' hp hp' h1 h2
    obtain ⟨q, hq1, hl, ex, ey, -⟩ := hV i (by omega)
    obtain ⟨q', hq1', hl', ex', ey', -⟩ := hV (i + 1) (by omega)
    rw [hp] at hq1
    rw [hp'] at hq1'
    obtain rfl := Option.some.inj hq1
    obtain rfl := Option.some.inj hq1'
    obtain ⟨-, h4, -, h7, h8, h9⟩ := hstep i hi
    obtain ⟨n1, n2⟩ := hl.near
    obtain ⟨n3, n4⟩ := hl'.near
    rw [ex, abs_le] at n1
    rw [ey, abs_le] at n2
    rw [ex', abs_le] at n3
    rw [ey', abs_le] at n4
    obtain ⟨n1, m1⟩ := n1
    obtain ⟨n2, m2⟩ := n2
    obtain ⟨n3, m3⟩ := n3
    obtain ⟨n4, m4⟩ := n4
    refine ⟨i, p, p', by omega, hp, hp', h1, h2, abs_le.2 ⟨?_, ?_⟩, abs_le.2 ⟨?_, ?_⟩⟩ <;> norm_num at * <;> linarith
  have h0 : j ≠ 0 := by
    rintro rfl
    have := quarter_start.2
    change redBlueStart.2 < _ at hjy
    linarith
  obtain ⟨i, rfl⟩ := Nat.exists_eq_succ_of_ne_zero h0
  obtain ⟨p', hp', hl', ex', ey', hx'⟩ := hV (i + 1) le_rfl
  obtain ⟨p, hp, hl, ex, ey, hx⟩ := hV i (by omega)
  have hfar : 3 * Real.pi / 2 < p'.1 := by
    rcases hl'.front (by rw [ex']; exact hx') with h | h
    · exfalso
      have hy : cost matY (V (i + 1)) < -0.0012 := by rw [ey']; exact hjy
      by_cases h0 : p'.1 = 0
      · have := (abs_le.1 (hl'.snapped h0).2).1
        norm_num at *
        linarith
      · have hs : 0 ≤ Real.sin p'.2 := Real.sin_nonneg_of_nonneg_of_le_pi hl'.theta0 hl'.theta1
        have hs' : 0 ≤ Real.sin p'.1 := Real.sin_nonneg_of_nonneg_of_le_pi hl'.phi0 (by linarith [Real.pi_pos])
        have := mul_nonneg hs hs'
        rw [hl'.y h0] at this
        linarith
    · exact h.1
  rcases hl.front (by rw [ex]; exact hx) with h | ⟨h, hneg⟩
  · exact key i (by omega) p p' hp hp' h hfar
  · rw [ey] at hneg
    have hi0 : i ≠ 0 := by
      rintro rfl
      have := quarter_start.2
      change redBlueStart.2 < _ at hneg
      linarith
    obtain ⟨i', rfl⟩ := Nat.exists_eq_succ_of_ne_zero hi0
    obtain ⟨p₀, hp₀, hl₀, ex₀, ey₀, hx₀⟩ := hV i' (by omega)
    rcases hl₀.front (by rw [ex₀]; exact hx₀) with h' | ⟨-, hneg'⟩
    · exact key i' (by omega) p₀ p hp₀ hp h' h
    · exfalso
      rw [ey₀] at hneg'
      have h1 := (hstep i' (by omega)).2.1
      have h2 := (hq (i' + 1) (by omega)).y0
      change -0.0012 ≤ (s (i' + 1)).2 at h2
      linarith

/-- Hypotheses of C133. -/
example (rnd : ℕ → Matrix (Fin (2 ^ 1)) (Fin (2 ^ 1)) ℝ) : ∃ (eigh : EighFn 1) (gd : ℝ → (List ℝ → Py ℝ) → List ℝ → Py (List ℝ)) (F : RedBlueFigures) (fs' : List OutFile),
    ValidEigh eigh ∧ ValidGdList gd ∧ redBlueScript eigh rnd gd [] = (.ok F, fs') := by
  obtain ⟨eigh, he⟩ := exists_validEigh 1
  obtain ⟨gd, hgd⟩ := exists_validGdList
  obtain ⟨_, _, F, -, -, h, -⟩ := C132_script he rnd hgd []
  exact ⟨eigh, gd, F, _, he, hgd, h⟩

end Oranssi
