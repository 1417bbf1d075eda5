import Verif.Props.ZassenhausScript
import Verif.Props.RotosolveExact

/-! # C138: the first step of zassenhaus.py raises the cost -/

namespace Oranssi
open scoped Matrix
open Spec

/-- The gradients of the Hamiltonian of the script in a product state with equal factors. -/
theorem zass_grad (M : Mat2) (f : Fin 3 → Letter) : grad zassHam (tensor fun _ => M) (pauliWord f) =
    grad (pauliWord (placed 3 [.X] [0])) (tensor fun _ => M) (pauliWord f) + (grad (pauliWord (placed 3 [.X] [1])) (tensor fun _ => M) (pauliWord f) +
      (grad (pauliWord (placed 3 [.Y] [2])) (tensor fun _ => M) (pauliWord f) + grad (pauliWord (placed 3 [.Z, .Y] [2, 1])) (tensor fun _ => M) (pauliWord f))) := by
  rw [zassHam, grad_add, grad_add, grad_add]

set_option maxHeartbeats 2000000 in
theorem zass_grad_small {x y u : ℝ} (hx : 0.1663 ≤ x) (hx' : x ≤ 0.1668) (hy : 0.1985 ≤ y) (hy' : y ≤ 0.1988) (hu : 0.9655 ≤ u) (hu' : u ≤ 0.9661) {M : Mat2}
    (hI : bloch M .I = 1) (hX : bloch M .X = (x : ℝ)) (hY : bloch M .Y = (y : ℝ)) (hZ : bloch M .Z = ((-u : ℝ) : ℂ)) (a b : Letter) (ha : a ≠ .I) (hb : b ≠ .I) (q : List ℕ)
    (hq : q = [0, 1] ∨ q = [0, 2] ∨ q = [1, 2]) (hne : ¬ (a = .Z ∧ b = .X ∧ q = [0, 2])) :
    |grad zassHam (tensor fun _ => M) (pauliWord (placed 3 [a, b] q))| < 2.005 := by
  have key : ∀ {s t lo hi lo' hi' : ℝ}, 0 ≤ lo → lo ≤ s → s ≤ hi → 0 ≤ lo' → lo' ≤ t → t ≤ hi' → lo * lo' ≤ s * t ∧ s * t ≤ hi * hi' := by
    intro s t lo hi lo' hi' h0 h1 h2 h3 h4 h5
    exact ⟨mul_le_mul h1 h4 h3 (h0.trans h1), mul_le_mul h2 h5 (h3.trans h4) (h0.trans (h1.trans h2))⟩
  obtain ⟨xx1, xx2⟩ := key (by norm_num) hx hx' (by norm_num) hx hx'
  obtain ⟨xy1, xy2⟩ := key (by norm_num) hx hx' (by norm_num) hy hy'
  obtain ⟨xu1, xu2⟩ := key (by norm_num) hx hx' (by norm_num) hu hu'
  obtain ⟨yy1, yy2⟩ := key (by norm_num) hy hy' (by norm_num) hy hy'
  obtain ⟨yu1, yu2⟩ := key (by norm_num) hy hy' (by norm_num) hu hu'
  obtain ⟨uu1, uu2⟩ := key (by norm_num) hu hu' (by norm_num) hu hu'
  obtain ⟨xxx1, xxx2⟩ := key (by norm_num) xx1 xx2 (by norm_num) hx hx'
  obtain ⟨xxy1, xxy2⟩ := key (by norm_num) xx1 xx2 (by norm_num) hy hy'
  obtain ⟨xxu1, xxu2⟩ := key (by norm_num) xx1 xx2 (by norm_num) hu hu'
  obtain ⟨xyy1, xyy2⟩ := key (by norm_num) xy1 xy2 (by norm_num) hy hy'
  obtain ⟨xyu1, xyu2⟩ := key (by norm_num) xy1 xy2 (by norm_num) hu hu'
  obtain ⟨xuu1, xuu2⟩ := key (by norm_num) xu1 xu2 (by norm_num) hu hu'
  obtain ⟨yyy1, yyy2⟩ := key (by norm_num) yy1 yy2 (by norm_num) hy hy'
  obtain ⟨yyu1, yyu2⟩ := key (by norm_num) yy1 yy2 (by norm_num) hu hu'
  obtain ⟨yuu1, yuu2⟩ := key (by norm_num) yu1 yu2 (by norm_num) hu hu'
  obtain ⟨uuu1, uuu2⟩ := key (by norm_num) uu1 uu2 (by norm_num) hu hu'
  rw [zass_grad, grad_product, grad_product, grad_product, grad_product]
  rcases hq with rfl | rfl | rfl <;> cases a <;> cases b <;>
    first
    | exact absurd rfl ha
    | exact absurd rfl hb
    | exact absurd ⟨rfl, rfl, rfl⟩ hne
    | (simp [Fin.prod_univ_three, placed, lphase, lmul, hI, hX, hY, hZ]
       try rw [abs_lt]
       first | norm_num; done | (constructor <;> linarith))

/-- The gradient along ZX on the qubits 0 and 2. -/
theorem zass_grad_ZX {x y u : ℝ} {M : Mat2} (hI : bloch M .I = 1) (hX : bloch M .X = (x : ℝ)) (hY : bloch M .Y = (y : ℝ)) (hZ : bloch M .Z = ((-u : ℝ) : ℂ)) :
    grad zassHam (tensor fun _ => M) (pauliWord (placed 3 [.Z, .X] [0, 2])) = 2 * (x * y + u ^ 2 + u * y ^ 2) := by
  rw [zass_grad, grad_product, grad_product, grad_product, grad_product]
  simp [Fin.prod_univ_three, placed, lphase, lmul, hI, hX, hY, hZ]
  ring

theorem cost_flip {n : ℕ} {A P : QMat n} (hP : P * P = 1) (hH : Pᴴ = P) (h : A * P = -(P * A)) (U : QMat n) : cost A (P * U) = -cost A U := by
  rw [cost_left, hH, mul_assoc, h, mul_neg, ← mul_assoc, hP, one_mul, cost_neg]

theorem cost_same {n : ℕ} {A P : QMat n} (hP : P * P = 1) (hH : Pᴴ = P) (h : A * P = P * A) (U : QMat n) : cost A (P * U) = cost A U := by
  rw [cost_left, hH, mul_assoc, h, ← mul_assoc, hP, one_mul]

theorem zass_cost_ZX {x y u : ℝ} {M : Mat2} (hI : bloch M .I = 1) (hX : bloch M .X = (x : ℝ)) (hY : bloch M .Y = (y : ℝ)) (hZ : bloch M .Z = ((-u : ℝ) : ℂ)) :
    cost zassHam (tensor fun _ => M) = 2 * x + y - y * u ∧ cost zassHam (pauliWord (placed 3 [.Z, .X] [0, 2]) * tensor fun _ => M) = y * u - y := by
  refine ⟨?_, ?_⟩
  · rw [cost_four, hI, hX, hY, hZ]
    simp
    ring
  · rw [zassHam, cost_add, cost_add, cost_add, cost_flip (pauliWord_sq _) (pauliWord_herm _) (word_anti (by simp [Fin.prod_univ_three, placed, lphase])),
      cost_same (pauliWord_sq _) (pauliWord_herm _) (word_commute (by simp [Fin.prod_univ_three, placed, lphase])),
      cost_flip (pauliWord_sq _) (pauliWord_herm _) (word_anti (by simp [Fin.prod_univ_three, placed, lphase])),
      cost_flip (pauliWord_sq _) (pauliWord_herm _) (word_anti (by simp [Fin.prod_univ_three, placed, lphase])), cost_product, cost_product, cost_product, cost_product]
    simp [Fin.prod_univ_three, placed, hI, hX, hY, hZ]
    ring

/-- The numbers of the script. -/
theorem zass_numbers : (0.1663 ≤ Real.cos 1.4 * Real.cos 0.2 ∧ Real.cos 1.4 * Real.cos 0.2 ≤ 0.1668) ∧ (0.1985 ≤ Real.sin 0.2 ∧ Real.sin 0.2 ≤ 0.1988) ∧
    (0.9655 ≤ Real.sin 1.4 * Real.cos 0.2 ∧ Real.sin 1.4 * Real.cos 0.2 ≤ 0.9661) := by
  have c2 := abs_le.1 (Real.cos_bound (x := 0.2) (by norm_num [abs_le]))
  have s2 := abs_le.1 (Real.sin_bound (x := 0.2) (by norm_num [abs_le]))
  rw [abs_of_pos (by norm_num : (0 : ℝ) < 0.2)] at c2 s2
  set d : ℝ := Real.pi / 2 - 1.4 with hd
  have d1 : 0.17075 ≤ d := by rw [hd]; linarith [Real.pi_gt_d4]
  have d2 : d ≤ 0.1708 := by rw [hd]; linarith [Real.pi_lt_d4]
  have hc : Real.cos 1.4 = Real.sin d := by rw [hd, Real.sin_pi_div_two_sub]
  have hs : Real.sin 1.4 = Real.cos d := by rw [hd, Real.cos_pi_div_two_sub]
  have c3 := abs_le.1 (Real.cos_bound (x := d) (by rw [abs_le]; constructor <;> linarith))
  have s3 := abs_le.1 (Real.sin_bound (x := d) (by rw [abs_le]; constructor <;> linarith))
  rw [abs_of_pos (by linarith : 0 < d)] at c3 s3
  have p2 : d ^ 2 ≤ 0.1708 ^ 2 := pow_le_pow_left₀ (by linarith) d2 2
  have p2' : 0.17075 ^ 2 ≤ d ^ 2 := pow_le_pow_left₀ (by norm_num) d1 2
  have p3 : d ^ 3 ≤ 0.1708 ^ 3 := pow_le_pow_left₀ (by linarith) d2 3
  have p3' : 0.17075 ^ 3 ≤ d ^ 3 := pow_le_pow_left₀ (by norm_num) d1 3
  have p4 : d ^ 4 ≤ 0.1708 ^ 4 := pow_le_pow_left₀ (by linarith) d2 4
  have p5 : d ^ 5 ≤ 0.1708 ^ 5 := pow_le_pow_left₀ (by linarith) d2 5
  norm_num at c2 s2 p5 p2 p2' p3 p3' p4
  have a1 : 0.1699 ≤ Real.sin d := by norm_num; linarith [s3.1]
  have a2 : Real.sin d ≤ 0.1701 := by norm_num; linarith [s3.2]
  have b1 : 0.98535 ≤ Real.cos d := by norm_num; linarith [c3.1]
  have b2 : Real.cos d ≤ 0.9855 := by norm_num; linarith [c3.2]
  have e1 : 0.97991 ≤ Real.cos 0.2 := by norm_num; linarith [c2.1]
  have e2 : Real.cos 0.2 ≤ 0.9801 := by norm_num; linarith [c2.2]
  rw [hc, hs]
  refine ⟨⟨?_, ?_⟩, ⟨by norm_num; linarith [s2.1], by norm_num; linarith [s2.2]⟩, ⟨?_, ?_⟩⟩
  · refine le_trans (by norm_num) (mul_le_mul a1 e1 (by norm_num) (by linarith))
  · refine le_trans (mul_le_mul a2 e2 (by linarith) (by norm_num)) (by norm_num)
  · refine le_trans (by norm_num) (mul_le_mul b1 e1 (by norm_num) (by linarith))
  · refine le_trans (mul_le_mul b2 e2 (by linarith) (by norm_num)) (by norm_num)

/-- The step of `rotosolve` along a direction of two qubits, when the gradient is positive and the cost at angle zero is not below the middle of the curve. -/
theorem roto_pair {A B G : ℝ} (hB : 0 ≤ B) (hG : 0 < G) (f : ℝ → ℝ) (hf : ∀ t, f t = A + B * Real.cos (t / 2) - G * Real.sin (t / 2)) (η : ℝ)
    (hη : η = -Real.pi / 2 - Complex.arg ⟨f (Real.pi / 2) - f (-(Real.pi / 2)), 2 * f 0 - f (Real.pi / 2) - f (-(Real.pi / 2))⟩) :
    A + Real.sqrt 2 / 2 * (G - B) ≤ f η := by
  have hc4 : Real.cos (Real.pi / 2 / 2) = Real.sqrt 2 / 2 := by rw [show Real.pi / 2 / 2 = Real.pi / 4 by ring, Real.cos_pi_div_four]
  have hs4 : Real.sin (Real.pi / 2 / 2) = Real.sqrt 2 / 2 := by rw [show Real.pi / 2 / 2 = Real.pi / 4 by ring, Real.sin_pi_div_four]
  have q0 : 0 < Real.sqrt 2 := Real.sqrt_pos.2 (by norm_num)
  have q2 : Real.sqrt 2 < 2 := by rw [Real.sqrt_lt' (by norm_num)]; norm_num
  have e1 : f (Real.pi / 2) - f (-(Real.pi / 2)) = -(Real.sqrt 2 * G) := by
    rw [hf, hf, neg_div, Real.cos_neg, Real.sin_neg, hc4, hs4]; ring
  have e2 : 2 * f 0 - f (Real.pi / 2) - f (-(Real.pi / 2)) = (2 - Real.sqrt 2) * B := by
    rw [hf, hf, hf, neg_div, Real.cos_neg, Real.sin_neg, hc4, hs4, zero_div, Real.cos_zero, Real.sin_zero]; ring
  rw [e1, e2] at hη
  obtain ⟨r, hr0, hx, hy, hr⟩ := arctan2_polar ((2 - Real.sqrt 2) * B) (-(Real.sqrt 2 * G))
  rw [arctan2] at hx hy
  have hp := mul_pos q0 hG
  set φ : ℝ := Complex.arg ⟨-(Real.sqrt 2 * G), (2 - Real.sqrt 2) * B⟩ with hφ
  have hφ1 : Real.pi / 2 < φ := by
    by_contra hcon
    push Not at hcon
    have h0 : 0 ≤ φ := Complex.arg_nonneg_iff.2 (mul_nonneg (by linarith) hB)
    have := Real.cos_nonneg_of_neg_pi_div_two_le_of_le (by linarith [Real.pi_pos]) hcon
    have := mul_nonneg hr0 this
    linarith
  have hφ2 : φ ≤ Real.pi := Complex.arg_le_pi _
  have hψ : η / 2 = -(Real.pi / 4 + φ / 2) := by rw [hη]; ring
  rw [hf, hψ, Real.cos_neg, Real.sin_neg]
  set ψ : ℝ := Real.pi / 4 + φ / 2 with hψd
  have hpi := Real.pi_pos
  have hc : -(Real.sqrt 2 / 2) ≤ Real.cos ψ := by
    have h : Real.cos (Real.pi - Real.pi / 4) = -(Real.sqrt 2 / 2) := by rw [Real.cos_pi_sub, Real.cos_pi_div_four]
    rw [← h]
    exact Real.cos_le_cos_of_nonneg_of_le_pi (by linarith) (by linarith) (by linarith)
  have hs : Real.sqrt 2 / 2 ≤ Real.sin ψ := by
    rw [← Real.cos_pi_div_four, ← Real.cos_sub_pi_div_two]
    exact Real.cos_le_cos_of_nonneg_of_le_pi (by linarith) (by linarith) (by linarith)
  have h1 := mul_le_mul_of_nonneg_left hc hB
  have h2 := mul_le_mul_of_nonneg_left hs hG.le
  linarith

/-- C138 (any direction of two qubits, any state, any observables).  Write the cost along the direction as `A + B cos - G sin`, so that `A + B` is the cost and `2 G` the gradient.
If `0 < G` and `0 ≤ B`, the cost after the step of `rotosolve` is at least `A + (G - B)/√2`; so the step raises the cost whenever `G` is more than `(1 + √2) B`, although the
least cost along the direction, `A - √(B² + G²)`, is lower than `A - G`. -/
theorem C138_pair {n : ℕ} (P U : QMat n) (hP : P * P = 1) (hH : Pᴴ = P) (gs : List (Gate n)) {A B G : ℝ} (hA : A = (cost (totalObs gs) U + cost (totalObs gs) (P * U)) / 2)
    (hBd : B = (cost (totalObs gs) U - cost (totalObs gs) (P * U)) / 2) (hGd : G = grad (totalObs gs) U P / 2) (hB : 0 ≤ B) (hG : 0 < G) :
    ∃ (V : QMat n) (η : ℝ), rotosolve P (gs.map Gate.obs) U 2 = .ok (V, η) ∧ A + Real.sqrt 2 / 2 * (G - B) ≤ cost (totalObs gs) V ∧
      ((1 + Real.sqrt 2) * B < G → cost (totalObs gs) U < cost (totalObs gs) V) ∧
      IsLeast (Set.range fun t : ℝ => cost (totalObs gs) (NormedSpace.exp ((-Complex.I * (t : ℂ)) • P) * U)) (A - Real.sqrt (B ^ 2 + G ^ 2)) := by
  obtain ⟨V, η, h1, h2⟩ := rotosolve_step P U hP hH gs 2
  have hal : ∀ θ : ℝ, cost (totalObs gs) (NormedSpace.exp ((-Complex.I * (θ : ℂ)) • P) * U) = A + B * Real.cos (2 * θ) - G * Real.sin (2 * θ) := fun θ => by
    rw [cost_along hP hH, hA, hBd, hGd]
  have hlow : A + Real.sqrt 2 / 2 * (G - B) ≤ cost (totalObs gs) V := by
    have h := roto_pair (A := A) hB hG (fun t => cost (totalObs gs) (NormedSpace.exp ((-Complex.I * ((t / 2 ^ 2 : ℝ) : ℂ)) • P) * U))
      (fun t => by rw [hal, show 2 * (t / 2 ^ 2) = t / 2 by ring]) _ rfl
    rw [h2.angle]
    exact h
  refine ⟨V, η, h1, hlow, fun hlt => lt_of_lt_of_le ?_ hlow, ?_, ?_⟩
  · have hq : Real.sqrt 2 * Real.sqrt 2 = 2 := Real.mul_self_sqrt (by norm_num)
    have q0 : 0 < Real.sqrt 2 := Real.sqrt_pos.2 (by norm_num)
    have hU : cost (totalObs gs) U = A + B := by rw [hA, hBd]; ring
    have h3 := mul_lt_mul_of_pos_left hlt (by linarith : 0 < Real.sqrt 2 / 2)
    have h4 : Real.sqrt 2 / 2 * ((1 + Real.sqrt 2) * B) = Real.sqrt 2 / 2 * B + B := by linear_combination B / 2 * hq
    rw [hU]
    linarith
  · obtain ⟨r, hr0, hx, hy, hr⟩ := arctan2_polar G (-B)
    have hr' : r = Real.sqrt (B ^ 2 + G ^ 2) := by rw [← Real.sqrt_sq hr0, hr]; congr 1; ring
    refine ⟨arctan2 G (-B) / 2, ?_⟩
    dsimp only
    rw [hal, show 2 * (arctan2 G (-B) / 2) = arctan2 G (-B) by ring, ← hr']
    have h5 := Real.sin_sq_add_cos_sq (arctan2 G (-B))
    linear_combination (-Real.cos (arctan2 G (-B))) * hx + (-Real.sin (arctan2 G (-B))) * hy - r * h5
  · rintro _ ⟨t, rfl⟩
    dsimp only
    rw [hal]
    have h := Real.sin_sq_add_cos_sq (2 * t)
    have hsq : (B * Real.cos (2 * t) - G * Real.sin (2 * t)) ^ 2 ≤ Real.sqrt (B ^ 2 + G ^ 2) ^ 2 := by
      rw [Real.sq_sqrt (by positivity)]
      have : B ^ 2 + G ^ 2 - (B * Real.cos (2 * t) - G * Real.sin (2 * t)) ^ 2 = (B * Real.sin (2 * t) + G * Real.cos (2 * t)) ^ 2 := by
        linear_combination (-(B ^ 2 + G ^ 2)) * h
      have := sq_nonneg (B * Real.sin (2 * t) + G * Real.cos (2 * t))
      linarith
    have := (abs_le.1 (abs_le_of_sq_le_sq hsq (Real.sqrt_nonneg _))).1
    linarith

/-- The direction that the first call selects. -/
theorem zass_first_max : IsFirstMax (fun e : Key × QMat 3 => |grad (totalObs zassGates) (zassState 0.2 1.4) e.2|) (stdDict 3 (allWords [2]))
    (("ZX", [0, 2]), pauliWord (placed 3 [.Z, .X] [0, 2])) := by
  obtain ⟨hI, hX, hY, hZ⟩ := zassSite_bloch 0.2 1.4
  obtain ⟨⟨hx, hx'⟩, ⟨hy, hy'⟩, ⟨hu, hu'⟩⟩ := zass_numbers
  rw [zassGates_total, zassState]
  have hmem : ((("ZX", [0, 2]), pauliWord (placed 3 [.Z, .X] [0, 2])) : Key × QMat 3) ∈ stdDict 3 (allWords [2]) :=
    mem_stdDict.2 ⟨[.Z, .X], mem_allWords.2 ⟨by simp, by simp⟩, [0, 2], mem_combinations_range.2 ⟨rfl, by simp, by simp⟩, rfl⟩
  have hnd := stdDict_nodup (n := 3) (L := allWords [2]) (allWords_nodup (by simp))
  have hbig : 2.005 < |grad zassHam (tensor fun _ : Fin 3 => zassSite 0.2 1.4) (pauliWord (placed 3 [.Z, .X] [0, 2]))| := by
    rw [zass_grad_ZX hI hX hY hZ]
    refine lt_of_lt_of_le ?_ (le_abs_self _)
    have h1 := mul_le_mul hx hy (by norm_num) (by linarith)
    have h2 := pow_le_pow_left₀ (by norm_num) hu 2
    have h3 := mul_le_mul hu (pow_le_pow_left₀ (by norm_num) hy 2) (by norm_num) (by linarith)
    norm_num at h1 h2 h3 ⊢
    linarith
  obtain ⟨l₁, l₂, hl⟩ := List.append_of_mem hmem
  have hsmall : ∀ e ∈ stdDict 3 (allWords [2]), e.1 ≠ ("ZX", [0, 2]) → |grad zassHam (tensor fun _ : Fin 3 => zassSite 0.2 1.4) e.2| < 2.005 := by
    intro e he hne
    obtain ⟨w, hw, q, hq, rfl⟩ := mem_stdDict.1 he
    obtain ⟨hw1, hw2⟩ := mem_allWords.1 hw
    match w, hw1, hw2, hq, hne with
    | [a, b], _, hw2, hq, hne =>
      obtain ⟨hq1, hq2, hq3⟩ := mem_combinations_range.1 hq
      match q, hq1, hq2, hq3, hne with
      | [i, j], _, hq2, hq3, hne =>
        have hi := hq3 i (by simp)
        have hj := hq3 j (by simp)
        have hij : i < j := by simpa using hq2
        refine zass_grad_small hx hx' hy hy' hu hu' hI hX hY hZ a b (hw2 a (by simp)) (hw2 b (by simp)) _ ?_ ?_
        · have : (i = 0 ∧ j = 1) ∨ (i = 0 ∧ j = 2) ∨ (i = 1 ∧ j = 2) := by omega
          rcases this with ⟨rfl, rfl⟩ | ⟨rfl, rfl⟩ | ⟨rfl, rfl⟩ <;> simp
        · rintro ⟨rfl, rfl, hh⟩
          apply hne
          rw [hh]
          rfl
  rw [hl, List.map_append, List.map_cons] at hnd
  have hk := List.nodup_middle.1 hnd
  rw [List.nodup_cons] at hk
  refine ⟨l₁, l₂, hl, fun e he => (hsmall e (by rw [hl]; simp [he]) ?_).trans hbig, fun e he => ((hsmall e (by rw [hl]; simp [he]) ?_).trans hbig).le⟩
  · intro h
    have hm := List.mem_append_left (l₂.map Prod.fst) (List.mem_map_of_mem (f := Prod.fst) he)
    rw [h] at hm
    exact hk.1 hm
  · intro h
    have hm := List.mem_append_right (l₁.map Prod.fst) (List.mem_map_of_mem (f := Prod.fst) he)
    rw [h] at hm
    exact hk.1 hm

/-- C138 (the call).  The first call of the layer of the script, at the circuit of the script, succeeds; it selects ZX on the qubits 0 and 2 and takes the cost from below 0.341 to
above 0.75.  Along that direction the cost falls below -0.84. -/
theorem C138_call (ord : SetOrder ℕ) (L : ZassLayer 3) (hL : zassLayer 3 zassObservables {} (ratio := (4, 2)) = .ok L) :
    ∃ V L', L.call ord (zassState 0.2 1.4) = .ok (V, L') ∧ L'.currentPauli = some ("ZX", [0, 2]) ∧
      cost zassHam (zassState 0.2 1.4) < 0.341 ∧ 0.75 < cost zassHam V ∧
      ∃ t : ℝ, cost zassHam (NormedSpace.exp ((-Complex.I * (t : ℂ)) • pauliWord (placed 3 [.Z, .X] [0, 2])) * zassState 0.2 1.4) < -0.84 := by
  rw [zassObservables_eq] at hL
  obtain ⟨hI, hX, hY, hZ⟩ := zassSite_bloch 0.2 1.4
  obtain ⟨⟨hx, hx'⟩, ⟨hy, hy'⟩, ⟨hu, hu'⟩⟩ := zass_numbers
  have hphase := (zassLayer_inv hL).2.2.2.2.2.2.2.1
  obtain ⟨V, L', h3⟩ := C43_su4_partial ord _ _ _ _ L L hL [] rfl hphase (zassState 0.2 1.4)
  have h3' := h3
  rw [ZassLayer.call, hphase] at h3'
  obtain ⟨k, P, h4, hcur, η, h5, -⟩ := su4_call le_rfl (zassGood_init hL) h3'
  have hk := IsFirstMax_unique h4 zass_first_max
  obtain ⟨rfl, rfl⟩ := Prod.mk.inj hk
  have hg := zass_grad_ZX hI hX hY hZ
  obtain ⟨hc0, hc1⟩ := zass_cost_ZX hI hX hY hZ
  rw [← zassState] at hg hc0 hc1
  generalize Real.cos 1.4 * Real.cos 0.2 = x at *
  generalize Real.sin 0.2 = y at *
  generalize Real.sin 1.4 * Real.cos 0.2 = u at *
  have yu1 := mul_le_mul hy hu (by norm_num) (by linarith)
  have yu2 := mul_le_mul hy' hu' (by linarith) (by norm_num)
  have h1 := mul_le_mul hx hy (by norm_num) (by linarith)
  have h2 := pow_le_pow_left₀ (by norm_num) hu 2
  have h6 := mul_le_mul hu (pow_le_pow_left₀ (by norm_num) hy 2) (by norm_num) (by linarith)
  norm_num at yu1 yu2 h1 h2 h6 hx hx' hy hy' hu hu'
  have hG : 1.0031 ≤ x * y + u ^ 2 + u * y ^ 2 := by norm_num; linarith
  obtain ⟨V', η', h7, h8, -, ⟨t, ht⟩, -⟩ := C138_pair (A := x) (B := x + y - y * u) (G := x * y + u ^ 2 + u * y ^ 2) (pauliWord (placed 3 [.Z, .X] [0, 2])) (zassState 0.2 1.4)
    (pauliWord_sq _) (pauliWord_herm _) zassGates (by rw [zassGates_total, hc0, hc1]; ring) (by rw [zassGates_total, hc0, hc1]; ring) (by rw [zassGates_total, hg]; ring)
    (by linarith) (by linarith)
  obtain ⟨rfl, rfl⟩ := Prod.mk.inj (Except.ok.inj (h5.symm.trans h7))
  rw [zassGates_total] at h8
  simp only [zassGates_total] at ht
  refine ⟨V, L', h3, hcur, ?_, lt_of_lt_of_le ?_ h8, t, ?_⟩
  · rw [hc0]; norm_num; linarith
  · have q1 : (1.4142 : ℝ) < Real.sqrt 2 := Real.lt_sqrt_of_sq_lt (by norm_num)
    have hGB : 0.828 ≤ x * y + u ^ 2 + u * y ^ 2 - (x + y - y * u) := by norm_num at hG ⊢; linarith
    have := mul_le_mul (by linarith : (0.7071 : ℝ) ≤ Real.sqrt 2 / 2) hGB (by norm_num) (by linarith)
    norm_num at this ⊢
    linarith
  · rw [ht]
    have : (1.01 : ℝ) ≤ Real.sqrt ((x + y - y * u) ^ 2 + (x * y + u ^ 2 + u * y ^ 2) ^ 2) := by
      apply Real.le_sqrt_of_sq_le
      have b1 : (0.172 : ℝ) ≤ x + y - y * u := by norm_num; linarith
      have := pow_le_pow_left₀ (by norm_num) b1 2
      have := pow_le_pow_left₀ (by norm_num) hG 2
      norm_num at *
      linarith
    norm_num at this ⊢
    linarith

/-- C138 (the run of the script, if it succeeds): the first step raises the cost by more than 0.4, so the second point of the curve is above the first. -/
theorem C138_run (E : LayerEnv 3) (eigh : EighFn 3) (rnd : ℕ → Matrix (Fin (2 ^ 3)) (Fin (2 ^ 3)) ℝ) (L : ZassLayer 3)
    (hL : zassLayer 3 zassObservables {} (ratio := (4, 2)) = .ok L) (args : ApproxArgs) (out : OptOut (ApproxItem 3) × (Fin 1 → AnyLayer 3))
    (h : approximateLieOptimizer E eigh rnd .state (zassCircuit 0.2 1.4) [] zassObservables (fun _ : Fin 1 => .zass L) [0] args = .ok out) :
    ∃ (c₀ c₁ : ℝ), (approxCosts out.1)[0]? = some c₀ ∧ (approxCosts out.1)[1]? = some c₁ ∧ c₀ + 0.4 < c₁ := by
  obtain ⟨X, L', hcall, -, h0, h1, -⟩ := C138_call E.ord L hL
  rw [zassObservables_eq] at h
  obtain ⟨N, -, e, -, V, W, j, hj1, -, hV0, hp0, ho0, -, hstep, hW0, -, -, -, -, hc, -⟩ := C50_trace _ _ _ _ _ _ _ _ _ _ _ h
  have hU : (V 0).U = zassState 0.2 1.4 := Except.ok.inj (hV0.symm.trans (zass_compile _ _))
  obtain ⟨i, L'', -, hs, -⟩ := hstep 0 hj1
  rw [hW0, ho0, hU] at hs
  rw [AnyLayer.call, hcall] at hs
  have hX : X = (V 1).U := (Prod.mk.inj (Except.ok.inj hs)).1
  refine ⟨_, _, hc 0 (by omega), hc 1 hj1, ?_⟩
  rw [hU, ← hX, zassGates_total]
  norm_num at h0 h1 ⊢
  linarith

/-! ### Examples -/

/-- The layer exists, and a run of one step with it succeeds: its cost rises. -/
example : ∃ (E : LayerEnv 3) (eigh : EighFn 3) (L : ZassLayer 3) (out : _) (c₀ c₁ : ℝ), zassLayer 3 zassObservables {} (ratio := (4, 2)) = .ok L ∧
    approximateLieOptimizer E eigh (fun _ => 0) .state (zassCircuit 0.2 1.4) [] zassObservables
    (fun _ : Fin 1 => .zass L) [0] { nsteps := .int 1, tol := none } = .ok out ∧ (approxCosts out.1)[0]? = some c₀ ∧ (approxCosts out.1)[1]? = some c₁ ∧ c₀ + 0.4 < c₁ := by
  obtain ⟨svd, -⟩ := exists_validSvd 3
  obtain ⟨gd, -⟩ := exists_validGd
  obtain ⟨eigh, -⟩ := exists_validEigh 3
  obtain ⟨L, hL⟩ : ∃ L, zassLayer 3 zassObservables {} (ratio := (4, 2)) = .ok L := by
    rw [zassObservables_eq]
    exact zassLayer_default le_rfl zassGates (4, 2)
  let E : LayerEnv 3 := ⟨svd, ⟨List.reverse, List.reverse_perm⟩, gd⟩
  obtain ⟨X, L', hcall, -⟩ := C138_call E.ord L hL
  obtain ⟨out, hout⟩ : ∃ out, approximateLieOptimizer E eigh (fun _ => 0) .state (zassCircuit 0.2 1.4) [] zassObservables
      (fun _ : Fin 1 => .zass L) [0] { nsteps := .int 1, tol := none } = .ok out := by
    rw [zassObservables_eq]
    have hb := approxBody_eq E eigh (fun _ => 0) zassGates 0.1 none ⟨false, false, false, false, false, false, false⟩ 0
      (approxInit zassGates [] (fun _ : Fin 1 => .zass L) [0] ⟨false, false, false, false, false, false, false⟩ (zassState 0.2 1.4)) (0, ⟨[], [0]⟩) (X, [], .zass L') rfl rfl
      (by
        change AnyLayer.call E (.zass L) [] (zassState 0.2 1.4) = _
        rw [AnyLayer.call, hcall]
        rfl)
    obtain ⟨s, hs⟩ : ∃ s, pyForRange (approxBody E eigh (fun _ => 0) (zassGates.map Gate.obs) 0.1 none ⟨false, false, false, false, false, false, false⟩) 0 1
        (approxInit zassGates [] (fun _ : Fin 1 => .zass L) [0] ⟨false, false, false, false, false, false, false⟩ (zassState 0.2 1.4)) = .ok s := by
      rw [pyForRange, hb]
      exact ⟨_, rfl⟩
    exact ⟨_, (approx_ok_iff E eigh _ .state _ [] zassGates _ [0] _ _).2 ⟨rfl, 1, 0.1, none, ⟨false, false, false, false, false, false, false⟩,
      ⟨rfl, le_rfl, rfl, by norm_num, by norm_num, trivial, rfl, rfl, rfl, rfl, rfl, rfl, rfl, rfl⟩, zassState 0.2 1.4, s, zass_compile _ _, hs, rfl⟩⟩
  obtain ⟨c₀, c₁, h0, h1, hlt⟩ := C138_run E eigh _ L hL _ out hout
  exact ⟨E, eigh, L, out, c₀, c₁, hL, hout, h0, h1, hlt⟩

/-- The hypotheses of the statement for any pair are met in the script: there `B` is `x + y - y u`, about 0.17, and `G` is `x y + u² + u y²`, about 1.003, with `x`, `y`, `u` the
Bloch coordinates of the factors of the state, and the step is along ZX on the qubits 0 and 2; the factor `1 + √2` is met as well. -/
example : ∃ A B G : ℝ, A = (cost (totalObs zassGates) (zassState 0.2 1.4) + cost (totalObs zassGates) (pauliWord (placed 3 [.Z, .X] [0, 2]) * zassState 0.2 1.4)) / 2 ∧
    B = (cost (totalObs zassGates) (zassState 0.2 1.4) - cost (totalObs zassGates) (pauliWord (placed 3 [.Z, .X] [0, 2]) * zassState 0.2 1.4)) / 2 ∧
    G = grad (totalObs zassGates) (zassState 0.2 1.4) (pauliWord (placed 3 [.Z, .X] [0, 2])) / 2 ∧ 0 ≤ B ∧ 0 < G ∧ (1 + Real.sqrt 2) * B < G := by
  obtain ⟨hI, hX, hY, hZ⟩ := zassSite_bloch 0.2 1.4
  obtain ⟨⟨hx, hx'⟩, ⟨hy, hy'⟩, ⟨hu, hu'⟩⟩ := zass_numbers
  have hg := zass_grad_ZX hI hX hY hZ
  obtain ⟨hc0, hc1⟩ := zass_cost_ZX hI hX hY hZ
  rw [← zassState] at hg hc0 hc1
  rw [zassGates_total]
  refine ⟨_, _, _, rfl, rfl, rfl, ?_⟩
  rw [hc0, hc1, hg]
  generalize Real.cos 1.4 * Real.cos 0.2 = x at *
  generalize Real.sin 0.2 = y at *
  generalize Real.sin 1.4 * Real.cos 0.2 = u at *
  have yu1 := mul_le_mul hy hu (by norm_num) (by linarith)
  have yu2 := mul_le_mul hy' hu' (by linarith) (by norm_num)
  have h1 := mul_le_mul hx hy (by norm_num) (by linarith)
  have h2 := pow_le_pow_left₀ (by norm_num) hu 2
  have h6 := mul_le_mul hu (pow_le_pow_left₀ (by norm_num) hy 2) (by norm_num) (by linarith)
  norm_num at yu1 yu2 h1 h2 h6 hx hx' hy hy' hu hu'
  have q1 : Real.sqrt 2 < 1.5 := (Real.sqrt_lt' (by norm_num)).2 (by norm_num)
  have hB : 0 ≤ x + y - y * u := by linarith
  have hB' : x + y - y * u ≤ 0.18 := by norm_num; linarith
  have hG : 1.0031 ≤ x * y + u ^ 2 + u * y ^ 2 := by norm_num; linarith
  have hm := mul_le_mul q1.le hB' hB (by norm_num)
  norm_num at hm hG hB'
  refine ⟨by linarith, by linarith, by linarith⟩

end Oranssi
