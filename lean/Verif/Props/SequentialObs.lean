import Verif.Lemmas.PairFlow
import Verif.Props.InvolutionRun
import Verif.Props.SumOnly
import Verif.Props.PlotDifference

/-! # C103: the exact optimizer with two observables that do not commute

optimizers.py:183-194 updates the unitary once for every observable, each time with the state the update before has left.  For two anticommuting involutory
observables, such as the X and Y of red_blue_comparison.py, this has a closed form.  A ground state of the sum is not a fixed point, and a run converges to a
state whose cost is above the smallest one, by an amount of the order of the square of the step size. -/

namespace Oranssi
open Spec
open scoped Matrix

variable {n : ℕ}

/-- The density matrix after a step of any length along the commutator with an involution. -/
theorem density_involution_step {U O : QMat n} (hU : Unitary U) (hO : Oᴴ = O) (hO2 : O * O = 1) (x t : ℝ) (hx : cost O U = Real.cos x) :
    ∃ p q : ℝ, Real.sin x * p = Real.sin (x + t * Real.sin x) ∧ Real.sin x * q = Real.sin (t * Real.sin x) ∧
      density (NormedSpace.exp ((t : ℂ) • riemannGen O U) * U) =
        ((p : ℂ) • density U - (q : ℂ) • (O * density U)) * ((p : ℂ) • density U - (q : ℂ) • (density U * O)) := by
  set R := density U with hR
  set K := riemannGen O U with hK
  set c : ℂ := ((Real.cos x : ℝ) : ℂ) with hc
  have hid : R * R = R := density_idem hU
  have hsand : R * O * R = c • R := by rw [hR, density_sandwich, expect_real U O hO, hx]
  have hKR : K * R = c • R - O * R := by
    rw [hK, riemannGen, ← hR, Matrix.sub_mul, hsand, Matrix.mul_assoc O R R, hid]
  have hs2 : c * c = 1 - ((Real.sin x ^ 2 : ℝ) : ℂ) := by
    rw [hc, ← Complex.ofReal_mul, ← Complex.ofReal_one, ← Complex.ofReal_sub]
    congr 1
    have := Real.sin_sq_add_cos_sq x
    nlinarith
  have hKKR : K * (K * R) = -((Real.sin x ^ 2 : ℝ) : ℂ) • R := by
    have h1 : K * (O * R) = R - c • (O * R) := by
      rw [hK, riemannGen, ← hR, Matrix.sub_mul, ← Matrix.mul_assoc, Matrix.mul_assoc R O O, hO2, Matrix.mul_one, hid, Matrix.mul_assoc O R (O * R),
        ← Matrix.mul_assoc R O R, hsand, Matrix.mul_smul]
    rw [hKR, Matrix.mul_sub, Matrix.mul_smul, hKR, h1]
    have : -((Real.sin x ^ 2 : ℝ) : ℂ) = c * c - 1 := by rw [hs2]; ring
    rw [this, sub_smul, one_smul, smul_sub, mul_smul]
    abel
  obtain ⟨b, hb0, hb, hbs⟩ := exists_sinc (Real.sin x)
  set E := NormedSpace.exp ((t : ℂ) • K) with hE
  have hER := exp_smul_mul_of_sq K R (Real.sin x) hKKR b hb0 hb hbs t
  rw [← hE] at hER
  have hER' : E * R = ((Real.cos (t * Real.sin x) + b t * Real.cos x : ℝ) : ℂ) • R - ((b t : ℝ) : ℂ) • (O * R) := by
    rw [hER, hKR, hc, smul_sub, smul_smul, Complex.ofReal_add, add_smul, Complex.ofReal_mul]
    abel
  refine ⟨Real.cos (t * Real.sin x) + b t * Real.cos x, b t, ?_, hbs t, ?_⟩
  · rw [Real.sin_add, ← hbs t]
    ring
  · have hRE := congrArg Matrix.conjTranspose hER'
    rw [Matrix.conjTranspose_mul, Matrix.conjTranspose_sub, Matrix.conjTranspose_smul, Matrix.conjTranspose_smul, Matrix.conjTranspose_mul, hO, hR,
      density_herm, ← hR, Complex.star_def, Complex.conj_ofReal, Complex.conj_ofReal] at hRE
    rw [density_mul, ← hR, ← hER', ← hRE, Matrix.mul_assoc E R (R * Eᴴ), ← Matrix.mul_assoc R R, hid, Matrix.mul_assoc]

/-- The expectation of an observable that anticommutes with the one the step is for. -/
theorem cost_anticomm_step {U O B : QMat n} (hU : Unitary U) (hO : Oᴴ = O) (hO2 : O * O = 1) (hB : O * B = -(B * O)) (x t : ℝ)
    (hx : cost O U = Real.cos x) :
    Real.sin x * cost B (NormedSpace.exp ((t : ℂ) • riemannGen O U) * U) = Real.sin (x + 2 * t * Real.sin x) * cost B U := by
  obtain ⟨p, q, hp, hq, hd⟩ := density_involution_step hU hO hO2 x t hx
  set R := density U with hR
  have hid : R * R = R := density_idem hU
  have hval : cost B (NormedSpace.exp ((t : ℂ) • riemannGen O U) * U) = (p ^ 2 - q ^ 2) * cost B U := by
    rw [cost, cost, expect_trace, expect_trace, hd, ← hR]
    have t1 : (R * R * B).trace = (R * B).trace := by rw [hid]
    have t2 : (R * (R * O) * B).trace = (R * O * B).trace := by rw [← Matrix.mul_assoc R R, hid]
    have t3 : (O * R * R * B).trace = -(R * O * B).trace := by
      rw [Matrix.mul_assoc O R R, hid, Matrix.mul_assoc, Matrix.trace_mul_comm, Matrix.mul_assoc, Matrix.mul_assoc, hB, Matrix.mul_neg, Matrix.trace_neg, neg_neg]
    have t4 : (O * R * (R * O) * B).trace = -(R * B).trace := by
      rw [← Matrix.mul_assoc (O * R) R O, Matrix.mul_assoc O R R, hid, Matrix.mul_assoc (O * R), hB, Matrix.mul_neg, Matrix.trace_neg, ← Matrix.mul_assoc,
        Matrix.trace_mul_comm, ← Matrix.mul_assoc, ← Matrix.mul_assoc, hO2, Matrix.one_mul]
    have hexp : (((p : ℂ) • R - (q : ℂ) • (O * R)) * ((p : ℂ) • R - (q : ℂ) • (R * O)) * B).trace = ((p ^ 2 - q ^ 2 : ℝ) : ℂ) * (R * B).trace := by
      rw [Matrix.sub_mul, Matrix.mul_sub, Matrix.mul_sub, Matrix.sub_mul, Matrix.sub_mul, Matrix.sub_mul]
      simp only [Matrix.smul_mul, Matrix.mul_smul, Matrix.trace_sub, Matrix.trace_smul, smul_eq_mul, t1, t2, t3, t4]
      push_cast
      ring
    rw [hexp, Complex.re_ofReal_mul]
  rw [hval]
  by_cases hs : Real.sin x = 0
  · rw [hs]
    simp [hs]
  · have key : Real.sin x * (p ^ 2 - q ^ 2) = Real.sin (x + 2 * t * Real.sin x) := by
      have h1 : Real.sin x * (Real.sin x * (p ^ 2 - q ^ 2)) = Real.sin x * Real.sin (x + 2 * t * Real.sin x) := by
        have e : Real.sin x * (Real.sin x * (p ^ 2 - q ^ 2)) = (Real.sin x * p) ^ 2 - (Real.sin x * q) ^ 2 := by ring
        rw [e, hp, hq, show x + 2 * t * Real.sin x = x + (t * Real.sin x + t * Real.sin x) by ring, Real.sin_add, Real.sin_add x (t * Real.sin x + t * Real.sin x),
          Real.sin_add, Real.cos_add]
        have h2 := Real.sin_sq_add_cos_sq x
        generalize Real.sin (t * Real.sin x) = S at *
        generalize Real.cos (t * Real.sin x) = C at *
        generalize Real.sin x = s at *
        generalize Real.cos x = c at *
        linear_combination S ^ 2 * h2
      exact mul_left_cancel₀ hs h1
    rw [← key]
    ring

theorem cost_sub_one {U : QMat n} (hU : Unitary U) (m : ℝ) : cost ((m : ℂ) • (1 : QMat n)) U = m := by
  rw [cost, Matrix.smul_mulVec, dotProduct_smul, expect_one hU, smul_eq_mul, mul_one, Complex.ofReal_re]

theorem cost_real_smul (m : ℝ) (M U : QMat n) : cost ((m : ℂ) • M) U = m * cost M U := by
  rw [cost, cost, Matrix.smul_mulVec, dotProduct_smul, smul_eq_mul, Complex.re_ofReal_mul]

/-- The expectations of two anticommuting involutions lie in the unit disc. -/
theorem cost_pair_disc {U A B : QMat n} (hU : Unitary U) (hA : Aᴴ = A) (hA2 : A * A = 1) (hB : Bᴴ = B) (hB2 : B * B = 1) (hAB : A * B = -(B * A)) :
    cost A U ^ 2 + cost B U ^ 2 ≤ 1 := by
  set a := cost A U with ha
  set b := cost B U with hb
  set m := a ^ 2 + b ^ 2 with hm
  have h := cost_sq_nonneg ((a : ℂ) • A + (b : ℂ) • B + ((-m : ℝ) : ℂ) • 1) U
  have e : ((a : ℂ) • A + (b : ℂ) • B + ((-m : ℝ) : ℂ) • (1 : QMat n))ᴴ * ((a : ℂ) • A + (b : ℂ) • B + ((-m : ℝ) : ℂ) • 1) =
      ((m + m ^ 2 : ℝ) : ℂ) • 1 + (((-2 * m * a : ℝ) : ℂ) • A + ((-2 * m * b : ℝ) : ℂ) • B) := by
    rw [Matrix.conjTranspose_add, Matrix.conjTranspose_add, Matrix.conjTranspose_smul, Matrix.conjTranspose_smul, Matrix.conjTranspose_smul, hA, hB,
      Matrix.conjTranspose_one, Complex.star_def, Complex.conj_ofReal, Complex.conj_ofReal, Complex.conj_ofReal]
    simp only [Matrix.add_mul, Matrix.mul_add, Matrix.smul_mul, Matrix.mul_smul, Matrix.mul_one, Matrix.one_mul, hA2, hB2, hAB]
    ext i j
    simp only [Matrix.add_apply, Matrix.smul_apply, Matrix.neg_apply, smul_eq_mul, hm]
    push_cast
    ring
  rw [e, cost_add, cost_add, cost_sub_one hU, cost_real_smul, cost_real_smul, ← ha, ← hb] at h
  have h2 : 0 ≤ m * (1 - m) := by nlinarith
  by_contra hcon
  push Not at hcon
  nlinarith

/-- C103.  The smallest value the cost can take is `-√2`. -/
theorem C103_smallest {U A B : QMat n} (hU : Unitary U) (hA : Aᴴ = A) (hA2 : A * A = 1) (hB : Bᴴ = B) (hB2 : B * B = 1) (hAB : A * B = -(B * A)) :
    -Real.sqrt 2 ≤ cost (A + B) U := by
  have h := cost_pair_disc hU hA hA2 hB hB2 hAB
  rw [cost_add]
  have h2 : |cost A U + cost B U| ≤ Real.sqrt 2 := Real.abs_le_sqrt (by nlinarith [sq_nonneg (cost A U - cost B U)])
  exact (abs_le.1 h2).1

/-- One update: the two expectations move by a half step. -/
theorem pair_step {U A B : QMat n} (hU : Unitary U) (hA : Aᴴ = A) (hA2 : A * A = 1) (hB : Bᴴ = B) (hB2 : B * B = 1) (hAB : A * B = -(B * A)) (e : ℝ) :
    Unitary (NormedSpace.exp (((e / 2 : ℝ) : ℂ) • riemannGen A U) * U) ∧
      (cost B (NormedSpace.exp (((e / 2 : ℝ) : ℂ) • riemannGen A U) * U), cost A (NormedSpace.exp (((e / 2 : ℝ) : ℂ) • riemannGen A U) * U)) =
        halfStep e (cost A U, cost B U) := by
  obtain ⟨h1, h2⟩ := cost_involution_bounds hU hA hA2
  have hx : cost A U = Real.cos (Real.arccos (cost A U)) := (Real.cos_arccos h1 h2).symm
  set x := Real.arccos (cost A U) with hxd
  have hU' : Unitary (NormedSpace.exp (((e / 2 : ℝ) : ℂ) • riemannGen A U) * U) := by
    have hK : (((e / 2 : ℝ) : ℂ) • riemannGen A U)ᴴ = -(((e / 2 : ℝ) : ℂ) • riemannGen A U) := by
      rw [Matrix.conjTranspose_smul, riemannGen_skew _ _ hA, Complex.star_def, Complex.conj_ofReal, smul_neg]
    have := (exp_skew_unitary _ hK).1
    rw [Unitary, Matrix.conjTranspose_mul, Matrix.mul_assoc, ← Matrix.mul_assoc _ _ U, this, Matrix.one_mul, hU]
  refine ⟨hU', ?_⟩
  have e1 : x + 2 * (e / 2) * Real.sin x = x + e * Real.sin x := by ring
  have c1 := cost_involution_step hU hA hA2 x (e / 2) hx
  have c2 := cost_anticomm_step hU hA hA2 hAB x (e / 2) hx
  rw [e1] at c1 c2
  have hst : halfStep e (cost A U, cost B U) = (cost B U * (Real.sin (x + e * Real.sin x) / Real.sin x), Real.cos (x + e * Real.sin x)) := rfl
  rw [hst, c1]
  refine Prod.ext ?_ rfl
  by_cases hs : Real.sin x = 0
  · have hd := cost_pair_disc hU' hA hA2 hB hB2 hAB
    rw [c1, hs, mul_zero, add_zero] at hd
    have h3 := Real.sin_sq_add_cos_sq x
    rw [hs] at h3
    simp only [hs, div_zero, mul_zero]
    nlinarith [sq_nonneg (cost B (NormedSpace.exp (((e / 2 : ℝ) : ℂ) • riemannGen A U) * U))]
  · simp only
    rw [← mul_div_assoc, eq_div_iff hs, mul_comm, c2, mul_comm]

theorem halfFlow_add (κ : ℝ) (s : ℝ × ℝ) (i j : ℕ) : halfFlow κ s (i + j) = halfFlow κ (halfFlow κ s i) j := by
  induction j with
  | zero => rfl
  | succ j ih => rw [← Nat.add_assoc, halfFlow, ih, halfFlow]

theorem exactUpdates_pair (eigh : EighFn n) (he : ValidEigh eigh) (e : ℝ) (g g' : Gate n) (hA : g.Aᴴ = g.A) (hA2 : g.A * g.A = 1) (hA' : g'.Aᴴ = g'.A)
    (hA2' : g'.A * g'.A = 1) (U : QMat n) : ∃ V, V = NormedSpace.exp (((e / 2 : ℝ) : ℂ) • riemannGen (full n g.ws g.A) U) * U ∧
      exactUpdates eigh e ([g, g'].map Gate.obs) U = .ok (NormedSpace.exp (((e / 2 : ℝ) : ℂ) • riemannGen (full n g'.ws g'.A) V) * V) := by
  refine ⟨_, rfl, ?_⟩
  simp only [List.map_cons, List.map_nil, exactUpdates]
  rw [C47_riemannian_step eigh he e g hA hA2]
  change (exactUpdate eigh e g'.obs _ >>= fun U' => Except.ok U') = _
  rw [C47_riemannian_step eigh he e g' hA' hA2']
  rfl

theorem totalObs_pair (g g' : Gate n) : totalObs [g, g'] = full n g.ws g.A + full n g'.ws g'.A := by
  simp [totalObs]

/-- Two observables that are anticommuting involutions. -/
structure AntiPair (g g' : Gate n) : Prop where
  herm : g.Aᴴ = g.A
  sq : g.A * g.A = 1
  herm' : g'.Aᴴ = g'.A
  sq' : g'.A * g'.A = 1
  anti : full n g.ws g.A * full n g'.ws g'.A = -(full n g'.ws g'.A * full n g.ws g.A)

variable {eigh : EighFn n} {rnd : ℕ → Matrix (Fin (2 ^ n)) (Fin (2 ^ n)) ℝ} {ret : CircuitRet} {cs : List (Gate n)} {g g' : Gate n} {args : ExactArgs}
  {out : OptOut (ExactItem n)}

/-- C103.  The costs of a run with two anticommuting involutory observables in closed form: every step is two half steps of the pair of expectations. -/
theorem C103_costs (he : ValidEigh eigh) (hcs : ∀ c ∈ cs, c.Aᴴ * c.A = 1) (hg : AntiPair g g') (hp : args.perturbation = .bool false)
    (e : ℝ) (hE : args.eta = .float e) (h : exactLieOptimizer eigh rnd ret (cs.map (fun g => (g.obs.matrix, g.obs.wires))) ([g, g'].map Gate.obs) args = .ok out)
    (U₀ : QMat n) (hU₀ : compileLoop n (cs.map (fun g => (g.obs.matrix, g.obs.wires))) 1 = .ok U₀) :
    exactCosts out = (List.range (exactCosts out).length).map
      (fun k => (halfFlow e (cost (full n g.ws g.A) U₀, cost (full n g'.ws g'.A) U₀) (2 * k)).1 +
        (halfFlow e (cost (full n g.ws g.A) U₀, cost (full n g'.ws g'.A) U₀) (2 * k)).2) := by
  obtain ⟨N, hN, e', he', V, W, m, hm, h0, hl, hc, hs, hW0, hWV, -⟩ := C44_trace eigh rnd _ _ _ args out h
  rw [hE] at he'
  obtain rfl := PyVal.float.inj he'
  obtain ⟨hA, hA2, hB, hB2, hAB⟩ := hg
  have hO : (full n g.ws g.A)ᴴ = full n g.ws g.A := by rw [← full_conjTranspose rfl g.valid.2, hA]
  have hO2 : full n g.ws g.A * full n g.ws g.A = 1 := by rw [← full_mul rfl g.valid, hA2, full_one rfl g.valid]
  have hP : (full n g'.ws g'.A)ᴴ = full n g'.ws g'.A := by rw [← full_conjTranspose rfl g'.valid.2, hB]
  have hP2 : full n g'.ws g'.A * full n g'.ws g'.A = 1 := by rw [← full_mul rfl g'.valid, hB2, full_one rfl g'.valid]
  have hBA : full n g'.ws g'.A * full n g.ws g.A = -(full n g.ws g.A * full n g'.ws g'.A) := by rw [hAB, neg_neg]
  rw [hU₀] at h0
  obtain rfl := Except.ok.inj h0
  have hV : ∀ k ≤ m, Unitary (V k) ∧
      (cost (full n g.ws g.A) (V k), cost (full n g'.ws g'.A) (V k)) = halfFlow e (cost (full n g.ws g.A) (V 0), cost (full n g'.ws g'.A) (V 0)) (2 * k) := by
    intro k
    induction k with
    | zero =>
      intro _
      refine ⟨compile_unitary (fun g hg => ?_) (by simp [Unitary]) hU₀, rfl⟩
      obtain ⟨G, hG, rfl⟩ := List.mem_map.1 hg
      exact ⟨G, hcs G hG, rfl⟩
    | succ k ih =>
      intro hk
      obtain ⟨hU, hcost⟩ := ih (by omega)
      have h1 := hs k (by omega)
      obtain ⟨Q, hQ, hupd⟩ := exactUpdates_pair eigh he e g g' hA hA2 hB hB2 (V k)
      rw [hWV hp k (by omega), hupd] at h1
      rw [← Except.ok.inj h1]
      obtain ⟨q1, q2⟩ := pair_step hU hO hO2 hP hP2 hAB e
      rw [← hQ] at q1 q2
      obtain ⟨r1, r2⟩ := pair_step q1 hP hP2 hO hO2 hBA e
      refine ⟨r1, ?_⟩
      rw [r2, q2, hcost, show 2 * (k + 1) = 2 * k + 1 + 1 by ring, halfFlow, halfFlow]
  apply List.ext_getElem?
  intro k
  by_cases hk : k ≤ m
  · rw [hc k hk, List.getElem?_map, List.getElem?_range (by omega), totalObs_pair, Option.map_some, ← (hV k hk).2, cost_add]
  · rw [List.getElem?_eq_none (by omega), List.getElem?_eq_none (by simp; omega)]


/-- The cost of the state at the angle `φ` of the circle. -/
theorem rim_cost (φ : ℝ) : -Real.cos φ + -Real.sin φ = -(Real.sqrt 2 * Real.cos (φ - Real.pi / 4)) := by
  have h := Real.mul_self_sqrt (show (0 : ℝ) ≤ 2 by norm_num)
  rw [Real.cos_sub, Real.cos_pi_div_four, Real.sin_pi_div_four]
  linear_combination ((Real.cos φ + Real.sin φ) / 2) * h

/-- C103 (the claim is false).  For every step size there is a value `E` above the smallest one `-√2`, and every run with two anticommuting involutory
observables whose first state has expectations with `a² + b² < 1` approaches `E`, not `-√2`.  The number of steps after which it is within `ε` depends on the
step size and the two expectations only, not on the number of qubits, the circuit or the observables. -/
theorem C103_refuted_limit (e : ℝ) (hE0 : 0 < e) (hE1 : e ≤ 1) (a b : ℝ) (hab : a ^ 2 + b ^ 2 < 1) :
    ∃ E : ℝ, -Real.sqrt 2 < E ∧ ∀ ε > 0, ∃ K : ℕ, ∀ (n : ℕ) (eigh : EighFn n) (rnd : ℕ → Matrix (Fin (2 ^ n)) (Fin (2 ^ n)) ℝ) (ret : CircuitRet)
      (cs : List (Gate n)) (g g' : Gate n) (args : ExactArgs) (out : OptOut (ExactItem n)) (U₀ : QMat n), ValidEigh eigh → (∀ c ∈ cs, c.Aᴴ * c.A = 1) →
      AntiPair g g' → args.perturbation = .bool false → args.eta = .float e →
      exactLieOptimizer eigh rnd ret (cs.map (fun g => (g.obs.matrix, g.obs.wires))) ([g, g'].map Gate.obs) args = .ok out →
      compileLoop n (cs.map (fun g => (g.obs.matrix, g.obs.wires))) 1 = .ok U₀ → cost (full n g.ws g.A) U₀ = a → cost (full n g'.ws g'.A) U₀ = b →
      ∀ k ≥ K, ∀ c, (exactCosts out)[k]? = some c → |c - E| < ε := by
  obtain ⟨φ, hφ, h0, h1, t1, t2⟩ := halfFlow_tendsto (s := (a, b)) hE0 hE1 hab
  obtain ⟨b1, b2⟩ := circle_fixed_bounds hE0 hφ h0 h1
  have hs2 : 0 < Real.sqrt 2 := by positivity
  refine ⟨-(Real.sqrt 2 * Real.cos (φ - Real.pi / 4)), ?_, fun ε hε => ?_⟩
  · have h2 : Real.cos (φ - Real.pi / 4) < 1 := by
      rw [← Real.cos_zero]
      refine Real.cos_lt_cos_of_nonneg_of_le_pi le_rfl (by linarith [Real.pi_pos]) (lt_of_lt_of_le (by positivity) b1)
    nlinarith
  · have h2 := (t1.add t2).comp (Filter.tendsto_id.const_mul_atTop' (show 0 < 2 by norm_num))
    rw [rim_cost] at h2
    obtain ⟨K, hK⟩ := Metric.tendsto_atTop.1 h2 ε hε
    refine ⟨K, fun n eigh rnd ret cs g g' args out U₀ he hcs hg hp hE h hU₀ ha hb k hk c hc => ?_⟩
    have hrun := C103_costs he hcs hg hp e hE h U₀ hU₀
    rw [hrun, ha, hb, List.getElem?_map, Option.map_eq_some_iff] at hc
    obtain ⟨j, hj, rfl⟩ := hc
    obtain ⟨-, rfl⟩ := List.getElem?_eq_some_iff.1 hj
    simpa [Real.dist_eq] using hK k hk

/-- C103 (partial).  How far above the smallest value a run ends: between `-√2 cos (√2 e / 4)` and `-√2 cos (e / 2)`, so the excess vanishes with the square of
the step size. -/
theorem C103_bias_partial (e : ℝ) (hE0 : 0 < e) (hE1 : e ≤ 1) (a b : ℝ) (hab : a ^ 2 + b ^ 2 < 1) (ε : ℝ) (hε : 0 < ε) :
    ∃ K : ℕ, ∀ (n : ℕ) (eigh : EighFn n) (rnd : ℕ → Matrix (Fin (2 ^ n)) (Fin (2 ^ n)) ℝ) (ret : CircuitRet)
      (cs : List (Gate n)) (g g' : Gate n) (args : ExactArgs) (out : OptOut (ExactItem n)) (U₀ : QMat n), ValidEigh eigh → (∀ c ∈ cs, c.Aᴴ * c.A = 1) →
      AntiPair g g' → args.perturbation = .bool false → args.eta = .float e →
      exactLieOptimizer eigh rnd ret (cs.map (fun g => (g.obs.matrix, g.obs.wires))) ([g, g'].map Gate.obs) args = .ok out →
      compileLoop n (cs.map (fun g => (g.obs.matrix, g.obs.wires))) 1 = .ok U₀ → cost (full n g.ws g.A) U₀ = a → cost (full n g'.ws g'.A) U₀ = b →
      ∀ k ≥ K, ∀ c, (exactCosts out)[k]? = some c →
        -(Real.sqrt 2 * Real.cos (e * Real.sqrt 2 / 4)) - ε < c ∧ c < -(Real.sqrt 2 * Real.cos (e / 2)) + ε := by
  obtain ⟨φ, hφ, h0, h1, t1, t2⟩ := halfFlow_tendsto (s := (a, b)) hE0 hE1 hab
  obtain ⟨b1, b2⟩ := circle_fixed_bounds hE0 hφ h0 h1
  have hs2 : 0 < Real.sqrt 2 := by positivity
  have hp2 := Real.two_le_pi
  have c1 : Real.cos (φ - Real.pi / 4) ≤ Real.cos (e * Real.sqrt 2 / 4) := Real.cos_le_cos_of_nonneg_of_le_pi (by positivity) (by linarith) b1
  have c2 : Real.cos (e / 2) ≤ Real.cos (φ - Real.pi / 4) :=
    Real.cos_le_cos_of_nonneg_of_le_pi (le_trans (by positivity) b1) (by linarith) b2
  have h2 := (t1.add t2).comp (Filter.tendsto_id.const_mul_atTop' (show 0 < 2 by norm_num))
  rw [rim_cost] at h2
  obtain ⟨K, hK⟩ := Metric.tendsto_atTop.1 h2 ε hε
  refine ⟨K, fun n eigh rnd ret cs g g' args out U₀ he hcs hg hp hE h hU₀ ha hb k hk c hc => ?_⟩
  have hrun := C103_costs he hcs hg hp e hE h U₀ hU₀
  rw [hrun, ha, hb, List.getElem?_map, Option.map_eq_some_iff] at hc
  obtain ⟨j, hj, rfl⟩ := hc
  obtain ⟨-, rfl⟩ := List.getElem?_eq_some_iff.1 hj
  have h3 := hK k hk
  rw [Real.dist_eq, abs_lt] at h3
  simp only [Function.comp_apply, id_eq] at h3
  rw [List.getElem_range]
  have c3 := mul_le_mul_of_nonneg_left c1 hs2.le
  have c4 := mul_le_mul_of_nonneg_left c2 hs2.le
  constructor <;> linarith [h3.1, h3.2]

/-- A half step from a point of the circle. -/
theorem halfStep_rim (κ φ : ℝ) (h0 : 0 < φ) (h1 : φ < Real.pi) : halfStep κ (-Real.cos φ, -Real.sin φ) = (-Real.cos (rimMap κ φ), -Real.sin (rimMap κ φ)) := by
  have hs := Real.sin_pos_of_pos_of_lt_pi h0 h1
  have ha : Real.arccos (-Real.cos φ) = Real.pi - φ := by rw [Real.arccos_neg, Real.arccos_cos h0.le h1.le]
  have e1 : Real.pi - φ + κ * Real.sin φ = Real.pi / 2 + rimMap κ φ := by unfold rimMap; ring
  unfold halfStep
  simp only
  rw [ha, Real.sin_pi_sub, e1]
  refine Prod.ext ?_ ?_
  · simp only
    rw [Real.sin_add, Real.sin_pi_div_two, Real.cos_pi_div_two]
    field_simp
    ring
  · simp only
    rw [Real.cos_add, Real.sin_pi_div_two, Real.cos_pi_div_two]
    ring

/-- C103 (the claim is false).  A run that starts at the smallest cost possible leaves it in the first step, whatever the step size but `0`. -/
theorem C103_refuted_ground (he : ValidEigh eigh) (hcs : ∀ c ∈ cs, c.Aᴴ * c.A = 1) (hg : AntiPair g g') (hp : args.perturbation = .bool false)
    (e : ℝ) (hE : args.eta = .float e) (hE0 : e ≠ 0)
    (h : exactLieOptimizer eigh rnd ret (cs.map (fun g => (g.obs.matrix, g.obs.wires))) ([g, g'].map Gate.obs) args = .ok out)
    (h0 : (exactCosts out)[0]? = some (-Real.sqrt 2)) : ∀ c, (exactCosts out)[1]? = some c → -Real.sqrt 2 < c := by
  obtain ⟨hE0', hE1⟩ : 0 ≤ e ∧ e ≤ 1 := by
    obtain ⟨-, N, e', t, rs, p, rp, ru, hv, -⟩ := (exact_ok_iff ..).mp h
    have := hv.eta
    rw [hE] at this
    rw [PyVal.float.inj this]; exact ⟨hv.eta0, hv.eta1⟩
  have hE2 : 0 < e := lt_of_le_of_ne hE0' (Ne.symm hE0)
  obtain ⟨N, hN, e', he', V, W, m, hm, hc0, hl, hc, -⟩ := C44_trace eigh rnd _ _ _ args out h
  have hrun := C103_costs he hcs hg hp e hE h (V 0) hc0
  have hU : Unitary (V 0) := by
    refine compile_unitary (fun g hg => ?_) (by simp [Unitary]) hc0
    obtain ⟨G, hG, rfl⟩ := List.mem_map.1 hg
    exact ⟨G, hcs G hG, rfl⟩
  obtain ⟨hA, hA2, hB, hB2, hAB⟩ := hg
  have hO : (full n g.ws g.A)ᴴ = full n g.ws g.A := by rw [← full_conjTranspose rfl g.valid.2, hA]
  have hO2 : full n g.ws g.A * full n g.ws g.A = 1 := by rw [← full_mul rfl g.valid, hA2, full_one rfl g.valid]
  have hP : (full n g'.ws g'.A)ᴴ = full n g'.ws g'.A := by rw [← full_conjTranspose rfl g'.valid.2, hB]
  have hP2 : full n g'.ws g'.A * full n g'.ws g'.A = 1 := by rw [← full_mul rfl g'.valid, hB2, full_one rfl g'.valid]
  have hdisc := cost_pair_disc hU hO hO2 hP hP2 hAB
  rw [hc 0 (by omega), totalObs_pair, cost_add] at h0
  have hsum := Option.some.inj h0
  have hsq : Real.sqrt 2 * Real.sqrt 2 = 2 := Real.mul_self_sqrt (by norm_num)
  have hdiff : cost (full n g.ws g.A) (V 0) - cost (full n g'.ws g'.A) (V 0) = 0 := by
    have : (cost (full n g.ws g.A) (V 0) - cost (full n g'.ws g'.A) (V 0)) ^ 2 ≤ 0 := by
      have h3 : (cost (full n g.ws g.A) (V 0) + cost (full n g'.ws g'.A) (V 0)) ^ 2 = 2 := by rw [hsum, neg_sq, Real.sq_sqrt (by norm_num)]
      nlinarith
    exact pow_eq_zero_iff (two_ne_zero) |>.1 (le_antisymm this (sq_nonneg _))
  have ea : cost (full n g.ws g.A) (V 0) = -Real.cos (Real.pi / 4) := by rw [Real.cos_pi_div_four]; linarith
  have eb : cost (full n g'.ws g'.A) (V 0) = -Real.sin (Real.pi / 4) := by rw [Real.sin_pi_div_four]; linarith
  rw [ea, eb] at hrun
  intro c hc1
  rw [hrun, List.getElem?_map, Option.map_eq_some_iff] at hc1
  obtain ⟨j, hj, rfl⟩ := hc1
  obtain ⟨-, rfl⟩ := List.getElem?_eq_some_iff.1 hj
  rw [List.getElem_range]
  have hpi := Real.two_le_pi
  have hpi4 := Real.pi_le_four
  have hs2 : 0 < Real.sqrt 2 := by positivity
  have hs2' : Real.sqrt 2 ≤ 3 / 2 := Real.sqrt_le_iff.2 ⟨by norm_num, by norm_num⟩
  have q1 : rimMap e (Real.pi / 4) = Real.pi / 4 + e * (Real.sqrt 2 / 2) := by unfold rimMap; rw [Real.sin_pi_div_four]; ring
  have q1' : 0 < e * (Real.sqrt 2 / 2) := by positivity
  have q1'' : e * (Real.sqrt 2 / 2) ≤ 3 / 4 := by nlinarith
  have hstep : halfFlow e (-Real.cos (Real.pi / 4), -Real.sin (Real.pi / 4)) (2 * 1) =
      (-Real.cos (rimMap e (rimMap e (Real.pi / 4))), -Real.sin (rimMap e (rimMap e (Real.pi / 4)))) := by
    rw [show 2 * 1 = 0 + 1 + 1 by norm_num, halfFlow, halfFlow, halfFlow, halfStep_rim _ _ (by linarith) (by linarith),
      halfStep_rim _ _ (by rw [q1]; linarith) (by rw [q1]; linarith)]
  rw [hstep]
  simp only
  rw [rim_cost]
  set δ := rimMap e (rimMap e (Real.pi / 4)) - Real.pi / 4 with hδ
  have hδ' : δ = e * (Real.sin (Real.pi / 4 + e * (Real.sqrt 2 / 2)) - Real.sqrt 2 / 2) := by
    rw [hδ, q1, rimMap]
    ring
  have hpos : 0 < δ := by
    rw [hδ']
    refine mul_pos hE2 (sub_pos.2 ?_)
    suffices h4 : Real.sin (Real.pi / 4) < Real.sin (Real.pi / 4 + e * (Real.sqrt 2 / 2)) by rwa [Real.sin_pi_div_four] at h4
    rcases le_or_gt (Real.pi / 4 + e * (Real.sqrt 2 / 2)) (Real.pi / 2) with h3 | h3
    · exact Real.sin_lt_sin_of_lt_of_le_pi_div_two (by linarith) h3 (by linarith)
    · rw [← Real.sin_pi_sub (Real.pi / 4 + e * (Real.sqrt 2 / 2))]
      exact Real.sin_lt_sin_of_lt_of_le_pi_div_two (by linarith) (by linarith) (by linarith)
  have hle : δ ≤ Real.pi := by
    have := Real.sin_le_one (Real.pi / 4 + e * (Real.sqrt 2 / 2))
    rw [hδ']
    nlinarith
  have h2 : Real.cos δ < 1 := by
    rw [← Real.cos_zero]
    exact Real.cos_lt_cos_of_nonneg_of_le_pi le_rfl hle hpos
  nlinarith

/-! ### The circuit and the observables of red_blue_comparison.py -/

/-- `qml.PauliY(0)`. -/
def matY : QMat 1 := (!![0, -Complex.I; Complex.I, 0] : Matrix (Fin 2) (Fin 2) ℂ)

def gateY : Gate 1 := ⟨[0], matY, by simp, by simp, by simp⟩

/-- red_blue_comparison.py:46-49: `RY(a)` and `RZ(b)`. -/
noncomputable def redBlueCircuit (a b : ℝ) : List (Gate 1) := [rotGate0 (a / 2), rotGateZ b]

theorem antiPair_XY : AntiPair gateX gateY := by
  refine ⟨?_, ?_, ?_, ?_, ?_⟩
  · change matXᴴ = matX
    ext i j
    fin_cases i <;> fin_cases j <;> simp [matX, Matrix.conjTranspose_apply]
  · change matX * matX = 1
    refine (Matrix.ext fun i j => ?_ : (!![0, 1; 1, 0] : Matrix (Fin 2) (Fin 2) ℂ) * !![0, 1; 1, 0] = 1)
    fin_cases i <;> fin_cases j <;> simp
  · change matYᴴ = matY
    ext i j
    fin_cases i <;> fin_cases j <;> simp [matY, Matrix.conjTranspose_apply]
  · change matY * matY = 1
    refine (Matrix.ext fun i j => ?_ : (!![0, -Complex.I; Complex.I, 0] : Matrix (Fin 2) (Fin 2) ℂ) * !![0, -Complex.I; Complex.I, 0] = 1)
    fin_cases i <;> fin_cases j <;> simp
  · change full 1 [0] matX * full 1 [0] matY = -(full 1 [0] matY * full 1 [0] matX)
    rw [full_one_qubit, full_one_qubit]
    refine (Matrix.ext fun i j => ?_ : (!![0, 1; 1, 0] : Matrix (Fin 2) (Fin 2) ℂ) * !![0, -Complex.I; Complex.I, 0] =
      -(!![0, -Complex.I; Complex.I, 0] * !![0, 1; 1, 0]))
    fin_cases i <;> fin_cases j <;> simp

theorem compile_redBlue (a b : ℝ) :
    compileLoop 1 ((redBlueCircuit a b).map (fun g => (g.obs.matrix, g.obs.wires))) 1 = .ok (rotZ b * rot (a / 2)) := by
  have := compileCircuit_gates (redBlueCircuit a b)
  rw [compileCircuit, List.zip_map'] at this
  refine this.trans ?_
  simp only [redBlueCircuit, List.foldl_cons, List.foldl_nil, mul_one]
  rw [show full 1 (rotGateZ b).ws (rotGateZ b).A = rotZ b from full_one_qubit _, show full 1 (rotGate0 (a / 2)).ws (rotGate0 (a / 2)).A = rot (a / 2) from full_one_qubit _]

/-- The first state of the script has the Bloch coordinates of its angles. -/
theorem redBlue_costs (a b : ℝ) : cost (full 1 gateX.ws gateX.A) (rotZ b * rot (a / 2)) = Real.sin a * Real.cos b ∧
    cost (full 1 gateY.ws gateY.A) (rotZ b * rot (a / 2)) = Real.sin a * Real.sin b := by
  have hX : full 1 gateX.ws gateX.A = matX := full_one_qubit _
  have hY : full 1 gateY.ws gateY.A = matY := full_one_qubit _
  have ea : Real.sin a = 2 * Real.sin (a / 2) * Real.cos (a / 2) := by rw [← Real.sin_two_mul]; congr 1; ring
  have eb : Real.sin b = 2 * Real.sin (b / 2) * Real.cos (b / 2) := by rw [← Real.sin_two_mul]; congr 1; ring
  have ec : Real.cos b = Real.cos (b / 2) ^ 2 - Real.sin (b / 2) ^ 2 := by
    rw [← Real.cos_two_mul']; congr 1; ring
  rw [hX, hY, ea, eb, ec]
  constructor
  · rw [cost]
    change (star (fun i : Fin 2 => (rotZ b * rot (a / 2)) i 0) ⬝ᵥ ((!![0, 1; 1, 0] : Matrix (Fin 2) (Fin 2) ℂ) *ᵥ fun i : Fin 2 => (rotZ b * rot (a / 2)) i 0)).re = _
    have h0 : (rotZ b * rot (a / 2)) (0 : Fin 2) 0 = ((Real.cos (b / 2) : ℂ) - Complex.I * Real.sin (b / 2)) * (Real.cos (a / 2) : ℝ) :=
      congrFun (col_circAB a b) (0 : Fin 2)
    have h1 : (rotZ b * rot (a / 2)) (1 : Fin 2) 0 = ((Real.cos (b / 2) : ℂ) + Complex.I * Real.sin (b / 2)) * (Real.sin (a / 2) : ℝ) :=
      congrFun (col_circAB a b) (1 : Fin 2)
    generalize Real.cos (b / 2) = C' at h0 h1 ⊢
    generalize Real.sin (b / 2) = S' at h0 h1 ⊢
    generalize Real.cos (a / 2) = C at h0 h1 ⊢
    generalize Real.sin (a / 2) = S at h0 h1 ⊢
    simp [dotProduct, Fin.sum_univ_two, h0, h1]
    ring
  · rw [cost]
    change (star (fun i : Fin 2 => (rotZ b * rot (a / 2)) i 0) ⬝ᵥ ((!![0, -Complex.I; Complex.I, 0] : Matrix (Fin 2) (Fin 2) ℂ) *ᵥ
      fun i : Fin 2 => (rotZ b * rot (a / 2)) i 0)).re = _
    have h0 : (rotZ b * rot (a / 2)) (0 : Fin 2) 0 = ((Real.cos (b / 2) : ℂ) - Complex.I * Real.sin (b / 2)) * (Real.cos (a / 2) : ℝ) :=
      congrFun (col_circAB a b) (0 : Fin 2)
    have h1 : (rotZ b * rot (a / 2)) (1 : Fin 2) 0 = ((Real.cos (b / 2) : ℂ) + Complex.I * Real.sin (b / 2)) * (Real.sin (a / 2) : ℝ) :=
      congrFun (col_circAB a b) (1 : Fin 2)
    generalize Real.cos (b / 2) = C' at h0 h1 ⊢
    generalize Real.sin (b / 2) = S' at h0 h1 ⊢
    generalize Real.cos (a / 2) = C at h0 h1 ⊢
    generalize Real.sin (a / 2) = S at h0 h1 ⊢
    simp [dotProduct, Fin.sum_univ_two, h0, h1]
    ring

theorem redBlue_unitary (a b : ℝ) : ∀ c ∈ redBlueCircuit a b, c.Aᴴ * c.A = 1 := by
  intro c hc
  simp only [redBlueCircuit, List.mem_cons, List.not_mem_nil, or_false] at hc
  rcases hc with rfl | rfl
  · exact rot_unitary _
  · exact rotZ_unitary _

/-- Hypotheses of C103: the circuit, observables and step size of red_blue_comparison.py. -/
example (rnd : ℕ → Matrix (Fin (2 ^ 1)) (Fin (2 ^ 1)) ℝ) : ∃ (eigh : EighFn 1) (args : ExactArgs) (out : OptOut (ExactItem 1)) (U₀ : QMat 1), ValidEigh eigh ∧
    (∀ c ∈ redBlueCircuit (Real.pi / 3) (Real.pi / 5), c.Aᴴ * c.A = 1) ∧ AntiPair gateX gateY ∧ args.perturbation = .bool false ∧ args.eta = .float (1 / 20) ∧
    exactLieOptimizer eigh rnd .state ((redBlueCircuit (Real.pi / 3) (Real.pi / 5)).map (fun g => (g.obs.matrix, g.obs.wires))) ([gateX, gateY].map Gate.obs) args
      = .ok out ∧
    compileLoop 1 ((redBlueCircuit (Real.pi / 3) (Real.pi / 5)).map (fun g => (g.obs.matrix, g.obs.wires))) 1 = .ok U₀ ∧
    cost (full 1 gateX.ws gateX.A) U₀ ^ 2 + cost (full 1 gateY.ws gateY.A) U₀ ^ 2 < 1 := by
  obtain ⟨eigh, he⟩ := exists_validEigh 1
  obtain ⟨out, h⟩ := (C44_succeeds_iff eigh rnd .state [gateX, gateY] { nsteps := .int 100, eta := .float (1 / 20), tol := .float (1 / 100000) }
    (redBlueCircuit (Real.pi / 3) (Real.pi / 5))).mpr
    ⟨rfl, 100, 1 / 20, .fin (1 / 100000), false, false, false, false, ⟨rfl, by norm_num, rfl, by norm_num, by norm_num, ⟨rfl, by norm_num⟩, rfl, rfl, rfl, id, rfl⟩⟩
  refine ⟨eigh, _, out, _, he, redBlue_unitary _ _, antiPair_XY, rfl, rfl, h, compile_redBlue _ _, ?_⟩
  rw [(redBlue_costs _ _).1, (redBlue_costs _ _).2, mul_pow, mul_pow, ← mul_add, Real.cos_sq_add_sin_sq, Real.sin_pi_div_three, div_pow,
    Real.sq_sqrt (by norm_num)]
  norm_num

/-- Hypotheses of `C103_refuted_ground`: the circuit that prepares the ground state of X + Y. -/
example (rnd : ℕ → Matrix (Fin (2 ^ 1)) (Fin (2 ^ 1)) ℝ) : ∃ (eigh : EighFn 1) (args : ExactArgs) (out : OptOut (ExactItem 1)), ValidEigh eigh ∧
    (∀ c ∈ redBlueCircuit (Real.pi / 2) (Real.pi / 4 + Real.pi), c.Aᴴ * c.A = 1) ∧ AntiPair gateX gateY ∧ args.perturbation = .bool false ∧
    args.eta = .float (1 / 20) ∧
    exactLieOptimizer eigh rnd .state ((redBlueCircuit (Real.pi / 2) (Real.pi / 4 + Real.pi)).map (fun g => (g.obs.matrix, g.obs.wires)))
      ([gateX, gateY].map Gate.obs) args = .ok out ∧ (exactCosts out)[0]? = some (-Real.sqrt 2) := by
  obtain ⟨eigh, he⟩ := exists_validEigh 1
  obtain ⟨out, h⟩ := (C44_succeeds_iff eigh rnd .state [gateX, gateY] { nsteps := .int 100, eta := .float (1 / 20), tol := .float (1 / 100000) }
    (redBlueCircuit (Real.pi / 2) (Real.pi / 4 + Real.pi))).mpr
    ⟨rfl, 100, 1 / 20, .fin (1 / 100000), false, false, false, false, ⟨rfl, by norm_num, rfl, by norm_num, by norm_num, ⟨rfl, by norm_num⟩, rfl, rfl, rfl, id, rfl⟩⟩
  refine ⟨eigh, _, out, he, redBlue_unitary _ _, antiPair_XY, rfl, rfl, h, ?_⟩
  obtain ⟨N, hN, e', he', V, W, m, hm, h0, hl, hc, -⟩ := C44_trace eigh rnd _ _ _ _ out h
  rw [compile_redBlue] at h0
  rw [hc 0 (by omega), ← Except.ok.inj h0, totalObs_pair, cost_add, (redBlue_costs _ _).1, (redBlue_costs _ _).2, Real.sin_pi_div_two, Real.cos_add_pi, Real.sin_add_pi,
    Real.cos_pi_div_four, Real.sin_pi_div_four]
  congr 1
  ring

end Oranssi
