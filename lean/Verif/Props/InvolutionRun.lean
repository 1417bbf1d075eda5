import Verif.Lemmas.InvolutionStep
import Verif.Props.RunUnitary
import Mathlib.Topology.Order.MonotoneConvergence

/-! # C76: the exact optimizer on any number of qubits with one involutory observable

Such an observable (a Pauli word, for example) has the eigenvalues `±1`.  The costs of a run are `cos x_k` with `x_{k+1} = x_k + eta sin x_k`, whatever the
number of qubits, the circuit and the observable; they decrease towards `-1`, the smallest value possible. -/

namespace Oranssi
open Spec
open scoped Matrix

variable {n : ℕ}

theorem cost_sq_nonneg (M U : QMat n) : 0 ≤ cost (Mᴴ * M) U := by
  rw [cost, ← Matrix.mulVec_mulVec, Matrix.dotProduct_mulVec, ← Matrix.star_mulVec]
  simp only [dotProduct, Pi.star_apply, Complex.re_sum]
  refine Finset.sum_nonneg fun i _ => ?_
  rw [Complex.star_def, ← Complex.normSq_eq_conj_mul_self, Complex.ofReal_re]
  exact Complex.normSq_nonneg _

theorem cost_neg (A U : QMat n) : cost (-A) U = -cost A U := by
  simp only [cost, Matrix.neg_mulVec, dotProduct_neg, Complex.neg_re]

theorem cost_one {U : QMat n} (hU : Unitary U) : cost 1 U = 1 := by
  rw [cost, expect_one hU, Complex.one_re]

/-- The expectation of an involutory observable lies between `-1` and `1`. -/
theorem cost_involution_bounds {U O : QMat n} (hU : Unitary U) (hO : Oᴴ = O) (hO2 : O * O = 1) : -1 ≤ cost O U ∧ cost O U ≤ 1 := by
  have h1 := cost_sq_nonneg (1 + O) U
  have h2 := cost_sq_nonneg (1 + -O) U
  have e1 : (1 + O)ᴴ * (1 + O) = (1 + O) + (1 + O) := by
    simp only [Matrix.conjTranspose_add, Matrix.conjTranspose_one, hO, Matrix.add_mul, Matrix.mul_add, hO2, Matrix.one_mul, Matrix.mul_one]
    abel
  have e2 : (1 + -O)ᴴ * (1 + -O) = (1 + -O) + (1 + -O) := by
    simp only [Matrix.conjTranspose_add, Matrix.conjTranspose_one, Matrix.conjTranspose_neg, hO, Matrix.add_mul, Matrix.mul_add, Matrix.neg_mul, Matrix.mul_neg, hO2,
      Matrix.one_mul, Matrix.mul_one, neg_neg]
    abel
  rw [e1, cost_add, cost_add, cost_one hU] at h1
  rw [e2, cost_add, cost_add, cost_neg, cost_one hU] at h2
  constructor <;> linarith

theorem totalObs_single (g : Gate n) : totalObs [g] = full n g.ws g.A := by
  simp [totalObs]

theorem exactUpdates_single (eigh : EighFn n) (e : ℝ) (g : Gate n) (U : QMat n) : exactUpdates eigh e ([g].map Gate.obs) U = exactUpdate eigh e g.obs U := by
  simp only [List.map_cons, List.map_nil, exactUpdates]
  cases exactUpdate eigh e g.obs U <;> rfl

variable {eigh : EighFn n} {rnd : ℕ → Matrix (Fin (2 ^ n)) (Fin (2 ^ n)) ℝ} {ret : CircuitRet} {cs : List (Gate n)} {g : Gate n} {args : ExactArgs}
  {out : OptOut (ExactItem n)}

/-- C76.  The costs of a run, given the first of them. -/
theorem C76_costs (he : ValidEigh eigh) (hcs : ∀ c ∈ cs, c.Aᴴ * c.A = 1) (hA : g.Aᴴ = g.A) (hA2 : g.A * g.A = 1) (hp : args.perturbation = .bool false)
    (e : ℝ) (hE : args.eta = .float e) (h : exactLieOptimizer eigh rnd ret (cs.map (fun g => (g.obs.matrix, g.obs.wires))) ([g].map Gate.obs) args = .ok out)
    (x : ℝ) (hx : (exactCosts out)[0]? = some (Real.cos x)) :
    exactCosts out = (List.range (exactCosts out).length).map (fun k => Real.cos (flowAngle e x k)) := by
  obtain ⟨N, hN, e', he', V, W, m, hm, h0, hl, hc, hs, hW0, hWV, -⟩ := C44_trace eigh rnd _ _ _ args out h
  rw [hE] at he'
  obtain rfl := PyVal.float.inj he'
  have hO : (full n g.ws g.A)ᴴ = full n g.ws g.A := by rw [← full_conjTranspose rfl g.valid.2, hA]
  have hO2 : full n g.ws g.A * full n g.ws g.A = 1 := by rw [← full_mul rfl g.valid, hA2, full_one rfl g.valid]
  have hV : ∀ k ≤ m, Unitary (V k) ∧ cost (full n g.ws g.A) (V k) = Real.cos (flowAngle e x k) := by
    intro k
    induction k with
    | zero =>
      intro _
      refine ⟨compile_unitary (fun g hg => ?_) (by simp [Unitary]) h0, ?_⟩
      · obtain ⟨G, hG, rfl⟩ := List.mem_map.1 hg
        exact ⟨G, hcs G hG, rfl⟩
      · rw [hc 0 (by omega), totalObs_single] at hx
        exact Option.some.inj hx
    | succ k ih =>
      intro hk
      obtain ⟨hU, hcost⟩ := ih (by omega)
      have h1 := hs k (by omega)
      rw [hWV hp k (by omega), exactUpdates_single, C47_riemannian_step eigh he e g hA hA2] at h1
      rw [← Except.ok.inj h1]
      constructor
      · have hK : (((e / 2 : ℝ) : ℂ) • riemannGen (full n g.ws g.A) (V k))ᴴ = -(((e / 2 : ℝ) : ℂ) • riemannGen (full n g.ws g.A) (V k)) := by
          rw [Matrix.conjTranspose_smul, riemannGen_skew _ _ hO, Complex.star_def, Complex.conj_ofReal, smul_neg]
        have := (exp_skew_unitary _ hK).1
        rw [Unitary, Matrix.conjTranspose_mul, Matrix.mul_assoc, ← Matrix.mul_assoc _ _ (V k), this, Matrix.one_mul, hU]
      · rw [cost_involution_step hU hO hO2 _ _ hcost, flowAngle]
        congr 1
        ring
  apply List.ext_getElem?
  intro k
  by_cases hk : k ≤ m
  · rw [hc k hk, List.getElem?_map, List.getElem?_range (by omega), totalObs_single, (hV k hk).2, Option.map_some]
  · rw [List.getElem?_eq_none (by omega), List.getElem?_eq_none (by simp; omega)]

/-- C76.  The first cost is reported and lies between `-1` and `1`, so it is the cosine of its `arccos`. -/
theorem C76_first (hcs : ∀ c ∈ cs, c.Aᴴ * c.A = 1) (hA : g.Aᴴ = g.A) (hA2 : g.A * g.A = 1)
    (h : exactLieOptimizer eigh rnd ret (cs.map (fun g => (g.obs.matrix, g.obs.wires))) ([g].map Gate.obs) args = .ok out) :
    ∃ c, (exactCosts out)[0]? = some c ∧ -1 ≤ c ∧ c ≤ 1 ∧ c = Real.cos (Real.arccos c) := by
  obtain ⟨N, hN, e', he', V, W, m, hm, h0, hl, hc, -⟩ := C44_trace eigh rnd _ _ _ args out h
  have hO : (full n g.ws g.A)ᴴ = full n g.ws g.A := by rw [← full_conjTranspose rfl g.valid.2, hA]
  have hO2 : full n g.ws g.A * full n g.ws g.A = 1 := by rw [← full_mul rfl g.valid, hA2, full_one rfl g.valid]
  have hU : Unitary (V 0) := by
    refine compile_unitary (fun g hg => ?_) (by simp [Unitary]) h0
    obtain ⟨G, hG, rfl⟩ := List.mem_map.1 hg
    exact ⟨G, hcs G hG, rfl⟩
  obtain ⟨h1, h2⟩ := cost_involution_bounds hU hO hO2
  exact ⟨_, by rw [hc 0 (by omega), totalObs_single], h1, h2, (Real.cos_arccos h1 h2).symm⟩

theorem flowAngle_strictMono (e x : ℝ) (he : 0 < e) (he1 : e ≤ 1) (hx0 : 0 < x) (hx1 : x < Real.pi) : StrictMono (flowAngle e x) := by
  refine strictMono_nat_of_lt_succ fun k => ?_
  obtain ⟨h1, h2⟩ := flowAngle_bounds e x he.le he1 hx0 hx1 k
  have := Real.sin_pos_of_pos_of_lt_pi h1 h2
  rw [flowAngle]
  nlinarith

theorem flowAngle_tendsto (e x : ℝ) (he : 0 < e) (he1 : e ≤ 1) (hx0 : 0 < x) (hx1 : x < Real.pi) :
    Filter.Tendsto (flowAngle e x) Filter.atTop (nhds Real.pi) := by
  have hb := flowAngle_bounds e x he.le he1 hx0 hx1
  have hm := flowAngle_strictMono e x he he1 hx0 hx1
  have hbdd : BddAbove (Set.range (flowAngle e x)) := ⟨Real.pi, by rintro _ ⟨k, rfl⟩; exact (hb k).2.le⟩
  have hL := tendsto_atTop_ciSup hm.monotone hbdd
  set L := ⨆ k, flowAngle e x k with hLdef
  have h1 : Filter.Tendsto (fun k => flowAngle e x (k + 1)) Filter.atTop (nhds L) := hL.comp (Filter.tendsto_add_atTop_nat 1)
  have h2 : Filter.Tendsto (fun k => flowAngle e x (k + 1)) Filter.atTop (nhds (L + e * Real.sin L)) := by
    simp only [flowAngle]
    exact hL.add (((Real.continuous_sin.tendsto L).comp hL).const_mul e)
  have h3 := tendsto_nhds_unique h1 h2
  have hsin : Real.sin L = 0 := by
    have : e * Real.sin L = 0 := by linarith
    exact (mul_eq_zero.1 this).resolve_left he.ne'
  have hL0 : 0 < L := lt_of_lt_of_le (hb 0).1 (le_ciSup hbdd 0)
  have hL1 : L ≤ Real.pi := ciSup_le fun k => (hb k).2.le
  rcases hL1.lt_or_eq with h | h
  · exact absurd hsin (Real.sin_pos_of_pos_of_lt_pi hL0 h).ne'
  · rwa [h] at hL

/-- C76.  From a first cost strictly between `-1` and `1` the cost decreases in every step, with every step size allowed but `0`. -/
theorem C76_descends (he : ValidEigh eigh) (hcs : ∀ c ∈ cs, c.Aᴴ * c.A = 1) (hA : g.Aᴴ = g.A) (hA2 : g.A * g.A = 1) (hp : args.perturbation = .bool false)
    (e : ℝ) (hE : args.eta = .float e) (hE0 : e ≠ 0)
    (h : exactLieOptimizer eigh rnd ret (cs.map (fun g => (g.obs.matrix, g.obs.wires))) ([g].map Gate.obs) args = .ok out)
    (c : ℝ) (hc : (exactCosts out)[0]? = some c) (h1 : -1 < c) (h2 : c < 1) : (exactCosts out).Pairwise (· > ·) ∧ ∀ c' ∈ exactCosts out, -1 < c' := by
  obtain ⟨hE0', hE1⟩ : 0 ≤ e ∧ e ≤ 1 := by
    obtain ⟨-, N, e', t, rs, p, rp, ru, hv, -⟩ := (exact_ok_iff ..).mp h
    have := hv.eta
    rw [hE] at this
    rw [PyVal.float.inj this]; exact ⟨hv.eta0, hv.eta1⟩
  have hE2 : 0 < e := lt_of_le_of_ne hE0' (Ne.symm hE0)
  have hx : c = Real.cos (Real.arccos c) := (Real.cos_arccos h1.le h2.le).symm
  have hx0 : 0 < Real.arccos c := Real.arccos_pos.2 h2
  have hx1 : Real.arccos c < Real.pi := by
    refine lt_of_le_of_ne (Real.arccos_le_pi c) fun hh => ?_
    rw [Real.arccos_eq_pi] at hh
    linarith
  rw [hx] at hc
  have hrun := C76_costs he hcs hA hA2 hp e hE h _ hc
  have hb := flowAngle_bounds e _ hE2.le hE1 hx0 hx1
  have hm := flowAngle_strictMono e _ hE2 hE1 hx0 hx1
  constructor
  · rw [hrun, List.pairwise_map]
    exact List.Pairwise.imp (fun hab => Real.cos_lt_cos_of_nonneg_of_le_pi (hb _).1.le (hb _).2.le (hm hab)) List.pairwise_lt_range
  · rw [hrun]
    intro c' hc'
    obtain ⟨k, -, rfl⟩ := List.mem_map.1 hc'
    rw [← Real.cos_pi]
    exact Real.cos_lt_cos_of_nonneg_of_le_pi (hb k).1.le le_rfl (hb k).2

/-- C76.  The costs approach `-1`: for every accuracy there is a number of steps, depending only on the accuracy, the step size and the first cost, after
which every run on any number of qubits, with any circuit and any such observable, is that accurate. -/
theorem C76_limit (e c : ℝ) (hE0 : 0 < e) (hE1 : e ≤ 1) (h1 : -1 < c) (h2 : c < 1) (ε : ℝ) (hε : 0 < ε) :
    ∃ K : ℕ, ∀ (n : ℕ) (eigh : EighFn n) (rnd : ℕ → Matrix (Fin (2 ^ n)) (Fin (2 ^ n)) ℝ) (ret : CircuitRet) (cs : List (Gate n)) (g : Gate n) (args : ExactArgs)
      (out : OptOut (ExactItem n)), ValidEigh eigh → (∀ c ∈ cs, c.Aᴴ * c.A = 1) → g.Aᴴ = g.A → g.A * g.A = 1 → args.perturbation = .bool false →
      args.eta = .float e → exactLieOptimizer eigh rnd ret (cs.map (fun g => (g.obs.matrix, g.obs.wires))) ([g].map Gate.obs) args = .ok out →
      (exactCosts out)[0]? = some c → ∀ k ≥ K, ∀ c', (exactCosts out)[k]? = some c' → |c' - -1| < ε := by
  have hx : c = Real.cos (Real.arccos c) := (Real.cos_arccos h1.le h2.le).symm
  have hx0 : 0 < Real.arccos c := Real.arccos_pos.2 h2
  have hx1 : Real.arccos c < Real.pi := by
    refine lt_of_le_of_ne (Real.arccos_le_pi c) fun hh => ?_
    rw [Real.arccos_eq_pi] at hh
    linarith
  have ht : Filter.Tendsto (fun k => Real.cos (flowAngle e (Real.arccos c) k)) Filter.atTop (nhds (-1)) := by
    rw [← Real.cos_pi]
    exact (Real.continuous_cos.tendsto _).comp (flowAngle_tendsto e _ hE0 hE1 hx0 hx1)
  obtain ⟨K, hK⟩ := Metric.tendsto_atTop.1 ht ε hε
  refine ⟨K, fun n eigh rnd ret cs g args out he hcs hA hA2 hp hE h hc k hk c' hc' => ?_⟩
  rw [hx] at hc
  have hrun := C76_costs he hcs hA hA2 hp e hE h _ hc
  rw [hrun, List.getElem?_map, Option.map_eq_some_iff] at hc'
  obtain ⟨j, hj, rfl⟩ := hc'
  obtain ⟨-, rfl⟩ := List.getElem?_eq_some_iff.1 hj
  simpa [Real.dist_eq] using hK k hk

/-- C76.  A run that starts at an eigenstate of the observable never leaves its cost. -/
theorem C76_stationary (he : ValidEigh eigh) (hcs : ∀ c ∈ cs, c.Aᴴ * c.A = 1) (hA : g.Aᴴ = g.A) (hA2 : g.A * g.A = 1) (hp : args.perturbation = .bool false)
    (h : exactLieOptimizer eigh rnd ret (cs.map (fun g => (g.obs.matrix, g.obs.wires))) ([g].map Gate.obs) args = .ok out)
    (c : ℝ) (hc : (exactCosts out)[0]? = some c) (h1 : c = 1 ∨ c = -1) : ∀ c' ∈ exactCosts out, c' = c := by
  obtain ⟨-, N, e, t, rs, p, rp, ru, hv, -⟩ := (exact_ok_iff ..).mp h
  obtain ⟨x, hx, hs⟩ : ∃ x, c = Real.cos x ∧ Real.sin x = 0 := by
    rcases h1 with rfl | rfl
    · exact ⟨0, by simp, by simp⟩
    · exact ⟨Real.pi, by simp, by simp⟩
  have hflow : ∀ k, flowAngle e x k = x := by
    intro k
    induction k with
    | zero => rfl
    | succ k ih => rw [flowAngle, ih, hs]; ring
  rw [hx] at hc
  have hrun := C76_costs he hcs hA hA2 hp e hv.eta h _ hc
  rw [hrun]
  intro c' hc'
  obtain ⟨k, -, rfl⟩ := List.mem_map.1 hc'
  rw [hflow, hx]

/-! ### Example -/

/-- The observable X on the first of three qubits. -/
noncomputable def exObsX3 : Gate 3 := ⟨[0], pauliWord (n := 1) (fun _ => .X), by simp, by simp, by simp⟩

theorem cost_exObsX3 : cost (full 3 exObsX3.ws exObsX3.A) 1 = 0 := by
  have h : full 3 exObsX3.ws exObsX3.A 0 0 = 0 := by
    rw [full, if_pos (fun _ _ _ => rfl)]
    have hs : sub 3 ((0 : Fin (2 ^ 3)) : ℕ) exObsX3.ws = 0 := by decide
    rw [hs, ent, dif_pos ⟨by decide, by decide⟩]
    simp [exObsX3, pauliWord, tensor, bit, Letter.mat]
  have e : (fun i => (1 : QMat 3) i 0) = Pi.single 0 1 := by
    funext i; simp [Matrix.one_apply, Pi.single_apply]
  rw [cost, e, Matrix.mulVec_single_one, ← Pi.single_star, star_one, single_one_dotProduct, Matrix.col_apply, h, Complex.zero_re]

/-- Hypotheses of C76: three qubits, the empty circuit, the observable X on the first, 50 steps; the first cost is 0, so the costs decrease from there. -/
example (rnd : ℕ → Matrix (Fin (2 ^ 3)) (Fin (2 ^ 3)) ℝ) : ∃ (eigh : EighFn 3) (args : ExactArgs) (out : OptOut (ExactItem 3)), ValidEigh eigh ∧
    exObsX3.Aᴴ = exObsX3.A ∧ exObsX3.A * exObsX3.A = 1 ∧ args.perturbation = .bool false ∧ args.eta = .float (1 / 2) ∧
    exactLieOptimizer eigh rnd .state (([] : List (Gate 3)).map (fun g => (g.obs.matrix, g.obs.wires))) ([exObsX3].map Gate.obs) args = .ok out ∧
    (exactCosts out)[0]? = some 0 := by
  obtain ⟨eigh, he⟩ := exists_validEigh 3
  obtain ⟨out, h⟩ := (C44_succeeds_iff eigh rnd .state [exObsX3] { nsteps := .int 50, eta := .float (1 / 2), tol := .float (1 / 100) } []).mpr
    ⟨rfl, 50, 1 / 2, .fin (1 / 100), false, false, false, false, ⟨rfl, by norm_num, rfl, by norm_num, by norm_num, ⟨rfl, by norm_num⟩, rfl, rfl, rfl, id, rfl⟩⟩
  refine ⟨eigh, _, out, he, pauliWord_herm _, pauliWord_sq _, rfl, rfl, h, ?_⟩
  obtain ⟨N, hN, e', he', V, W, m, hm, h0, hl, hc, -⟩ := C44_trace eigh rnd _ _ _ _ out h
  have : V 0 = 1 := (Except.ok.inj h0).symm
  rw [hc 0 (by omega), totalObs_single, this, cost_exObsX3]

end Oranssi
