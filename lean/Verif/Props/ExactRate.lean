import Verif.Props.GroundGap
import Verif.Props.StepBound
import Verif.Props.Variational
import Verif.Props.ToyExample

/-! # C140: how fast `exact_lie_optimizer` approaches an eigenstate of the sum of its observables -/

namespace Oranssi
open Spec
open scoped Matrix

variable {n : ℕ}

/-- The variance of `H` in the state of `U`. -/
noncomputable def Spec.variance (H U : QMat n) : ℝ := cost (H * H) U - cost H U ^ 2

/-! ### One sweep -/

/-- The generators of the updates of one sweep, without the step size. -/
noncomputable def flowGens (e : ℝ) : List (Gate n) → QMat n → List (QMat n)
  | [], _ => []
  | g :: gs, U => ((1 / 2 : ℂ) • riemannGen (full n g.ws g.A) U) :: flowGens e gs (NormedSpace.exp ((e : ℂ) • ((1 / 2 : ℂ) • riemannGen (full n g.ws g.A) U)) * U)

/-- All observables are Hermitian with square 1. -/
def Involutions (gs : List (Gate n)) : Prop := ∀ g ∈ gs, g.Aᴴ = g.A ∧ g.A * g.A = 1

theorem full_involution {g : Gate n} (h : g.Aᴴ = g.A ∧ g.A * g.A = 1) : (full n g.ws g.A)ᴴ = full n g.ws g.A ∧ full n g.ws g.A * full n g.ws g.A = 1 :=
  ⟨by rw [← full_conjTranspose rfl g.valid.2, h.1], by rw [← full_mul rfl g.valid, h.2, full_one rfl g.valid]⟩

theorem half_smul (e : ℝ) (X : QMat n) : (e : ℂ) • ((1 / 2 : ℂ) • X) = ((e / 2 : ℝ) : ℂ) • X := by
  rw [smul_smul]; congr 1; push_cast; ring

theorem exactUpdates_flow {eigh : EighFn n} (he : ValidEigh eigh) (e : ℝ) : ∀ (gs : List (Gate n)), Involutions gs → ∀ U : QMat n,
    exactUpdates eigh e (gs.map Gate.obs) U = .ok (((flowGens e gs U).map (fun A => NormedSpace.exp ((e : ℂ) • A))).foldl (fun U F => F * U) U)
  | [], _, _ => rfl
  | g :: gs, h, U => by
    have hg := h g List.mem_cons_self
    rw [List.map_cons, exactUpdates, C47_riemannian_step eigh he e g hg.1 hg.2, flowGens, List.map_cons, List.foldl_cons, half_smul]
    exact exactUpdates_flow he e gs (fun g' hg' => h g' (List.mem_cons_of_mem _ hg')) _

section
open scoped Matrix.Norms.L2Operator

theorem norm_of_involution {O : QMat n} (h1 : Oᴴ = O) (h2 : O * O = 1) : ‖O‖ = 1 := by
  apply CStarRing.norm_of_mem_unitary
  rw [Unitary.mem_iff, Matrix.star_eq_conjTranspose, h1]
  exact ⟨h2, h2⟩

theorem reflection {U : QMat n} (hU : Unitary U) : ‖(2 : ℂ) • density U - 1‖ = 1 := by
  apply norm_of_involution
  · rw [Matrix.conjTranspose_sub, Matrix.conjTranspose_smul, density_herm, Matrix.conjTranspose_one]
    simp
  · rw [Matrix.sub_mul, Matrix.mul_sub, Matrix.mul_sub, Matrix.smul_mul, Matrix.mul_smul, density_idem hU, Matrix.one_mul, Matrix.mul_one, Matrix.one_mul, smul_smul]
    module

/-- The commutator with a state is bounded by the norm of the operator. -/
theorem norm_comm_density {U : QMat n} (hU : Unitary U) (X : QMat n) : ‖density U * X - X * density U‖ ≤ ‖X‖ := by
  have e : density U * X - X * density U = (1 / 2 : ℂ) • (((2 : ℂ) • density U - 1) * X - X * ((2 : ℂ) • density U - 1)) := by
    rw [Matrix.sub_mul, Matrix.mul_sub, Matrix.smul_mul, Matrix.mul_smul, Matrix.one_mul, Matrix.mul_one]
    module
  have h := reflection hU
  have h1 := norm_mul_le ((2 : ℂ) • density U - 1) X
  have h2 := norm_mul_le X ((2 : ℂ) • density U - 1)
  rw [h] at h1 h2
  have h3 := norm_sub_le (((2 : ℂ) • density U - 1) * X) (X * ((2 : ℂ) • density U - 1))
  rw [e, norm_smul]
  norm_num
  linarith

theorem half_riemann_norm {U O : QMat n} (hU : Unitary U) (h1 : Oᴴ = O) (h2 : O * O = 1) : ‖(1 / 2 : ℂ) • riemannGen O U‖ ≤ 1 / 2 := by
  have := norm_comm_density hU O
  rw [norm_of_involution h1 h2] at this
  rw [norm_smul, riemannGen]
  norm_num
  linarith

theorem half_riemann_skew (O U : QMat n) (hO : Oᴴ = O) : ((1 / 2 : ℂ) • riemannGen O U)ᴴ = -((1 / 2 : ℂ) • riemannGen O U) := by
  rw [Matrix.conjTranspose_smul, riemannGen_skew _ _ hO]
  simp

theorem flow_unitary {X : QMat n} (hX : Xᴴ = -X) (t : ℝ) : Unitary (NormedSpace.exp ((t : ℂ) • X)) := by
  have h : star X = -X := hX
  exact (Unitary.mem_iff.1 (exp_skew_mem (skew_smul h t))).1

theorem flowGens_skew (e : ℝ) : ∀ (gs : List (Gate n)), Involutions gs → ∀ U : QMat n, ∀ A ∈ flowGens e gs U, Aᴴ = -A
  | [], _, _, _, hA => by cases hA
  | g :: gs, h, U, A, hA => by
    rw [flowGens] at hA
    rcases List.mem_cons.1 hA with rfl | hA
    · exact half_riemann_skew _ _ (full_involution (h g List.mem_cons_self)).1
    · exact flowGens_skew e gs (fun g' hg' => h g' (List.mem_cons_of_mem _ hg')) _ A hA

theorem flowGens_norm (e : ℝ) : ∀ (gs : List (Gate n)), Involutions gs → ∀ U : QMat n, Unitary U → ((flowGens e gs U).map norm).sum ≤ gs.length / 2
  | [], _, _, _ => by simp [flowGens]
  | g :: gs, h, U, hU => by
    have hg := full_involution (h g List.mem_cons_self)
    have ih := flowGens_norm e gs (fun g' hg' => h g' (List.mem_cons_of_mem _ hg')) _ (Unitary.mul (flow_unitary (half_riemann_skew _ U hg.1) e) hU)
    rw [flowGens, List.map_cons, List.sum_cons, List.length_cons]
    have := half_riemann_norm hU hg.1 hg.2
    push_cast
    linarith

/-- The generators of a sweep sum up to the generator of the whole observable, up to the distance that the sweep goes. -/
theorem flowGens_sum {e : ℝ} (he : 0 ≤ e) {U : QMat n} (hU : Unitary U) : ∀ (gs : List (Gate n)), Involutions gs → ∀ (W : QMat n) (b : ℝ), Unitary W → ‖W - 1‖ ≤ b →
    ‖(flowGens e gs (W * U)).sum - (1 / 2 : ℂ) • riemannGen (totalObs gs) U‖ ≤ gs.length * b + e * (gs.length * (gs.length - 1)) / 4
  | [], _, W, b, _, _ => by simp [flowGens, totalObs, riemannGen]
  | g :: gs, h, W, b, hW, hb => by
    have hg := full_involution (h g List.mem_cons_self)
    set O := full n g.ws g.A with hO
    set A := (1 / 2 : ℂ) • riemannGen O (W * U) with hA
    have hsk : Aᴴ = -A := half_riemann_skew _ _ hg.1
    set F := NormedSpace.exp ((e : ℂ) • A) with hF
    have hFu : Unitary F := flow_unitary hsk e
    have hWU := Unitary.mul hW hU
    have hF1 : ‖F - 1‖ ≤ e / 2 := by
      refine (norm_exp_sub_one (show star A = -A from hsk) he).trans ?_
      have := half_riemann_norm hWU hg.1 hg.2
      rw [← hA] at this
      nlinarith
    have hW1 : ‖W‖ = 1 := CStarRing.norm_of_mem_unitary (Unitary.mem_iff.2 ⟨hW, mul_eq_one_comm.1 hW⟩)
    have hFW : ‖F * W - 1‖ ≤ b + e / 2 := by
      have e1 : F * W - 1 = (F - 1) * W + (W - 1) := by rw [Matrix.sub_mul, Matrix.one_mul]; abel
      rw [e1]
      refine (norm_add_le _ _).trans ?_
      have := norm_mul_le (F - 1) W
      rw [hW1, mul_one] at this
      linarith
    have ih := flowGens_sum he hU gs (fun g' hg' => h g' (List.mem_cons_of_mem _ hg')) (F * W) (b + e / 2) (Unitary.mul hFu hW) hFW
    have hd : ‖density (W * U) - density U‖ ≤ b := by
      have e1 : density (W * U) - density U = -((density U * (W - 1) - (W - 1) * density U) * Wᴴ) := by
        have hWW : W * Wᴴ = 1 := mul_eq_one_comm.1 hW
        have e2 : (density U * (W - 1) - (W - 1) * density U) * Wᴴ = density U * (W * Wᴴ) - W * density U * Wᴴ := by
          simp only [Matrix.sub_mul, Matrix.mul_sub, Matrix.one_mul, Matrix.mul_one, Matrix.mul_assoc]
          abel
        rw [e2, hWW, Matrix.mul_one, density_mul]
        abel
      rw [e1, norm_neg]
      refine (norm_mul_le _ _).trans ?_
      rw [Matrix.l2_opNorm_conjTranspose, hW1, mul_one]
      exact (norm_comm_density hU _).trans hb
    have hfirst : ‖A - (1 / 2 : ℂ) • riemannGen O U‖ ≤ b := by
      have e1 : A - (1 / 2 : ℂ) • riemannGen O U = (1 / 2 : ℂ) • ((density (W * U) - density U) * O - O * (density (W * U) - density U)) := by
        rw [hA, riemannGen, riemannGen, Matrix.sub_mul, Matrix.mul_sub]
        module
      have h1 := norm_mul_le (density (W * U) - density U) O
      have h2 := norm_mul_le O (density (W * U) - density U)
      rw [norm_of_involution hg.1 hg.2] at h1 h2
      have h3 := norm_sub_le ((density (W * U) - density U) * O) (O * (density (W * U) - density U))
      rw [e1, norm_smul]
      norm_num
      linarith
    have hsum : (flowGens e (g :: gs) (W * U)).sum - (1 / 2 : ℂ) • riemannGen (totalObs (g :: gs)) U =
        (A - (1 / 2 : ℂ) • riemannGen O U) + ((flowGens e gs (F * W * U)).sum - (1 / 2 : ℂ) • riemannGen (totalObs gs) U) := by
      have e1 : riemannGen (totalObs (g :: gs)) U = riemannGen O U + riemannGen (totalObs gs) U := by
        rw [show totalObs (g :: gs) = O + totalObs gs from by rw [totalObs, List.map_cons, List.sum_cons]; rfl, riemannGen, riemannGen, riemannGen, Matrix.mul_add, Matrix.add_mul]
        abel
      rw [e1, flowGens, List.sum_cons, Matrix.mul_assoc F W U, smul_add]
      abel
    rw [hsum]
    refine (norm_add_le _ _).trans ?_
    rw [List.length_cons]
    push_cast
    nlinarith

/-- The second commutator in the state is minus twice the variance. -/
theorem variance_comm {H U : QMat n} (hH : Hᴴ = H) (hU : Unitary U) :
    (star (fun i => U i 0) ⬝ᵥ ((H * ((1 / 2 : ℂ) • riemannGen H U) - ((1 / 2 : ℂ) • riemannGen H U) * H) *ᵥ (fun i => U i 0))).re = -variance H U := by
  have hsand : density U * H * density U = ((cost H U : ℝ) : ℂ) • density U := by rw [density_sandwich, expect_real U H hH]
  have hHH : (H * H)ᴴ = H * H := by rw [Matrix.conjTranspose_mul, hH]
  rw [expect_trace]
  have e1 : density U * (H * ((1 / 2 : ℂ) • riemannGen H U) - ((1 / 2 : ℂ) • riemannGen H U) * H) =
      (1 / 2 : ℂ) • ((density U * H * density U) * H + density U * H * density U * H - density U * (H * H) * density U - density U * density U * (H * H)) := by
    rw [riemannGen]
    simp only [Matrix.mul_smul, Matrix.smul_mul, Matrix.mul_sub, Matrix.sub_mul, ← smul_sub, Matrix.mul_assoc]
    congr 1
    abel
  have htr : (density U * H).trace = ((cost H U : ℝ) : ℂ) := by rw [← expect_trace, expect_real U H hH]
  have htr2 : (density U * (H * H)).trace = ((cost (H * H) U : ℝ) : ℂ) := by rw [← expect_trace, expect_real U _ hHH]
  rw [e1, hsand, Matrix.trace_smul, Matrix.trace_sub, Matrix.trace_sub, Matrix.trace_add, Matrix.smul_mul, Matrix.trace_smul, htr, density_idem hU, htr2,
    Matrix.trace_mul_comm (density U * (H * H)) (density U), ← Matrix.mul_assoc, density_idem hU, htr2, variance]
  simp only [smul_eq_mul]
  norm_cast
  push_cast
  rw [show ((1 / 2 : ℂ) * ((cost H U : ℂ) * (cost H U : ℂ) + (cost H U : ℂ) * (cost H U : ℂ) - (cost (H * H) U : ℂ) - (cost (H * H) U : ℂ))) = ((-(cost (H * H) U - cost H U ^ 2) : ℝ) : ℂ) by push_cast; ring]
  exact Complex.ofReal_re _

/-- C140 (one step).  A step of `exact_lie_optimizer` lowers the cost by the step size times the variance of the sum of the observables, up to the norm of that sum times the square of
the step size times the number of observables. -/
theorem C140_step {eigh : EighFn n} (he : ValidEigh eigh) {gs : List (Gate n)} (hg : Involutions gs) {e : ℝ} (he0 : 0 ≤ e) {U : QMat n} (hU : Unitary U) :
    ∃ V, exactUpdates eigh e (gs.map Gate.obs) U = .ok V ∧
      |cost (totalObs gs) V - cost (totalObs gs) U + e * variance (totalObs gs) U| ≤ ‖totalObs gs‖ * (e * gs.length) ^ 2 := by
  refine ⟨_, exactUpdates_flow he e gs hg U, ?_⟩
  have hH := totalObs_herm gs (fun g h => (hg g h).1)
  have h1 := cost_fold_le (totalObs gs) U hH hU (flowGens e gs U) (flowGens_skew e gs hg U) he0
  set V := ((flowGens e gs U).map (fun A => NormedSpace.exp ((e : ℂ) • A))).foldl (fun U F => F * U) U with hV
  have h2 := flowGens_sum he0 hU gs hg 1 0 (by simp [Unitary]) (by simp)
  rw [Matrix.one_mul, mul_zero, zero_add] at h2
  set A := (flowGens e gs U).sum with hA
  set B := (1 / 2 : ℂ) • riemannGen (totalObs gs) U with hB
  have h3 : totalObs gs * A - A * totalObs gs = (totalObs gs * B - B * totalObs gs) + (totalObs gs * (A - B) - (A - B) * totalObs gs) := by
    rw [Matrix.mul_sub, Matrix.sub_mul]; abel
  rw [h3, Matrix.add_mulVec, dotProduct_add, Complex.add_re, variance_comm hH hU] at h1
  have h4 := quad_le (totalObs gs * (A - B) - (A - B) * totalObs gs) (fun i => U i 0)
  have hn : (star (fun i => U i 0) ⬝ᵥ (fun i => U i 0)).re = 1 := by
    have := expect_one hU
    rw [Matrix.one_mulVec] at this
    rw [this, Complex.one_re]
  rw [hn, mul_one] at h4
  have h5 : ‖totalObs gs * (A - B) - (A - B) * totalObs gs‖ ≤ 2 * ‖totalObs gs‖ * (e * (gs.length * (gs.length - 1)) / 4) := by
    refine (norm_sub_le _ _).trans ?_
    have g1 := norm_mul_le (totalObs gs) (A - B)
    have g2 := norm_mul_le (A - B) (totalObs gs)
    have g3 := mul_le_mul_of_nonneg_left h2 (norm_nonneg (totalObs gs))
    linarith
  have h6 := flowGens_norm e gs hg U hU
  have h7 : 0 ≤ ((flowGens e gs U).map norm).sum := List.sum_nonneg (by
    intro x hx
    obtain ⟨A, -, rfl⟩ := List.mem_map.1 hx
    exact norm_nonneg _)
  have h8 : (e * ((flowGens e gs U).map norm).sum) ^ 2 ≤ (e * (gs.length / 2)) ^ 2 := pow_le_pow_left₀ (by positivity) (mul_le_mul_of_nonneg_left h6 he0) 2
  have h9 : 2 * ‖totalObs gs‖ * (e * ((flowGens e gs U).map norm).sum) ^ 2 ≤ 2 * ‖totalObs gs‖ * (e * (gs.length / 2)) ^ 2 := mul_le_mul_of_nonneg_left h8 (by positivity)
  set q := (star (fun i => U i 0) ⬝ᵥ ((totalObs gs * (A - B) - (A - B) * totalObs gs) *ᵥ (fun i => U i 0))).re with hq
  have h10 : |e * q| ≤ e * (2 * ‖totalObs gs‖ * (e * (gs.length * (gs.length - 1)) / 4)) := by
    rw [abs_mul, abs_of_nonneg he0]
    exact mul_le_mul_of_nonneg_left (h4.trans h5) he0
  have h11 : 0 ≤ ‖totalObs gs‖ * e ^ 2 * gs.length := by positivity
  rw [abs_le] at h1 h10 ⊢
  constructor <;> nlinarith

/-! ### Runs -/

/-- Some eigenvalue is no further from the cost than the square root of the variance. -/
theorem eigenvalue_near {H U : QMat n} (hH : Hᴴ = H) (hU : Unitary U) : ∃ l, IsEigenvalue H l ∧ (cost H U - l) ^ 2 ≤ variance H U := by
  obtain ⟨eigh, he⟩ := exists_validEigh n
  obtain ⟨hV, hS⟩ := he H hH
  set V := (eigh H).2
  set S := (eigh H).1
  set φ : Ket n := fun i => U i 0 with hφ
  have hN : ∑ i, Complex.normSq ((Vᴴ *ᵥ φ) i) = 1 := by
    have h1 := norm_eigen hV φ
    have h2 := expect_one hU
    rw [Matrix.one_mulVec] at h2
    rw [h2] at h1
    exact_mod_cast h1.symm
  have hS2 : H * H = V * Matrix.diagonal (fun i => ((S i ^ 2 : ℝ) : ℂ)) * Vᴴ := by
    have e : Matrix.diagonal (fun i => ((S i ^ 2 : ℝ) : ℂ)) = Matrix.diagonal (fun i => ((S i : ℝ) : ℂ)) * Matrix.diagonal (fun i => ((S i : ℝ) : ℂ)) := by
      rw [Matrix.diagonal_mul_diagonal]
      congr 1; funext i; push_cast; ring
    rw [e]
    conv_lhs => rw [hS]
    calc _ = V * Matrix.diagonal (fun i => ((S i : ℝ) : ℂ)) * (Vᴴ * V) * Matrix.diagonal (fun i => ((S i : ℝ) : ℂ)) * Vᴴ := by simp only [Matrix.mul_assoc]
      _ = _ := by rw [hV, Matrix.mul_one]; simp only [Matrix.mul_assoc]
  have hc : cost H U = ∑ i, S i * Complex.normSq ((Vᴴ *ᵥ φ) i) := by
    rw [cost, energy_eigen hS, Complex.ofReal_re]
  have hc2 : cost (H * H) U = ∑ i, S i ^ 2 * Complex.normSq ((Vᴴ *ᵥ φ) i) := by
    rw [cost, energy_eigen hS2, Complex.ofReal_re]
  have hvar : variance H U = ∑ i, (cost H U - S i) ^ 2 * Complex.normSq ((Vᴴ *ᵥ φ) i) := by
    have : ∀ i, (cost H U - S i) ^ 2 * Complex.normSq ((Vᴴ *ᵥ φ) i) =
        cost H U ^ 2 * Complex.normSq ((Vᴴ *ᵥ φ) i) - 2 * cost H U * (S i * Complex.normSq ((Vᴴ *ᵥ φ) i)) + S i ^ 2 * Complex.normSq ((Vᴴ *ᵥ φ) i) := fun i => by ring
    simp only [this, Finset.sum_add_distrib, Finset.sum_sub_distrib, ← Finset.mul_sum]
    rw [hN, ← hc, ← hc2, variance]
    ring
  by_contra hcon
  push Not at hcon
  have hall : ∀ i, variance H U < (cost H U - S i) ^ 2 := fun i => hcon _ (eigen_col hV hS i)
  have hex : ∃ i, 0 < Complex.normSq ((Vᴴ *ᵥ φ) i) := by
    by_contra h0
    push Not at h0
    have : ∑ i, Complex.normSq ((Vᴴ *ᵥ φ) i) ≤ 0 := Finset.sum_nonpos fun i _ => h0 i
    linarith
  obtain ⟨i, hi⟩ := hex
  have : ∑ i, variance H U * Complex.normSq ((Vᴴ *ᵥ φ) i) < ∑ i, (cost H U - S i) ^ 2 * Complex.normSq ((Vᴴ *ᵥ φ) i) :=
    Finset.sum_lt_sum (fun i _ => mul_le_mul_of_nonneg_right (hall i).le (Complex.normSq_nonneg _)) ⟨i, Finset.mem_univ i, mul_lt_mul_of_pos_right (hall i) hi⟩
  rw [← Finset.mul_sum, hN, mul_one, ← hvar] at this
  exact lt_irrefl _ this

theorem variance_nonneg {H U : QMat n} (hH : Hᴴ = H) (hU : Unitary U) : 0 ≤ variance H U := by
  obtain ⟨l, -, h⟩ := eigenvalue_near hH hU
  exact (sq_nonneg _).trans h

theorem cost_norm {H U : QMat n} (hU : Unitary U) : |cost H U| ≤ ‖H‖ := by
  have h := quad_le H (fun i => U i 0)
  have hn : (star (fun i => U i 0) ⬝ᵥ (fun i => U i 0)).re = 1 := by
    have := expect_one hU
    rw [Matrix.one_mulVec] at this
    rw [this, Complex.one_re]
  rwa [hn, mul_one] at h

/-- The circuits of a run without perturbation, and what each step does to the cost. -/
theorem exact_descent {eigh : EighFn n} (he : ValidEigh eigh) {rnd : ℕ → Matrix (Fin (2 ^ n)) (Fin (2 ^ n)) ℝ} {ret : CircuitRet} {ops : List (NpMat × List ℤ)} (hops : ∀ g ∈ ops, GoodGate n g)
    {gs : List (Gate n)} (hg : Involutions gs) {args : ExactArgs} (hp : args.perturbation = .bool false) {e : ℝ} (hee : args.eta = .float e) {out : OptOut (ExactItem n)}
    (h : exactLieOptimizer eigh rnd ret ops (gs.map Gate.obs) args = .ok out) :
    0 ≤ e ∧ ∃ (m : ℕ) (V : ℕ → QMat n), (exactCosts out).length = m + 1 ∧ (∀ k ≤ m, Unitary (V k) ∧ (exactCosts out)[k]? = some (cost (totalObs gs) (V k)) ∧
      (exactCosts out).getD k 0 = cost (totalObs gs) (V k)) ∧
      ∀ k < m, |cost (totalObs gs) (V (k + 1)) - cost (totalObs gs) (V k) + e * variance (totalObs gs) (V k)| ≤ ‖totalObs gs‖ * (e * gs.length) ^ 2 := by
  obtain ⟨-, N, e', t, rs, p, rp, ru, hv, V, W, m, r, h0, hrun, rfl, -, hc, -, -⟩ := exact_outcome eigh rnd ret ops gs args out h
  have e1 : e' = e := by have := hv.eta; rw [hee] at this; exact (PyVal.float.inj this).symm
  subst e1
  have hp' : p = false := by have := hv.flagP; rw [hp] at this; exact (BoolArg.bool.inj this).symm
  subst hp'
  have hu := exact_run_unitary he hrun (compile_unitary (U := 1) hops (by simp [Unitary]) h0)
  have hWV : ∀ k ≤ m, W k = V k := fun k hk => by
    cases k with
    | zero => exact hrun.start
    | succ k => exact hrun.kept k (by omega) (.inr rfl)
  have hget : ∀ k ≤ m, ((List.range (m + 1)).map (fun k => cost (totalObs gs) (V k)))[k]? = some (cost (totalObs gs) (V k)) := fun k hk => by simp [show k < m + 1 by omega]
  refine ⟨hv.eta0, m, V, by rw [exactOutput_costs, hc]; simp, fun k hk => ⟨(hu k hk).1, ?_, ?_⟩, fun k hk => ?_⟩
  · rw [exactOutput_costs, hc, hget k hk]
  · rw [exactOutput_costs, hc, List.getD_eq_getElem?_getD, hget k hk]; rfl
  · obtain ⟨X, hX, hb⟩ := C140_step he hg hv.eta0 (hu k hk.le).1
    have ha := hrun.advance k hk
    rw [hWV k hk.le] at ha
    rwa [Except.ok.inj (hX.symm.trans ha)] at hb

/-- C140 (runs).  In a run without perturbation, of observables that are Hermitian with square 1 and a circuit of unitary gates, no step raises the cost by more than `‖H‖ (eta M)²`, with `M`
the number of observables; among the circuits of the first `j` steps there is one in which the variance of `H` is at most `2 ‖H‖ / (eta j) + ‖H‖ eta M²`, so its cost is as close to an
eigenvalue of `H` as the root of this. -/
theorem C140_run {eigh : EighFn n} (he : ValidEigh eigh) (rnd : ℕ → Matrix (Fin (2 ^ n)) (Fin (2 ^ n)) ℝ) (ret : CircuitRet) (ops : List (NpMat × List ℤ)) (hops : ∀ g ∈ ops, GoodGate n g)
    (gs : List (Gate n)) (hg : Involutions gs) (args : ExactArgs) (hp : args.perturbation = .bool false) (e : ℝ) (hee : args.eta = .float e) (out : OptOut (ExactItem n))
    (h : exactLieOptimizer eigh rnd ret ops (gs.map Gate.obs) args = .ok out) :
    (∀ k, k + 1 < (exactCosts out).length → (exactCosts out).getD (k + 1) 0 ≤ (exactCosts out).getD k 0 + ‖totalObs gs‖ * (e * gs.length) ^ 2) ∧
    ∀ j, 1 ≤ j → j < (exactCosts out).length → 0 < e → ∃ k < j, ∃ U : QMat n, Unitary U ∧ (exactCosts out)[k]? = some (cost (totalObs gs) U) ∧
      variance (totalObs gs) U ≤ 2 * ‖totalObs gs‖ / (e * j) + ‖totalObs gs‖ * e * gs.length ^ 2 ∧
      ∃ l, IsEigenvalue (totalObs gs) l ∧
        |(exactCosts out).getD k 0 - l| ≤ Real.sqrt (2 * ‖totalObs gs‖ / (e * j) + ‖totalObs gs‖ * e * gs.length ^ 2) := by
  obtain ⟨he0, m, V, hlen, hV, hstep⟩ := exact_descent he hops hg hp hee h
  have hH := totalObs_herm gs (fun g h => (hg g h).1)
  refine ⟨fun k hk => ?_, fun j hj1 hj hepos => ?_⟩
  · rw [hlen] at hk
    rw [(hV (k + 1) (by omega)).2.2, (hV k (by omega)).2.2]
    have := (abs_le.1 (hstep k (by omega))).2
    have := mul_nonneg he0 (variance_nonneg hH (hV k (by omega)).1)
    linarith
  · rw [hlen] at hj
    have hsum : ∀ j ≤ m, cost (totalObs gs) (V j) ≤ cost (totalObs gs) (V 0) - e * ∑ k ∈ Finset.range j, variance (totalObs gs) (V k) + j * (‖totalObs gs‖ * (e * gs.length) ^ 2) := by
      intro j
      induction j with
      | zero => intro _; simp
      | succ j ih =>
        intro hj
        have h1 := ih (by omega)
        have h2 := (abs_le.1 (hstep j (by omega))).2
        rw [Finset.sum_range_succ]
        push_cast
        linarith
    have hS := hsum j (by omega)
    have b0 := (abs_le.1 (cost_norm (H := totalObs gs) (hV 0 (by omega)).1)).2
    have bj := (abs_le.1 (cost_norm (H := totalObs gs) (hV j (by omega)).1)).1
    have hjpos : (0 : ℝ) < j := by exact_mod_cast hj1
    set B := 2 * ‖totalObs gs‖ / (e * j) + ‖totalObs gs‖ * e * gs.length ^ 2 with hB
    have hBj : e * (j * B) = 2 * ‖totalObs gs‖ + j * (‖totalObs gs‖ * (e * gs.length) ^ 2) := by
      rw [hB]; field_simp
    have hex : ∃ k < j, variance (totalObs gs) (V k) ≤ B := by
      by_contra hcon
      push Not at hcon
      have : ∑ k ∈ Finset.range j, B < ∑ k ∈ Finset.range j, variance (totalObs gs) (V k) :=
        Finset.sum_lt_sum_of_nonempty ⟨0, Finset.mem_range.2 hj1⟩ (fun k hk => hcon k (Finset.mem_range.1 hk))
      rw [Finset.sum_const, Finset.card_range, nsmul_eq_mul] at this
      have := mul_lt_mul_of_pos_left this hepos
      linarith
    obtain ⟨k, hk, hvar⟩ := hex
    obtain ⟨hUk, hgk, hdk⟩ := hV k (by omega)
    obtain ⟨l, hl, hd⟩ := eigenvalue_near hH hUk
    refine ⟨k, hk, V k, hUk, hgk, hvar, l, hl, ?_⟩
    rw [hdk]
    exact Real.abs_le_sqrt (hd.trans hvar)

/-- C140 (early stopping).  A run that stops before its last step, at the tolerance `t`, does so at a cost that differs from an eigenvalue of `H` by at most the root of
`(t + 1e-5 |c|) / eta + ‖H‖ eta M²`, where `c` is the last cost but one. -/
theorem C140_stop {eigh : EighFn n} (he : ValidEigh eigh) (rnd : ℕ → Matrix (Fin (2 ^ n)) (Fin (2 ^ n)) ℝ) (ret : CircuitRet) (ops : List (NpMat × List ℤ)) (hops : ∀ g ∈ ops, GoodGate n g)
    (gs : List (Gate n)) (hg : Involutions gs) (args : ExactArgs) (hp : args.perturbation = .bool false) (e : ℝ) (hee : args.eta = .float e) (hepos : 0 < e) (t : ℝ)
    (ht : args.tol = .float t) (N : ℕ) (hN : args.nsteps = .int (N : ℤ)) (out : OptOut (ExactItem n))
    (h : exactLieOptimizer eigh rnd ret ops (gs.map Gate.obs) args = .ok out) (hearly : (exactCosts out).length < N + 1) :
    ∃ k, (exactCosts out).length = k + 2 ∧ ∃ l, IsEigenvalue (totalObs gs) l ∧
      |(exactCosts out).getD k 0 - l| ≤ Real.sqrt ((t + 1e-5 * |(exactCosts out).getD k 0|) / e + ‖totalObs gs‖ * e * gs.length ^ 2) := by
  obtain ⟨-, m, V, hlen, hV, hstep⟩ := exact_descent he hops hg hp hee h
  have hH := totalObs_herm gs (fun g h => (hg g h).1)
  obtain ⟨N', t', hN', ht', -, hstop, -⟩ := C45_first_flat_step _ _ _ _ _ _ _ h hp
  have eN : N' = N := by rw [hN] at hN'; simpa using hN'.symm
  subst eN
  rcases hstop with hs | ⟨k, -, -, hk, hclose⟩
  · omega
  · refine ⟨k, hk, ?_⟩
    have et : t' = .fin t := by
      rw [ht] at ht'
      cases t' with
      | fin x => obtain ⟨h1, -⟩ := ht'; rw [PyVal.float.inj h1]
      | inf => cases ht'
    subst et
    have hc := hclose t rfl
    obtain ⟨hUk, -, hdk⟩ := hV k (by omega)
    obtain ⟨l, hl, hd⟩ := eigenvalue_near hH hUk
    refine ⟨l, hl, ?_⟩
    rw [hdk, (hV (k + 1) (by omega)).2.2] at hc
    rw [hdk]
    refine Real.abs_le_sqrt (hd.trans ?_)
    have h1 := (abs_le.1 (hstep k (by omega))).2
    have h2 := (abs_le.1 hc).1
    set c := cost (totalObs gs) (V k) with hcd
    have h3 : e * variance (totalObs gs) (V k) ≤ e * ((t + 1e-5 * |c|) / e + ‖totalObs gs‖ * e * gs.length ^ 2) := by
      have : e * ((t + 1e-5 * |c|) / e + ‖totalObs gs‖ * e * gs.length ^ 2) = t + 1e-5 * |c| + ‖totalObs gs‖ * (e * gs.length) ^ 2 := by field_simp
      rw [this]
      linarith
    exact le_of_mul_le_mul_left h3 hepos

/-! ### A case -/

theorem toy_involutions : Involutions toyObservables := by
  intro g hg
  simp only [toyObservables, List.mem_cons, List.not_mem_nil, or_false] at hg
  rcases hg with rfl | rfl | rfl <;> exact ⟨pauliWord_herm _, pauliWord_sq _⟩

/-- The observables of toy_example.py with the step size 0.001: the run exists, and none of its steps raises the cost by more than 9e-6 times the norm of the sum. -/
example {eigh : EighFn 2} (he : ValidEigh eigh) (rnd : ℕ → Matrix (Fin (2 ^ 2)) (Fin (2 ^ 2)) ℝ) :
    ∃ out, exactLieOptimizer eigh rnd .state [] (toyObservables.map Gate.obs) { nsteps := .int 1000, eta := .float 0.001, tol := .float 0 } = .ok out ∧
      ∀ k, k + 1 < (exactCosts out).length → (exactCosts out).getD (k + 1) 0 ≤ (exactCosts out).getD k 0 + ‖totalObs toyObservables‖ * (0.001 * toyObservables.length) ^ 2 := by
  obtain ⟨out, h⟩ := (C44_succeeds_iff eigh rnd .state toyObservables { nsteps := .int 1000, eta := .float 0.001, tol := .float 0 } []).2
    ⟨rfl, 1000, 0.001, .fin 0, false, false, false, false, rfl, by norm_num, rfl, by norm_num, by norm_num, ⟨rfl, le_rfl⟩, rfl, rfl, rfl, by simp, rfl⟩
  exact ⟨out, h, (C140_run he rnd .state [] (by simp) toyObservables toy_involutions _ rfl 0.001 rfl out h).1⟩

end

end Oranssi
