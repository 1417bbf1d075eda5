import Verif.Props.Symmetry
import Verif.Props.SequentialObs
import Mathlib.Topology.MetricSpace.ProperSpace.Lemmas

/-! # C135: when the exact optimizer can stay near the smallest eigenvalue -/

namespace Oranssi
open Spec
open scoped Matrix

variable {n : ℕ}

namespace Spec

/-- One step of `exact_lie_optimizer`: the updates of all observables, one after the other. -/
noncomputable def sweep (e : ℝ) : List (Gate n) → QMat n → QMat n
  | [], U => U
  | g :: gs, U => sweep e gs (NormedSpace.exp ((-Complex.I * ((e / 2 : ℝ) : ℂ)) • shiftGen (full n g.ws g.A) U) * U)

end Spec

theorem exactUpdates_sweep {eigh : EighFn n} (he : ValidEigh eigh) (e : ℝ) : ∀ (gs : List (Gate n)) (U : QMat n), exactUpdates eigh e (gs.map Gate.obs) U = .ok (sweep e gs U)
  | [], _ => rfl
  | g :: gs, U => by
    rw [List.map_cons, exactUpdates, exactUpdate_gate, eighExp_eq he e (shiftGen_herm _ _)]
    exact exactUpdates_sweep he e gs _

open scoped Matrix.Norms.Operator in
theorem exp_continuous_matrix : Continuous (NormedSpace.exp : QMat n → QMat n) := NormedSpace.exp_continuous

theorem density_continuous : Continuous (density : QMat n → QMat n) := by
  refine continuous_matrix fun i j => ?_
  change Continuous fun U : QMat n => U i 0 * star (U j 0)
  exact (continuous_id.matrix_elem i 0).mul (continuous_id.matrix_elem j 0).star

theorem shiftGen_continuous (O : QMat n) : Continuous (shiftGen O) := by
  unfold shiftGen paramShiftComm
  exact (continuous_const.matrix_mul (density_continuous.matrix_mul continuous_const)).sub (continuous_const.matrix_mul (density_continuous.matrix_mul continuous_const))

theorem sweep_continuous (e : ℝ) : ∀ gs : List (Gate n), Continuous (sweep e gs)
  | [] => continuous_id
  | g :: gs => by
    refine (sweep_continuous e gs).comp ?_
    have h : Continuous fun U : QMat n => (-Complex.I * ((e / 2 : ℝ) : ℂ)) • shiftGen (full n g.ws g.A) U := (continuous_const_smul _).comp (shiftGen_continuous _)
    exact (exp_continuous_matrix.comp h).matrix_mul continuous_id

theorem cost_continuous (H : QMat n) : Continuous (cost H) := by
  unfold cost
  refine Complex.continuous_re.comp ?_
  have hcol : Continuous fun U : QMat n => fun i => U i 0 := continuous_pi fun i => continuous_id.matrix_elem i 0
  exact hcol.star.dotProduct (continuous_const.matrix_mulVec hcol)

/-- The unitary matrices form a compact set. -/
theorem unitary_compact : IsCompact {U : QMat n | Unitary U} := by
  have hclosed : IsClosed {U : QMat n | Unitary U} := isClosed_eq (continuous_id.matrix_conjTranspose.matrix_mul continuous_id) continuous_const
  have hsub : {U : QMat n | Unitary U} ⊆ Set.pi Set.univ (fun _ => Set.pi Set.univ (fun _ => Metric.closedBall (0 : ℂ) 1)) := by
    intro U hU i _ j _
    rw [mem_closedBall_zero_iff]
    have h := congrFun (congrFun (show Uᴴ * U = 1 from hU) j) j
    rw [Matrix.mul_apply, Matrix.one_apply_eq] at h
    have h1 : ∑ k, ‖U k j‖ ^ 2 = 1 := by
      have h2 : ((∑ k, ‖U k j‖ ^ 2 : ℝ) : ℂ) = 1 := by
        rw [← h]
        push_cast
        refine Finset.sum_congr rfl fun k _ => ?_
        rw [Matrix.conjTranspose_apply, Complex.star_def, ← Complex.normSq_eq_conj_mul_self, Complex.normSq_eq_norm_sq]
        push_cast
        rfl
      exact_mod_cast h2
    have h3 : ‖U i j‖ ^ 2 ≤ 1 := h1 ▸ Finset.single_le_sum (f := fun k => ‖U k j‖ ^ 2) (fun k _ => sq_nonneg _) (Finset.mem_univ i)
    exact (sq_le_one_iff₀ (norm_nonneg _)).1 h3
  exact (isCompact_univ_pi fun _ => isCompact_univ_pi fun _ => isCompact_closedBall _ _).of_isClosed_subset hclosed hsub

namespace Spec

/-- No sweep takes a state of cost `E₀` to a state of cost `E₀`. -/
def NoGroundSweep (e : ℝ) (gs : List (Gate n)) (E₀ : ℝ) : Prop := ∀ U : QMat n, Unitary U → cost (totalObs gs) U = E₀ → cost (totalObs gs) (sweep e gs U) ≠ E₀

/-- Two costs in a row are never both within `δ` of `E₀`, in any run without perturbations with step size `e` from a circuit that compiles to a unitary. -/
def Kept (e : ℝ) (gs : List (Gate n)) (E₀ δ : ℝ) : Prop :=
  ∀ (eigh : EighFn n) (rnd : ℕ → Matrix (Fin (2 ^ n)) (Fin (2 ^ n)) ℝ) (ops : List (NpMat × List ℤ)) (U : QMat n) (args : ExactArgs) (out : OptOut (ExactItem n)), ValidEigh eigh →
    compileLoop n ops 1 = .ok U → Unitary U → args.eta = .float e → args.perturbation = .bool false →
    exactLieOptimizer eigh rnd .state ops (gs.map Gate.obs) args = .ok out →
    ∀ (k : ℕ) (c c' : ℝ), (exactCosts out)[k]? = some c → (exactCosts out)[k + 1]? = some c' → E₀ + δ ≤ c ∨ E₀ + δ ≤ c'

end Spec

/-- C135.  If no step takes a ground state to a ground state, then there is a distance that two costs in a row never both keep below, whatever the circuit, the eigendecomposition and the number of steps:
the run cannot converge to the smallest cost. -/
theorem C135_gap (e : ℝ) (gs : List (Gate n)) (E₀ : ℝ) (hlow : ∀ U : QMat n, Unitary U → E₀ ≤ cost (totalObs gs) U) (hno : NoGroundSweep e gs E₀) :
    ∃ δ : ℝ, 0 < δ ∧ Kept e gs E₀ δ := by
  obtain ⟨eigh₀, he₀⟩ := exists_validEigh n
  have hsweep : ∀ U : QMat n, Unitary U → Unitary (sweep e gs U) := fun U hU => exactUpdates_unitary he₀ e gs hU (exactUpdates_sweep he₀ e gs U)
  set F : QMat n → ℝ := fun U => max (cost (totalObs gs) U) (cost (totalObs gs) (sweep e gs U)) with hF
  have hFc : Continuous F := (cost_continuous _).max ((cost_continuous _).comp (sweep_continuous e gs))
  obtain ⟨U₀, hU₀, hmin⟩ := unitary_compact.exists_isMinOn ⟨(1 : QMat n), by simp [Unitary]⟩ hFc.continuousOn
  have hpos : E₀ < F U₀ := by
    rcases lt_or_eq_of_le (hlow U₀ hU₀) with h | h
    · exact lt_max_of_lt_left h
    · exact lt_max_of_lt_right (lt_of_le_of_ne (hlow _ (hsweep U₀ hU₀)) (Ne.symm (hno U₀ hU₀ h.symm)))
  refine ⟨F U₀ - E₀, sub_pos.2 hpos, ?_⟩
  intro eigh rnd ops U args out he hops hU hE hp h k c c' hc hc'
  obtain ⟨-, N, e', t, rs, p, rp, ru, hv, V, W, m, r, h0, hrun, rfl, -, hcost, -, -⟩ := exact_outcome eigh rnd _ _ gs args out h
  have hee : e' = e := PyVal.float.inj (hv.eta.symm.trans hE)
  subst hee
  have hpp : p = false := BoolArg.bool.inj (hv.flagP.symm.trans hp)
  subst hpp
  have hun := exact_run_unitary he hrun (by rw [Except.ok.inj (h0.symm.trans hops)]; exact hU)
  rw [exactOutput_costs, hcost] at hc hc'
  obtain ⟨j, hj, rfl⟩ := Option.map_eq_some_iff.1 ((List.getElem?_map ..) ▸ hc)
  obtain ⟨j', hj', rfl⟩ := Option.map_eq_some_iff.1 ((List.getElem?_map ..) ▸ hc')
  obtain ⟨hlt, rfl⟩ := List.getElem?_eq_some_iff.1 hj
  obtain ⟨hlt', rfl⟩ := List.getElem?_eq_some_iff.1 hj'
  rw [List.getElem_range, List.getElem_range]
  simp only [List.length_range] at hlt hlt'
  have hadv := hrun.advance k (by omega)
  have hkept : W k = V k := by
    cases k with
    | zero => exact hrun.start
    | succ k => exact hrun.kept k (by omega) (Or.inr rfl)
  have hV : V (k + 1) = sweep e' gs (V k) := by
    have := exactUpdates_sweep he e' gs (V k)
    rw [← hkept] at this ⊢
    exact Except.ok.inj (hadv.symm.trans this)
  have := hmin (hun k (by omega)).1
  change F U₀ ≤ F (V k) at this
  rw [hV]
  rcases le_max_iff.1 this with h | h
  · left; linarith
  · right; linarith

/-- Every unitary is a circuit of one gate. -/
theorem exists_gate (hn : 0 < n) {U : QMat n} (hU : Unitary U) : ∃ g : Gate n, g.Aᴴ * g.A = 1 ∧ full n g.ws g.A = U := by
  have key : ∀ (ws : List ℕ) (k : ℕ), k = n → ws = List.range n → ∃ A : QMat k, Aᴴ * A = 1 ∧ full n ws A = U := by
    rintro ws k rfl rfl
    exact ⟨U, hU, full_range _ U⟩
  obtain ⟨A, hA, hf⟩ := key (List.range n) _ List.length_range rfl
  exact ⟨⟨List.range n, A, by rw [Ne, List.range_eq_nil]; omega, ⟨List.nodup_range, fun x hx => List.mem_range.1 hx⟩⟩, hA, hf⟩

/-- C135.  The condition is also necessary: if a step takes some ground state to a ground state, there are runs with two costs in a row equal to the smallest one. -/
theorem C135_sharp (hn : 0 < n) (e : ℝ) (he0 : 0 ≤ e) (he1 : e ≤ 1) (gs : List (Gate n)) (E₀ : ℝ) (hyes : ¬ NoGroundSweep e gs E₀) (δ : ℝ) (hδ : 0 < δ) : ¬ Kept e gs E₀ δ := by
  intro hk
  unfold NoGroundSweep at hyes
  push Not at hyes
  obtain ⟨U, hU, h0, h1⟩ := hyes
  obtain ⟨g, hg, hgU⟩ := exists_gate hn hU
  obtain ⟨eigh, he⟩ := exists_validEigh n
  have hv : ExactValid { eta := .float e } 40 e (.fin 1e-3) false false false false :=
    ⟨rfl, by norm_num, rfl, he0, he1, ⟨rfl, by norm_num⟩, rfl, rfl, rfl, by simp, rfl⟩
  obtain ⟨out, hout⟩ := (C44_succeeds_iff eigh (fun _ => 0) .state gs { eta := .float e } [g]).mpr ⟨rfl, 40, e, _, false, false, false, false, hv⟩
  obtain ⟨-, N, e', t, rs, p, rp, ru, hv', V, W, m, r, hc0, hrun, rfl, -, hcost, -, -⟩ := exact_outcome eigh _ _ _ gs _ out hout
  have hee : e' = e := PyVal.float.inj (hv'.eta.symm.trans hv.eta)
  subst hee
  have hm : 1 ≤ m := by
    rcases hrun.ended with h | ⟨-, k, rfl, -⟩
    · rw [h]; exact hv'.pos
    · omega
  have hV0 : V 0 = U := by
    have := compileLoop_gates [g] 1
    rw [List.map_cons, List.map_nil, List.foldl_cons, List.foldl_nil, hgU, mul_one] at this
    exact Except.ok.inj (hc0.symm.trans this)
  have hV1 : V 1 = sweep e' gs U := by
    have := hrun.advance 0 (by omega)
    rw [hrun.start, hV0] at this
    exact Except.ok.inj (Eq.trans (Eq.symm this) (exactUpdates_sweep he e' gs U))
  have hget : ∀ k ≤ m, (exactCosts (exactOutput r rs rp ru))[k]? = some (cost (totalObs gs) (V k)) := by
    intro k hk
    rw [exactOutput_costs, hcost]
    simp [show k < m + 1 by omega]
  rcases hk eigh _ _ (V 0) _ _ he hc0 (by rw [hV0]; exact hU) hv.eta rfl hout 0 _ _ (hget 0 (by omega)) (hget 1 hm) with h | h
  · rw [hV0, h0] at h; linarith
  · rw [hV1, h1] at h; linarith

/-- C135.  The exact criterion: some distance `δ` from the smallest cost is never kept for two costs in a row, in any run, if and only if no step takes a ground state to a ground state. -/
theorem C135_criterion (hn : 0 < n) (e : ℝ) (he0 : 0 ≤ e) (he1 : e ≤ 1) (gs : List (Gate n)) (E₀ : ℝ) (hlow : ∀ U : QMat n, Unitary U → E₀ ≤ cost (totalObs gs) U) :
    (∃ δ : ℝ, 0 < δ ∧ Kept e gs E₀ δ) ↔ NoGroundSweep e gs E₀ := by
  refine ⟨fun ⟨δ, hδ, hk⟩ => ?_, C135_gap e gs E₀ hlow⟩
  by_contra hno
  exact C135_sharp hn e he0 he1 gs E₀ hno δ hδ hk

/-- C135 (commuting observables).  If the observables have a common eigenvector of the smallest cost, there is no such distance. -/
theorem C135_common (hn : 0 < n) (e : ℝ) (he0 : 0 ≤ e) (he1 : e ≤ 1) (gs : List (Gate n)) (hH : ∀ g ∈ gs, g.Aᴴ = g.A) (E₀ : ℝ) (U : QMat n) (hU : Unitary U)
    (h0 : cost (totalObs gs) U = E₀) (hc : CommonEigenstate gs U) (δ : ℝ) (hδ : 0 < δ) : ¬ Kept e gs E₀ δ := by
  refine C135_sharp hn e he0 he1 gs E₀ (fun hno => hno U hU h0 ?_) δ hδ
  obtain ⟨eigh, he⟩ := exists_validEigh n
  rw [← Except.ok.inj ((exactUpdates_eigen he e U gs hH hc).symm.trans (exactUpdates_sweep he e gs U)), h0]

/-! ### Two anticommuting observables -/

/-- After two half steps from the ground state the cost is above the smallest one. -/
theorem rim_leaves (e : ℝ) (hE2 : 0 < e) (hE1 : e ≤ 1) (s : ℝ × ℝ) (hs : s = halfStep e (halfStep e (-Real.cos (Real.pi / 4), -Real.sin (Real.pi / 4)))) : -Real.sqrt 2 < s.1 + s.2 := by
  have hpi := Real.two_le_pi
  have hpi4 := Real.pi_le_four
  have hs2 : 0 < Real.sqrt 2 := by positivity
  have hs2' : Real.sqrt 2 ≤ 3 / 2 := Real.sqrt_le_iff.2 ⟨by norm_num, by norm_num⟩
  have q1 : rimMap e (Real.pi / 4) = Real.pi / 4 + e * (Real.sqrt 2 / 2) := by unfold rimMap; rw [Real.sin_pi_div_four]; ring
  have q1' : 0 < e * (Real.sqrt 2 / 2) := by positivity
  have q1'' : e * (Real.sqrt 2 / 2) ≤ 3 / 4 := by nlinarith
  have hstep : s = (-Real.cos (rimMap e (rimMap e (Real.pi / 4))), -Real.sin (rimMap e (rimMap e (Real.pi / 4)))) := by
    rw [hs, halfStep_rim _ _ (by linarith) (by linarith), halfStep_rim _ _ (by rw [q1]; linarith) (by rw [q1]; linarith)]
  rw [hstep]
  simp only
  rw [rim_cost]
  set δ := rimMap e (rimMap e (Real.pi / 4)) - Real.pi / 4 with hδ
  have hδ' : δ = e * (Real.sin (Real.pi / 4 + e * (Real.sqrt 2 / 2)) - Real.sqrt 2 / 2) := by
    rw [hδ, q1, rimMap]
    ring
  have hpos : 0 < δ := by
    rw [hδ']
    refine mul_pos hE2 (sub_pos.2 ?_)
    suffices h4 : Real.sin (Real.pi / 4) < Real.sin (Real.pi / 4 + e * (Real.sqrt 2 / 2)) by rwa [Real.sin_pi_div_four] at h4
    rcases le_or_gt (Real.pi / 4 + e * (Real.sqrt 2 / 2)) (Real.pi / 2) with h3 | h3
    · exact Real.sin_lt_sin_of_lt_of_le_pi_div_two (by linarith) h3 (by linarith)
    · rw [← Real.sin_pi_sub (Real.pi / 4 + e * (Real.sqrt 2 / 2))]
      exact Real.sin_lt_sin_of_lt_of_le_pi_div_two (by linarith) (by linarith) (by linarith)
  have hle : δ ≤ Real.pi := by
    have := Real.sin_le_one (Real.pi / 4 + e * (Real.sqrt 2 / 2))
    rw [hδ']
    nlinarith
  have h2 : Real.cos δ < 1 := by
    rw [← Real.cos_zero]
    exact Real.cos_lt_cos_of_nonneg_of_le_pi le_rfl hle hpos
  nlinarith

/-- The expectations of two anticommuting involutions in a ground state of their sum. -/
theorem pair_ground {U A B : QMat n} (hU : Unitary U) (hA : Aᴴ = A) (hA2 : A * A = 1) (hB : Bᴴ = B) (hB2 : B * B = 1) (hAB : A * B = -(B * A))
    (h : cost A U + cost B U = -Real.sqrt 2) : cost A U = -Real.cos (Real.pi / 4) ∧ cost B U = -Real.sin (Real.pi / 4) := by
  have hdisc := cost_pair_disc hU hA hA2 hB hB2 hAB
  have hdiff : cost A U - cost B U = 0 := by
    have : (cost A U - cost B U) ^ 2 ≤ 0 := by
      have h3 : (cost A U + cost B U) ^ 2 = 2 := by rw [h, neg_sq, Real.sq_sqrt (by norm_num)]
      nlinarith
    exact pow_eq_zero_iff two_ne_zero |>.1 (le_antisymm this (sq_nonneg _))
  rw [Real.cos_pi_div_four, Real.sin_pi_div_four]
  constructor <;> linarith

theorem sweep_involution (e : ℝ) (g : Gate n) (hA : g.Aᴴ = g.A) (hA2 : g.A * g.A = 1) (U : QMat n) :
    NormedSpace.exp ((-Complex.I * ((e / 2 : ℝ) : ℂ)) • shiftGen (full n g.ws g.A) U) * U = NormedSpace.exp (((e / 2 : ℝ) : ℂ) • riemannGen (full n g.ws g.A) U) * U := by
  obtain ⟨eigh, he⟩ := exists_validEigh n
  have h := C47_riemannian_step eigh he e g hA hA2 U
  rw [exactUpdate_gate, eighExp_eq he e (shiftGen_herm _ _)] at h
  exact Except.ok.inj h

open scoped ComplexOrder in
theorem fixed_of_expect {C : QMat n} (hC : Cᴴ = C) (hC2 : C * C = 1) (φ : Ket n) (h1 : star φ ⬝ᵥ (C *ᵥ φ) = -1) (h2 : star φ ⬝ᵥ φ = 1) : C *ᵥ φ = -φ := by
  have h3 : star (C *ᵥ φ) = star φ ᵥ* C := by rw [Matrix.star_mulVec, hC]
  have h4 : star (φ + C *ᵥ φ) ⬝ᵥ (φ + C *ᵥ φ) = 0 := by
    rw [star_add, add_dotProduct, dotProduct_add, dotProduct_add, h3, ← Matrix.dotProduct_mulVec, ← Matrix.dotProduct_mulVec, Matrix.mulVec_mulVec, hC2, Matrix.one_mulVec, h1, h2]
    norm_num
  exact (neg_eq_of_add_eq_zero_right (dotProduct_star_self_eq_zero.1 h4)).symm

/-- The cost `-1` of an involution belongs to an eigenvector. -/
theorem sector_of_cost {U C : QMat n} (hU : Unitary U) (hC : Cᴴ = C) (hC2 : C * C = 1) (h : cost C U = -1) : InSector C (-1) (fun i => U i 0) := by
  rw [InSector, neg_one_smul]
  refine fixed_of_expect hC hC2 _ (by rw [expect_real U C hC, h]; norm_num) ?_
  have := expect_one hU
  rwa [Matrix.one_mulVec] at this

/-- Two anticommuting involutions and a third one, between them in the list, that commutes with both. -/
structure Trio (gA gC gB : Gate n) : Prop where
  hermA : gA.Aᴴ = gA.A
  sqA : gA.A * gA.A = 1
  hermC : gC.Aᴴ = gC.A
  sqC : gC.A * gC.A = 1
  hermB : gB.Aᴴ = gB.A
  sqB : gB.A * gB.A = 1
  anti : full n gA.ws gA.A * full n gB.ws gB.A = -(full n gB.ws gB.A * full n gA.ws gA.A)
  comA : Commute (full n gC.ws gC.A) (full n gA.ws gA.A)

theorem totalObs_trio (gA gC gB : Gate n) (U : QMat n) : cost (totalObs [gA, gC, gB]) U = cost (full n gA.ws gA.A) U + cost (full n gC.ws gC.A) U + cost (full n gB.ws gB.A) U := by
  simp only [totalObs, List.map_cons, List.map_nil, List.sum_cons, List.sum_nil, add_zero]
  rw [cost_add, cost_add]
  ring

/-- C135 (an example of the condition).  For such a list no step takes a state of cost `-1 - √2` to a state of that cost. -/
theorem C135_trio {gA gC gB : Gate n} (hT : Trio gA gC gB) (e : ℝ) (he0 : 0 < e) (he1 : e ≤ 1) : NoGroundSweep e [gA, gC, gB] (-1 - Real.sqrt 2) := by
  intro U hU h0
  obtain ⟨hA, hA2, hC, hC2, hB, hB2, hAB, hCA⟩ := hT
  have herm : ∀ g : Gate n, g.Aᴴ = g.A → (full n g.ws g.A)ᴴ = full n g.ws g.A := fun g h => by rw [← full_conjTranspose rfl g.valid.2, h]
  have sq : ∀ g : Gate n, g.A * g.A = 1 → full n g.ws g.A * full n g.ws g.A = 1 := fun g h => by rw [← full_mul rfl g.valid, h, full_one rfl g.valid]
  have e0 : sweep e [gA, gC, gB] U = NormedSpace.exp ((-Complex.I * ((e / 2 : ℝ) : ℂ)) • shiftGen (full n gB.ws gB.A)
      (NormedSpace.exp ((-Complex.I * ((e / 2 : ℝ) : ℂ)) • shiftGen (full n gC.ws gC.A) (NormedSpace.exp ((-Complex.I * ((e / 2 : ℝ) : ℂ)) • shiftGen (full n gA.ws gA.A) U) * U)) *
        (NormedSpace.exp ((-Complex.I * ((e / 2 : ℝ) : ℂ)) • shiftGen (full n gA.ws gA.A) U) * U))) *
      (NormedSpace.exp ((-Complex.I * ((e / 2 : ℝ) : ℂ)) • shiftGen (full n gC.ws gC.A) (NormedSpace.exp ((-Complex.I * ((e / 2 : ℝ) : ℂ)) • shiftGen (full n gA.ws gA.A) U) * U)) *
        (NormedSpace.exp ((-Complex.I * ((e / 2 : ℝ) : ℂ)) • shiftGen (full n gA.ws gA.A) U) * U)) := rfl
  have hcA := (cost_involution_bounds hU (herm _ hC) (sq _ hC2)).1
  have hpair := C103_smallest hU (herm _ hA) (sq _ hA2) (herm _ hB) (sq _ hB2) hAB
  rw [cost_add] at hpair
  rw [totalObs_trio] at h0 ⊢
  have hc1 : cost (full n gC.ws gC.A) U = -1 := by linarith
  obtain ⟨ga, gb⟩ := pair_ground hU (herm _ hA) (sq _ hA2) (herm _ hB) (sq _ hB2) hAB (by linarith)
  have hsec := sector_of_cost hU (herm _ hC) (sq _ hC2) hc1
  have hsec1 : InSector (full n gC.ws gC.A) (-1) (fun i => (NormedSpace.exp ((-Complex.I * ((e / 2 : ℝ) : ℂ)) • shiftGen (full n gA.ws gA.A) U) * U) i 0) := by
    rw [mul_column]
    exact exp_sector (shiftGen_sector hCA hsec) hsec
  rw [e0]
  set V := NormedSpace.exp ((-Complex.I * ((e / 2 : ℝ) : ℂ)) • shiftGen (full n gA.ws gA.A) U) * U with hV
  have hstop : shiftGen (full n gC.ws gC.A) V = 0 := shiftGen_eigen (herm _ hC) (c := -1) hsec1
  rw [hstop, smul_zero, NormedSpace.exp_zero, one_mul, sweep_involution e gB hB hB2]
  rw [sweep_involution e gA hA hA2] at hV
  obtain ⟨hVu, hVs⟩ := pair_step hU (herm _ hA) (sq _ hA2) (herm _ hB) (sq _ hB2) hAB e
  rw [← hV, ga, gb] at hVs
  rw [← hV] at hVu
  obtain ⟨hWu, hWs⟩ := pair_step hVu (herm _ hB) (sq _ hB2) (herm _ hA) (sq _ hA2) (by rw [hAB, neg_neg]) e
  rw [hVs] at hWs
  have hfin := rim_leaves e he0 he1 _ hWs
  have := (cost_involution_bounds hWu (herm _ hC) (sq _ hC2)).1
  simp only at hfin
  intro hcon
  linarith

end Oranssi
