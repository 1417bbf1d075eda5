import Verif.Model.ToyScript
import Verif.Props.ToyExample
import Verif.Props.GroundGap
import Verif.Props.ApproxExampleScript

/-! # C136: the figure of toy_example.py -/

namespace Oranssi
open Spec
open scoped Matrix

theorem toyScriptObservables_eq : toyScriptObservables = toyObservables.map Gate.obs := by
  have hY : npY = npQ (pauliWord ([Letter.Y] : List Letter).get) := by
    have : npY = npQ (tensor (fun _ : Fin 1 => Letter.Y.mat)) := npLetter_eq .Y
    rw [this]
    exact tensor_congr_npQ rfl _ _ (fun i => by fin_cases i; rfl)
  rw [toyScriptObservables, npX_word, hY]
  rfl

theorem toy_trio : Trio (siteObs (n := 2) 1 (by omega) .X) (siteObs 0 (by omega) .X) (siteObs 1 (by omega) .Y) := by
  refine ⟨pauliWord_herm _, pauliWord_sq _, pauliWord_herm _, pauliWord_sq _, pauliWord_herm _, pauliWord_sq _, ?_, ?_⟩
  · rw [siteObs_full, siteObs_full, word_site _ _ 1 (by omega), placed_one, if_pos rfl]
    simp [letterSign]
  · rw [siteObs_full, siteObs_full, Commute, SemiconjBy, word_site _ _ 1 (by omega), placed_one, if_neg (by simp)]
    simp [letterSign]

theorem toy_smallest (U : QMat 2) (hU : Unitary U) : -1 - Real.sqrt 2 ≤ cost (totalObs toyObservables) U := by
  rw [toyObservables_total]
  exact (C104_minimum le_rfl).1 U hU

/-- C136.  With the observables of the script no run of `exact_lie_optimizer` converges to the dashed line, whatever the circuit, the step size and the number of steps:
for every step size there is a distance within which two costs in a row never both are. -/
theorem C136_never (e : ℝ) (he0 : 0 < e) (he1 : e ≤ 1) : ∃ δ : ℝ, 0 < δ ∧ Kept e toyObservables (-1 - Real.sqrt 2) δ :=
  C135_gap e toyObservables _ toy_smallest (C135_trio toy_trio e he0 he1)

theorem toyUnitary_unitary (a b : ℝ) : Unitary (toyUnitary 2 a b) := by
  have hc : Unitary (full 2 [0, 1] cnot : QMat 2) := by
    change (full 2 [0, 1] cnot : QMat 2)ᴴ * full 2 [0, 1] cnot = 1
    rw [← full_conjTranspose rfl (pair_valid le_rfl).2, ← full_mul rfl (pair_valid le_rfl)]
    rw [show (cnotᴴ * cnot : QMat 2) = 1 by
      ext i j
      refine four_cases (P := fun i j => (cnotᴴ * cnot : QMat 2) i j = (1 : QMat 2) i j) ?_ i j
      intro i hi j hj
      simp only [Matrix.mul_apply, sum_four, Matrix.conjTranspose_apply]
      fin_cases hi <;> fin_cases hj <;> simp [cnot], full_one rfl (pair_valid le_rfl)]
  exact Unitary.mul (rotOp_unitary _ _ _) (Unitary.mul (rotOp_unitary _ _ _) (Unitary.mul hc (Unitary.mul (rotOp_unitary _ _ _) (Unitary.mul (rotOp_unitary _ _ _) epCircuit_unitary))))

theorem toy_ps_ok {gd : ℝ → (List ℝ → Py ℝ) → List ℝ → Py (List ℝ)} (hgd : ValidGdList gd) :
    ∃ out, parameterShiftOptimizer (n := 2) gd .nothing toyCircuit [0.1, 1.2] (toyObservables.map Gate.obs) { eta := .float 0.5 } = .ok out := by
  have hstep : ∀ (e : ℝ) (p : List ℝ), p.length = 2 → ∃ q, gd e (psCost 2 toyCircuit (toyObservables.map Gate.obs)) p = .ok q ∧ q.length = 2 := by
    intro e p hp
    have hd : ∀ i < p.length, DifferentiableAt ℝ (fun t => (fun p : List ℝ => Real.cos (p.getD 0 0) * (Real.cos (p.getD 0 0 + p.getD 1 0) + Real.cos (p.getD 1 0) +
        Real.sin (p.getD 1 0))) (p.set i t)) (p.getD i 0) := by
      intro i hi
      match p, hp with
      | [x, y], _ =>
        have : i = 0 ∨ i = 1 := by simp at hi; omega
        rcases this with rfl | rfl
        · simp only [List.set_cons_zero, List.getD_cons_zero, List.getD_cons_succ]
          fun_prop
        · simp only [List.set_cons_zero, List.set_cons_succ, List.getD_cons_zero, List.getD_cons_succ]
          fun_prop
    obtain ⟨q, h1, h2, -⟩ := hgd e (psCost 2 toyCircuit (toyObservables.map Gate.obs)) _ p (fun p' hp' => (C110_cost _ _).2 ⟨by omega, rfl⟩) hd
    exact ⟨q, h1, h2.trans hp⟩
  exact ps_succeeds (n := 2) (fun p : List ℝ => p.length = 2) (gd := gd) (circuit := toyCircuit) (gs := toyObservables) (params := [0.1, 1.2]) rfl
    (fun p hp => ⟨_, toy_unitary p (by omega)⟩) hstep (args := { eta := .float 0.5 })
    (N := 40) (e := 0.5) (t := .fin 1e-3) (rs := false) ⟨rfl, by norm_num, rfl, by norm_num, by norm_num, ⟨rfl, by norm_num⟩, rfl⟩ false rfl

theorem exact_succeeds_of {n : ℕ} (eigh : EighFn n) (rnd : ℕ → Matrix (Fin (2 ^ n)) (Fin (2 ^ n)) ℝ) (gs : List (Gate n)) {ops : List (NpMat × List ℤ)} {U : QMat n} (hU : compileLoop n ops 1 = .ok U)
    {args : ExactArgs} {N : ℕ} {e : ℝ} {t : Tol} {rs p rp ru : Bool} (hv : ExactValid args N e t rs p rp ru) :
    ∃ out, exactLieOptimizer eigh rnd .state ops (gs.map Gate.obs) args = .ok out := by
  obtain ⟨s, hs⟩ := forRange_total (exactBody eigh rnd (gs.map Gate.obs) e t rs p) (fun k s => s.costs.length = k + 1)
    (fun k s hl => exactBody_total eigh rnd gs e t rs p k s hl) N 0 (exactInit gs rs U) rfl
  exact ⟨_, (exact_ok_iff ..).mpr ⟨rfl, N, e, t, rs, p, rp, ru, hv, U, s, hU, hs, rfl⟩⟩

/-- The bound of the distance between the curve `Lie` and the dashed line in the script, for the step size 0.5. -/
theorem toy_distance : ∃ δ : ℝ, 0 < δ ∧ Kept 0.5 toyObservables (-1 - Real.sqrt 2) δ := C136_never 0.5 (by norm_num) (by norm_num)

/-- C136.  toy_example.py runs to its end.  The dashed line is at the smallest eigenvalue `-1 - √2` and as long as the longer curve; the two curves begin at the same cost; the parameter-shift curve stays
at or above -2.28, and two neighbouring points of the curve `Lie` are never both within `δ` of the line, for a `δ > 0` that depends on nothing. -/
theorem C136_script : ∃ δ : ℝ, 0 < δ ∧ ∀ {eigh : EighFn 2} (_ : ValidEigh eigh) (rnd : ℕ → Matrix (Fin (2 ^ 2)) (Fin (2 ^ 2)) ℝ) {gd : ℝ → (List ℝ → Py ℝ) → List ℝ → Py (List ℝ)} (_ : ValidGdList gd)
    (fs : List OutFile), ∃ F : ToyFigure, toyScript eigh rnd gd fs = (.ok F, fs ++ [.figure "two_observable_local_lie_optimizers_ps_nq_2_0.500"]) ∧
      F.minimum = List.replicate (max F.lie.length F.ps.length) (-1 - Real.sqrt 2) ∧ 2 ≤ F.ps.length ∧ F.ps.length ≤ 41 ∧ 2 ≤ F.lie.length ∧ F.lie.length ≤ 41 ∧
      F.ps[0]? = some (Real.cos 0.1 * (Real.cos 1.3 + Real.cos 1.2 + Real.sin 1.2)) ∧ F.lie[0]? = F.ps[0]? ∧
      (∀ c ∈ F.ps, -2.28 ≤ c) ∧ (∀ c ∈ F.lie, -1 - Real.sqrt 2 ≤ c) ∧
      ∀ (k : ℕ) (c c' : ℝ), F.lie[k]? = some c → F.lie[k + 1]? = some c' → -1 - Real.sqrt 2 + δ ≤ c ∨ -1 - Real.sqrt 2 + δ ≤ c' := by
  obtain ⟨δ, hδ, hkept⟩ := toy_distance
  refine ⟨δ, hδ, ?_⟩
  intro eigh he rnd gd hgd fs
  obtain ⟨outP, hP⟩ := toy_ps_ok hgd
  have hops : toyCircuit [0.1, 1.2] = .ok (toyGates 0.1 1.2) := by simp [toyCircuit, pyGetItem, pyIndex, bind, Except.bind]
  have hcomp := toy_compile (n := 2) le_rfl 0.1 1.2
  have hvE : ExactValid { eta := .float 0.5 } 40 0.5 (.fin 1e-3) false false false false :=
    ⟨rfl, by norm_num, rfl, by norm_num, by norm_num, ⟨rfl, by norm_num⟩, rfl, rfl, rfl, by simp, rfl⟩
  obtain ⟨outE, hE⟩ := exact_succeeds_of eigh rnd toyObservables hcomp hvE
  obtain ⟨-, N, e, t, rs, hv, V, m, r, hV0, hrun, hout, hlen, hcost, -, -⟩ := ps_outcome gd _ _ _ _ _ outP false rfl hP
  obtain rfl : rs = false := BoolArg.bool.inj (hv.flagS.symm.trans rfl)
  obtain ⟨-, N', e', t', rs', p', rp', ru', hv', V', W, m', r', hc0, hrun', hout', -, hcost', -, -⟩ := exact_outcome eigh _ _ _ _ _ outE hE
  obtain rfl : rs' = false := BoolArg.bool.inj (hv'.flagS.symm.trans rfl)
  obtain rfl : rp' = false := BoolArg.bool.inj (hv'.flagR.symm.trans rfl)
  obtain rfl : ru' = false := BoolArg.bool.inj (hv'.flagU.symm.trans rfl)
  obtain rfl : p' = false := BoolArg.bool.inj (hv'.flagP.symm.trans rfl)
  have hbP : outP = .bare r.costs := hout
  have hbE : outE = .bare r'.costs := hout'
  have hmin : minEigenvalue eigh (totalObs toyObservables) = -1 - Real.sqrt 2 := by
    obtain ⟨U, hU, hc⟩ := (C104_minimum (n := 2) le_rfl).2
    rw [← toyObservables_total] at hc
    exact minEigenvalue_eq he (totalObs_herm _ (by
      intro g hg
      simp only [toyObservables, List.mem_cons, List.not_mem_nil, or_false] at hg
      rcases hg with rfl | rfl | rfl <;> exact pauliWord_herm _)) toy_smallest hU hc
  have hN : N = 40 := by
    have := hv.nsteps
    have h2 : ((40 : ℤ)) = (N : ℤ) := NArg.int.inj this
    omega
  have hN' : N' = 40 := by
    have := hv'.nsteps
    have h2 : ((40 : ℤ)) = (N' : ℤ) := NArg.int.inj this
    omega
  have hm : 1 ≤ m ∧ m ≤ 40 := by
    refine ⟨?_, hN ▸ hrun.bounded⟩
    rcases hrun.ended with h | ⟨-, k, rfl, -⟩
    · rw [h]; exact hv.pos
    · omega
  have hm' : 1 ≤ m' ∧ m' ≤ 40 := by
    refine ⟨?_, hN' ▸ hrun'.bounded⟩
    rcases hrun'.ended with h | ⟨-, k, rfl, -⟩
    · rw [h]; exact hv'.pos
    · omega
  have hl' : r'.costs.length = m' + 1 := by rw [hcost']; simp
  have hV0' : V' 0 = toyUnitary 2 0.1 1.2 := Except.ok.inj (hc0.symm.trans hcomp)
  have hun := exact_run_unitary he hrun' (by rw [hV0']; exact toyUnitary_unitary _ _)
  have hstart : cost (totalObs toyObservables) (toyUnitary 2 0.1 1.2) = Real.cos 0.1 * (Real.cos 1.3 + Real.cos 1.2 + Real.sin 1.2) := by
    rw [toyObservables_total, v2Observables_total, cost_add, cost_add, toy_cost_x0, toy_cost_x1, toy_cost_y1, show (1.3 : ℝ) = 0.1 + 1.2 by norm_num]
    ring
  have hp0 : r.costs[0]? = some (Real.cos 0.1 * (Real.cos 1.3 + Real.cos 1.2 + Real.sin 1.2)) := by
    obtain ⟨c, h1, h2⟩ := hcost 0 (by omega)
    rw [hV0] at h1
    have := ((C110_cost _ _).1 h1).2
    simp only [List.getD_cons_zero, List.getD_cons_succ] at this
    rw [h2, this, show (1.3 : ℝ) = 0.1 + 1.2 by norm_num]
  have hl0 : r'.costs[0]? = some (Real.cos 0.1 * (Real.cos 1.3 + Real.cos 1.2 + Real.sin 1.2)) := by
    rw [hcost', ← hstart, ← hV0']
    simp
  refine ⟨⟨r.costs, r'.costs, List.replicate (max r'.costs.length r.costs.length) (minEigenvalue eigh (totalObs toyObservables))⟩, ?_, ?_, ?_, ?_, ?_, ?_, hp0, hl0.trans hp0.symm, ?_, ?_, ?_⟩
  · have hH : getHamiltonianMatrix 2 (toyObservables.map Gate.obs) none = .ok (totalObs toyObservables) := C08_hamiltonian_default 2 toyObservables
    rw [toyScript]
    simp only [toyScriptObservables_eq]
    rw [Script.bind_ok (Script.call_ok hP _), Script.bind_ok (Script.call_ok (show bareCosts outP = .ok r.costs by rw [hbP]; rfl) _), Script.bind_ok (Script.call_ok hH _),
      Script.bind_ok (Script.call_ok hops _), Script.bind_ok (Script.call_ok hE _), Script.bind_ok (Script.call_ok (show bareCosts outE = .ok r'.costs by rw [hbE]; rfl) _),
      Script.bind_ok (Script.write_ok _ _)]
    rfl
  · simp only [hmin]
  · simp only; omega
  · simp only; omega
  · simp only; omega
  · simp only; omega
  · have := (C110_refuted false rfl hP).1
    rw [hbP] at this
    exact this
  · intro c hc
    simp only [hcost'] at hc
    obtain ⟨k, hk, rfl⟩ := List.mem_map.1 hc
    exact toy_smallest _ (hun k (by have := List.mem_range.1 hk; omega)).1
  · intro k c c' h1 h2
    refine hkept eigh rnd _ _ _ outE he hcomp (toyUnitary_unitary _ _) rfl rfl hE k c c' ?_ ?_
    · rw [hbE]; exact h1
    · rw [hbE]; exact h2

/-- The hypotheses of `C136_script` can be met. -/
example : ∃ (eigh : EighFn 2) (gd : ℝ → (List ℝ → Py ℝ) → List ℝ → Py (List ℝ)), ValidEigh eigh ∧ ValidGdList gd ∧ ∃ F fs, toyScript eigh (fun _ => 0) gd [] = (.ok F, fs) := by
  obtain ⟨eigh, he⟩ := exists_validEigh 2
  obtain ⟨gd, hgd⟩ := exists_validGdList
  obtain ⟨δ, -, h⟩ := C136_script
  obtain ⟨F, hF, -⟩ := h he (fun _ => 0) hgd []
  exact ⟨eigh, gd, he, hgd, F, _, hF⟩

/-- The criterion of C135 on both sides: X and Y on one qubit meet the condition with a third observable on another qubit, `Z` alone does not. -/
example : NoGroundSweep 0.5 toyObservables (-1 - Real.sqrt 2) ∧ ¬ NoGroundSweep 0.5 [siteObs (n := 1) 0 (by omega) .Z] 1 := by
  refine ⟨C135_trio toy_trio 0.5 (by norm_num) (by norm_num), fun h => ?_⟩
  have hz : cost (totalObs [siteObs (n := 1) 0 (by omega) .Z]) 1 = 1 := by
    rw [show totalObs [siteObs (n := 1) 0 (by omega) .Z] = pauliWord (placed 1 [.Z] [0]) by simp [totalObs, siteObs_full]]
    simp [cost, pauliWord, tensor, placed, Letter.mat, dotProduct, Matrix.mulVec, Matrix.one_apply, bit]
  refine h 1 (by simp [Unitary]) hz ?_
  obtain ⟨eigh, he⟩ := exists_validEigh 1
  have := exactUpdates_eigen he 0.5 1 [siteObs (n := 1) 0 (by omega) .Z] (by intro g hg; rw [List.mem_singleton.1 hg]; exact pauliWord_herm _) ?_
  · rw [← Except.ok.inj (this.symm.trans (exactUpdates_sweep he 0.5 _ _)), hz]
  · intro g hg
    rw [List.mem_singleton.1 hg]
    refine ⟨1, ?_⟩
    rw [siteObs_full]
    funext i
    fin_cases i <;> simp [pauliWord, tensor, placed, Letter.mat, Matrix.mulVec, dotProduct, Matrix.one_apply, bit]

end Oranssi
