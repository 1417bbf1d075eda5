import Verif.Props.CommutatorStep
import Verif.Props.ApproxTotal
import Verif.Props.ExactRefute

/-! # C75: the hypotheses are met -/

namespace Oranssi
open Spec
open scoped Matrix

theorem customLayer_default {n : ℕ} (gs : List (Gate n)) (D : List String) (hD : ∀ d ∈ D, d ∈ (allWords [1, 2]).map letterStr) :
    ∃ L, customLayer n (gs.map Gate.obs) (some D) {} = .ok L ∧ L.eta = 0.1 ∧ L.trotterize = false := by
  obtain ⟨a, ha, hf, hd, -⟩ := algebraSU4_getAll n
  have he : validateEta (.float 0.1) = .ok 0.1 := (validateEta_iff _ _).2 ⟨rfl, by norm_num, by norm_num⟩
  rw [customLayer, promoteAll_gates, ha]
  simp only [bind, Except.bind, pyAssert, hd, hf, if_pos hD, validateBool, Option.getD_none]
  simp only [he]
  exact ⟨_, rfl, rfl, rfl⟩

/-- Hypotheses of C75: one qubit, all directions, the observable `Z`, a circuit that is not stationary; both runs exist. -/
example (rnd : ℕ → Matrix (Fin (2 ^ 1)) (Fin (2 ^ 1)) ℝ) : ∃ (E : LayerEnv 1) (eigh : EighFn 1) (L : CustomLayer 1) (D : List String),
    ValidSvd E.svd ∧ ValidEigh eigh ∧ (∀ w ∈ allWords [1, 2], letterStr w ∈ D) ∧ customLayer 1 [gateZ.obs] (some D) {} = .ok L ∧ L.trotterize = false ∧
    (∃ out, exactLieOptimizer eigh rnd .state ([rotGate0 1].map (fun g => (g.obs.matrix, g.obs.wires))) [gateZ.obs] { nsteps := .int (20 : ℕ), eta := .float (2 * L.eta) } = .ok out) ∧
    ∃ out, approximateLieOptimizer E eigh rnd .state ([rotGate0 1].map (fun g => (g.obs.matrix, g.obs.wires))) [] [gateZ.obs] (fun _ : Fin 1 => .custom L) [0]
      { nsteps := .int (20 : ℕ) } = .ok out := by
  obtain ⟨svd, hsvd⟩ := exists_validSvd 1
  obtain ⟨eigh, heigh⟩ := exists_validEigh 1
  obtain ⟨L, hL, hLe, hLt⟩ := customLayer_default [gateZ] ((allWords [1, 2]).map letterStr) (fun d hd => hd)
  let E : LayerEnv 1 := ⟨svd, ⟨List.reverse, List.reverse_perm⟩, fun _ _ p => .ok p⟩
  refine ⟨E, eigh, L, _, hsvd, heigh, fun w hw => List.mem_map.2 ⟨w, hw, rfl⟩, hL, hLt, ?_, ?_⟩
  · refine (C44_succeeds_iff eigh rnd .state [gateZ] _ [rotGate0 1]).mpr ⟨rfl, 20, 2 * L.eta, .fin 1e-3, false, false, false, false,
      rfl, by norm_num, rfl, ?_, ?_, ⟨rfl, by norm_num⟩, rfl, rfl, rfl, by simp, rfl⟩
    · rw [hLe]; norm_num
    · rw [hLe]; norm_num
  · exact (C50_total_layers E hsvd eigh rnd .state [rotGate0 1] [] [gateZ] _ [0] _ (List.cons_ne_nil _ _)
      (fun _ => .custom [gateZ] (by simpa using gateZ_herm) _ {} L hL (.inl ⟨letterStr [.X], List.mem_map.2 ⟨[.X], by decide, rfl⟩, by decide⟩)) rfl).mpr
      ⟨rfl, 20, 0.1, some (.fin 1e-3), _, approxValid_of 20 (by norm_num) (some (.float 1e-3)) (some (.fin 1e-3)) ⟨rfl, by norm_num⟩ ⟨false, false, false, false, false, false, false⟩⟩

end Oranssi
