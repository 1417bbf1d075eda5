import Verif.Props.Adapt
import Verif.Props.ParamShift
import Verif.Props.RunUnitary

/-! # C78: what a step of `approximate_lie_optimizer` with an `AdaptVQELayer` does -/

namespace Oranssi
open Spec
open scoped Matrix

variable {n : ℕ}

theorem psCost_ok {P : Type} {circuit : P → Py (List (NpMat × List ℤ))} {gs : List (Gate n)} {p : P} {c : ℝ}
    (h : psCost n circuit (gs.map Gate.obs) p = .ok c) : ∃ U, circuitUnitary n circuit p = .ok U ∧ c = cost (totalObs gs) U := by
  rw [psCost] at h
  cases hU : circuitUnitary n circuit p with
  | error x => rw [hU] at h; cases h
  | ok U =>
    rw [hU] at h
    replace h : totalCost U (gs.map Gate.obs) = .ok c := h
    rw [totalCost_gates] at h
    exact ⟨U, rfl, (Except.ok.inj h).symm⟩

/-- The inner run of an `AdaptVQELayer`. -/
theorem psForAdapt_inv {E : LayerEnv n} {gs : List (Gate n)} {circuit : List (List ℝ) → Py (List (NpMat × List ℤ))} {params : List (List ℝ)} {out : List (List (List ℝ))}
    (h : psForAdapt E (gs.map Gate.obs) circuit params = .ok out) :
    ∃ (θ : ℕ → List (List ℝ)) (W : ℕ → QMat n) (m : ℕ), m ≤ 40 ∧ θ 0 = params ∧
      (∀ j < m, E.gd 0.01 (psCost n circuit (gs.map Gate.obs)) (θ j) = .ok (θ (j + 1))) ∧ (∀ j ≤ m, circuitUnitary n circuit (θ j) = .ok (W j)) ∧
      (∀ j, 3 ≤ j → j + 1 < m → ¬ Close (some 1e-5) (cost (totalObs gs) (W (j + 1))) (cost (totalObs gs) (W j))) ∧
      (m = 40 ∨ ∃ j, 3 ≤ j ∧ m = j + 1 ∧ Close (some 1e-5) (cost (totalObs gs) (W (j + 1))) (cost (totalObs gs) (W j))) ∧
      out = (List.range (m + 1)).map θ := by
  rw [psForAdapt] at h
  cases hp : parameterShiftOptimizer (n := n) E.gd .nothing circuit params (gs.map Gate.obs) { eta := .float 0.01, tol := .float 1e-5, returnParams := .int 1 } with
  | error x => rw [hp] at h; cases h
  | ok r =>
    rw [hp] at h
    simp only [bind, Except.bind] at h
    obtain ⟨N, e, t, θ, m, hN, he, ht, h0, hm, hgd, hlen, hcost, -, hps, hnf, hstop⟩ := C55_trace E.gd _ _ _ _ _ _ true rfl hp
    obtain rfl : N = 40 := by
      have : (40 : ℤ) = (N : ℤ) := NArg.int.inj hN
      omega
    obtain rfl := PyVal.float.inj he
    have htol : t = .fin 1e-5 := by
      cases t with
      | fin y => rw [PyVal.float.inj ht.1.symm]
      | inf => cases ht
    subst htol
    have hout : out = (List.range (m + 1)).map θ := by
      have := hps rfl
      split at h
      · obtain rfl := Except.ok.inj h
        simpa [psParams] using this
      · cases h
    choose! W hW1 hW2 using fun j (hj : j ≤ m) => psCost_ok (hcost j hj)
    refine ⟨θ, W, m, hm, h0, hgd, hW1, fun j h3 hj hcl => hnf j h3 hj ?_, ?_, hout⟩
    · rw [hW2 (j + 1) (by omega), hW2 j (by omega)]
      exact hcl
    · rcases hstop with hstop | ⟨j, h3, h4, h5, hcl⟩
      · exact .inl hstop
      · rw [hW2 (j + 1) (by omega), hW2 j (by omega)] at hcl
        exact .inr ⟨j, h3, h5, hcl⟩

theorem getItem_range_last {α : Type} (θ : ℕ → α) (m : ℕ) : pyGetItem ((List.range (m + 1)).map θ) (-1) = .ok (θ m) := by
  rw [pyGetItem]
  simp [pyIndex]

/-- C78.  A successful call of an `AdaptVQELayer` in `approximate_lie_optimizer`: the layer selected is appended; the parameters given, with one further
row of `n` angles 0.1, are improved by at most 40 gradient-descent steps with step size 0.01 for the sum of the observables, stopped at the first step from
the fourth on that changes the cost by no more than the tolerance 1e-5 (in the sense of `numpy.isclose`); the parameters returned are the last ones, the
circuit returned is the layers' circuit with these, so that its cost is the last cost of the inner run. -/
theorem C78_adapt_step (E : LayerEnv n) (gs : List (Gate n)) (L : AdaptLayer n) (hL : L.observables = gs.map Gate.obs) (params params' : List (List ℝ))
    (U V : QMat n) (L' : AnyLayer n) (h : (AnyLayer.adapt L).call E params U = .ok (V, params', L')) :
    ∃ (k : String × Parity) (θ : ℕ → List (List ℝ)) (W : ℕ → QMat n) (m : ℕ), L.select U = .ok k ∧
      L' = .adapt { L with layers := L.layers ++ [k], previousDirection := some k.1 } ∧ m ≤ 40 ∧ θ 0 = params ++ [List.replicate n 0.1] ∧
      (∀ j < m, E.gd 0.01 (psCost n (circuitVqe n (L.layers ++ [k])) (gs.map Gate.obs)) (θ j) = .ok (θ (j + 1))) ∧
      (∀ j ≤ m, circuitUnitary n (circuitVqe n (L.layers ++ [k])) (θ j) = .ok (W j)) ∧
      (∀ j, 3 ≤ j → j + 1 < m → ¬ Close (some 1e-5) (cost (totalObs gs) (W (j + 1))) (cost (totalObs gs) (W j))) ∧
      (m = 40 ∨ ∃ j, 3 ≤ j ∧ m = j + 1 ∧ Close (some 1e-5) (cost (totalObs gs) (W (j + 1))) (cost (totalObs gs) (W j))) ∧
      params' = θ m ∧ V = W m := by
  rw [AnyLayer.call] at h
  cases hc : L.call (psForAdapt E L.observables) params U with
  | error x => rw [hc] at h; cases h
  | ok r =>
    obtain ⟨V', last, L₂⟩ := r
    rw [hc] at h
    replace h : (Except.ok (V', last, AnyLayer.adapt L₂) : Py _) = .ok (V, params', L') := h
    obtain ⟨rfl, h2⟩ := Prod.mk.inj (Except.ok.inj h)
    obtain ⟨rfl, rfl⟩ := Prod.mk.inj h2
    rw [AdaptLayer.call] at hc
    cases hk : L.select U with
    | error x => rw [hk] at hc; cases hc
    | ok k =>
      rw [hk] at hc
      simp only [bind, Except.bind] at hc
      rw [hL] at hc
      cases ho : psForAdapt E (gs.map Gate.obs) (circuitVqe n (L.layers ++ [k])) (params ++ [List.replicate n 0.1]) with
      | error x => rw [ho] at hc; cases hc
      | ok out =>
        rw [ho] at hc
        dsimp only at hc
        obtain ⟨θ, W, m, hm, h0, hgd, hW, hnf, hstop, rfl⟩ := psForAdapt_inv ho
        rw [getItem_range_last] at hc
        dsimp only at hc
        have hWm := hW m le_rfl
        rw [circuitUnitary] at hWm
        cases hg : circuitVqe n (L.layers ++ [k]) (θ m) with
        | error x => rw [hg] at hc; cases hc
        | ok gates =>
          rw [hg] at hc hWm
          replace hWm : compileLoop n gates 1 = .ok (W m) := hWm
          simp only [hWm] at hc
          obtain ⟨rfl, hc2⟩ := Prod.mk.inj (Except.ok.inj hc)
          obtain ⟨rfl, rfl⟩ := Prod.mk.inj hc2
          exact ⟨k, θ, W, m, rfl, by rw [hL], hm, h0, hgd, hW, hnf, hstop, rfl, rfl⟩

end Oranssi
