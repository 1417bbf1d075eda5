import Verif.Spec.Spectrum
import Verif.Props.RunUnitary
import Verif.Props.ParamShift

/-! # C73: the variational principle for the reported costs -/

namespace Oranssi
open Spec
open scoped Matrix

variable {n m : ℕ}

/-- The energy of a state in terms of the eigenvalues. -/
theorem energy_eigen {H V : QMat n} {S : Fin (2 ^ n) → ℝ} (hH : H = V * Matrix.diagonal (fun i => ((S i : ℝ) : ℂ)) * Vᴴ) (φ : Ket n) :
    star φ ⬝ᵥ (H *ᵥ φ) = ((∑ i, S i * Complex.normSq ((Vᴴ *ᵥ φ) i) : ℝ) : ℂ) := by
  have h1 : star φ ⬝ᵥ (H *ᵥ φ) = star (Vᴴ *ᵥ φ) ⬝ᵥ (Matrix.diagonal (fun i => ((S i : ℝ) : ℂ)) *ᵥ (Vᴴ *ᵥ φ)) := by
    rw [hH, ← Matrix.mulVec_mulVec, ← Matrix.mulVec_mulVec, Matrix.star_mulVec, Matrix.conjTranspose_conjTranspose, ← Matrix.dotProduct_mulVec]
  rw [h1, dotProduct]
  push_cast
  refine Finset.sum_congr rfl fun i _ => ?_
  rw [Matrix.mulVec_diagonal, Pi.star_apply, Complex.star_def, Complex.normSq_eq_conj_mul_self]
  ring

theorem norm_eigen {V : QMat n} (hV : Vᴴ * V = 1) (φ : Ket n) : star φ ⬝ᵥ φ = ((∑ i, Complex.normSq ((Vᴴ *ᵥ φ) i) : ℝ) : ℂ) := by
  have hV' : V * Vᴴ = 1 := mul_eq_one_comm.1 hV
  have := energy_eigen (H := 1) (V := V) (S := fun _ => 1) (by simp [hV']) φ
  simpa using this

theorem eigen_col {H V : QMat n} {S : Fin (2 ^ n) → ℝ} (hV : Vᴴ * V = 1) (hH : H = V * Matrix.diagonal (fun i => ((S i : ℝ) : ℂ)) * Vᴴ) (i : Fin (2 ^ n)) :
    IsEigenvalue H (S i) := by
  refine ⟨fun j => V j i, ?_, ?_⟩
  · intro hc
    have h := congrFun (congrFun hV i) i
    rw [Matrix.mul_apply, Matrix.one_apply_eq] at h
    simp only [show ∀ j, V j i = 0 from fun j => congrFun hc j, mul_zero, Finset.sum_const_zero] at h
    exact zero_ne_one h
  · have h : H * V = V * Matrix.diagonal (fun i => ((S i : ℝ) : ℂ)) := by rw [hH, Matrix.mul_assoc, hV, Matrix.mul_one]
    funext j
    have := congrFun (congrFun h j) i
    rw [Matrix.mul_diagonal] at this
    rw [Pi.smul_apply, smul_eq_mul, mul_comm, ← this]
    rfl

/-- The cost of a unitary circuit lies between the smallest and the largest eigenvalue. -/
theorem cost_range {H : QMat n} (hH : Hᴴ = H) {φ : Ket n} (hφ : Normalised φ) : InSpectralRange H (star φ ⬝ᵥ (H *ᵥ φ)).re := by
  obtain ⟨eigh, he⟩ := exists_validEigh n
  obtain ⟨hV, hS⟩ := he H hH
  set V := (eigh H).2
  set S := (eigh H).1
  have hE := energy_eigen hS φ
  have hN : ∑ i, Complex.normSq ((Vᴴ *ᵥ φ) i) = 1 := by
    have := norm_eigen hV φ
    rw [hφ] at this
    exact_mod_cast this.symm
  rw [hE, Complex.ofReal_re]
  set c := fun i => Complex.normSq ((Vᴴ *ᵥ φ) i)
  set x := ∑ i, S i * c i
  have h0 : ∀ i, 0 ≤ c i := fun i => Complex.normSq_nonneg _
  have hx : ∑ i, (S i - x) * c i = 0 := by
    simp only [sub_mul, Finset.sum_sub_distrib, ← Finset.mul_sum]
    rw [show ∑ i, c i = 1 from hN]; ring
  obtain ⟨i₀, -, hi₀⟩ : ∃ i ∈ Finset.univ, 0 < c i := by
    by_contra hc
    push Not at hc
    have : ∑ i, c i ≤ 0 := Finset.sum_nonpos hc
    rw [show ∑ i, c i = 1 from hN] at this
    linarith
  constructor
  · by_contra hc
    push Not at hc
    have hpos : 0 < ∑ i, (S i - x) * c i :=
      Finset.sum_pos' (fun i _ => mul_nonneg (by linarith [hc _ (eigen_col hV hS i)]) (h0 i))
        ⟨i₀, Finset.mem_univ _, mul_pos (by linarith [hc _ (eigen_col hV hS i₀)]) hi₀⟩
    linarith
  · by_contra hc
    push Not at hc
    have hpos : 0 < ∑ i, (x - S i) * c i :=
      Finset.sum_pos' (fun i _ => mul_nonneg (by linarith [hc _ (eigen_col hV hS i)]) (h0 i))
        ⟨i₀, Finset.mem_univ _, mul_pos (by linarith [hc _ (eigen_col hV hS i₀)]) hi₀⟩
    have : ∑ i, (x - S i) * c i = -∑ i, (S i - x) * c i := by
      rw [← Finset.sum_neg_distrib]; exact Finset.sum_congr rfl fun i _ => by ring
    rw [this, hx] at hpos
    linarith

/-- A state whose energy is not above any eigenvalue is an eigenstate. -/
theorem ground_state {H : QMat n} (hH : Hᴴ = H) {φ : Ket n} (hφ : Normalised φ) (hmin : ∀ μ, IsEigenvalue H μ → (star φ ⬝ᵥ (H *ᵥ φ)).re ≤ μ) :
    H *ᵥ φ = (((star φ ⬝ᵥ (H *ᵥ φ)).re : ℝ) : ℂ) • φ := by
  obtain ⟨eigh, he⟩ := exists_validEigh n
  obtain ⟨hV, hS⟩ := he H hH
  set V := (eigh H).2
  set S := (eigh H).1
  have hV' : V * Vᴴ = 1 := mul_eq_one_comm.1 hV
  have hE := energy_eigen hS φ
  have hN : ∑ i, Complex.normSq ((Vᴴ *ᵥ φ) i) = 1 := by
    have := norm_eigen hV φ
    rw [hφ] at this
    exact_mod_cast this.symm
  have hEr : (star φ ⬝ᵥ (H *ᵥ φ)).re = ∑ i, S i * Complex.normSq ((Vᴴ *ᵥ φ) i) := by rw [hE, Complex.ofReal_re]
  set x := (star φ ⬝ᵥ (H *ᵥ φ)).re
  have hx : ∑ i, (S i - x) * Complex.normSq ((Vᴴ *ᵥ φ) i) = 0 := by
    simp only [sub_mul, Finset.sum_sub_distrib, ← Finset.mul_sum]
    rw [hN, hEr]; ring
  have hz := (Finset.sum_eq_zero_iff_of_nonneg (fun i _ => mul_nonneg (by linarith [hmin _ (eigen_col hV hS i)]) (Complex.normSq_nonneg _))).1 hx
  have hd : Matrix.diagonal (fun i => ((S i : ℝ) : ℂ)) *ᵥ (Vᴴ *ᵥ φ) = (x : ℂ) • (Vᴴ *ᵥ φ) := by
    funext i
    rw [Matrix.mulVec_diagonal, Pi.smul_apply, smul_eq_mul]
    rcases mul_eq_zero.1 (hz i (Finset.mem_univ _)) with h | h
    · rw [show S i = x by linarith]
    · rw [Complex.normSq_eq_zero.1 h]; simp
  rw [hS, ← Matrix.mulVec_mulVec, ← Matrix.mulVec_mulVec, hd, Matrix.mulVec_smul, Matrix.mulVec_mulVec, hV', Matrix.one_mulVec]

/-- C73 (approximate optimizer).  With Hermitian observables, every cost reported by a run as in C72 lies between the smallest and the largest
eigenvalue of the matrix of the Hamiltonian (`get_hamiltonian_matrix` without coefficients), and a step whose cost is the smallest eigenvalue
has reached a ground state. -/
theorem C73_approx (hn : 1 ≤ n) (E : LayerEnv n) (hsvd : ValidSvd E.svd) (eigh : EighFn n) (he : ValidEigh eigh)
    (rnd : ℕ → Matrix (Fin (2 ^ n)) (Fin (2 ^ n)) ℝ) (ret : CircuitRet) (cs : List (Gate n)) (hcs : ∀ g ∈ cs, g.Aᴴ * g.A = 1) (params : List (List ℝ))
    (gs : List (Gate n)) (hgs : ∀ g ∈ gs, g.Aᴴ = g.A) (objs : Fin m → AnyLayer n) (hF : ∀ i, Fresh (objs i)) (layers : List (Fin m)) (args : ApproxArgs)
    (out : OptOut (ApproxItem n) × (Fin m → AnyLayer n))
    (h : approximateLieOptimizer E eigh rnd ret (cs.map (fun g => (g.obs.matrix, g.obs.wires))) params (gs.map Gate.obs) objs layers args = .ok out) :
    ∃ H, getHamiltonianMatrix n (gs.map Gate.obs) none = .ok H ∧ approxCosts out.1 ≠ [] ∧ (∀ c ∈ approxCosts out.1, InSpectralRange H c) ∧
      (args.returnState = .bool true → ∃ l, approxStates out.1 = some l ∧ l.length = (approxCosts out.1).length ∧ ∀ (k : ℕ) (c : ℝ) (φ : Ket n), (approxCosts out.1)[k]? = some c →
        l[k]? = some φ → (∀ μ, IsEigenvalue H μ → c ≤ μ) → H *ᵥ φ = (c : ℂ) • φ) := by
  obtain ⟨N, -, e, -, V, W, j, hj, -, h0, -, ho, -, hstep, hW0, -, hobj, hW, hlen, hcost, hst, -⟩ := C50_trace E eigh rnd ret _ params gs objs layers args out h
  have hU0 : Unitary (V 0).U := by
    refine compile_unitary (fun g hg => ?_) (by simp [Unitary]) h0
    obtain ⟨G, hG, rfl⟩ := List.mem_map.1 hg
    exact ⟨G, hcs G hG, rfl⟩
  have hall := approx_run_unitary hn E hsvd he hU0 (by rw [ho]; exact fun i => unitInv_fresh hn (hF i)) hstep hW0 hobj hW
  have hHm : getHamiltonianMatrix n (gs.map Gate.obs) none = .ok (totalObs gs) := C08_hamiltonian_default n gs
  refine ⟨totalObs gs, hHm, by intro hc; rw [hc] at hlen; simp at hlen, fun c hc => ?_, fun hr => ?_⟩
  · obtain ⟨k, hk, rfl⟩ := List.getElem_of_mem hc
    have := hcost k (by omega)
    rw [List.getElem?_eq_getElem hk] at this
    rw [Option.some.inj this]
    exact cost_range (totalObs_herm gs hgs) (normalised_of_unitary (hall k (by omega)).1)
  · obtain ⟨l, h1, h2, h3⟩ := hst hr
    refine ⟨l, h1, by omega, fun k c φ hc hφ hmin => ?_⟩
    have hk : k ≤ j := by
      have := (List.getElem?_eq_some_iff.1 hc).1
      omega
    rw [hcost k hk] at hc
    rw [h3 k hk] at hφ
    obtain rfl := Option.some.inj hc
    obtain rfl := Option.some.inj hφ
    exact ground_state (totalObs_herm gs hgs) (normalised_of_unitary (hall k hk).1) hmin

/-- C73 (exact optimizer). -/
theorem C73_exact (eigh : EighFn n) (he : ValidEigh eigh) (rnd : ℕ → Matrix (Fin (2 ^ n)) (Fin (2 ^ n)) ℝ) (ret : CircuitRet)
    (cs : List (Gate n)) (hcs : ∀ g ∈ cs, g.Aᴴ * g.A = 1) (gs : List (Gate n)) (hgs : ∀ g ∈ gs, g.Aᴴ = g.A) (args : ExactArgs) (out : OptOut (ExactItem n))
    (h : exactLieOptimizer eigh rnd ret (cs.map (fun g => (g.obs.matrix, g.obs.wires))) (gs.map Gate.obs) args = .ok out) :
    ∃ H, getHamiltonianMatrix n (gs.map Gate.obs) none = .ok H ∧ exactCosts out ≠ [] ∧ (∀ c ∈ exactCosts out, InSpectralRange H c) ∧
      (args.returnState = .bool true → ∃ l, exactStates out = some l ∧ l.length = (exactCosts out).length ∧ ∀ (k : ℕ) (c : ℝ) (φ : Ket n), (exactCosts out)[k]? = some c →
        l[k]? = some φ → (∀ μ, IsEigenvalue H μ → c ≤ μ) → H *ᵥ φ = (c : ℂ) • φ) := by
  obtain ⟨-, N, e, t, rs, p, rp, ru, hv, V, W, j, r, h0, hrun, rfl, -, hcost, hst, -⟩ := exact_outcome eigh rnd ret _ gs args out h
  have hU0 : Unitary (V 0) := by
    refine compile_unitary (fun g hg => ?_) (by simp [Unitary]) h0
    obtain ⟨G, hG, rfl⟩ := List.mem_map.1 hg
    exact ⟨G, hcs G hG, rfl⟩
  have hall := exact_run_unitary he hrun hU0
  have hHm : getHamiltonianMatrix n (gs.map Gate.obs) none = .ok (totalObs gs) := C08_hamiltonian_default n gs
  rw [exactOutput_costs, hcost]
  refine ⟨totalObs gs, hHm, by simp, fun c hc => ?_, fun hf => ?_⟩
  · obtain ⟨k, hk, rfl⟩ := List.mem_map.1 hc
    exact cost_range (totalObs_herm gs hgs) (normalised_of_unitary (hall k (by simpa [Nat.lt_succ_iff] using hk)).1)
  · have : rs = true := by have := hv.flagS; rw [hf] at this; exact (BoolArg.bool.inj this).symm
    refine ⟨r.states, by rw [exactOutput_states, this]; rfl, by rw [hst, this]; simp, fun k c φ hc hφ hmin => ?_⟩
    have hk : k < j + 1 := by simpa using (List.getElem?_eq_some_iff.1 hc).1
    rw [hst, this, if_pos rfl] at hφ
    simp only [List.getElem?_map, List.getElem?_range hk, Option.map_some, Option.some.injEq] at hc hφ
    subst hc hφ
    exact ground_state (totalObs_herm gs hgs) (normalised_of_unitary (hall k (by omega)).1) hmin

/-- C73 (parameter-shift optimizer): for circuits that apply unitary gates for all parameters. -/
theorem C73_parameter_shift {P : Type} (gd : ℝ → (P → Py ℝ) → P → Py P) (ret : CircuitRet) (circuit : P → Py (List (NpMat × List ℤ)))
    (hcirc : ∀ p gates, circuit p = .ok gates → ∃ cs : List (Gate n), (∀ g ∈ cs, g.Aᴴ * g.A = 1) ∧ gates = cs.map (fun g => (g.obs.matrix, g.obs.wires)))
    (params : P) (gs : List (Gate n)) (hgs : ∀ g ∈ gs, g.Aᴴ = g.A) (args : PsArgs) (rp : Bool) (hrp : args.returnParams = boolFlag rp) (out : OptOut (PsItem n P))
    (h : parameterShiftOptimizer gd ret circuit params (gs.map Gate.obs) args = .ok out) :
    ∃ H, getHamiltonianMatrix n (gs.map Gate.obs) none = .ok H ∧ psCosts out ≠ [] ∧ ∀ c ∈ psCosts out, InSpectralRange H c := by
  obtain ⟨N, e, t, V, j, -, -, -, -, -, -, hlen, hcost, -⟩ := C55_trace gd ret circuit params (gs.map Gate.obs) args out rp hrp h
  refine ⟨totalObs gs, C08_hamiltonian_default n gs, by intro hc; rw [hc] at hlen; simp at hlen, fun c hc => ?_⟩
  obtain ⟨k, hk, rfl⟩ := List.getElem_of_mem hc
  have := hcost k (by omega)
  rw [List.getD, List.getElem?_eq_getElem hk, psCost, circuitUnitary] at this
  simp only [bind, Except.bind, Option.getD_some] at this
  split at this
  · simp at this
  rename_i U hU
  split at hU
  · simp at hU
  rename_i gates hgates
  obtain ⟨cs, h1, h2⟩ := hcirc _ _ hgates
  rw [totalCost_gates] at this
  rw [← Except.ok.inj this]
  refine cost_range (totalObs_herm gs hgs) (normalised_of_unitary (compile_unitary (fun g hg => ?_) (by simp [Unitary]) hU))
  rw [h2] at hg
  obtain ⟨G, hG, rfl⟩ := List.mem_map.1 hg
  exact ⟨G, h1 G hG, rfl⟩

theorem rot_unitary (a : ℝ) : (rot a)ᴴ * rot a = 1 := by
  have h : (rot a)ᴴ = rot (-a) := by
    change (!![((Real.cos a : ℝ) : ℂ), -((Real.sin a : ℝ) : ℂ); ((Real.sin a : ℝ) : ℂ), ((Real.cos a : ℝ) : ℂ)] : Matrix (Fin 2) (Fin 2) ℂ)ᴴ =
      !![((Real.cos (-a) : ℝ) : ℂ), -((Real.sin (-a) : ℝ) : ℂ); ((Real.sin (-a) : ℝ) : ℂ), ((Real.cos (-a) : ℝ) : ℂ)]
    rw [Real.cos_neg, Real.sin_neg]
    ext i j
    fin_cases i <;> fin_cases j <;>
      simp [Matrix.conjTranspose_apply, Complex.conj_ofReal, -Complex.ofReal_cos, -Complex.ofReal_sin]
  rw [h, rot_mul, neg_add_cancel, rot_zero]

/-- Hypotheses of `C73_parameter_shift` (with the run of the example at the end of Props/ParamShift.lean). -/
example : (∀ (p : ℝ) (gates : List (NpMat × List ℤ)), (fun p : ℝ => (.ok ([(⟨[0], rot p, by simp, by simp, by simp⟩ : Gate 1)].map
      (fun g => (g.obs.matrix, g.obs.wires))) : Py (List (NpMat × List ℤ)))) p = .ok gates →
      ∃ cs : List (Gate 1), (∀ g ∈ cs, g.Aᴴ * g.A = 1) ∧ gates = cs.map (fun g => (g.obs.matrix, g.obs.wires))) ∧
    (∀ g ∈ [gateZ], g.Aᴴ = g.A) := by
  refine ⟨fun p gates h => ⟨[⟨[0], rot p, by simp, by simp, by simp⟩], ?_, (Except.ok.inj h).symm⟩, ?_⟩
  · intro g hg
    rw [List.mem_singleton.1 hg]
    exact rot_unitary p
  · intro g hg
    rw [List.mem_singleton.1 hg]
    exact gateZ_herm

end Oranssi
