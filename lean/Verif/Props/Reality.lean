import Verif.Lemmas.Conjugation
import Verif.Props.TfimVqePeriod
import Verif.Props.Plot

/-! # C124: symmetries that contain a complex conjugation

A real Hamiltonian, or more generally one that is unchanged when it is conjugated and a Pauli word is applied, has an antiunitary symmetry.  Such a symmetry has no
eigenvalues that could be conserved, but the states that it leaves unchanged up to a phase are kept by the optimizers: real states stay real. -/

namespace Oranssi
open Spec
open scoped Matrix

variable {n m : ℕ} {w : Fin n → Letter}

/-! ### Gradients -/

theorem commutator_sym {P O : QMat n} (hP : ConjSymmetric w P) (hO : ConjSymmetric w O) : ConjSymmetric w (P * O - O * P) := by
  rw [ConjSymmetric, conjM_sub, mul_sub, sub_mul, (hP.mul hO), (hO.mul hP)]

theorem commutator_odd {P O : QMat n} (hP : ConjOdd w P) (hO : ConjSymmetric w O) : pauliWord w * conjM (P * O - O * P) = (-(P * O - O * P)) * pauliWord w := by
  have h1 : pauliWord w * conjM (P * O) = -(P * O * pauliWord w) := by rw [conjM_mul, ← mul_assoc, hP, neg_mul, mul_assoc, hO, mul_assoc]
  have h2 : pauliWord w * conjM (O * P) = -(O * P * pauliWord w) := by rw [conjM_mul, ← mul_assoc, hO, mul_assoc, hP, mul_neg, mul_assoc]
  rw [conjM_sub, mul_sub, h1, h2]
  noncomm_ring

/-- The generator of a local layer along a word is symmetric. -/
theorem omegaC_conj {v : Fin n → Letter} {O : QMat n} {φ : Ket n} (hO : ConjSymmetric w O) (hφ : ConjInvariant w φ) :
    ConjSymmetric w (omegaC φ (pauliWord v) O • pauliWord v) := by
  rw [ConjSymmetric, conjM_smul, mul_smul_comm, smul_mul_assoc]
  rcases word_sym_or_odd w v with h | h
  · rw [omegaC, expect_conj (commutator_sym h hO) hφ, h]
  · rw [omegaC, expect_conj (commutator_odd h hO) hφ, h, Matrix.neg_mulVec, dotProduct_neg]
    module

/-- C124 (gradients): in a state which is unchanged, up to a phase, by conjugation followed by the word `w`, the gradient of an unchanged Hamiltonian along every
unchanged direction vanishes. -/
theorem C124_grad {P H U : QMat n} (hH : ConjSymmetric w H) (hφ : ConjInvariant w (fun i => U i 0)) (hP : ConjSymmetric w P) : grad H U P = 0 := by
  have h2 := congrArg Complex.im (expect_conj (commutator_sym hP hH) hφ)
  rw [Complex.conj_im] at h2
  rw [grad]
  linarith

theorem grad_odd {v : Fin n → Letter} {H U : QMat n} (hH : ConjSymmetric w H) (hφ : ConjInvariant w (fun i => U i 0)) (hg : grad H U (pauliWord v) ≠ 0) : ConjOdd w (pauliWord v) :=
  (word_sym_or_odd w v).resolve_left fun h => hg (C124_grad hH hφ h)

/-! ### The exact optimizer -/

theorem density_conj {U : QMat n} (hφ : ConjInvariant w (fun i => U i 0)) : ConjSymmetric w (density U) := by
  obtain ⟨c, hc, h⟩ := hφ
  have hcc : c * starRingEnd ℂ c = 1 := by rw [Complex.mul_conj, Complex.normSq_eq_norm_sq, hc]; norm_num
  have hsq : pauliWord w * pauliWord w = 1 := pauliWord_sq w
  set φ : Ket n := fun i => U i 0 with hφd
  have hW : pauliWord w *ᵥ φ = starRingEnd ℂ c • star φ := by
    have e : pauliWord w *ᵥ (pauliWord w *ᵥ star φ) = c • (pauliWord w *ᵥ φ) := by rw [h, Matrix.mulVec_smul]
    rw [Matrix.mulVec_mulVec, hsq, Matrix.one_mulVec] at e
    rw [e, smul_smul, mul_comm, hcc, one_smul]
  have hW' : star φ ᵥ* pauliWord w = c • φ := by
    have e : star (pauliWord w *ᵥ φ) = c • φ := by
      rw [hW, star_smul, star_star]
      congr 1
      exact Complex.conj_conj c
    rw [← e, Matrix.star_mulVec, pauliWord_herm w]
  have e : density U = Matrix.vecMulVec φ (star φ) := rfl
  have e' : conjM (density U) = Matrix.vecMulVec (star φ) φ := by
    rw [e]
    ext i j
    simp [conjM, Matrix.vecMulVec_apply]
  rw [ConjSymmetric, e', e, Matrix.mul_vecMulVec, Matrix.vecMulVec_mul, h, hW', Matrix.smul_vecMulVec, Matrix.vecMulVec_smul]

/-- Conjugation turns the generator of the exact update around. -/
theorem shiftGen_odd {O U : QMat n} (hO : ConjSymmetric w O) (hφ : ConjInvariant w (fun i => U i 0)) : ConjOdd w (shiftGen O U) := by
  have hsq : pauliWord w * pauliWord w = 1 := pauliWord_sq w
  set g : ℝ → QMat n := fun t => NormedSpace.exp ((-Complex.I * ((t / 2 : ℝ) : ℂ)) • O) with hg
  have h1 : ∀ t, pauliWord w * conjM (g t) = g (-t) * pauliWord w := by
    intro t
    rw [hg]
    dsimp only
    rw [conjM_exp]
    refine exp_semiconj (X := pauliWord w) ?_
    rw [SemiconjBy, conjM_smul, mul_smul_comm, hO, smul_mul_assoc, map_mul, map_neg, Complex.conj_I, Complex.conj_ofReal]
    congr 1
    push_cast
    ring
  have h2 : ∀ t, pauliWord w * conjM (g t)ᴴ = (g (-t))ᴴ * pauliWord w := by
    intro t
    have e : conjM (g t) = pauliWord w * (g (-t) * pauliWord w) := by rw [← h1, ← mul_assoc, hsq, one_mul]
    rw [conjM_conjTranspose, e, Matrix.conjTranspose_mul, Matrix.conjTranspose_mul, pauliWord_herm, ← mul_assoc, ← mul_assoc, hsq, one_mul]
  have h3 : ∀ t, pauliWord w * conjM (g t * (density U * (g t)ᴴ)) = g (-t) * (density U * (g (-t))ᴴ) * pauliWord w := by
    intro t
    rw [conjM_mul, conjM_mul, ← mul_assoc, h1, mul_assoc, ← mul_assoc (pauliWord w), density_conj hφ, mul_assoc (density U), h2]
    simp only [mul_assoc]
  have e : shiftGen O U = g (Real.pi / 2) * (density U * (g (Real.pi / 2))ᴴ) - g (-Real.pi / 2) * (density U * (g (-Real.pi / 2))ᴴ) := rfl
  rw [ConjOdd, e, conjM_sub, mul_sub, h3, h3, neg_div, neg_neg, sub_mul]
  abel

theorem exactUpdates_conj {eigh : EighFn n} (he : ValidEigh eigh) (e : ℝ) : ∀ (gs : List (Gate n)) {U V : QMat n},
    (∀ g ∈ gs, ConjSymmetric w (full n g.ws g.A)) → ConjInvariant w (fun i => U i 0) → exactUpdates eigh e (gs.map Gate.obs) U = .ok V → ConjInvariant w (fun i => V i 0)
  | [], U, V, _, hc, h => by
    rw [List.map_nil, exactUpdates] at h
    rw [← Except.ok.inj h]; exact hc
  | g :: gs, U, V, hQ, hc, h => by
    rw [List.map_cons, exactUpdates, exactUpdate_gate, eighExp_eq he e (shiftGen_herm _ _)] at h
    refine exactUpdates_conj he e gs (fun g hg => hQ g (by simp [hg])) ?_ h
    rw [mul_column]
    exact ((shiftGen_odd (hQ g (by simp)) hc).imag_smul _).exp.mulVec hc

/-- C124 (exact optimizer, without perturbation): if every observable is unchanged by conjugation followed by the word `w` and the state of the circuit is unchanged
up to a phase, then so is every state reported, and that of the circuit returned. -/
theorem C124_exact {eigh : EighFn n} (he : ValidEigh eigh) (rnd : ℕ → Matrix (Fin (2 ^ n)) (Fin (2 ^ n)) ℝ) (ret : CircuitRet) (ops : List (NpMat × List ℤ))
    (gs : List (Gate n)) (args : ExactArgs) (out : OptOut (ExactItem n)) (hp : args.perturbation = .bool false) (U : QMat n)
    (hU : compileLoop n ops 1 = .ok U) (hu : Unitary U) (w : Fin n → Letter) (hQ : ∀ g ∈ gs, ConjSymmetric w (full n g.ws g.A)) (hc : ConjInvariant w (fun i => U i 0))
    (h : exactLieOptimizer eigh rnd ret ops (gs.map Gate.obs) args = .ok out) :
    (∀ l, exactStates out = some l → ∀ φ ∈ l, ConjInvariant w φ) ∧ (∀ V, exactUnitary out = some V → ConjInvariant w (fun i => V i 0)) ∧
      ∀ x ∈ exactCosts out, ∃ φ : Ket n, Normalised φ ∧ ConjInvariant w φ ∧ x = (star φ ⬝ᵥ (totalObs gs *ᵥ φ)).re := by
  obtain ⟨-, N, e, t, rs, p, rp, ru, hv, V, W, m, r, h0, hrun, rfl, hW, hcost, hst, -⟩ := exact_outcome eigh rnd ret ops gs args out h
  rw [hv.flagP] at hp
  obtain rfl := BoolArg.bool.inj hp
  have hV0 : V 0 = U := Except.ok.inj (h0.symm.trans hU)
  have hun := exact_run_unitary he hrun (by rw [hV0]; exact hu)
  have hVW : ∀ k ≤ m, ConjInvariant w (fun i => V k i 0) ∧ W k = V k := by
    intro k
    induction k with
    | zero => intro _; exact ⟨by rw [hV0]; exact hc, hrun.start⟩
    | succ k ih =>
      intro hk
      have h1 := hrun.advance k (by omega)
      simp only [exactRules] at h1
      rw [(ih (by omega)).2] at h1
      exact ⟨exactUpdates_conj he e gs hQ (ih (by omega)).1 h1, hrun.kept k (by omega) (.inr rfl)⟩
  refine ⟨?_, ?_, ?_⟩
  · intro l hl φ hφ
    rw [exactOutput_states] at hl
    cases rs with
    | false => simp at hl
    | true =>
      rw [if_pos rfl] at hl
      rw [← Option.some.inj hl, hst, if_pos rfl, List.mem_map] at hφ
      obtain ⟨k, hk, rfl⟩ := hφ
      exact (hVW k (by simpa [Nat.lt_succ_iff] using hk)).1
  · intro X hX
    rw [exactOutput_unitary] at hX
    cases ru with
    | false => simp at hX
    | true =>
      rw [if_pos rfl] at hX
      rw [← Option.some.inj hX, hW, (hVW _ le_rfl).2]
      exact (hVW _ le_rfl).1
  · intro x hx
    rw [exactOutput_costs, hcost, List.mem_map] at hx
    obtain ⟨k, hk, rfl⟩ := hx
    have hk' : k ≤ m := by simpa [Nat.lt_succ_iff] using hk
    exact ⟨_, normalised_of_unitary (hun k hk').1, (hVW k hk').1, rfl⟩

/-! ### Local and custom layers -/

/-- All factors of a group of Pauli words are symmetric. -/
theorem groupFactors_conj {O : QMat n} {φ : Ket n} (hO : ConjSymmetric w O) (hφ : ConjInvariant w φ)
    (e : ℝ) (trot : Bool) {ps : List (QMat n)} (hps : ∀ p ∈ ps, ∃ v, p = pauliWord v) : ∀ F ∈ groupFactors e trot φ O ps, ConjSymmetric w F := by
  have key : ∀ p ∈ ps, ConjSymmetric w (omegaC φ p O • p) := by
    intro p hp
    obtain ⟨v, rfl⟩ := hps p hp
    exact omegaC_conj hO hφ
  have hr : (-(e / 2 ^ n : ℝ) : ℂ) = ((-(e / 2 ^ n) : ℝ) : ℂ) := by push_cast; rfl
  intro F hF
  cases trot
  · simp only [groupFactors, Bool.false_eq_true, if_false, List.mem_singleton] at hF
    subst hF
    rw [hr]
    refine (Spec.ConjSymmetric.real_smul (conjSymmetric_sum fun A hA => ?_) _).exp
    obtain ⟨p, hp, rfl⟩ := List.mem_map.1 hA
    exact key p hp
  · simp only [groupFactors, if_true, List.mem_map] at hF
    obtain ⟨p, hp, rfl⟩ := hF
    rw [hr]
    exact ((key p hp).real_smul _).exp

theorem foldl_conj : ∀ {Fs : List (QMat n)}, (∀ F ∈ Fs, ConjSymmetric w F) → ∀ {U : QMat n}, ConjInvariant w (fun i => U i 0) →
    ConjInvariant w (fun i => (Fs.foldl (fun U F => F * U) U) i 0)
  | [], _, _, h => h
  | F :: Fs, hF, U, h => by
    refine foldl_conj (Fs := Fs) (fun G hG => hF G (by simp [hG])) (U := F * U) ?_
    rw [mul_column]
    exact (hF F (by simp)).mulVec h

/-- A local or custom layer for Hermitian observables which are unchanged by conjugation followed by the Pauli word `w`. -/
inductive ConjLayer (w : Fin n → Letter) : AnyLayer n → Prop
  | loc (hs : List (Gate n)) (hH : ∀ g ∈ hs, g.Aᴴ = g.A) (hQ : ∀ g ∈ hs, ConjSymmetric w (full n g.ws g.A)) (locality : ℤ) (la : LayerArgs)
      (stride : Option ℤ) (D : Option (List String)) (L : LocalLayer n) (hL : localLayer n (hs.map Gate.obs) locality la stride D = .ok L)
      (hne : D ≠ some [] ∨ L.trotterize = true) : ConjLayer w (.loc L)
  | custom (hs : List (Gate n)) (hH : ∀ g ∈ hs, g.Aᴴ = g.A) (hQ : ∀ g ∈ hs, ConjSymmetric w (full n g.ws g.A)) (D : List String) (la : LayerArgs)
      (L : CustomLayer n) (hL : customLayer n (hs.map Gate.obs) (some D) la = .ok L) (hne : (∃ d ∈ D, d.toList.length ≤ n) ∨ L.trotterize = true) :
      ConjLayer w (.custom L)

/-- C124 for one call of a local or custom layer: the state stays unchanged by the symmetry, up to a phase, and the layer object is not changed. -/
theorem C124_call (E : LayerEnv n) (hs : ValidSvd E.svd) {w : Fin n → Letter} {L : AnyLayer n} (h : ConjLayer w L) (ps : List (List ℝ)) (U : QMat n)
    (hc : ConjInvariant w (fun i => U i 0)) :
    ∃ V, L.call E ps U = .ok (V, ps, L) ∧ ConjInvariant w (fun i => V i 0) ∧ (Unitary U → Unitary V) := by
  cases h with
  | loc gs hH hQ locality la stride D L hL hne =>
    obtain ⟨h1, h2, h3⟩ := localLayer_call hH hL hs L.eta U hne
    refine ⟨_, by rw [AnyLayer.call, show L.call E.svd U = _ from h3]; rfl, ?_, fun hU => foldl_unitary (obsFactors_unitary _ _ _ h1 h2) hU⟩
    refine foldl_conj ?_ hc
    intro F hF
    obtain ⟨o, ho, hF⟩ := List.mem_flatMap.1 hF
    obtain ⟨g, hg, hF⟩ := List.mem_flatMap.1 hF
    have hok := localLayer_inv gs hL
    obtain ⟨k, e0, b, t, hk, rfl, he, hb, ht, hL'⟩ := localLayer_ok gs hok
    rw [hL'] at hL
    have hLe := Except.ok.inj hL
    subst hLe
    obtain ⟨g0, hg0, rfl⟩ := List.mem_map.1 ho
    refine groupFactors_conj (hQ g0 hg0) hc _ _ ?_ F hF
    intro p hp
    obtain ⟨q, -, rfl⟩ := List.mem_map.1 hg
    obtain ⟨v, -, rfl⟩ := List.mem_map.1 hp
    exact ⟨_, rfl⟩
  | custom gs hH hQ D la L hL hne =>
    have h3 := customLayer_call hH hL hs L.eta U hne
    have hg : ∀ g ∈ [(customKept n D).map Prod.snd], ∀ p ∈ g, pᴴ = p := by
      intro g hg
      rw [List.mem_singleton] at hg
      subst hg
      exact customKept_herm
    refine ⟨_, by rw [AnyLayer.call, show L.call E.svd U = _ from h3]; rfl, ?_, fun hU => ?_⟩
    · refine foldl_conj ?_ hc
      intro F hF
      obtain ⟨o, ho, hF⟩ := List.mem_flatMap.1 hF
      obtain ⟨g0, hg0, rfl⟩ := List.mem_map.1 ho
      refine groupFactors_conj (hQ g0 hg0) hc _ _ ?_ F hF
      intro p hp
      obtain ⟨e, he, rfl⟩ := List.mem_map.1 hp
      obtain ⟨v, -, q, -, rfl⟩ := mem_stdDict.1 (List.mem_filter.1 he).1
      exact ⟨_, rfl⟩
    · refine foldl_unitary ?_ hU
      intro F hF
      obtain ⟨o, ho, hF⟩ := List.mem_flatMap.1 hF
      exact groupFactors_unitary _ _ _ (gates_herm hH o ho) customKept_herm F hF

/-- C124 for `approximate_lie_optimizer` with local and custom layers (without perturbation): if all observables of all layers are unchanged by
conjugation followed by the word `w` and the initial state is unchanged up to a phase, then so is every state and every circuit reported, and the state of every cost. -/
theorem C124_approx (E : LayerEnv n) (hs : ValidSvd E.svd) (eigh : EighFn n) (rnd : ℕ → Matrix (Fin (2 ^ n)) (Fin (2 ^ n)) ℝ) (ret : CircuitRet)
    (ops : List (NpMat × List ℤ)) (params : List (List ℝ)) (gs : List (Gate n)) (objs : Fin m → AnyLayer n) (layers : List (Fin m)) (args : ApproxArgs)
    (out : OptOut (ApproxItem n) × (Fin m → AnyLayer n)) (hp : args.perturb = .bool false) (U : QMat n) (hU : compileLoop n ops 1 = .ok U) (hu : Unitary U)
    (w : Fin n → Letter) (hobjs : ∀ i, ConjLayer w (objs i)) (hc : ConjInvariant w (fun i => U i 0))
    (h : approximateLieOptimizer E eigh rnd ret ops params (gs.map Gate.obs) objs layers args = .ok out) :
    (∀ l, approxStates out.1 = some l → ∀ φ ∈ l, ConjInvariant w φ) ∧
      (∀ l, approxUnitaries out.1 = some l → ∀ V ∈ l, ConjInvariant w (fun i => V i 0)) ∧
      ∀ x ∈ approxCosts out.1, ∃ φ : Ket n, Normalised φ ∧ ConjInvariant w φ ∧ x = (star φ ⬝ᵥ (totalObs gs *ᵥ φ)).re := by
  obtain ⟨-, N, e, t, F, hv, V, W, j, r, h0, hp0, ho0, hrun, rfl, hcost, hst, hun, -⟩ := approx_outcome E eigh rnd ret ops params gs objs layers args out h
  obtain ⟨r1, r2, -, r4, -⟩ := approxOutput_read r F
  have hF : F.perturb = false := by
    have := hv.flagP
    rw [hp] at this
    exact (BoolArg.bool.inj this).symm
  rw [hF] at hrun
  have hV0 : (V 0).U = U := Except.ok.inj (h0.symm.trans hU)
  have hVW : ∀ k ≤ j, ConjInvariant w (fun i => (V k).U i 0) ∧ Unitary (V k).U ∧ (V k).objs = objs ∧ W k = V k := by
    intro k
    induction k with
    | zero => intro _; exact ⟨by rw [hV0]; exact hc, by rw [hV0]; exact hu, ho0, hrun.start⟩
    | succ k ih =>
      intro hk
      obtain ⟨i, L', hi, hcall, hobj⟩ := hrun.advance k (by omega)
      obtain ⟨i1, i2, i3, i4⟩ := ih (by omega)
      rw [i4, i3] at hcall hobj
      obtain ⟨X, hX, hX1, hX2⟩ := C124_call E hs (hobjs i) (V k).params (V k).U i1
      rw [hX] at hcall
      obtain ⟨h3, h4⟩ := Prod.mk.inj (Except.ok.inj hcall)
      obtain ⟨h4, h5⟩ := Prod.mk.inj h4
      refine ⟨by rw [← h3]; exact hX1, by rw [← h3]; exact hX2 i2, ?_, hrun.kept k (by omega) (.inr rfl)⟩
      rw [hobj, ← h5]; exact Function.update_eq_self i objs
  refine ⟨?_, ?_, ?_⟩
  · intro l hl φ hφ
    rw [r2] at hl
    cases hf : F.returnState with
    | false => simp [hf] at hl
    | true =>
      rw [hf, if_pos rfl] at hl
      rw [← Option.some.inj hl, hst, if_pos hf, List.mem_map] at hφ
      obtain ⟨k, hk, rfl⟩ := hφ
      exact (hVW k (by simpa [Nat.lt_succ_iff] using hk)).1
  · intro l hl X hX
    rw [r4] at hl
    cases hf : F.returnUnitary with
    | false => simp [hf] at hl
    | true =>
      rw [hf, if_pos rfl] at hl
      rw [← Option.some.inj hl, hun, if_pos hf, List.mem_map] at hX
      obtain ⟨k, hk, rfl⟩ := hX
      exact (hVW k (by simpa [Nat.lt_succ_iff] using hk)).1
  · intro x hx
    rw [r1, hcost, List.mem_map] at hx
    obtain ⟨k, hk, rfl⟩ := hx
    have hk' : k ≤ j := by simpa [Nat.lt_succ_iff] using hk
    exact ⟨_, normalised_of_unitary (hVW k hk').2.1, (hVW k hk').1, rfl⟩

/-! ### Greedy layers -/

theorem totalObs_conj {gs : List (Gate n)} (hQ : ∀ g ∈ gs, ConjSymmetric w (full n g.ws g.A)) : ConjSymmetric w (totalObs gs) := by
  rw [totalObs]
  refine conjSymmetric_sum fun A hA => ?_
  obtain ⟨g, hg, rfl⟩ := List.mem_map.1 hA
  exact hQ g hg

theorem greedy_step_conj {H U V : QMat n} {l : List (Key × QMat n)} {k : Key} {P : QMat n} {r : ℕ}
    (hl : ∀ e ∈ l, ∃ v, e.2 = pauliWord v) (hQ : ConjSymmetric w H) (hc : ConjInvariant w (fun i => U i 0))
    (hmax : IsFirstMax (fun e : Key × QMat n => |grad H U e.2|) l (k, P)) (hs : IsRotoStep H P U V r) (hne : ∃ e ∈ l, grad H U e.2 ≠ 0) :
    ConjInvariant w (fun i => V i 0) := by
  obtain ⟨e, he, hg⟩ := hne
  obtain ⟨v, hv⟩ := hl _ hmax.mem
  have h1 : grad H U P ≠ 0 := abs_pos.1 ((abs_pos.2 hg).trans_le (hmax.le e he))
  dsimp only at hv
  subst hv
  obtain ⟨η, rfl⟩ := hs.rotation
  rw [mul_column]
  exact ((grad_odd hQ hc h1).imag_smul η).exp.mulVec hc

/-- A layer for the observables `gs` that keeps the symmetry where two directions have a gradient: local and custom layers (which always do),
squared and SU(8) layers. -/
inductive ConjGreedy (w : Fin n → Letter) (gs : List (Gate n)) : AnyLayer n → Prop
  | symmetric (L : AnyLayer n) (h : ConjLayer w L) : ConjGreedy w gs L
  | squared (hn : 1 ≤ n) (la : LayerArgs) (L : SquaredLayer n) (hL : squaredLayer n (gs.map Gate.obs) la = .ok L) (k : Key) : ConjGreedy w gs (.squared { L with previousPauli := k })
  | su8 (la : LayerArgs) (L : SU8Layer n) (hL : su8Layer n (gs.map Gate.obs) la = .ok L) : ConjGreedy w gs (.su8 L)

theorem conjGreedy_call (E : LayerEnv n) (hs : ValidSvd E.svd) {w : Fin n → Letter} {gs : List (Gate n)} (hQ : ∀ g ∈ gs, ConjSymmetric w (full n g.ws g.A))
    {L : AnyLayer n} (h : ConjGreedy w gs L) (ps : List (List ℝ)) (U : QMat n) (hc : ConjInvariant w (fun i => U i 0)) (hg : TwoGradients gs U) :
    ∃ V L', L.call E ps U = .ok (V, ps, L') ∧ ConjGreedy w gs L' ∧ ConjInvariant w (fun i => V i 0) ∧ (Unitary U → Unitary V) := by
  obtain ⟨v, q, v', q', hv, hv', hq, hq', hne, g1, g2⟩ := hg
  cases h with
  | symmetric L h =>
    obtain ⟨V, h1, h2, h3⟩ := C124_call E hs h ps U hc
    exact ⟨V, L, h1, .symmetric L h, h2, h3⟩
  | squared hn la L hL k =>
    obtain ⟨ho, hf, hd, -⟩ := squaredLayer_inv hL
    obtain ⟨k', P, V, h1, h2, h3, -⟩ := squared_call hn (L := { L with previousPauli := k }) ho hf hd U
    refine ⟨V, .squared { L with previousPauli := k' }, by rw [AnyLayer.call, h1]; rfl, .squared hn la L hL k', ?_, h3.unitary⟩
    refine greedy_step_conj (fun e he => stdDict_words e (List.mem_filter.1 he).1) (totalObs_conj hQ) hc h2 h3 ?_
    by_cases hk : (letterStr v, q) = k
    · exact ⟨_, List.mem_filter.2 ⟨mem_stdDict.2 ⟨v', hv', q', hq', rfl⟩, by simpa using fun h => hne (hk.trans h.symm)⟩, g2⟩
    · exact ⟨_, List.mem_filter.2 ⟨mem_stdDict.2 ⟨v, hv, q, hq, rfl⟩, by simpa using hk⟩, g1⟩
  | su8 la L hL =>
    obtain ⟨-, k, P, V, h1, h2, h3⟩ := C36_su8 gs la true true L hL U
    obtain ⟨-, -, -, hd⟩ := su8Layer_inv hL
    refine ⟨V, .su8 L, by rw [AnyLayer.call, h1]; rfl, .su8 la L hL, ?_, h3.unitary⟩
    refine greedy_step_conj (fun e he => stdDict_words e (hd ▸ he)) (totalObs_conj hQ) hc h2 h3 ⟨((letterStr v, q), pauliWord (placed n v q)), ?_, g1⟩
    rw [hd]
    exact mem_stdDict.2 ⟨v, mem_allWords.2 ⟨by have := (mem_allWords.1 hv).1; simp [lens8] at this ⊢; omega, (mem_allWords.1 hv).2⟩, q, hq, rfl⟩

/-- C124 (runs): with local, custom, squared and SU(8) layers for the optimizer's observables and without perturbation, the state of every circuit reported is
unchanged by conjugation followed by the word `w`, up to a phase, if that of the initial one is, as long as all circuits reported before have at least two directions with a gradient. -/
theorem C124_run (E : LayerEnv n) (hs : ValidSvd E.svd) (eigh : EighFn n) (rnd : ℕ → Matrix (Fin (2 ^ n)) (Fin (2 ^ n)) ℝ) (ret : CircuitRet)
    (ops : List (NpMat × List ℤ)) (params : List (List ℝ)) (gs : List (Gate n)) (objs : Fin m → AnyLayer n) (layers : List (Fin m)) (args : ApproxArgs)
    (out : OptOut (ApproxItem n) × (Fin m → AnyLayer n)) (hp : args.perturb = .bool false) (hr : args.returnUnitary = .bool true) (U : QMat n) (hU : compileLoop n ops 1 = .ok U)
    (w : Fin n → Letter) (hQ : ∀ g ∈ gs, ConjSymmetric w (full n g.ws g.A)) (hobjs : ∀ i, ConjGreedy w gs (objs i))
    (hc : ConjInvariant w (fun i => U i 0))
    (h : approximateLieOptimizer E eigh rnd ret ops params (gs.map Gate.obs) objs layers args = .ok out) :
    ∃ l, approxUnitaries out.1 = some l ∧ l.length = (approxCosts out.1).length ∧ l[0]? = some U ∧
      ∀ (K : ℕ) (X : QMat n), l[K]? = some X → (∀ k < K, ∀ Y, l[k]? = some Y → TwoGradients gs Y) → ConjInvariant w (fun i => X i 0) := by
  obtain ⟨-, N, e, t, F, hv, V, W, j, r, h0, hp0, ho0, hrun, rfl, hcost, hst, hun, -⟩ := approx_outcome E eigh rnd ret ops params gs objs layers args out h
  obtain ⟨r1, r2, -, r4, -⟩ := approxOutput_read r F
  have hF : F.perturb = false := by
    have := hv.flagP
    rw [hp] at this
    exact (BoolArg.bool.inj this).symm
  have hF' : F.returnUnitary = true := by
    have := hv.flagU
    rw [hr] at this
    exact (BoolArg.bool.inj this).symm
  rw [hF] at hrun
  have hV0 : (V 0).U = U := Except.ok.inj (h0.symm.trans hU)
  rw [hF', if_pos rfl] at hun
  have hget : ∀ k ≤ j, r.unitaries[k]? = some (V k).U := fun k hk => by
    rw [hun, List.getElem?_map, List.getElem?_range (by omega)]
    rfl
  refine ⟨r.unitaries, by rw [r4, hF', if_pos rfl], by rw [r1, hun, hcost]; simp, by rw [hget 0 (by omega), hV0], fun K X hX hK => ?_⟩
  have hKj : K ≤ j := by
    have := (List.getElem?_eq_some_iff.1 hX).1
    rw [hun] at this
    simp at this
    omega
  have hVW : ∀ k ≤ K, ConjInvariant w (fun i => (V k).U i 0) ∧ (∀ i, ConjGreedy w gs ((V k).objs i)) ∧ W k = V k := by
    intro k
    induction k with
    | zero => intro _; exact ⟨by rw [hV0]; exact hc, by rw [ho0]; exact hobjs, hrun.start⟩
    | succ k ih =>
      intro hk
      obtain ⟨i, L', hi, hcall, hobj⟩ := hrun.advance k (by omega)
      obtain ⟨i1, i3, i4⟩ := ih (by omega)
      rw [i4] at hcall hobj
      obtain ⟨X, L'', hX, hX1, hX2, -⟩ := conjGreedy_call E hs hQ (i3 i) (V k).params (V k).U i1 (hK k (by omega) _ (hget k (by omega)))
      rw [hX] at hcall
      obtain ⟨h3, h4⟩ := Prod.mk.inj (Except.ok.inj hcall)
      obtain ⟨h4, h5⟩ := Prod.mk.inj h4
      refine ⟨by rw [← h3]; exact hX2, fun i' => ?_, hrun.kept k (by omega) (.inr rfl)⟩
      rw [hobj, ← h5]
      by_cases hii : i' = i
      · subst hii; rw [Function.update_self]; exact hX1
      · rw [Function.update_of_ne hii]; exact i3 i'
  have hXV : X = (V K).U := Option.some.inj (hX.symm.trans (hget K hKj))
  rw [hXV]
  exact (hVW K le_rfl).1

/-- The hypotheses, with a symmetry that is not just conjugation: the bonds `XY` and `YX` of two qubits are not real, but unchanged by conjugation followed by `Z` on the
first qubit.  So is the state `|00⟩`, and the squared layer for these observables exists. -/
example : (∀ g ∈ [bondObs (n := 2) 0 1 (by omega) (by omega) (by omega) .X .Y, bondObs 0 1 (by omega) (by omega) (by omega) .Y .X],
      ConjSymmetric (placed 2 [.Z] [0]) (full 2 g.ws g.A) ∧ conjM (full 2 g.ws g.A) ≠ full 2 g.ws g.A) ∧
    ConjInvariant (placed 2 [.Z] [0]) (fun i => (1 : QMat 2) i 0) ∧
    ∃ L, squaredLayer 2 ([bondObs (n := 2) 0 1 (by omega) (by omega) (by omega) .X .Y, bondObs 0 1 (by omega) (by omega) (by omega) .Y .X].map Gate.obs) {} = .ok L := by
  have hne : ∀ v : Fin 2 → Letter, -pauliWord v ≠ pauliWord v := by
    intro v h
    have h1 : pauliWord v = 0 := by
      ext i j
      exact self_eq_neg.1 (congrFun (congrFun h.symm i) j)
    have h2 := pauliWord_sq v
    rw [h1, zero_mul] at h2
    exact zero_ne_one h2
  have key : ∀ a b, (a = Letter.X ∧ b = Letter.Y ∨ a = .Y ∧ b = .X) → ConjSymmetric (placed 2 [.Z] [0]) (pauliWord (placed 2 [a, b] [0, 1])) ∧
      conjM (pauliWord (placed 2 [a, b] [0, 1])) ≠ pauliWord (placed 2 [a, b] [0, 1]) := by
    intro a b hab
    have h1 : conjM (pauliWord (placed 2 [a, b] [0, 1])) = -pauliWord (placed 2 [a, b] [0, 1]) := by
      rw [conjM_pauliWord, Fin.prod_univ_two]
      rcases hab with ⟨rfl, rfl⟩ | ⟨rfl, rfl⟩ <;> simp [placed, conjSign]
    refine ⟨?_, by rw [h1]; exact hne _⟩
    rw [ConjSymmetric, h1, mul_neg, pauliWord_swap, Fin.prod_univ_two]
    rcases hab with ⟨rfl, rfl⟩ | ⟨rfl, rfl⟩ <;> simp [placed, letterSign]
  refine ⟨?_, ⟨1, by simp, ?_⟩, squaredLayer_default _⟩
  · intro g hg
    simp only [List.mem_cons, List.not_mem_nil, or_false] at hg
    rcases hg with rfl | rfl <;> rw [bondObs_full]
    · exact key _ _ (.inl ⟨rfl, rfl⟩)
    · exact key _ _ (.inr ⟨rfl, rfl⟩)
  · have e : star (fun i => (1 : QMat 2) i 0) = fun i => (1 : QMat 2) i 0 := by
      funext i
      simp [Matrix.one_apply, apply_ite]
    obtain ⟨L, hL⟩ := squaredLayer_default [siteObs (n := 1 + 1) 0 (by omega) .Z]
    rw [e]
    exact (C111_leaves 1 {} L hL).2.1

end Oranssi
