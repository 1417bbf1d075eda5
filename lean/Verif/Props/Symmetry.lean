import Verif.Props.Eigenstates
import Verif.Props.RunUnitary
import Verif.Spec.Sector
import Verif.Lemmas.ZassCands
import Verif.Lemmas.AlgebraGraphs

/-! # C94, C95: conserved quantities of the observables are conserved by the optimizers -/

namespace Oranssi
open Spec
open scoped Matrix ComplexOrder

variable {n m : ℕ}

/-! ### The exact optimizer -/

/-- The generator of the exact update maps every vector into the sector of the state, if the conserved quantity commutes with the observable. -/
theorem shiftGen_sector {Q O U : QMat n} {c : ℂ} (hQ : Commute Q O) (hc : InSector Q c (fun i => U i 0)) : Q * shiftGen O U = c • shiftGen O U := by
  have hd : Q * density U = c • density U := by
    have e : density U = Matrix.vecMulVec (fun i => U i 0) (star (fun i => U i 0)) := rfl
    rw [e, Matrix.mul_vecMulVec, hc, Matrix.smul_vecMulVec]
  have key : ∀ t : ℝ, Q * (NormedSpace.exp ((-Complex.I * ((t / 2 : ℝ) : ℂ)) • O) * (density U * (NormedSpace.exp ((-Complex.I * ((t / 2 : ℝ) : ℂ)) • O))ᴴ)) =
      c • (NormedSpace.exp ((-Complex.I * ((t / 2 : ℝ) : ℂ)) • O) * (density U * (NormedSpace.exp ((-Complex.I * ((t / 2 : ℝ) : ℂ)) • O))ᴴ)) := by
    intro t
    have h1 : Commute Q (NormedSpace.exp ((-Complex.I * ((t / 2 : ℝ) : ℂ)) • O)) := Commute.exp_right (hQ.smul_right _)
    rw [← mul_assoc, h1.eq, mul_assoc, ← mul_assoc Q, hd, smul_mul_assoc, mul_smul_comm]
  rw [shiftGen, paramShiftComm, mul_sub, key, key, smul_sub]

open scoped Matrix.Norms.Operator in
theorem exp_semiconj {X A B : QMat n} (h : SemiconjBy X A B) : SemiconjBy X (NormedSpace.exp A) (NormedSpace.exp B) := SemiconjBy.exp_right h

/-- Exponentials of such a generator keep the sector. -/
theorem exp_sector {Q G : QMat n} {c z : ℂ} {φ : Ket n} (hG : Q * G = c • G) (hc : InSector Q c φ) : InSector Q c (NormedSpace.exp (z • G) *ᵥ φ) := by
  have h1 : SemiconjBy (Q - c • 1) (z • G) 0 := by
    rw [SemiconjBy, zero_mul, mul_smul_comm, sub_mul, hG, smul_mul_assoc, one_mul, sub_self, smul_zero]
  have h2 : (Q - c • 1) * NormedSpace.exp (z • G) = Q - c • 1 := by
    have := exp_semiconj h1
    rw [SemiconjBy, NormedSpace.exp_zero, one_mul] at this
    exact this
  have h3 : (Q - c • 1) *ᵥ φ = 0 := by rw [Matrix.sub_mulVec, Matrix.smul_mulVec, Matrix.one_mulVec, hc, sub_self]
  have h4 : (Q - c • 1) *ᵥ (NormedSpace.exp (z • G) *ᵥ φ) = 0 := by rw [Matrix.mulVec_mulVec, h2, h3]
  rw [Matrix.sub_mulVec, Matrix.smul_mulVec, Matrix.one_mulVec, sub_eq_zero] at h4
  exact h4

theorem mul_column (A U : QMat n) : (fun i => (A * U) i 0) = A *ᵥ (fun i => U i 0) := by
  funext i
  rw [Matrix.mul_apply]
  rfl

theorem exactUpdates_sector {eigh : EighFn n} (he : ValidEigh eigh) (e : ℝ) {Q : QMat n} {c : ℂ} : ∀ (gs : List (Gate n)) {U V : QMat n},
    (∀ g ∈ gs, Commute Q (full n g.ws g.A)) → InSector Q c (fun i => U i 0) → exactUpdates eigh e (gs.map Gate.obs) U = .ok V → InSector Q c (fun i => V i 0)
  | [], U, V, _, hc, h => by
    rw [List.map_nil, exactUpdates] at h
    rw [← Except.ok.inj h]; exact hc
  | g :: gs, U, V, hQ, hc, h => by
    rw [List.map_cons, exactUpdates, exactUpdate_gate, eighExp_eq he e (shiftGen_herm _ _)] at h
    refine exactUpdates_sector he e gs (fun g hg => hQ g (by simp [hg])) ?_ h
    rw [mul_column]
    exact exp_sector (shiftGen_sector (hQ g (by simp)) hc) hc

/-- **C94**: whatever commutes with every observable is conserved by `exact_lie_optimizer` (without perturbation): if the circuit prepares an
eigenvector of `Q`, then every state reported and the state of the circuit returned are eigenvectors with the same eigenvalue, and every cost is the
expectation of the sum of the observables in a normalised state of this eigenspace. -/
theorem C94_exact {eigh : EighFn n} (he : ValidEigh eigh) (rnd : ℕ → Matrix (Fin (2 ^ n)) (Fin (2 ^ n)) ℝ) (ret : CircuitRet) (ops : List (NpMat × List ℤ))
    (gs : List (Gate n)) (args : ExactArgs) (out : OptOut (ExactItem n)) (hp : args.perturbation = .bool false) (U : QMat n)
    (hU : compileLoop n ops 1 = .ok U) (hu : Unitary U) (Q : QMat n) (c : ℂ) (hQ : ∀ g ∈ gs, Commute Q (full n g.ws g.A)) (hc : InSector Q c (fun i => U i 0))
    (h : exactLieOptimizer eigh rnd ret ops (gs.map Gate.obs) args = .ok out) :
    (∀ l, exactStates out = some l → ∀ φ ∈ l, InSector Q c φ) ∧ (∀ V, exactUnitary out = some V → InSector Q c (fun i => V i 0)) ∧
      ∀ x ∈ exactCosts out, ∃ φ : Ket n, Normalised φ ∧ InSector Q c φ ∧ x = (star φ ⬝ᵥ (totalObs gs *ᵥ φ)).re := by
  obtain ⟨-, N, e, t, rs, p, rp, ru, hv, V, W, m, r, h0, hrun, rfl, hW, hcost, hst, -⟩ := exact_outcome eigh rnd ret ops gs args out h
  rw [hv.flagP] at hp
  obtain rfl := BoolArg.bool.inj hp
  have hV0 : V 0 = U := Except.ok.inj (h0.symm.trans hU)
  have hun := exact_run_unitary he hrun (by rw [hV0]; exact hu)
  have hVW : ∀ k ≤ m, InSector Q c (fun i => V k i 0) ∧ W k = V k := by
    intro k
    induction k with
    | zero => intro _; exact ⟨by rw [hV0]; exact hc, hrun.start⟩
    | succ k ih =>
      intro hk
      have h1 := hrun.advance k (by omega)
      simp only [exactRules] at h1
      rw [(ih (by omega)).2] at h1
      exact ⟨exactUpdates_sector he e gs hQ (ih (by omega)).1 h1, hrun.kept k (by omega) (.inr rfl)⟩
  refine ⟨?_, ?_, ?_⟩
  · intro l hl φ hφ
    rw [exactOutput_states] at hl
    cases rs with
    | false => simp at hl
    | true =>
      rw [if_pos rfl] at hl
      rw [← Option.some.inj hl, hst, if_pos rfl, List.mem_map] at hφ
      obtain ⟨k, hk, rfl⟩ := hφ
      exact (hVW k (by simpa [Nat.lt_succ_iff] using hk)).1
  · intro X hX
    rw [exactOutput_unitary] at hX
    cases ru with
    | false => simp at hX
    | true =>
      rw [if_pos rfl] at hX
      rw [← Option.some.inj hX, hW, (hVW _ le_rfl).2]
      exact (hVW _ le_rfl).1
  · intro x hx
    rw [exactOutput_costs, hcost, List.mem_map] at hx
    obtain ⟨k, hk, rfl⟩ := hx
    have hk' : k ≤ m := by simpa [Nat.lt_succ_iff] using hk
    exact ⟨_, normalised_of_unitary (hun k hk').1, (hVW k hk').1, rfl⟩

/-! ### Local and custom layers -/

/-- Two Pauli words commute or anticommute. -/
theorem pauliWord_comm_or (f g : Fin n → Letter) : pauliWord f * pauliWord g = pauliWord g * pauliWord f ∨
    pauliWord f * pauliWord g = -(pauliWord g * pauliWord f) := by
  have ef : f = fun q => letterOf (gOf (f q)) := by funext q; rw [letterOf_gOf]
  have eg : g = fun q => letterOf (gOf (g q)) := by funext q; rw [letterOf_gOf]
  have hcomm : ∀ a b : Fin 4, gammaProd a b = gammaProd b a := by decide
  have hph : ∀ a b : Fin 4, ∃ s : ℂ, (s = 1 ∨ s = -1) ∧ phase a b = s * phase b a := by
    intro a b
    have h4 := phase_pow a b
    have hs := phase_symm a b
    have hn : phase a b * (starRingEnd ℂ) (phase a b) = 1 := by
      rw [Complex.mul_conj, Complex.normSq_eq_norm_sq]
      have : ‖phase a b‖ = 1 := (pow_eq_one_iff_of_nonneg (norm_nonneg _) (by norm_num : (4 : ℕ) ≠ 0)).1 (by rw [← norm_pow, h4, norm_one])
      rw [this]; simp
    refine ⟨phase a b ^ 2, ?_, ?_⟩
    · have : (phase a b ^ 2 - 1) * (phase a b ^ 2 + 1) = 0 := by linear_combination h4
      rcases mul_eq_zero.1 this with h | h
      · exact .inl (by linear_combination h)
      · exact .inr (by linear_combination h)
    · rw [hs]
      linear_combination (-phase a b) * hn
  choose s hs1 hs2 using fun q => hph (gOf (f q)) (gOf (g q))
  have h1 := pauliWord_mul (fun q => gOf (f q)) (fun q => gOf (g q))
  have h2 := pauliWord_mul (fun q => gOf (g q)) (fun q => gOf (f q))
  rw [← ef, ← eg] at h1 h2
  have h3 : pauliWord f * pauliWord g = (∏ q, s q) • (pauliWord g * pauliWord f) := by
    rw [h1, h2, smul_smul, ← Finset.prod_mul_distrib]
    simp only [← hs2, hcomm (gOf (g _))]
  have h4 : (∏ q, s q) = 1 ∨ (∏ q, s q) = -1 := by
    refine Finset.prod_induction s (fun z => z = 1 ∨ z = -1) ?_ (.inl rfl) (fun q _ => hs1 q)
    rintro a b (rfl | rfl) (rfl | rfl) <;> simp
  rcases h4 with h | h
  · left; rw [h3, h, one_smul]
  · right; rw [h3, h, neg_smul, one_smul]

/-- In a sector of a word that commutes with the observable, the gradients along the words that anticommute with it vanish. -/
theorem omegaC_sector {w v : Fin n → Letter} {O : QMat n} {c : ℂ} {φ : Ket n} (hQ : Commute (pauliWord w) O) (hc : InSector (pauliWord w) c φ)
    (ha : pauliWord w * pauliWord v = -(pauliWord v * pauliWord w)) : omegaC φ (pauliWord v) O = 0 := by
  set Q := pauliWord w with hQd
  set P := pauliWord v with hPd
  have hQH : Qᴴ = Q := pauliWord_herm w
  have hQ2 : Q * Q = 1 := pauliWord_sq w
  have hφ : φ = Q *ᵥ (Q *ᵥ φ) := by rw [Matrix.mulVec_mulVec, hQ2, Matrix.one_mulVec]
  have hcc : φ = (c * c) • φ := by
    conv_lhs => rw [hφ, hc, Matrix.mulVec_smul, hc, smul_smul]
  have h1 : Q * (P * O - O * P) * Q = -(P * O - O * P) := by
    have e1 : Q * (P * O) * Q = -(P * O) := by
      rw [← mul_assoc, ha, neg_mul, neg_mul, mul_assoc P, hQ.eq, mul_assoc P, mul_assoc O, hQ2, mul_one]
    have e2 : Q * (O * P) * Q = -(O * P) := by
      rw [← mul_assoc, hQ.eq, mul_assoc O, ha, mul_neg, neg_mul, mul_assoc O, mul_assoc P, hQ2, mul_one]
    rw [mul_sub, sub_mul, e1, e2]; abel
  have h2 : star φ ⬝ᵥ ((Q * (P * O - O * P) * Q) *ᵥ φ) = (star c * c) * omegaC φ P O := by
    have e1 : star φ ᵥ* Q = star c • star φ := by rw [← star_smul, ← hc, Matrix.star_mulVec, hQH]
    rw [← Matrix.mulVec_mulVec, hc, Matrix.mulVec_smul, ← Matrix.mulVec_mulVec, dotProduct_smul, Matrix.dotProduct_mulVec, e1, smul_dotProduct,
      smul_eq_mul, smul_eq_mul, omegaC]
    ring
  rw [h1, Matrix.neg_mulVec, dotProduct_neg] at h2
  by_cases h0 : φ = 0
  · rw [h0, omegaC]; simp
  · have hc1 : c * c = 1 := by
      by_contra hne
      obtain ⟨i, hi⟩ := Function.ne_iff.1 h0
      have := congrFun hcc i
      rw [Pi.smul_apply, smul_eq_mul] at this
      exact hne (mul_right_cancel₀ hi (by rw [one_mul]; exact this.symm))
    have hcs : star c * c = 1 := by
      have : (c - 1) * (c + 1) = 0 := by linear_combination hc1
      rcases mul_eq_zero.1 this with h | h
      · rw [show c = 1 by linear_combination h]; simp
      · rw [show c = -1 by linear_combination h]; simp
    rw [hcs, one_mul, ← omegaC] at h2
    have h3 : (2 : ℂ) * omegaC φ P O = 0 := by linear_combination -h2
    exact (mul_eq_zero.1 h3).resolve_left two_ne_zero

/-- All factors of a group of Pauli words commute with the conserved word. -/
theorem groupFactors_sector {w : Fin n → Letter} {O : QMat n} {c : ℂ} {φ : Ket n} (hQ : Commute (pauliWord w) O) (hc : InSector (pauliWord w) c φ)
    (e : ℝ) (trot : Bool) {ps : List (QMat n)} (hps : ∀ p ∈ ps, ∃ v, p = pauliWord v) : ∀ F ∈ groupFactors e trot φ O ps, Commute (pauliWord w) F := by
  have key : ∀ p ∈ ps, Commute (pauliWord w) (omegaC φ p O • p) := by
    intro p hp
    obtain ⟨v, rfl⟩ := hps p hp
    rcases pauliWord_comm_or w v with h | h
    · exact Commute.smul_right h _
    · rw [omegaC_sector hQ hc h, zero_smul]
      exact Commute.zero_right _
  intro F hF
  cases trot
  · simp only [groupFactors, Bool.false_eq_true, if_false, List.mem_singleton] at hF
    subst hF
    refine Commute.exp_right (Commute.smul_right ?_ _)
    refine Commute.list_sum_right _ _ fun A hA => ?_
    obtain ⟨p, hp, rfl⟩ := List.mem_map.1 hA
    exact key p hp
  · simp only [groupFactors, if_true, List.mem_map] at hF
    obtain ⟨p, hp, rfl⟩ := hF
    exact Commute.exp_right (Commute.smul_right (key p hp) _)

theorem foldl_sector {Q : QMat n} {c : ℂ} : ∀ {Fs : List (QMat n)}, (∀ F ∈ Fs, Commute Q F) → ∀ {U : QMat n}, InSector Q c (fun i => U i 0) →
    InSector Q c (fun i => (Fs.foldl (fun U F => F * U) U) i 0)
  | [], _, _, h => h
  | F :: Fs, hF, U, h => by
    refine foldl_sector (Fs := Fs) (fun G hG => hF G (by simp [hG])) (U := F * U) ?_
    rw [mul_column, InSector, Matrix.mulVec_mulVec, (hF F (by simp)).eq, ← Matrix.mulVec_mulVec, h, Matrix.mulVec_smul]

/-- A local or custom layer for Hermitian observables which commute with the Pauli word `w`. -/
inductive SymmetricLayer (w : Fin n → Letter) : AnyLayer n → Prop
  | loc (hs : List (Gate n)) (hH : ∀ g ∈ hs, g.Aᴴ = g.A) (hQ : ∀ g ∈ hs, Commute (pauliWord w) (full n g.ws g.A)) (locality : ℤ) (la : LayerArgs)
      (stride : Option ℤ) (D : Option (List String)) (L : LocalLayer n) (hL : localLayer n (hs.map Gate.obs) locality la stride D = .ok L)
      (hne : D ≠ some [] ∨ L.trotterize = true) : SymmetricLayer w (.loc L)
  | custom (hs : List (Gate n)) (hH : ∀ g ∈ hs, g.Aᴴ = g.A) (hQ : ∀ g ∈ hs, Commute (pauliWord w) (full n g.ws g.A)) (D : List String) (la : LayerArgs)
      (L : CustomLayer n) (hL : customLayer n (hs.map Gate.obs) (some D) la = .ok L) (hne : (∃ d ∈ D, d.toList.length ≤ n) ∨ L.trotterize = true) :
      SymmetricLayer w (.custom L)

/-- **C95** for one call of a local or custom layer: the state stays in the sector, and the layer object is not changed. -/
theorem C95_call (E : LayerEnv n) (hs : ValidSvd E.svd) {w : Fin n → Letter} {L : AnyLayer n} (h : SymmetricLayer w L) (ps : List (List ℝ)) (U : QMat n) (c : ℂ)
    (hc : InSector (pauliWord w) c (fun i => U i 0)) :
    ∃ V, L.call E ps U = .ok (V, ps, L) ∧ InSector (pauliWord w) c (fun i => V i 0) ∧ (Unitary U → Unitary V) := by
  cases h with
  | loc gs hH hQ locality la stride D L hL hne =>
    obtain ⟨h1, h2, h3⟩ := localLayer_call hH hL hs L.eta U hne
    refine ⟨_, by rw [AnyLayer.call, show L.call E.svd U = _ from h3]; rfl, ?_, fun hU => foldl_unitary (obsFactors_unitary _ _ _ h1 h2) hU⟩
    refine foldl_sector ?_ hc
    intro F hF
    obtain ⟨o, ho, hF⟩ := List.mem_flatMap.1 hF
    obtain ⟨g, hg, hF⟩ := List.mem_flatMap.1 hF
    have hok := localLayer_inv gs hL
    obtain ⟨k, e0, b, t, hk, rfl, he, hb, ht, hL'⟩ := localLayer_ok gs hok
    rw [hL'] at hL
    have hLe := Except.ok.inj hL
    subst hLe
    obtain ⟨g0, hg0, rfl⟩ := List.mem_map.1 ho
    refine groupFactors_sector (hQ g0 hg0) hc _ _ ?_ F hF
    intro p hp
    obtain ⟨q, -, rfl⟩ := List.mem_map.1 hg
    obtain ⟨v, -, rfl⟩ := List.mem_map.1 hp
    exact ⟨_, rfl⟩
  | custom gs hH hQ D la L hL hne =>
    have h3 := customLayer_call hH hL hs L.eta U hne
    have hg : ∀ g ∈ [(customKept n D).map Prod.snd], ∀ p ∈ g, pᴴ = p := by
      intro g hg
      rw [List.mem_singleton] at hg
      subst hg
      exact customKept_herm
    refine ⟨_, by rw [AnyLayer.call, show L.call E.svd U = _ from h3]; rfl, ?_, fun hU => ?_⟩
    · refine foldl_sector ?_ hc
      intro F hF
      obtain ⟨o, ho, hF⟩ := List.mem_flatMap.1 hF
      obtain ⟨g0, hg0, rfl⟩ := List.mem_map.1 ho
      refine groupFactors_sector (hQ g0 hg0) hc _ _ ?_ F hF
      intro p hp
      obtain ⟨e, he, rfl⟩ := List.mem_map.1 hp
      obtain ⟨v, -, q, -, rfl⟩ := mem_stdDict.1 (List.mem_filter.1 he).1
      exact ⟨_, rfl⟩
    · refine foldl_unitary ?_ hU
      intro F hF
      obtain ⟨o, ho, hF⟩ := List.mem_flatMap.1 hF
      exact groupFactors_unitary _ _ _ (gates_herm hH o ho) customKept_herm F hF

/-- **C95** for `approximate_lie_optimizer` with local and custom layers (without perturbation): a Pauli word that commutes with all observables of
all layers is conserved: every state and every circuit reported is in the sector of the initial state, and so is the state of every cost. -/
theorem C95_approx (E : LayerEnv n) (hs : ValidSvd E.svd) (eigh : EighFn n) (rnd : ℕ → Matrix (Fin (2 ^ n)) (Fin (2 ^ n)) ℝ) (ret : CircuitRet)
    (ops : List (NpMat × List ℤ)) (params : List (List ℝ)) (gs : List (Gate n)) (objs : Fin m → AnyLayer n) (layers : List (Fin m)) (args : ApproxArgs)
    (out : OptOut (ApproxItem n) × (Fin m → AnyLayer n)) (hp : args.perturb = .bool false) (U : QMat n) (hU : compileLoop n ops 1 = .ok U) (hu : Unitary U)
    (w : Fin n → Letter) (c : ℂ) (hobjs : ∀ i, SymmetricLayer w (objs i)) (hc : InSector (pauliWord w) c (fun i => U i 0))
    (h : approximateLieOptimizer E eigh rnd ret ops params (gs.map Gate.obs) objs layers args = .ok out) :
    (∀ l, approxStates out.1 = some l → ∀ φ ∈ l, InSector (pauliWord w) c φ) ∧
      (∀ l, approxUnitaries out.1 = some l → ∀ V ∈ l, InSector (pauliWord w) c (fun i => V i 0)) ∧
      ∀ x ∈ approxCosts out.1, ∃ φ : Ket n, Normalised φ ∧ InSector (pauliWord w) c φ ∧ x = (star φ ⬝ᵥ (totalObs gs *ᵥ φ)).re := by
  obtain ⟨-, N, e, t, F, hv, V, W, j, r, h0, hp0, ho0, hrun, rfl, hcost, hst, hun, -⟩ := approx_outcome E eigh rnd ret ops params gs objs layers args out h
  obtain ⟨r1, r2, -, r4, -⟩ := approxOutput_read r F
  have hF : F.perturb = false := by
    have := hv.flagP
    rw [hp] at this
    exact (BoolArg.bool.inj this).symm
  rw [hF] at hrun
  have hV0 : (V 0).U = U := Except.ok.inj (h0.symm.trans hU)
  have hVW : ∀ k ≤ j, InSector (pauliWord w) c (fun i => (V k).U i 0) ∧ Unitary (V k).U ∧ (V k).objs = objs ∧ W k = V k := by
    intro k
    induction k with
    | zero => intro _; exact ⟨by rw [hV0]; exact hc, by rw [hV0]; exact hu, ho0, hrun.start⟩
    | succ k ih =>
      intro hk
      obtain ⟨i, L', hi, hcall, hobj⟩ := hrun.advance k (by omega)
      obtain ⟨i1, i2, i3, i4⟩ := ih (by omega)
      rw [i4, i3] at hcall hobj
      obtain ⟨X, hX, hX1, hX2⟩ := C95_call E hs (hobjs i) (V k).params (V k).U c i1
      rw [hX] at hcall
      obtain ⟨h3, h4⟩ := Prod.mk.inj (Except.ok.inj hcall)
      obtain ⟨h4, h5⟩ := Prod.mk.inj h4
      refine ⟨by rw [← h3]; exact hX1, by rw [← h3]; exact hX2 i2, ?_, hrun.kept k (by omega) (.inr rfl)⟩
      rw [hobj, ← h5]; exact Function.update_eq_self i objs
  refine ⟨?_, ?_, ?_⟩
  · intro l hl φ hφ
    rw [r2] at hl
    cases hf : F.returnState with
    | false => simp [hf] at hl
    | true =>
      rw [hf, if_pos rfl] at hl
      rw [← Option.some.inj hl, hst, if_pos hf, List.mem_map] at hφ
      obtain ⟨k, hk, rfl⟩ := hφ
      exact (hVW k (by simpa [Nat.lt_succ_iff] using hk)).1
  · intro l hl X hX
    rw [r4] at hl
    cases hf : F.returnUnitary with
    | false => simp [hf] at hl
    | true =>
      rw [hf, if_pos rfl] at hl
      rw [← Option.some.inj hl, hun, if_pos hf, List.mem_map] at hX
      obtain ⟨k, hk, rfl⟩ := hX
      exact (hVW k (by simpa [Nat.lt_succ_iff] using hk)).1
  · intro x hx
    rw [r1, hcost, List.mem_map] at hx
    obtain ⟨k, hk, rfl⟩ := hx
    have hk' : k ≤ j := by simpa [Nat.lt_succ_iff] using hk
    exact ⟨_, normalised_of_unitary (hVW k hk').2.1, (hVW k hk').1, rfl⟩

end Oranssi
