import Verif.Lemmas.Unitarity
import Verif.Props.ExactRefute
import Verif.Props.ExactTrace
import Verif.Props.ZassenhausV2

/-! # C72: the optimizers only ever report unitary circuits and normalised states -/

namespace Oranssi
open Spec
open scoped Matrix

variable {n m : ℕ}

/-- A layer object fresh from the constructor of any of the layer classes, on at least one qubit.  The classes whose steps are exponentials of
expectation values (local and custom) are given Hermitian observables; the others any observables. -/
inductive Fresh : AnyLayer n → Prop
  | loc (hs : List (Gate n)) (hH : ∀ g ∈ hs, g.Aᴴ = g.A) (locality : ℤ) (la : LayerArgs) (stride : Option ℤ) (D : Option (List String)) (L : LocalLayer n)
      (hL : localLayer n (hs.map Gate.obs) locality la stride D = .ok L) : Fresh (.loc L)
  | custom (hs : List (Gate n)) (hH : ∀ g ∈ hs, g.Aᴴ = g.A) (D : Option (List String)) (la : LayerArgs) (L : CustomLayer n)
      (hL : customLayer n (hs.map Gate.obs) D la = .ok L) : Fresh (.custom L)
  | stochastic (hs : List (Gate n)) (la : LayerArgs) (L : StochasticLayer n) (hL : stochasticLayer n (hs.map Gate.obs) la = .ok L) : Fresh (.stochastic L)
  | squared (hs : List (Gate n)) (la : LayerArgs) (L : SquaredLayer n) (hL : squaredLayer n (hs.map Gate.obs) la = .ok L) : Fresh (.squared L)
  | adapt (hs : List (Gate n)) (la : LayerArgs) (L : AdaptLayer n) (hL : adaptLayer n (hs.map Gate.obs) la = .ok L) : Fresh (.adapt L)
  | su8 (hs : List (Gate n)) (la : LayerArgs) (b1 b2 : Bool) (L : SU8Layer n) (hL : su8Layer n (hs.map Gate.obs) la b1 b2 = .ok L) : Fresh (.su8 L)
  | zass (hs : List (Gate n)) (la : LayerArgs) (b1 b2 : Bool) (r : ℤ × ℤ) (L : ZassLayer n) (hL : zassLayer n (hs.map Gate.obs) la b1 b2 r = .ok L) :
      Fresh (.zass L)
  | v2 (nm : NelderMead) (ord : SetOrder SMono) (hs : List (Gate n)) (la : LayerArgs) (b1 b2 : Bool) (L : ZassV2Layer n)
      (hL : zassV2Layer ord n (hs.map Gate.obs) la b1 b2 = .ok L) : Fresh (.v2 nm L)

/-- What the calls preserve. -/
def UnitInv : AnyLayer n → Prop
  | .squared L => HermDict L.lastate.fullPaulis
  | .adapt L => (2 ≤ n ∧ ∃ gs, AdaptInv gs L) ∨ (n = 1 ∧ Fresh (.adapt L))
  | .zass L => HermDict L.su4.fullPaulis
  | .v2 _ L => ∃ (ord : SetOrder SMono) (hs : List (Gate n)) (la : LayerArgs) (b1 b2 : Bool) (L₀ : ZassV2Layer n) (p : Fin 3 → ℝ),
      zassV2Layer ord n (hs.map Gate.obs) la b1 b2 = .ok L₀ ∧ L = { L₀ with params := p }
  | L => Fresh L

theorem unitInv_fresh (hn : 1 ≤ n) {L : AnyLayer n} (h : Fresh L) : UnitInv L := by
  have h0 := h
  cases h with
  | loc hs hH locality la stride D L hL => exact h0
  | custom hs hH D la L hL => exact h0
  | stochastic hs la L hL => exact h0
  | squared hs la L hL =>
    obtain ⟨-, -, h3, -⟩ := squaredLayer_inv hL
    rw [UnitInv, h3]
    exact stdDict_herm _
  | adapt hs la L hL =>
    by_cases h2 : 2 ≤ n
    · obtain ⟨h3, -, h4⟩ := adaptLayer_inv hL
      exact Or.inl ⟨h2, hs, h3, [], by simp, h4⟩
    · exact Or.inr ⟨by omega, h0⟩
  | su8 hs la b1 b2 L hL => exact h0
  | zass hs la b1 b2 r L hL =>
    obtain ⟨-, -, -, h3, -⟩ := zassLayer_inv hL
    rw [UnitInv, h3]
    exact stdDict_herm _
  | v2 nm ord hs la b1 b2 L hL => exact ⟨ord, hs, la, b1, b2, L, L.params, hL, rfl⟩

theorem custom_none_obs {la : LayerArgs} {D : Option (List String)} {L : CustomLayer n} (hL : customLayer n [] D la = .ok L) : L.observables = [] := by
  rw [customLayer] at hL
  simp only [promoteAll, List.mapM_nil, bind, Except.bind, pure, Except.pure] at hL
  repeat' (split at hL <;> try (simp at hL; done))
  all_goals
    obtain rfl := Except.ok.inj hL
    rfl

theorem adapt_one_raises {gs : List (Gate n)} (h1 : n = 1) {la : LayerArgs} {L : AdaptLayer n} (hL : adaptLayer n (gs.map Gate.obs) la = .ok L)
    (opt : VqeOptimizer) (params : List (List ℝ)) (U : QMat n) : L.call opt params U = .error .key := by
  subst h1
  exact C39_one_qubit gs la L hL opt params U

theorem unitInv_call (hn : 1 ≤ n) (E : LayerEnv n) (hsvd : ValidSvd E.svd) {L L' : AnyLayer n} (h : UnitInv L) {ps ps' : List (List ℝ)} {U V : QMat n}
    (hU : Unitary U) (hc : L.call E ps U = .ok (V, ps', L')) : Unitary V ∧ UnitInv L' := by
  cases L with
  | loc L =>
    have h0 := h
    cases h with
    | loc hs hH locality la stride D L hL =>
      rw [AnyLayer.call] at hc
      simp only [bind, Except.bind] at hc
      split at hc
      · simp at hc
      rename_i V' hV
      obtain ⟨rfl, hc2⟩ := Prod.mk.inj (Except.ok.inj hc)
      obtain ⟨-, rfl⟩ := Prod.mk.inj hc2
      exact ⟨(C28_local hs hH locality la stride D L hL E.svd hsvd L.eta U hU).1 _ hV, h0⟩
  | custom L =>
    have h0 := h
    cases h with
    | custom hs hH D la L hL =>
      rw [AnyLayer.call] at hc
      simp only [bind, Except.bind] at hc
      split at hc
      · simp at hc
      rename_i V' hV
      obtain ⟨rfl, hc2⟩ := Prod.mk.inj (Except.ok.inj hc)
      obtain ⟨-, rfl⟩ := Prod.mk.inj hc2
      refine ⟨?_, h0⟩
      cases D with
      | some D => exact (C28_custom hs hH D la L hL E.svd hsvd L.eta U hU).1 _ hV
      | none =>
        cases hs with
        | nil =>
          rw [CustomLayer.call, custom_none_obs hL, customObsLoop] at hV
          rw [← Except.ok.inj hV]
          exact hU
        | cons g gs =>
          rw [C33_none_raises hn (g :: gs) (by simp) la L hL E.svd U] at hV
          simp at hV
  | stochastic L =>
    rw [AnyLayer.call, C34_always_raises] at hc
    simp [bind, Except.bind] at hc
  | squared L =>
    rw [AnyLayer.call] at hc
    simp only [bind, Except.bind] at hc
    split at hc
    · simp at hc
    rename_i r hr
    obtain ⟨rfl, hc2⟩ := Prod.mk.inj (Except.ok.inj hc)
    obtain ⟨-, rfl⟩ := Prod.mk.inj hc2
    obtain ⟨h1, h2⟩ := squared_unitary h hU (V := r.1) (L' := r.2) hr
    refine ⟨h1, ?_⟩
    rw [UnitInv, h2]
    exact h
  | adapt L =>
    rw [AnyLayer.call] at hc
    simp only [bind, Except.bind] at hc
    split at hc
    · simp at hc
    rename_i r hr
    obtain ⟨rfl, hc2⟩ := Prod.mk.inj (Except.ok.inj hc)
    obtain ⟨rfl, rfl⟩ := Prod.mk.inj hc2
    rcases h with ⟨h2, gs, hL⟩ | ⟨h1, hF⟩
    · obtain ⟨h3, h4⟩ := adapt_unitary h2 hL (V := r.1) (last := r.2.1) (L' := r.2.2) hr
      exact ⟨h3, Or.inl ⟨h2, gs, h4⟩⟩
    · cases hF with
      | adapt hs la L hL =>
        rw [adapt_one_raises h1 hL] at hr
        simp at hr
  | su8 L =>
    have h0 := h
    cases h with
    | su8 hs la b1 b2 L hL =>
      rw [AnyLayer.call] at hc
      simp only [bind, Except.bind] at hc
      split at hc
      · simp at hc
      rename_i r hr
      obtain ⟨rfl, hc2⟩ := Prod.mk.inj (Except.ok.inj hc)
      obtain ⟨-, rfl⟩ := Prod.mk.inj hc2
      refine ⟨su8_unitary (V := r.1) (k := r.2) ?_ hU hr, h0⟩
      rw [(su8Layer_inv hL).2.2.2]
      exact stdDict_herm _
  | zass L =>
    rw [AnyLayer.call] at hc
    simp only [bind, Except.bind] at hc
    split at hc
    · simp at hc
    rename_i r hr
    obtain ⟨rfl, hc2⟩ := Prod.mk.inj (Except.ok.inj hc)
    obtain ⟨-, rfl⟩ := Prod.mk.inj hc2
    obtain ⟨h1, h2⟩ := zass_unitary h hU (V := r.1) (L' := r.2) hr
    refine ⟨h1, ?_⟩
    rw [UnitInv, h2]
    exact h
  | v2 nm L =>
    obtain ⟨ord, hs, la, b1, b2, L₀, p, hL, rfl⟩ := h
    rw [AnyLayer.call] at hc
    by_cases h2 : 2 ≤ n
    · rw [v2_call_any h2 nm hL] at hc
      obtain ⟨rfl, hc2⟩ := Prod.mk.inj (Except.ok.inj hc)
      obtain ⟨-, rfl⟩ := Prod.mk.inj hc2
      exact ⟨v2_unitary h2 _, ord, hs, la, b1, b2, L₀, _, hL, rfl⟩
    · have e : ({ L₀ with params := p } : ZassV2Layer n).call nm U = .error .key := by
        have h1 := C80_one_qubit (by omega) nm hL U
        rw [ZassV2Layer.call] at h1 ⊢
        change (L₀.omegas U >>= _) = _
        cases ho : L₀.omegas U with
        | error e => rw [ho] at h1; exact h1
        | ok ws =>
          rw [ho] at h1
          simp only [bind, Except.bind] at h1 ⊢
          split at h1
          · rename_i e he
            rw [show ({ L₀ with params := p } : ZassV2Layer n).misfit = L₀.misfit from rfl, he]
            exact h1
          · simp at h1
      rw [e] at hc
      simp [bind, Except.bind] at hc

/-- A state vector of norm 1. -/
def Spec.Normalised (φ : Ket n) : Prop := star φ ⬝ᵥ φ = 1

theorem normalised_of_unitary {U : QMat n} (hU : Unitary U) : Normalised (fun i => U i 0) := by
  have h := congrFun (congrFun hU 0) 0
  rw [Matrix.mul_apply, Matrix.one_apply_eq] at h
  exact h

theorem perturb_unitary {eigh : EighFn n} (he : ValidEigh eigh) (eta : ℝ) (R : Matrix (Fin (2 ^ n)) (Fin (2 ^ n)) ℝ) {U : QMat n} (hU : Unitary U) :
    Unitary (perturb eigh eta R U) := by
  obtain ⟨Q, h1, h2⟩ := C49_perturbation_unitary he eta R U
  rw [h2]
  exact Unitary.mul h1 hU

/-- The circuits of a run of the approximate optimizer, before and after perturbation, are unitary, and so are the layer objects. -/
theorem approx_run_unitary (hn : 1 ≤ n) (E : LayerEnv n) (hsvd : ValidSvd E.svd) {eigh : EighFn n} (he : ValidEigh eigh)
    {rnd : ℕ → Matrix (Fin (2 ^ n)) (Fin (2 ^ n)) ℝ} {e : ℝ} {layers : List (Fin m)} {V W : ℕ → World n m} {j : ℕ}
    (h0 : Unitary (V 0).U) (hF : ∀ i, UnitInv ((V 0).objs i))
    (hstep : ∀ k < j, ∃ i L', layers[k % layers.length]? = some i ∧ ((W k).objs i).call E (W k).params (W k).U = .ok ((V (k + 1)).U, (V (k + 1)).params, L') ∧
        (V (k + 1)).objs = Function.update (W k).objs i L') (hW0 : W 0 = V 0)
    (hobj : ∀ k ≤ j, (W k).objs = (V k).objs ∧ (W k).params = (V k).params)
    (hW : ∀ k < j, W (k + 1) = V (k + 1) ∨ (W (k + 1)).U = perturb eigh e (rnd k) (V (k + 1)).U) :
    ∀ k ≤ j, Unitary (V k).U ∧ Unitary (W k).U ∧ ∀ i, UnitInv ((V k).objs i) := by
  intro k
  induction k with
  | zero => intro _; rw [hW0]; exact ⟨h0, h0, hF⟩
  | succ k ih =>
    intro hk
    obtain ⟨h1, h2, h3⟩ := ih (by omega)
    obtain ⟨i, L', -, hc, ho⟩ := hstep k (by omega)
    have h4 : UnitInv ((W k).objs i) := by rw [(hobj k (by omega)).1]; exact h3 i
    obtain ⟨h5, h6⟩ := unitInv_call hn E hsvd h4 h2 hc
    refine ⟨h5, ?_, fun i' => ?_⟩
    · rcases hW k (by omega) with h | h
      · rw [h]; exact h5
      · rw [h]; exact perturb_unitary he _ _ h5
    · rw [ho]
      by_cases hi : i' = i
      · rw [hi, Function.update_self]; exact h6
      · rw [Function.update_of_ne hi, (hobj k (by omega)).1]; exact h3 i'

/-- C72 (approximate optimizer).  For circuits of unitary gates and layer objects fresh from their constructors, in any number, order and
mixture, with any tolerance and with or without random perturbation: every circuit reported is unitary, and every state reported has norm 1. -/
theorem C72_approx (hn : 1 ≤ n) (E : LayerEnv n) (hsvd : ValidSvd E.svd) (eigh : EighFn n) (he : ValidEigh eigh)
    (rnd : ℕ → Matrix (Fin (2 ^ n)) (Fin (2 ^ n)) ℝ) (ret : CircuitRet) (cs : List (Gate n)) (hcs : ∀ g ∈ cs, g.Aᴴ * g.A = 1) (params : List (List ℝ))
    (gs : List (Gate n)) (objs : Fin m → AnyLayer n) (hF : ∀ i, Fresh (objs i)) (layers : List (Fin m)) (args : ApproxArgs)
    (out : OptOut (ApproxItem n) × (Fin m → AnyLayer n))
    (h : approximateLieOptimizer E eigh rnd ret (cs.map (fun g => (g.obs.matrix, g.obs.wires))) params (gs.map Gate.obs) objs layers args = .ok out) :
    (args.returnUnitary = .bool true → ∃ l, approxUnitaries out.1 = some l ∧ l ≠ [] ∧ ∀ U ∈ l, Unitary U) ∧
    (args.returnState = .bool true → ∃ l, approxStates out.1 = some l ∧ l ≠ [] ∧ ∀ φ ∈ l, Normalised φ) := by
  obtain ⟨N, -, e, -, V, W, j, hj, -, h0, -, ho, -, hstep, hW0, -, hobj, hW, -, -, hst, hun, -⟩ := C50_trace E eigh rnd ret _ params gs objs layers args out h
  have hU0 : Unitary (V 0).U := by
    refine compile_unitary (fun g hg => ?_) (by simp [Unitary]) h0
    obtain ⟨G, hG, rfl⟩ := List.mem_map.1 hg
    exact ⟨G, hcs G hG, rfl⟩
  have hall := approx_run_unitary hn E hsvd he hU0 (by rw [ho]; exact fun i => unitInv_fresh hn (hF i)) hstep hW0 hobj hW
  refine ⟨fun hr => ?_, fun hr => ?_⟩
  · obtain ⟨l, h1, h2, h3⟩ := hun hr
    refine ⟨l, h1, by intro hc; rw [hc] at h2; simp at h2, fun U hU => ?_⟩
    obtain ⟨k, hk, rfl⟩ := List.getElem_of_mem hU
    have := h3 k (by omega)
    rw [List.getElem?_eq_getElem hk] at this
    rw [Option.some.inj this]
    exact (hall k (by omega)).1
  · obtain ⟨l, h1, h2, h3⟩ := hst hr
    refine ⟨l, h1, by intro hc; rw [hc] at h2; simp at h2, fun φ hφ => ?_⟩
    obtain ⟨k, hk, rfl⟩ := List.getElem_of_mem hφ
    have := h3 k (by omega)
    rw [List.getElem?_eq_getElem hk] at this
    rw [Option.some.inj this]
    exact normalised_of_unitary (hall k (by omega)).1

/-! ### Exact optimizer -/

theorem exactUpdates_unitary {eigh : EighFn n} (he : ValidEigh eigh) (e : ℝ) : ∀ (gs : List (Gate n)) {U V : QMat n}, Unitary U →
    exactUpdates eigh e (gs.map Gate.obs) U = .ok V → Unitary V
  | [], U, V, hU, h => by
    rw [List.map_nil, exactUpdates] at h
    rw [← Except.ok.inj h]; exact hU
  | g :: gs, U, V, hU, h => by
    obtain ⟨Q, h1, h2⟩ := C47_unitary eigh he e g U
    rw [List.map_cons, exactUpdates, h2] at h
    exact exactUpdates_unitary he e gs (Unitary.mul h1 hU) h

theorem exact_run_unitary {eigh : EighFn n} (he : ValidEigh eigh) {rnd : ℕ → Matrix (Fin (2 ^ n)) (Fin (2 ^ n)) ℝ} {gs : List (Gate n)} {N : ℕ} {e : ℝ}
    {t : Tol} {p : Bool} {V W : ℕ → QMat n} {j : ℕ} (hrun : (exactRules eigh rnd gs N e t p).Run V W j) (h0 : Unitary (V 0)) :
    ∀ k ≤ j, Unitary (V k) ∧ Unitary (W k) := by
  intro k
  induction k with
  | zero => intro _; rw [hrun.start]; exact ⟨h0, h0⟩
  | succ k ih =>
    intro hk
    obtain ⟨-, h2⟩ := ih (by omega)
    have h3 : Unitary (V (k + 1)) := exactUpdates_unitary he e gs h2 (hrun.advance k (by omega))
    refine ⟨h3, ?_⟩
    by_cases hf : (exactRules eigh rnd gs N e t p).Flat V k
    · cases hp : (exactRules eigh rnd gs N e t p).kick with
      | none => rw [hrun.kept k (by omega) (Or.inr hp)]; exact h3
      | some f =>
        rw [hrun.kicked k (by omega) hf f hp]
        simp only [exactRules] at hp
        cases p with
        | false => simp at hp
        | true =>
          simp only [if_true, Option.some.injEq] at hp
          rw [← hp]
          exact perturb_unitary he _ _ h3
    · rw [hrun.kept k (by omega) (Or.inl hf)]; exact h3

/-- C72 (exact optimizer).  For circuits of unitary gates and any observables, Hermitian or not: the circuit returned is unitary and every state
reported has norm 1. -/
theorem C72_exact (eigh : EighFn n) (he : ValidEigh eigh) (rnd : ℕ → Matrix (Fin (2 ^ n)) (Fin (2 ^ n)) ℝ) (ret : CircuitRet)
    (cs : List (Gate n)) (hcs : ∀ g ∈ cs, g.Aᴴ * g.A = 1) (gs : List (Gate n)) (args : ExactArgs) (out : OptOut (ExactItem n))
    (h : exactLieOptimizer eigh rnd ret (cs.map (fun g => (g.obs.matrix, g.obs.wires))) (gs.map Gate.obs) args = .ok out) :
    (args.returnUnitary = .bool true → ∃ U, exactUnitary out = some U ∧ Unitary U) ∧
    (args.returnState = .bool true → ∃ l, exactStates out = some l ∧ l ≠ [] ∧ ∀ φ ∈ l, Normalised φ) := by
  obtain ⟨-, N, e, t, rs, p, rp, ru, hv, V, W, j, r, h0, hrun, rfl, hr, -, hst, -⟩ := exact_outcome eigh rnd ret _ gs args out h
  have hU0 : Unitary (V 0) := by
    refine compile_unitary (fun g hg => ?_) (by simp [Unitary]) h0
    obtain ⟨G, hG, rfl⟩ := List.mem_map.1 hg
    exact ⟨G, hcs G hG, rfl⟩
  have hall := exact_run_unitary he hrun hU0
  refine ⟨fun hf => ?_, fun hf => ?_⟩
  · have : ru = true := by have := hv.flagU; rw [hf] at this; exact (BoolArg.bool.inj this).symm
    refine ⟨r.unitary, by rw [exactOutput_unitary, this]; rfl, ?_⟩
    rw [hr]
    exact (hall j le_rfl).2
  · have : rs = true := by have := hv.flagS; rw [hf] at this; exact (BoolArg.bool.inj this).symm
    refine ⟨r.states, by rw [exactOutput_states, this]; rfl, by rw [hst, this]; simp, fun φ hφ => ?_⟩
    rw [hst, this, if_pos rfl, List.mem_map] at hφ
    obtain ⟨k, hk, rfl⟩ := hφ
    exact normalised_of_unitary (hall k (by simpa [Nat.lt_succ_iff] using hk)).1

/-! ### Examples -/

theorem fresh_of_total {L : AnyLayer n} (h : FreshTotal L) : Fresh L := by
  cases h with
  | loc hs hH locality la stride D L hL hne => exact .loc hs hH locality la stride D L hL
  | custom hs hH D la L hL hne => exact .custom hs hH (some D) la L hL
  | squared hn hs la L hL => exact .squared hs la L hL
  | su8 hs la b1 b2 L hL => exact .su8 hs la b1 b2 L hL

/-- Hypotheses of `C72_approx`: a run of 12 steps with a local layer on two qubits, with states and circuits returned and perturbations allowed. -/
example (rnd : ℕ → Matrix (Fin (2 ^ 2)) (Fin (2 ^ 2)) ℝ) : ∃ (E : LayerEnv 2) (eigh : EighFn 2) (objs : Fin 1 → AnyLayer 2) (args : ApproxArgs),
    ValidSvd E.svd ∧ ValidEigh eigh ∧ (∀ i, Fresh (objs i)) ∧ (∀ g ∈ [exObsZ], g.Aᴴ * g.A = 1) ∧ args.returnUnitary = .bool true ∧
    args.returnState = .bool true ∧ args.perturb = .bool true ∧
      ∃ out, approximateLieOptimizer E eigh rnd .state ([exObsZ].map (fun g => (g.obs.matrix, g.obs.wires))) [] ([exObsZ].map Gate.obs) objs [0] args = .ok out := by
  obtain ⟨svd, hsvd⟩ := exists_validSvd 2
  obtain ⟨eigh, heigh⟩ := exists_validEigh 2
  obtain ⟨L, hL⟩ := exLocal
  let E : LayerEnv 2 := ⟨svd, ⟨List.reverse, List.reverse_perm⟩, fun _ _ p => .ok p⟩
  have hE : ValidSvd E.svd := hsvd
  have hT : ∀ _ : Fin 1, FreshTotal (AnyLayer.loc L) := fun _ => .loc [exObsZ] exObsZ_herm 2 {} none none L hL (.inl (by simp))
  refine ⟨E, eigh, fun _ => .loc L, { nsteps := .int (12 : ℕ), returnState := .bool true, returnUnitary := .bool true, perturb := .bool true }, hE, heigh,
    fun i => fresh_of_total (hT i), ?_, rfl, rfl, rfl, ?_⟩
  · intro g hg
    rw [List.mem_singleton.1 hg]
    have h1 : exObsZ.Aᴴ = exObsZ.A := pauliWord_herm _
    rw [h1]
    exact pauliWord_sq _
  · exact (C50_total_layers E hE eigh rnd .state [exObsZ] [] [exObsZ] _ [0] _ (List.cons_ne_nil _ _) hT rfl).mpr
      ⟨rfl, 12, 0.1, some (.fin 1e-3), _, approxValid_of 12 (by norm_num) (some (.float 1e-3)) (some (.fin 1e-3)) ⟨rfl, by norm_num⟩
        ⟨true, false, true, false, true, false, false⟩⟩

end Oranssi
