import Verif.Props.ApproxOmegas
import Verif.Lemmas.Svd

/-! # Runs of `approximate_lie_optimizer` that cannot fail, and examples for C41, C46, C49-C54 -/

namespace Oranssi
open Spec
open scoped Matrix

variable {n m : ℕ}

/-- A layer fresh from its constructor, of a class whose calls cannot fail: a local or custom layer with Hermitian observables and at least one
direction (or with `trotterize`), a squared layer, an SU(8) layer. -/
inductive FreshTotal : AnyLayer n → Prop
  | loc (hs : List (Gate n)) (hH : ∀ g ∈ hs, g.Aᴴ = g.A) (locality : ℤ) (la : LayerArgs) (stride : Option ℤ) (D : Option (List String)) (L : LocalLayer n)
      (hL : localLayer n (hs.map Gate.obs) locality la stride D = .ok L) (hne : D ≠ some [] ∨ L.trotterize = true) : FreshTotal (.loc L)
  | custom (hs : List (Gate n)) (hH : ∀ g ∈ hs, g.Aᴴ = g.A) (D : List String) (la : LayerArgs) (L : CustomLayer n)
      (hL : customLayer n (hs.map Gate.obs) (some D) la = .ok L) (hne : (∃ d ∈ D, d.toList.length ≤ n) ∨ L.trotterize = true) : FreshTotal (.custom L)
  | squared (hn : 1 ≤ n) (hs : List (Gate n)) (la : LayerArgs) (L : SquaredLayer n) (hL : squaredLayer n (hs.map Gate.obs) la = .ok L) : FreshTotal (.squared L)
  | su8 (hs : List (Gate n)) (la : LayerArgs) (b1 b2 : Bool) (L : SU8Layer n) (hL : su8Layer n (hs.map Gate.obs) la b1 b2 = .ok L) : FreshTotal (.su8 L)

/-- The property of a layer object that the calls preserve. -/
def TotalInv : AnyLayer n → Prop
  | .squared L => 1 ≤ n ∧ ∃ gs : List (Gate n), L.observables = gs.map Gate.obs ∧ L.observablesFull = gs.map (fun g => full n g.ws g.A) ∧
      L.lastate.fullPaulis = stdDict n (allWords [1, 2])
  | L => FreshTotal L

theorem totalInv_fresh {L : AnyLayer n} (h : FreshTotal L) : TotalInv L := by
  cases h with
  | loc hs hH locality la stride D L hL hne => exact .loc hs hH locality la stride D L hL hne
  | custom hs hH D la L hL hne => exact .custom hs hH D la L hL hne
  | squared hn hs la L hL =>
    obtain ⟨h1, h2, h3, -⟩ := squaredLayer_inv hL
    exact ⟨hn, hs, h1, h2, h3⟩
  | su8 hs la b1 b2 L hL => exact .su8 hs la b1 b2 L hL

theorem totalInv_call (E : LayerEnv n) (hsvd : ValidSvd E.svd) {L : AnyLayer n} (h : TotalInv L) (ps : List (List ℝ)) (U : QMat n) :
    ∃ r, L.call E ps U = .ok r ∧ TotalInv r.2.2 := by
  cases L with
  | loc L =>
    cases h with
    | loc hs hH locality la stride D L hL hne =>
      have hc := (localLayer_call hH hL hsvd L.eta U hne).2.2
      rw [show L.setEta L.eta = L from rfl] at hc
      rw [AnyLayer.call, hc]
      exact ⟨_, rfl, .loc hs hH locality la stride D L hL hne⟩
  | custom L =>
    cases h with
    | custom hs hH D la L hL hne =>
      have hc := customLayer_call hH hL hsvd L.eta U hne
      rw [show L.setEta L.eta = L from rfl] at hc
      rw [AnyLayer.call, hc]
      exact ⟨_, rfl, .custom hs hH D la L hL hne⟩
  | stochastic L => cases h
  | adapt L => cases h
  | zass L => cases h
  | v2 nm L => cases h
  | squared L =>
    obtain ⟨hn, gs, h1, h2, h3⟩ := h
    obtain ⟨k, P, V, hc, -⟩ := squared_call hn h1 h2 h3 U
    rw [AnyLayer.call, hc]
    exact ⟨_, rfl, hn, gs, h1, h2, h3⟩
  | su8 L =>
    cases h with
    | su8 hs la b1 b2 L hL =>
      obtain ⟨-, k, P, V, hc, -⟩ := C36_su8 hs la b1 b2 L hL U
      rw [AnyLayer.call, hc]
      exact ⟨_, rfl, .su8 hs la b1 b2 L hL⟩

/-- C50, C67 (approximate optimizer).  With layers of the classes whose calls cannot fail, in any order and any number (but at least one), and without
`return_omegas`, the call of the optimizer succeeds exactly when the circuit returns a state and the arguments are valid. -/
theorem C50_total_layers (E : LayerEnv n) (hsvd : ValidSvd E.svd) (eigh : EighFn n) (rnd : ℕ → Matrix (Fin (2 ^ n)) (Fin (2 ^ n)) ℝ) (ret : CircuitRet)
    (cs : List (Gate n)) (params : List (List ℝ)) (gs : List (Gate n)) (objs : Fin m → AnyLayer n) (layers : List (Fin m)) (args : ApproxArgs)
    (hne : layers ≠ []) (hT : ∀ i, FreshTotal (objs i)) (ho : args.returnOmegas = .bool false) :
    (∃ out, approximateLieOptimizer E eigh rnd ret (cs.map (fun g => (g.obs.matrix, g.obs.wires))) params (gs.map Gate.obs) objs layers args = .ok out) ↔
      ret = .state ∧ ∃ N e t F, ApproxValid args N e t F := by
  refine C50_succeeds_iff E eigh rnd ret params gs objs layers args cs hne (fun _ os => ∀ i, TotalInv (os i)) (fun i => totalInv_fresh (hT i)) ?_ ho
  intro ps os U i h
  obtain ⟨r, hr, hi⟩ := totalInv_call E hsvd (h i) ps U
  refine ⟨r, hr, fun j => ?_⟩
  by_cases hj : j = i
  · subst hj; rw [Function.update_self]; exact hi
  · rw [Function.update_of_ne hj]; exact h j

/-! ### Examples -/

theorem exObsZ_herm : ∀ g ∈ [exObsZ], g.Aᴴ = g.A := by
  intro g hg
  rw [List.mem_singleton.1 hg]
  exact pauliWord_herm _

/-- The local layer on two qubits with default arguments. -/
theorem exLocal : ∃ L, localLayer 2 ([exObsZ].map Gate.obs) 2 {} none none = .ok L := by
  obtain ⟨k, e, b, t, -, -, -, -, -, h⟩ := localLayer_ok [exObsZ] (localOk_default 2 rfl none (by simp) none (by simp))
  exact ⟨_, h⟩

theorem exSquared : ∃ L, squaredLayer 2 ([exObsZ].map Gate.obs) {} = .ok L := by
  obtain ⟨a, ha, -⟩ := algebraSU4_getAll 2
  rw [squaredLayer, promoteAll_gates, ha]
  simp only [bind, Except.bind]
  rw [show validateEta (Option.getD ({} : LayerArgs).eta (.float 0.1)) = .ok 0.1 from defaultEta_ok']
  exact ⟨_, rfl⟩

theorem approxValid_of (N : ℕ) (hN : 1 ≤ N) (t : Option PyVal) (t' : Option Tol) (ht : IsTolOpt t t') (F : ApproxFlags) :
    ApproxValid {
      nsteps := .int N, tol := t, returnState := .bool F.returnState, returnOmegas := .bool F.returnOmegas, returnUnitary := .bool F.returnUnitary,
      returnGates := .bool F.returnGates, perturb := .bool F.perturb, returnPerturbations := .bool F.returnPerturbations,
      returnZassenhaus := .bool F.returnZassenhaus } N 0.1 t' F :=
  ⟨rfl, hN, rfl, by norm_num, by norm_num, ht, rfl, rfl, rfl, rfl, rfl, rfl, rfl, rfl⟩

/-- Runs exist: two qubits, the gate `Z` on qubit 1 as circuit, a local and a squared layer called in turn, 12 steps, with and without
tolerance and perturbation, everything but the directions returned.  These are the hypotheses of C46, C49, C50, C51, C52, C53. -/
example (rnd : ℕ → Matrix (Fin (2 ^ 2)) (Fin (2 ^ 2)) ℝ) (p : Bool) (x : ℝ) (hx : 0 ≤ x) : ∃ (E : LayerEnv 2) (eigh : EighFn 2) (objs : Fin 2 → AnyLayer 2),
    ValidSvd E.svd ∧ ValidEigh eigh ∧ (∀ i, FreshTotal (objs i)) ∧ (∃ L, objs 0 = .loc L) ∧ (∃ L, objs 1 = .squared L) ∧ ∀ t : Option PyVal, t = none ∨ t = some (.float x) →
      ∃ out, approximateLieOptimizer E eigh rnd .state ([exObsZ].map (fun g => (g.obs.matrix, g.obs.wires))) [] ([exObsZ].map Gate.obs) objs [0, 1]
        { nsteps := .int (12 : ℕ), tol := t, returnState := .bool true, returnOmegas := .bool false, returnUnitary := .bool true, returnGates := .bool true, perturb := .bool p,
          returnPerturbations := .bool true, returnZassenhaus := .bool true } = .ok out := by
  obtain ⟨svd, hsvd⟩ := exists_validSvd 2
  obtain ⟨eigh, heigh⟩ := exists_validEigh 2
  obtain ⟨L, hL⟩ := exLocal
  obtain ⟨S, hS⟩ := exSquared
  let E : LayerEnv 2 := ⟨svd, ⟨List.reverse, List.reverse_perm⟩, fun _ _ p => .ok p⟩
  have hE : ValidSvd E.svd := hsvd
  obtain ⟨objs, hT, h0, h1⟩ : ∃ objs : Fin 2 → AnyLayer 2, (∀ i, FreshTotal (objs i)) ∧ objs 0 = .loc L ∧ objs 1 = .squared S := by
    refine ⟨fun i => if i = 0 then .loc L else .squared S, fun i => ?_, rfl, rfl⟩
    by_cases hi : i = 0
    · simp only [hi, if_true]
      exact .loc [exObsZ] exObsZ_herm 2 {} none none L hL (.inl (by simp))
    · simp only [hi, if_false]
      exact .squared (by norm_num) [exObsZ] {} S hS
  refine ⟨E, eigh, objs, hE, heigh, hT, ⟨L, h0⟩, ⟨S, h1⟩, fun t ht => ?_⟩
  have hv : ∃ t', IsTolOpt t t' := by
    rcases ht with rfl | rfl
    · exact ⟨none, trivial⟩
    · exact ⟨some (.fin x), rfl, hx⟩
  obtain ⟨t', ht'⟩ := hv
  exact (C50_total_layers E hE eigh rnd .state [exObsZ] [] [exObsZ] objs [0, 1] _ (List.cons_ne_nil _ _) hT rfl).mpr
    ⟨rfl, 12, 0.1, t', _, approxValid_of 12 (by norm_num) t t' ht' ⟨true, false, true, true, p, true, true⟩⟩

/-- Hypotheses of `C54_refuted`: a run with a local layer, which cannot report directions. -/
example (rnd : ℕ → Matrix (Fin (2 ^ 2)) (Fin (2 ^ 2)) ℝ) (eigh : EighFn 2) : ∃ (E : LayerEnv 2) (L : LocalLayer 2) (args : ApproxArgs), NoDirections (.loc L) ∧
    ∃ out, approximateLieOptimizer E eigh rnd .state ([exObsZ].map (fun g => (g.obs.matrix, g.obs.wires))) [] ([exObsZ].map Gate.obs) (fun _ : Fin 1 => .loc L) [0]
      { args with returnOmegas := .bool false } = .ok out := by
  obtain ⟨svd, hsvd⟩ := exists_validSvd 2
  obtain ⟨L, hL⟩ := exLocal
  let E : LayerEnv 2 := ⟨svd, ⟨List.reverse, List.reverse_perm⟩, fun _ _ p => .ok p⟩
  have hE : ValidSvd E.svd := hsvd
  refine ⟨E, L, { nsteps := .int (5 : ℕ) }, (C54_no_directions [exObsZ] (by simp) {}).1 L 2 none none hL, ?_⟩
  exact (C50_total_layers E hE eigh rnd .state [exObsZ] [] [exObsZ] _ [0] _ (List.cons_ne_nil _ _)
    (fun _ => .loc [exObsZ] exObsZ_herm 2 {} none none L hL (.inl (by simp))) rfl).mpr
    ⟨rfl, 5, 0.1, some (.fin 1e-3), _, approxValid_of 5 (by norm_num) (some (.float 1e-3)) (some (.fin 1e-3)) ⟨rfl, by norm_num⟩ ⟨false, false, false, false, false, false, false⟩⟩

/-- Hypotheses of `C54_greedy_layers_partial`: a run with a squared layer. -/
example (rnd : ℕ → Matrix (Fin (2 ^ 2)) (Fin (2 ^ 2)) ℝ) (eigh : EighFn 2) : ∃ (E : LayerEnv 2) (L : SquaredLayer 2) (args : ApproxArgs), HasDirections (.squared L) ∧
    ∃ out, approximateLieOptimizer E eigh rnd .state ([exObsZ].map (fun g => (g.obs.matrix, g.obs.wires))) [] ([exObsZ].map Gate.obs) (fun _ : Fin 1 => .squared L) [0]
      { args with returnOmegas := .bool false } = .ok out := by
  obtain ⟨svd, hsvd⟩ := exists_validSvd 2
  obtain ⟨L, hL⟩ := exSquared
  let E : LayerEnv 2 := ⟨svd, ⟨List.reverse, List.reverse_perm⟩, fun _ _ p => .ok p⟩
  have hE : ValidSvd E.svd := hsvd
  refine ⟨E, L, { nsteps := .int (5 : ℕ) }, ⟨[exObsZ], (squaredLayer_inv hL).1⟩, ?_⟩
  exact (C50_total_layers E hE eigh rnd .state [exObsZ] [] [exObsZ] _ [0] _ (List.cons_ne_nil _ _)
    (fun _ => .squared (by norm_num) [exObsZ] {} L hL) rfl).mpr
    ⟨rfl, 5, 0.1, some (.fin 1e-3), _, approxValid_of 5 (by norm_num) (some (.float 1e-3)) (some (.fin 1e-3)) ⟨rfl, by norm_num⟩ ⟨false, false, false, false, false, false, false⟩⟩

/-- A run of one step succeeds if the call of the first layer does. -/
theorem approx_one_step (E : LayerEnv n) (eigh : EighFn n) (rnd : ℕ → Matrix (Fin (2 ^ n)) (Fin (2 ^ n)) ℝ) (cs : List (Gate n)) (params : List (List ℝ))
    (gs : List (Gate n)) (objs : Fin m → AnyLayer n) (i : Fin m) (is : List (Fin m)) (hcall : ∀ U, ∃ r, (objs i).call E params U = .ok r) (args : ApproxArgs)
    (e : ℝ) (t : Option Tol) (F : ApproxFlags) (hv : ApproxValid args 1 e t F) (hF : F.returnOmegas = false) :
    ∃ out, approximateLieOptimizer E eigh rnd .state (cs.map (fun g => (g.obs.matrix, g.obs.wires))) params (gs.map Gate.obs) objs (i :: is) args = .ok out := by
  obtain ⟨U, hU⟩ : ∃ U, compileLoop n (cs.map (fun g => (g.obs.matrix, g.obs.wires))) 1 = .ok U := by
    have := compileCircuit_gates cs
    rw [compileCircuit, List.zip_map'] at this
    exact ⟨_, this⟩
  obtain ⟨r, hr⟩ := hcall U
  have hb := approxBody_eq E eigh rnd gs e t F 0 (approxInit gs params objs (i :: is) F U) (i, ⟨is, i :: is⟩) r rfl rfl hr
  rw [if_neg (by simp [hF])] at hb
  obtain ⟨x, hx, -⟩ := approxTail_total eigh rnd e t F.perturb 0 (approxMid F (approxInit gs params objs (i :: is) F U) (i, ⟨is, i :: is⟩) r
    ((approxInit gs params objs (i :: is) F U).costs ++ [cost (totalObs gs) r.1]) (approxInit gs params objs (i :: is) F U).omegas) (by simp [approxMid, approxInit])
  have hb' := hb.trans hx
  have hs : pyForRange (approxBody E eigh rnd (gs.map Gate.obs) e t F) 0 1 (approxInit gs params objs (i :: is) F U) = .ok x.1 := by
    rw [pyForRange, hb']
    simp only [bind, Except.bind, pyForRange]
    split <;> rfl
  exact ⟨_, (approx_ok_iff ..).mpr ⟨rfl, 1, e, t, F, hv, U, x.1, hU, hs, rfl⟩⟩

/-- Hypotheses of `C41_reported`: a run with a Zassenhaus layer on three qubits. -/
example (rnd : ℕ → Matrix (Fin (2 ^ 3)) (Fin (2 ^ 3)) ℝ) (eigh : EighFn 3) (E : LayerEnv 3) : ∃ (L : ZassLayer 3) (args : ApproxArgs),
    zassLayer 3 ([exObsZ3].map Gate.obs) {} = .ok L ∧ args.returnZassenhaus = .bool true ∧
    ∃ out, approximateLieOptimizer E eigh rnd .state ([exObsZ3].map (fun g => (g.obs.matrix, g.obs.wires))) [] ([exObsZ3].map Gate.obs) (fun _ : Fin 1 => .zass L) [0]
      args = .ok out := by
  obtain ⟨L, -, hL, -⟩ := exZass E.ord
  refine ⟨L, { nsteps := .int (1 : ℕ), returnZassenhaus := .bool true }, hL, rfl, ?_⟩
  refine approx_one_step E eigh rnd [exObsZ3] [] [exObsZ3] _ 0 [] (fun U => ?_) _ 0.1 (some (.fin 1e-3)) ⟨false, false, false, false, false, false, true⟩
    (approxValid_of 1 le_rfl (some (.float 1e-3)) (some (.fin 1e-3)) ⟨rfl, by norm_num⟩ ⟨false, false, false, false, false, false, true⟩) rfl
  obtain ⟨-, -, -, -, -, -, -, hp, -⟩ := zassLayer_inv hL
  obtain ⟨V, L', hc⟩ := C43_su4_partial E.ord [exObsZ3] {} false (1, 1) L L hL [] rfl hp U
  exact ⟨(V, [], .zass L'), by rw [AnyLayer.call, hc]; rfl⟩

end Oranssi
