import Verif.Props.ApproxTotal
import Verif.Props.ParamShift
import Verif.Props.ExactTrace

/-! # C67: the step size is checked by every constructor and every optimizer, but not by `set_eta` -/

namespace Oranssi
open Spec
open scoped Matrix

/-- A Python value is a valid step size with value `x`: a float between 0 and 1 (so neither an int nor `nan`). -/
def Spec.IsStepSize (v : PyVal) (x : ℝ) : Prop := v = .float x ∧ 0 ≤ x ∧ x ≤ 1

/-- A constructor checks its step size: whenever it accepts its other arguments (it succeeds with the default step size), it accepts a step size exactly if it
is valid, and stores it. -/
def Spec.ChecksEta {L : Type} (ctor : LayerArgs → Py L) (stored : L → ℝ) : Prop :=
  ∀ la : LayerArgs, ((∃ l, ctor { la with eta := none } = .ok l) → ∀ v, (∃ l, ctor { la with eta := some v } = .ok l) ↔ ∃ x, IsStepSize v x) ∧
    ∀ v l, ctor { la with eta := some v } = .ok l → IsStepSize v (stored l)

/-- C67 (layers).  The constructors of all layer classes check the step size, whatever the number of qubits, the observables and the other arguments. -/
theorem C67_constructors (n : ℕ) (obs : List Obs) :
    (∀ locality stride D, ChecksEta (fun la => localLayer n obs locality la stride D) LocalLayer.eta) ∧
    (∀ D, ChecksEta (fun la => customLayer n obs D la) CustomLayer.eta) ∧
    ChecksEta (fun la => stochasticLayer n obs la) StochasticLayer.eta ∧
    ChecksEta (fun la => squaredLayer n obs la) SquaredLayer.eta ∧
    ChecksEta (fun la => adaptLayer n obs la) AdaptLayer.eta ∧
    (∀ b1 b2, ChecksEta (fun la => su8Layer n obs la b1 b2) SU8Layer.eta) ∧
    (∀ b1 b2 r, ChecksEta (fun la => zassLayer n obs la b1 b2 r) ZassLayer.eta) := by
  refine ⟨fun locality stride D => ?_, fun D => ?_, ?_, ?_, ?_, fun b1 b2 => ?_, fun b1 b2 r => ?_⟩
  · intro la
    simp only [localLayer, bind_ok_iff, Except.ok.injEq]
    constructor
    · rintro ⟨l, a, ha, e, he, x0, h0, x1, h1, x2, h2, x3, h3, x4, h4, x5, h5, x6, h6, hl⟩ v
      constructor
      · rintro ⟨l', a', -, e', he', -⟩
        exact ⟨e', (validateEta_iff _ _).mp he'⟩
      · rintro ⟨x, hx⟩
        exact ⟨_, a, ha, x, (validateEta_iff _ _).mpr hx, x0, h0, x1, h1, x2, h2, x3, h3, x4, h4, x5, h5, x6, h6, rfl⟩
    · rintro v l ⟨a, ha, e, he, x0, h0, x1, h1, x2, h2, x3, h3, x4, h4, x5, h5, x6, h6, rfl⟩
      exact (validateEta_iff _ _).mp he
  · intro la
    simp only [customLayer, bind_ok_iff, Except.ok.injEq]
    constructor
    · rintro ⟨l, a, ha, e, he, x0, h0, x1, h1, x2, h2, x3, h3, x4, h4, hl⟩ v
      constructor
      · rintro ⟨l', a', -, e', he', -⟩
        exact ⟨e', (validateEta_iff _ _).mp he'⟩
      · rintro ⟨x, hx⟩
        exact ⟨_, a, ha, x, (validateEta_iff _ _).mpr hx, x0, h0, x1, h1, x2, h2, x3, h3, x4, h4, rfl⟩
    · rintro v l ⟨a, ha, e, he, x0, h0, x1, h1, x2, h2, x3, h3, x4, h4, rfl⟩
      exact (validateEta_iff _ _).mp he
  · intro la
    simp only [stochasticLayer, bind_ok_iff, Except.ok.injEq]
    constructor
    · rintro ⟨l, a, ha, e, he, x0, h0, x1, h1, x2, h2, hl⟩ v
      constructor
      · rintro ⟨l', a', -, e', he', -⟩
        exact ⟨e', (validateEta_iff _ _).mp he'⟩
      · rintro ⟨x, hx⟩
        exact ⟨_, a, ha, x, (validateEta_iff _ _).mpr hx, x0, h0, x1, h1, x2, h2, rfl⟩
    · rintro v l ⟨a, ha, e, he, x0, h0, x1, h1, x2, h2, rfl⟩
      exact (validateEta_iff _ _).mp he
  · intro la
    simp only [squaredLayer, bind_ok_iff, Except.ok.injEq]
    constructor
    · rintro ⟨l, a, ha, e, he, x0, h0, x1, h1, x2, h2, x3, h3, hl⟩ v
      constructor
      · rintro ⟨l', a', -, e', he', -⟩
        exact ⟨e', (validateEta_iff _ _).mp he'⟩
      · rintro ⟨x, hx⟩
        exact ⟨_, a, ha, x, (validateEta_iff _ _).mpr hx, x0, h0, x1, h1, x2, h2, x3, h3, rfl⟩
    · rintro v l ⟨a, ha, e, he, x0, h0, x1, h1, x2, h2, x3, h3, rfl⟩
      exact (validateEta_iff _ _).mp he
  · intro la
    simp only [adaptLayer, bind_ok_iff, Except.ok.injEq]
    constructor
    · rintro ⟨l, a, ha, e, he, x0, h0, x1, h1, x2, h2, x3, h3, hl⟩ v
      constructor
      · rintro ⟨l', a', -, e', he', -⟩
        exact ⟨e', (validateEta_iff _ _).mp he'⟩
      · rintro ⟨x, hx⟩
        exact ⟨_, a, ha, x, (validateEta_iff _ _).mpr hx, x0, h0, x1, h1, x2, h2, x3, h3, rfl⟩
    · rintro v l ⟨a, ha, e, he, x0, h0, x1, h1, x2, h2, x3, h3, rfl⟩
      exact (validateEta_iff _ _).mp he
  · intro la
    simp only [su8Layer, bind_ok_iff, Except.ok.injEq]
    constructor
    · rintro ⟨l, a, ha, e, he, x0, h0, x1, h1, x2, h2, x3, h3, x4, h4, x5, h5, hl⟩ v
      constructor
      · rintro ⟨l', a', -, e', he', -⟩
        exact ⟨e', (validateEta_iff _ _).mp he'⟩
      · rintro ⟨x, hx⟩
        exact ⟨_, a, ha, x, (validateEta_iff _ _).mpr hx, x0, h0, x1, h1, x2, h2, x3, h3, x4, h4, x5, h5, rfl⟩
    · rintro v l ⟨a, ha, e, he, x0, h0, x1, h1, x2, h2, x3, h3, x4, h4, x5, h5, rfl⟩
      exact (validateEta_iff _ _).mp he
  · intro la
    simp only [zassLayer, bind_ok_iff, Except.ok.injEq]
    constructor
    · rintro ⟨l, a, ha, e, he, x0, h0, x1, h1, x2, h2, x3, h3, x4, h4, x5, h5, x6, h6, x7, h7, hl⟩ v
      constructor
      · rintro ⟨l', a', -, e', he', -⟩
        exact ⟨e', (validateEta_iff _ _).mp he'⟩
      · rintro ⟨x, hx⟩
        exact ⟨_, a, ha, x, (validateEta_iff _ _).mpr hx, x0, h0, x1, h1, x2, h2, x3, h3, x4, h4, x5, h5, x6, h6, x7, h7, rfl⟩
    · rintro v l ⟨a, ha, e, he, x0, h0, x1, h1, x2, h2, x3, h3, x4, h4, x5, h5, x6, h6, x7, h7, rfl⟩
      exact (validateEta_iff _ _).mp he

/-- C67 (exact optimizer).  A call that succeeds with some step size succeeds with the step size `v` exactly if `v` is valid. -/
theorem C67_exact {n : ℕ} (eigh : EighFn n) (rnd : ℕ → Matrix (Fin (2 ^ n)) (Fin (2 ^ n)) ℝ) (ret : CircuitRet) (cs gs : List (Gate n)) (args : ExactArgs)
    (h : ∃ out, exactLieOptimizer eigh rnd ret (cs.map (fun g => (g.obs.matrix, g.obs.wires))) (gs.map Gate.obs) args = .ok out) (v : PyVal) :
    (∃ out, exactLieOptimizer eigh rnd ret (cs.map (fun g => (g.obs.matrix, g.obs.wires))) (gs.map Gate.obs) { args with eta := v } = .ok out) ↔
      ∃ x, IsStepSize v x := by
  rw [C44_succeeds_iff] at h ⊢
  obtain ⟨hr, N, e, t, rs, p, rp, ru, hv⟩ := h
  constructor
  · rintro ⟨-, N', e', t', rs', p', rp', ru', hv'⟩
    exact ⟨e', hv'.eta, hv'.eta0, hv'.eta1⟩
  · rintro ⟨x, hx, h0, h1⟩
    exact ⟨hr, N, x, t, rs, p, rp, ru, { hv with eta := hx, eta0 := h0, eta1 := h1 }⟩

/-- C67 (parameter-shift optimizer). -/
theorem C67_parameter_shift {n : ℕ} {P : Type} (gd : ℝ → (P → Py ℝ) → P → Py P) (hgd : ∀ e c p, ∃ q, gd e c p = .ok q) (ret : CircuitRet) (C : P → List (Gate n))
    (params : P) (gs : List (Gate n)) (args : PsArgs) (rp : Bool) (hrp : args.returnParams = boolFlag rp)
    (h : ∃ out, parameterShiftOptimizer (n := n) gd ret (fun p => .ok ((C p).map (fun g => (g.obs.matrix, g.obs.wires)))) params (gs.map Gate.obs) args = .ok out)
    (v : PyVal) :
    (∃ out, parameterShiftOptimizer (n := n) gd ret (fun p => .ok ((C p).map (fun g => (g.obs.matrix, g.obs.wires)))) params (gs.map Gate.obs)
      { args with eta := v } = .ok out) ↔ ∃ x, IsStepSize v x := by
  rw [C55_succeeds_iff (hgd := hgd) (rp := rp) (hrp := hrp)] at h
  rw [C55_succeeds_iff (args := { args with eta := v }) (hgd := hgd) (rp := rp) (hrp := hrp)]
  obtain ⟨hr, N, e, t, rs, hv⟩ := h
  constructor
  · rintro ⟨-, N', e', t', rs', hv'⟩
    exact ⟨e', hv'.eta, hv'.eta0, hv'.eta1⟩
  · rintro ⟨x, hx, h0, h1⟩
    exact ⟨hr, N, x, t, rs, { hv with eta := hx, eta0 := h0, eta1 := h1 }⟩

/-- C67 (approximate optimizer).  No call succeeds with an invalid step size. -/
theorem C67_approx_rejects {n m : ℕ} (E : LayerEnv n) (eigh : EighFn n) (rnd : ℕ → Matrix (Fin (2 ^ n)) (Fin (2 ^ n)) ℝ) (ret : CircuitRet)
    (ops : List (NpMat × List ℤ)) (params : List (List ℝ)) (gs : List (Gate n)) (objs : Fin m → AnyLayer n) (layers : List (Fin m)) (args : ApproxArgs)
    (out : OptOut (ApproxItem n) × (Fin m → AnyLayer n))
    (h : approximateLieOptimizer E eigh rnd ret ops params (gs.map Gate.obs) objs layers args = .ok out) : ∃ x, IsStepSize args.eta x := by
  obtain ⟨-, N, e, t, F, hv, -⟩ := (approx_ok_iff ..).mp h
  exact ⟨e, hv.eta, hv.eta0, hv.eta1⟩

/-- C67 (approximate optimizer).  With layers whose calls cannot fail, a call that succeeds with some step size succeeds with the step size `v` exactly if `v`
is valid. -/
theorem C67_approx {n m : ℕ} (E : LayerEnv n) (hsvd : ValidSvd E.svd) (eigh : EighFn n) (rnd : ℕ → Matrix (Fin (2 ^ n)) (Fin (2 ^ n)) ℝ) (ret : CircuitRet)
    (cs : List (Gate n)) (params : List (List ℝ)) (gs : List (Gate n)) (objs : Fin m → AnyLayer n) (layers : List (Fin m)) (args : ApproxArgs)
    (hne : layers ≠ []) (hT : ∀ i, FreshTotal (objs i)) (ho : args.returnOmegas = .bool false)
    (h : ∃ out, approximateLieOptimizer E eigh rnd ret (cs.map (fun g => (g.obs.matrix, g.obs.wires))) params (gs.map Gate.obs) objs layers args = .ok out)
    (v : PyVal) :
    (∃ out, approximateLieOptimizer E eigh rnd ret (cs.map (fun g => (g.obs.matrix, g.obs.wires))) params (gs.map Gate.obs) objs layers
      { args with eta := v } = .ok out) ↔ ∃ x, IsStepSize v x := by
  rw [C50_total_layers E hsvd eigh rnd ret cs params gs objs layers _ hne hT ho] at h
  rw [C50_total_layers E hsvd eigh rnd ret cs params gs objs layers { args with eta := v } hne hT ho]
  obtain ⟨hr, N, e, t, F, hv⟩ := h
  constructor
  · rintro ⟨-, N', e', t', F', hv'⟩
    exact ⟨e', hv'.eta, hv'.eta0, hv'.eta1⟩
  · rintro ⟨x, hx, h0, h1⟩
    exact ⟨hr, N, x, t, F, { hv with eta := hx, eta0 := h0, eta1 := h1 }⟩

/-- C67 is false for `set_eta`: the value 2, which the constructor rejects, is accepted there, and the layer runs with it. -/
theorem C67_set_eta_unchecked : (∀ L, localLayer 2 ([exObsZ].map Gate.obs) 2 { eta := some (.float 2) } none none ≠ .ok L) ∧
    ∃ L, localLayer 2 ([exObsZ].map Gate.obs) 2 {} none none = .ok L ∧ ∀ (svd : SvdFn 2), ValidSvd svd → ∀ U, ∃ V, (L.setEta 2).call svd U = .ok V := by
  constructor
  · intro L hL
    obtain ⟨-, h0, h1⟩ := (((C67_constructors 2 ([exObsZ].map Gate.obs)).1 2 none none) {}).2 _ _ hL
    have h2 := (((C67_constructors 2 ([exObsZ].map Gate.obs)).1 2 none none) {}).2 _ _ hL
    have : (2 : ℝ) = L.eta := PyVal.float.inj h2.1
    linarith
  · obtain ⟨L, hL⟩ := exLocal
    exact ⟨L, hL, fun svd hs U => ⟨_, (localLayer_call exObsZ_herm hL hs 2 U (.inl (by simp))).2.2⟩⟩

/-- The hypotheses of `C67_constructors` and of the optimizer theorems can be met. -/
example : (∃ L, localLayer 2 ([exObsZ].map Gate.obs) 2 {} none none = .ok L) ∧ (∃ L, squaredLayer 2 ([exObsZ].map Gate.obs) {} = .ok L) ∧
    IsStepSize (.float 0.3) 0.3 ∧ ¬ (∃ x, IsStepSize .nan x) ∧ ¬ (∃ x, IsStepSize (.number 0) x) := by
  refine ⟨exLocal, exSquared, ⟨rfl, by norm_num, by norm_num⟩, ?_, ?_⟩ <;> rintro ⟨x, h, -⟩ <;> cases h

end Oranssi
