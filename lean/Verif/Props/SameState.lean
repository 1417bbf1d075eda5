import Verif.Lemmas.SameRay
import Verif.Props.RunUnitary

/-! # C82: a run depends on the initial circuit only through the state it prepares, up to a global phase -/

namespace Oranssi
open Spec
open scoped Matrix

variable {n m : ℕ}

/-- Return values of the same shape with related elements. -/
inductive SameOut {α : Type} (R : α → α → Prop) : OptOut α → OptOut α → Prop
  | bare (costs : List ℝ) : SameOut R (.bare costs) (.bare costs)
  | tuple {xs ys : List α} (h : List.Forall₂ R xs ys) : SameOut R (.tuple xs) (.tuple ys)

/-- The same costs and perturbations; states and circuits that are the same up to a phase (of the first column). -/
inductive SameExact : ExactItem n → ExactItem n → Prop
  | costs (l : List ℝ) : SameExact (.costs l) (.costs l)
  | states {l l' : List (Ket n)} (h : List.Forall₂ SameRay l l') : SameExact (.states l) (.states l')
  | perturbations (l : List ℕ) : SameExact (.perturbations l) (.perturbations l)
  | unitary {U V : QMat n} (h : SameRay (fun i => U i 0) (fun i => V i 0)) : SameExact (.unitary U) (.unitary V)

/-- The same costs, gradients, perturbations and phases of the layers; states and circuits that are the same up to a phase. -/
inductive SameApprox : ApproxItem n → ApproxItem n → Prop
  | costs (l : List ℝ) : SameApprox (.costs l) (.costs l)
  | states {l l' : List (Ket n)} (h : List.Forall₂ SameRay l l') : SameApprox (.states l) (.states l')
  | omegas (l) : SameApprox (.omegas l) (.omegas l)
  | unitaries {l l' : List (QMat n)} (h : List.Forall₂ (fun U V => SameRay (fun i => U i 0) (fun i => V i 0)) l l') :
      SameApprox (.unitaries l) (.unitaries l')
  | gates (l) : SameApprox (.gates l) (.gates l)
  | perturbations (l : List ℕ) : SameApprox (.perturbations l) (.perturbations l)
  | zassenhaus (l) : SameApprox (.zassenhaus l) (.zassenhaus l)

theorem selectOut_same {α : Type} {R : α → α → Prop} (costs : List ℝ) {xs ys : List α} (h : List.Forall₂ R xs ys) (fs : List Bool) :
    SameOut R (selectOut costs xs fs) (selectOut costs ys fs) := by
  rw [selectOut, selectOut]
  split
  · exact .bare _
  · refine .tuple ?_
    clear * - h
    induction h generalizing fs with
    | nil => simp
    | cons hab h ih =>
      cases fs with
      | nil => simp
      | cons b fs =>
        cases b with
        | true => exact .cons hab (ih fs)
        | false => exact ih fs

theorem exactUpdates_ray (eigh : EighFn n) (eta : ℝ) : ∀ (os : List Obs) {U V : QMat n}, SameState U V →
    SameBehaviour SameState (exactUpdates eigh eta os U) (exactUpdates eigh eta os V)
  | [], _, _, h => .ok h
  | o :: os, U, V, h => by
    rw [exactUpdates, exactUpdates]
    refine .bind (R := SameState) ?_ fun _ _ h' => exactUpdates_ray eigh eta os h'
    rw [exactUpdate, exactUpdate]
    dsimp only
    rw [density_ray h]
    exact .bind_eq _ fun F => .ok (h.mul_left _)

theorem perturb_ray (eigh : EighFn n) (eta : ℝ) (R : Matrix (Fin (2 ^ n)) (Fin (2 ^ n)) ℝ) {U V : QMat n} (h : SameState U V) :
    SameState (perturb eigh eta R U) (perturb eigh eta R V) := h.mul_left _

/-- Loop states of two runs that prepare the same states. -/
structure SameExactState (s t : ExactState n) : Prop where
  U : SameState s.U t.U
  costs : s.costs = t.costs
  states : List.Forall₂ SameRay s.states t.states
  perturbations : s.perturbations = t.perturbations

theorem forall₂_snoc {α β : Type} {R : α → β → Prop} {l : List α} {l' : List β} (h : List.Forall₂ R l l') {a : α} {b : β} (hab : R a b) :
    List.Forall₂ R (l ++ [a]) (l' ++ [b]) := List.rel_append h (.cons hab .nil)

theorem exactBody_ray (eigh : EighFn n) (rnd : ℕ → Matrix (Fin (2 ^ n)) (Fin (2 ^ n)) ℝ) (observables : List Obs) (eta : ℝ) (tol : Tol)
    (rs pt : Bool) (k : ℕ) (s t : ExactState n) (h : SameExactState s t) :
    SameBehaviour (fun a b => SameExactState a.1 b.1 ∧ a.2 = b.2) (exactBody eigh rnd observables eta tol rs pt k s)
      (exactBody eigh rnd observables eta tol rs pt k t) := by
  rw [exactBody, exactBody]
  refine (exactUpdates_ray eigh eta observables h.U).bind fun U V hUV => ?_
  dsimp only
  rw [h.costs, addCosts_ray hUV]
  refine .bind_eq _ fun costs => ?_
  have hst : List.Forall₂ SameRay (if rs then s.states ++ [stateFromUnitary U] else s.states)
      (if rs then t.states ++ [stateFromUnitary V] else t.states) := by
    split
    · exact forall₂_snoc h.states hUV
    · exact h.states
  split
  · refine .bind_eq _ fun a => .bind_eq _ fun b => ?_
    split
    · split
      · exact .ok ⟨⟨perturb_ray eigh eta _ hUV, rfl, hst, by rw [h.perturbations]⟩, rfl⟩
      · exact .ok ⟨⟨hUV, rfl, hst, h.perturbations⟩, rfl⟩
    · exact .ok ⟨⟨hUV, rfl, hst, h.perturbations⟩, rfl⟩
  · exact .ok ⟨⟨hUV, rfl, hst, h.perturbations⟩, rfl⟩

/-- **C82** for `exact_lie_optimizer`: two circuits whose compiled matrices have the same first column up to a phase give runs that behave in
the same way: the same error, or the same costs and perturbations, and the same states up to a phase.  Nothing is assumed about the
gates, the observables, the arguments or the eigensolver. -/
theorem C82_exact (eigh : EighFn n) (rnd : ℕ → Matrix (Fin (2 ^ n)) (Fin (2 ^ n)) ℝ) (ret : CircuitRet) (ops ops' : List (NpMat × List ℤ))
    (observables : List Obs) (args : ExactArgs) (U V : QMat n) (hU : compileLoop n ops 1 = .ok U) (hV : compileLoop n ops' 1 = .ok V)
    (h : SameRay (fun i => U i 0) (fun i => V i 0)) :
    SameBehaviour (SameOut SameExact) (exactLieOptimizer (n := n) eigh rnd ret ops observables args)
      (exactLieOptimizer eigh rnd ret ops' observables args) := by
  have h' : SameState U V := h
  rw [exactLieOptimizer, exactLieOptimizer, hU, hV]
  refine .bind_eq _ fun _ => .bind_eq _ fun nsteps => .bind_eq _ fun eta => .bind_eq _ fun tol => .bind_eq _ fun rs => .bind_eq _ fun pt =>
    .bind_eq _ fun _ => .bind_eq _ fun rp => .bind_eq _ fun ru => ?_
  change SameBehaviour _ (addCosts U 0 observables [0] >>= _) (addCosts V 0 observables [0] >>= _)
  rw [addCosts_ray h']
  refine .bind_eq _ fun costs => ?_
  refine .bind (SameBehaviour.forRange (exactBody_ray eigh rnd observables eta tol rs pt) nsteps 0 _ _ ⟨h', rfl, ?_, rfl⟩) fun s t hst => ?_
  · dsimp only
    split
    · exact .cons h' .nil
    · exact .nil
  · rw [hst.costs]
    exact .ok (selectOut_same _ (.cons (.costs _) (.cons (.states hst.states) (.cons (hst.perturbations ▸ .perturbations _)
      (.cons (.unitary hst.U) .nil)))) _)

/-- Loop states of two runs that prepare the same states. -/
structure SameApproxState (s t : ApproxState n m) : Prop where
  U : SameState s.U t.U
  params : s.params = t.params
  objs : s.objs = t.objs
  cycle : s.cycle = t.cycle
  costs : s.costs = t.costs
  states : List.Forall₂ SameRay s.states t.states
  omegas : s.omegas = t.omegas
  unitaries : List.Forall₂ SameState s.unitaries t.unitaries
  perturbations : s.perturbations = t.perturbations
  zassenhaus : s.zassenhaus = t.zassenhaus

theorem directionsDict_ray (L : AnyLayer n) {U V : QMat n} (h : SameState U V) : L.directionsDict U = L.directionsDict V := by
  cases L <;> simp only [AnyLayer.directionsDict, directions_ray h]

theorem approxBody_ray (E : LayerEnv n) (eigh : EighFn n) (rnd : ℕ → Matrix (Fin (2 ^ n)) (Fin (2 ^ n)) ℝ) (observables : List Obs) (eta : ℝ)
    (tol : Option Tol) (F : ApproxFlags) (k : ℕ) (s t : ApproxState n m) (h : SameApproxState s t) :
    SameBehaviour (fun a b => SameApproxState a.1 b.1 ∧ a.2 = b.2) (approxBody E eigh rnd observables eta tol F k s)
      (approxBody E eigh rnd observables eta tol F k t) := by
  rw [approxBody, approxBody, h.cycle, h.objs, h.params, h.costs, h.zassenhaus, h.omegas]
  refine .bind_eq _ fun nx => ?_
  dsimp only
  refine (call_ray E _ t.params h.U).bind fun a b hab => ?_
  obtain ⟨V, ps, L⟩ := a
  obtain ⟨V', ps', L'⟩ := b
  obtain ⟨hV, hr⟩ := hab
  obtain ⟨rfl, rfl⟩ := Prod.mk.inj hr
  dsimp only at hV ⊢
  rw [addCosts_ray hV, directionsDict_ray _ hV]
  refine .bind_eq _ fun costs => ?_
  refine .bind_eq _ fun om => ?_
  have hst : List.Forall₂ SameRay (if F.returnState then s.states ++ [stateFromUnitary V] else s.states)
      (if F.returnState then t.states ++ [stateFromUnitary V'] else t.states) := by
    split
    · exact forall₂_snoc h.states hV
    · exact h.states
  have hun : List.Forall₂ SameState (if F.returnUnitary then s.unitaries ++ [V] else s.unitaries)
      (if F.returnUnitary then t.unitaries ++ [V'] else t.unitaries) := by
    split
    · exact forall₂_snoc h.unitaries hV
    · exact h.unitaries
  cases tol with
  | none => exact .ok ⟨⟨hV, rfl, rfl, rfl, rfl, hst, rfl, hun, h.perturbations, rfl⟩, rfl⟩
  | some tl =>
    dsimp only
    split
    · refine .bind_eq _ fun a => .bind_eq _ fun b => ?_
      split
      · split
        · exact .ok ⟨⟨perturb_ray eigh eta _ hV, rfl, rfl, rfl, rfl, hst, rfl, hun, by rw [h.perturbations], rfl⟩, rfl⟩
        · exact .ok ⟨⟨hV, rfl, rfl, rfl, rfl, hst, rfl, hun, h.perturbations, rfl⟩, rfl⟩
      · exact .ok ⟨⟨hV, rfl, rfl, rfl, rfl, hst, rfl, hun, h.perturbations, rfl⟩, rfl⟩
    · exact .ok ⟨⟨hV, rfl, rfl, rfl, rfl, hst, rfl, hun, h.perturbations, rfl⟩, rfl⟩

/-- **C82** for `approximate_lie_optimizer`, with any layer objects: the two runs also leave the layer objects in the same state. -/
theorem C82_approx (E : LayerEnv n) (eigh : EighFn n) (rnd : ℕ → Matrix (Fin (2 ^ n)) (Fin (2 ^ n)) ℝ) (ret : CircuitRet)
    (ops ops' : List (NpMat × List ℤ)) (params : List (List ℝ)) (observables : List Obs) (objs : Fin m → AnyLayer n) (layers : List (Fin m))
    (args : ApproxArgs) (U V : QMat n) (hU : compileLoop n ops 1 = .ok U) (hV : compileLoop n ops' 1 = .ok V)
    (h : SameRay (fun i => U i 0) (fun i => V i 0)) :
    SameBehaviour (fun a b => SameOut SameApprox a.1 b.1 ∧ a.2 = b.2)
      (approximateLieOptimizer E eigh rnd ret ops params observables objs layers args)
      (approximateLieOptimizer E eigh rnd ret ops' params observables objs layers args) := by
  have h' : SameState U V := h
  rw [approximateLieOptimizer, approximateLieOptimizer, hU, hV]
  refine .bind_eq _ fun _ => .bind_eq _ fun nsteps => .bind_eq _ fun eta => .bind_eq _ fun tol => .bind_eq _ fun _ => .bind_eq _ fun rs =>
    .bind_eq _ fun ro => .bind_eq _ fun ru => .bind_eq _ fun rg => .bind_eq _ fun pt => .bind_eq _ fun rp => .bind_eq _ fun rz => ?_
  change SameBehaviour _ (addCosts U 0 observables [0] >>= _) (addCosts V 0 observables [0] >>= _)
  rw [addCosts_ray h']
  refine .bind_eq _ fun costs => ?_
  refine .bind (SameBehaviour.forRange (approxBody_ray E eigh rnd observables eta tol _) nsteps 0 _ _
    ⟨h', rfl, rfl, rfl, rfl, ?_, rfl, ?_, rfl, rfl⟩) fun s t hst => ?_
  · dsimp only
    split
    · exact .cons h' .nil
    · exact .nil
  · dsimp only
    split
    · exact .cons h' .nil
    · exact .nil
  · rw [hst.costs, hst.omegas, hst.perturbations, hst.zassenhaus]
    exact .ok ⟨selectOut_same _ (.cons (.costs _) (.cons (.states hst.states) (.cons (.omegas _) (.cons (.unitaries hst.unitaries)
      (.cons (.gates _) (.cons (.perturbations _) (.cons (.zassenhaus _) .nil))))))) _, hst.objs⟩

/-- **C82** for one call of a layer of any class. -/
theorem C82_call (E : LayerEnv n) (L : AnyLayer n) (params : List (List ℝ)) (U V : QMat n) (h : SameRay (fun i => U i 0) (fun i => V i 0)) :
    SameBehaviour (fun a b => SameRay (fun i => a.1 i 0) (fun i => b.1 i 0) ∧ a.2 = b.2) (L.call E params U) (L.call E params V) :=
  call_ray E L params h

/-- A phase gate that changes both the global phase and the second column of the circuit it is applied before. -/
noncomputable def exPhase : Gate 1 := ⟨[0], (!![Complex.I, 0; 0, 1] : Matrix (Fin 2) (Fin 2) ℂ), by simp, by simp, by simp⟩

theorem exPhase_ray (a : ℝ) : SameRay (fun i => (rot a * (!![Complex.I, 0; 0, 1] : Matrix (Fin 2) (Fin 2) ℂ) : QMat 1) i 0) (fun i => rot a i 0) := by
  refine ⟨Complex.I, by simp, ?_⟩
  funext i
  have key : ∀ (M : Matrix (Fin 2) (Fin 2) ℂ) (i : Fin 2), (M * !![Complex.I, 0; 0, 1]) i 0 = Complex.I * M i 0 := by
    intro M i
    rw [Matrix.mul_apply, Fin.sum_univ_two]
    simp [mul_comm]
  exact key (rot a) i

theorem exPhase_compile (a : ℝ) : compileLoop 1 ([exPhase, rotGate0 a].map (fun g => (g.np, g.ws.map (Nat.cast : ℕ → ℤ)))) 1 =
    .ok (rot a * (!![Complex.I, 0; 0, 1] : Matrix (Fin 2) (Fin 2) ℂ) : QMat 1) := by
  rw [compileLoop_gates]
  simp only [List.foldl_cons, List.foldl_nil, mul_one]
  exact congrArg Except.ok (congrArg₂ (· * ·) (full_one_qubit (rot a)) (full_one_qubit _))

/-- The hypotheses of C82 hold for circuits with different matrices. -/
example (a : ℝ) : ∃ (ops ops' : List (NpMat × List ℤ)) (U V : QMat 1), compileLoop 1 ops 1 = .ok U ∧ compileLoop 1 ops' 1 = .ok V ∧
    SameRay (fun i => U i 0) (fun i => V i 0) ∧ U ≠ V := by
  refine ⟨_, _, _, _, exPhase_compile a, compile_rot a, exPhase_ray a, fun h => ?_⟩
  have h1 : rot (-a) * (rot a * (!![Complex.I, 0; 0, 1] : Matrix (Fin 2) (Fin 2) ℂ) : QMat 1) = rot (-a) * rot a := by rw [h]
  rw [← mul_assoc, rot_mul, neg_add_cancel, rot_zero, one_mul] at h1
  have h2 := congrFun (congrFun h1 0) 0
  rw [Matrix.one_apply_eq] at h2
  have h3 : Complex.I = 1 := h2
  simpa using congrArg Complex.re h3

end Oranssi
