import Verif.Lemmas.SameRay
import Verif.Props.RunUnitary

/-! # Layers whose calls depend on the observables only through their sum (for C85) -/

namespace Oranssi
open Spec
open scoped Matrix

variable {n m : ℕ}

/-- The promoted observables. -/
def fulls (gs : List (Gate n)) : List (QMat n) := gs.map (fun g => full n g.ws g.A)

theorem omegaSum_sum (φ : Ket n) (fs : List (QMat n)) (p : QMat n) : omegaSum φ fs p = (omegaC φ p fs.sum).im := by
  rw [omegaSum, omegaSum_foldl, zero_add]

theorem omegaSum_only {gs gs' : List (Gate n)} (h : totalObs gs = totalObs gs') (φ : Ket n) (p : QMat n) :
    omegaSum φ (fulls gs) p = omegaSum φ (fulls gs') p := by
  rw [omegaSum_sum, omegaSum_sum]
  congr 2

theorem absOmegas_only {gs gs' : List (Gate n)} (h : totalObs gs = totalObs gs') (φ : Ket n) (fp : List (Key × QMat n)) :
    absOmegas φ (fulls gs) fp = absOmegas φ (fulls gs') fp := by
  simp only [absOmegas, omegaSum_only h]

theorem totalCost_only {gs gs' : List (Gate n)} (h : totalObs gs = totalObs gs') (U : QMat n) :
    totalCost U (gs.map Gate.obs) = totalCost U (gs'.map Gate.obs) := by
  rw [totalCost_gates, totalCost_gates, h]

theorem rotosolve_only {gs gs' : List (Gate n)} (h : totalObs gs = totalObs gs') (p U : QMat n) (k : ℕ) :
    rotosolve p (gs.map Gate.obs) U k = rotosolve p (gs'.map Gate.obs) U k := by
  simp only [rotosolve, totalCost_only h]

theorem zassLoop_only {gs gs' : List (Gate n)} (h : totalObs gs = totalObs gs') (ord : SetOrder ℕ) (φ : Ket n) (d4 d8 : List (Key × QMat n)) (cur : Key) :
    ∀ (ks : List Key) (s : ZassCands), zassLoop ord φ (fulls gs) d4 d8 cur ks s = zassLoop ord φ (fulls gs') d4 d8 cur ks s
  | [], _ => rfl
  | k :: ks, s => by
    have h' : zassStep ord φ (fulls gs) d4 d8 cur k s = zassStep ord φ (fulls gs') d4 d8 cur k s := by
      simp only [zassStep, omegaSum_only h]
    rw [zassLoop, zassLoop, h']
    simp only [zassLoop_only h ord φ d4 d8 cur ks]

theorem psCost_only {gs gs' : List (Gate n)} (h : totalObs gs = totalObs gs') {P : Type} (circuit : P → Py (List (NpMat × List ℤ))) :
    psCost n circuit (gs.map Gate.obs) = psCost n circuit (gs'.map Gate.obs) := by
  funext p
  simp only [psCost, totalCost_only h]

theorem parameterShift_only {gs gs' : List (Gate n)} (h : totalObs gs = totalObs gs') {P : Type} (gd : ℝ → (P → Py ℝ) → P → Py P) (ret : CircuitRet)
    (circuit : P → Py (List (NpMat × List ℤ))) (params : P) (args : PsArgs) :
    parameterShiftOptimizer (n := n) gd ret circuit params (gs.map Gate.obs) args = parameterShiftOptimizer gd ret circuit params (gs'.map Gate.obs) args := by
  have hb : ∀ eta tol rs rp, psBody (n := n) gd circuit (gs.map Gate.obs) eta tol rs rp = psBody gd circuit (gs'.map Gate.obs) eta tol rs rp := by
    intro eta tol rs rp
    funext k s
    simp only [psBody, psCost_only h]
  simp only [parameterShiftOptimizer, psCost_only h, hb]

theorem directions_only {gs gs' : List (Gate n)} (h : totalObs gs = totalObs gs') (U : QMat n) :
    getAllSuNDirections U (gs.map Gate.obs) = getAllSuNDirections U (gs'.map Gate.obs) := by
  have h' : (gs.map (fun g => full n g.ws g.A)).sum = (gs'.map (fun g => full n g.ws g.A)).sum := h
  rw [getAllSuNDirections_eq, getAllSuNDirections_eq, h']

/-- Layers that differ at most in their observables, whose sums are the same. -/
inductive SumLayer : AnyLayer n → AnyLayer n → Prop
  | squared (L : SquaredLayer n) (gs gs' : List (Gate n)) (h : totalObs gs = totalObs gs') :
      SumLayer (.squared { L with observables := gs.map Gate.obs, observablesFull := fulls gs })
        (.squared { L with observables := gs'.map Gate.obs, observablesFull := fulls gs' })
  | adapt (L : AdaptLayer n) (gs gs' : List (Gate n)) (h : totalObs gs = totalObs gs') :
      SumLayer (.adapt { L with observables := gs.map Gate.obs, observablesFull := fulls gs })
        (.adapt { L with observables := gs'.map Gate.obs, observablesFull := fulls gs' })
  | su8 (L : SU8Layer n) (gs gs' : List (Gate n)) (h : totalObs gs = totalObs gs') :
      SumLayer (.su8 { L with observables := gs.map Gate.obs, observablesFull := fulls gs })
        (.su8 { L with observables := gs'.map Gate.obs, observablesFull := fulls gs' })
  | zass (L : ZassLayer n) (gs gs' : List (Gate n)) (h : totalObs gs = totalObs gs') :
      SumLayer (.zass { L with observables := gs.map Gate.obs, observablesFull := fulls gs })
        (.zass { L with observables := gs'.map Gate.obs, observablesFull := fulls gs' })

theorem directionsDict_only {L L' : AnyLayer n} (h : SumLayer L L') (U : QMat n) : L.directionsDict U = L'.directionsDict U := by
  cases h with
  | squared L gs gs' h => exact directions_only h U
  | adapt L gs gs' h => exact directions_only h U
  | su8 L gs gs' h => exact directions_only h U
  | zass L gs gs' h => exact directions_only h U

theorem suState_only {L L' : AnyLayer n} (h : SumLayer L L') : L.suState = L'.suState := by
  cases h <;> rfl

/-- Calls of such layers behave in the same way. -/
theorem call_only (E : LayerEnv n) {L L' : AnyLayer n} (hL : SumLayer L L') (params : List (List ℝ)) (U : QMat n) :
    SameBehaviour (fun a b => a.1 = b.1 ∧ a.2.1 = b.2.1 ∧ SumLayer a.2.2 b.2.2) (L.call E params U) (L'.call E params U) := by
  cases hL with
  | squared L gs gs' h =>
    simp only [AnyLayer.call, SquaredLayer.call, SquaredLayer.omegas, absOmegas_only h, rotosolve_only h]
    refine .bind (R := fun a b => a.1 = b.1 ∧ SumLayer (.squared a.2) (.squared b.2)) (.bind_eq _ fun k => .bind_eq _ fun p => .bind_eq _ fun r => ?_)
      fun a b h' => .ok ⟨h'.1, rfl, h'.2⟩
    exact .ok ⟨rfl, .squared { L with previousPauli := k } gs gs' h⟩
  | adapt L gs gs' h =>
    have hopt : psForAdapt E (gs.map Gate.obs) = psForAdapt E (gs'.map Gate.obs) := by
      funext c p
      simp only [psForAdapt, parameterShift_only h]
    simp only [AnyLayer.call, AdaptLayer.call, AdaptLayer.select, absOmegas_only h, hopt]
    refine .bind (R := fun a b => a.1 = b.1 ∧ a.2.1 = b.2.1 ∧ SumLayer (.adapt a.2.2) (.adapt b.2.2)) ?_ fun a b h' => .ok ⟨h'.1, h'.2.1, h'.2.2⟩
    refine .bind_eq _ fun k => .bind_eq _ fun out => .bind_eq _ fun last => .bind_eq _ fun gates => .bind_eq _ fun V => ?_
    exact .ok ⟨rfl, rfl, .adapt { L with layers := L.layers ++ [k], previousDirection := some k.1 } gs gs' h⟩
  | su8 L gs gs' h =>
    simp only [AnyLayer.call, SU8Layer.call, absOmegas_only h, rotosolve_only h]
    exact .bind_eq _ fun r => .ok ⟨rfl, rfl, .su8 L gs gs' h⟩
  | zass L gs gs' h =>
    simp only [AnyLayer.call, ZassLayer.call]
    refine .bind (R := fun a b => a.1 = b.1 ∧ SumLayer (.zass a.2) (.zass b.2)) ?_ fun a b h' => .ok ⟨h'.1, rfl, h'.2⟩
    split
    · simp only [ZassLayer.callSu4, absOmegas_only h, rotosolve_only h]
      refine .bind_eq _ fun k => .bind_eq _ fun p => .bind_eq _ fun r => ?_
      exact .ok ⟨rfl, .zass { L with currentPauli := some k, previousEta := some r.2, counter := _, phase := _ } gs gs' h⟩
    · simp only [ZassLayer.callSu8, zassLoop_only h, omegaSum_only h]
      refine .bind_eq _ fun cur => .bind_eq _ fun _ => .bind_eq _ fun wA => .bind_eq _ fun s => .bind_eq _ fun pick => .bind_eq _ fun bk =>
        .bind_eq _ fun p8 => .bind_eq _ fun sign => .bind_eq _ fun wB => .bind_eq _ fun pB => ?_
      exact .ok ⟨rfl, .zass { L with currentPauli := some bk.1, counter := _, phase := _ } gs gs' h⟩

theorem Spec.SameBehaviour.forRangeIdx {σ τ : Type} {R : ℕ → σ → τ → Prop} {Q : σ → τ → Prop} {f : ℕ → σ → Py (σ × Bool)} {g : ℕ → τ → Py (τ × Bool)}
    (h : ∀ k s t, R k s t → SameBehaviour (fun a b => R (k + 1) a.1 b.1 ∧ a.2 = b.2) (f k s) (g k t)) (hQ : ∀ k s t, R k s t → Q s t) :
    ∀ (r k : ℕ) (s : σ) (t : τ), R k s t → SameBehaviour Q (pyForRange f k r s) (pyForRange g k r t)
  | 0, k, _, _, hs => .ok (hQ k _ _ hs)
  | r + 1, k, s, t, hs => by
    rw [pyForRange, pyForRange]
    refine (h k s t hs).bind ?_
    rintro ⟨a, b⟩ ⟨a', b'⟩ ⟨h1, h2⟩
    dsimp only at h1 h2 ⊢
    subst h2
    cases b with
    | true => exact .ok (hQ _ _ _ h1)
    | false => exact SameBehaviour.forRangeIdx h hQ r (k + 1) a a' h1

theorem addCosts_only {gs gs' : List (Gate n)} (h : totalObs gs = totalObs gs') (U : QMat n) (pre : List ℝ) (c : ℝ) {i : ℤ} (hi : i = pre.length) :
    addCosts U i (gs.map Gate.obs) (pre ++ [c]) = .ok (pre ++ [c + cost (totalObs gs) U]) ∧
    addCosts U i (gs'.map Gate.obs) (pre ++ [c]) = .ok (pre ++ [c + cost (totalObs gs) U]) := by
  subst hi
  exact ⟨addCosts_gates U gs pre c, by rw [h]; exact addCosts_gates U gs' pre c⟩

/-- Loop states that agree up to the observables of the layers. -/
structure SumState (k : ℕ) (s t : ApproxState n m) : Prop where
  U : s.U = t.U
  params : s.params = t.params
  cycle : s.cycle = t.cycle
  costs : s.costs = t.costs
  length : t.costs.length = k + 1
  states : s.states = t.states
  omegas : s.omegas = t.omegas
  unitaries : s.unitaries = t.unitaries
  perturbations : s.perturbations = t.perturbations
  zassenhaus : s.zassenhaus = t.zassenhaus
  objs : ∀ i, SumLayer (s.objs i) (t.objs i)

theorem approxBody_only (E : LayerEnv n) (eigh : EighFn n) (rnd : ℕ → Matrix (Fin (2 ^ n)) (Fin (2 ^ n)) ℝ) {gs gs' : List (Gate n)}
    (hgs : totalObs gs = totalObs gs') (eta : ℝ) (tol : Option Tol) (F : ApproxFlags) (k : ℕ) (s t : ApproxState n m) (h : SumState k s t) :
    SameBehaviour (fun a b => SumState (k + 1) a.1 b.1 ∧ a.2 = b.2) (approxBody E eigh rnd (gs.map Gate.obs) eta tol F k s)
      (approxBody E eigh rnd (gs'.map Gate.obs) eta tol F k t) := by
  rw [approxBody, approxBody, h.cycle, h.params, h.costs, h.U]
  refine .bind_eq _ fun nx => ?_
  dsimp only
  rw [h.zassenhaus, suState_only (h.objs nx.1)]
  refine .bind (call_only E (h.objs nx.1) t.params t.U) ?_
  rintro ⟨V, p, L⟩ ⟨V', p', L'⟩ ⟨h1, h2, h3⟩
  dsimp only at h1 h2 h3 ⊢
  subst h1 h2
  obtain ⟨hc, hc'⟩ := addCosts_only hgs V t.costs 0 (i := (k : ℤ) + 1) (by rw [h.length]; push_cast; rfl)
  rw [hc, hc']
  have hobjs : ∀ i, SumLayer (Function.update s.objs nx.1 L i) (Function.update t.objs nx.1 L' i) := by
    intro i
    by_cases hi : i = nx.1
    · subst hi; simpa using h3
    · simpa [Function.update_of_ne hi] using h.objs i
  simp only [bind, Except.bind, Function.update_self, directionsDict_only h3, h.states, h.omegas, h.unitaries, h.perturbations]
  change SameBehaviour _ ((if F.returnOmegas = true then _ else _ : Py _) >>= _) ((if F.returnOmegas = true then _ else _ : Py _) >>= _)
  refine .bind_eq _ fun om => ?_
  have hlen : (t.costs ++ [0 + cost (totalObs gs) V]).length = k + 1 + 1 := by simp [h.length]
  have base : ∀ (W : QMat n) (ps : List ℕ) (st : List (Ket n)) (un : List (QMat n)) (z : List (Option Phase)), SumState (m := m) (k + 1)
      { U := W, params := p, objs := Function.update s.objs nx.1 L, cycle := nx.2, costs := t.costs ++ [0 + cost (totalObs gs) V], states := st,
        omegas := om, unitaries := un, perturbations := ps, zassenhaus := z }
      { U := W, params := p, objs := Function.update t.objs nx.1 L', cycle := nx.2, costs := t.costs ++ [0 + cost (totalObs gs) V], states := st,
        omegas := om, unitaries := un, perturbations := ps, zassenhaus := z } :=
    fun W ps st un z => ⟨rfl, rfl, rfl, rfl, hlen, rfl, rfl, rfl, rfl, rfl, hobjs⟩
  cases tol with
  | none => exact .ok ⟨base _ _ _ _ _, rfl⟩
  | some tol =>
    dsimp only
    split
    · change SameBehaviour _ (pyGetItem _ _ >>= _) (pyGetItem _ _ >>= _)
      refine .bind_eq _ fun a => ?_
      change SameBehaviour _ (pyGetItem _ _ >>= _) (pyGetItem _ _ >>= _)
      refine .bind_eq _ fun b => ?_
      split
      · split
        · exact .ok ⟨base _ _ _ _ _, rfl⟩
        · exact .ok ⟨base _ _ _ _ _, rfl⟩
      · exact .ok ⟨base _ _ _ _ _, rfl⟩
    · exact .ok ⟨base _ _ _ _ _, rfl⟩

end Oranssi
