import Verif.Spec.SameRay
import Verif.Model.Optimizers

/-! # The optimizers and layers look at a circuit only through its state, up to a phase -/

namespace Oranssi
open Spec
open scoped Matrix

section Behaviour
variable {ε α β γ δ : Type}

theorem Spec.SameBehaviour.bind {R : α → β → Prop} {S : γ → δ → Prop} {x : Except ε α} {y : Except ε β} {f : α → Except ε γ} {g : β → Except ε δ}
    (h : SameBehaviour R x y) (hf : ∀ a b, R a b → SameBehaviour S (f a) (g b)) : SameBehaviour S (x >>= f) (y >>= g) := by
  cases h with
  | ok h => exact hf _ _ h
  | error e => exact .error e

theorem Spec.SameBehaviour.bind_eq {S : γ → δ → Prop} (x : Except ε α) {f : α → Except ε γ} {g : α → Except ε δ}
    (hf : ∀ a, SameBehaviour S (f a) (g a)) : SameBehaviour S (x >>= f) (x >>= g) := by
  cases x with
  | ok a => exact hf a
  | error e => exact .error e

theorem Spec.SameBehaviour.refl {R : α → α → Prop} (hR : ∀ a, R a a) (x : Except ε α) : SameBehaviour R x x := by
  cases x with
  | ok a => exact .ok (hR a)
  | error e => exact .error e

theorem Spec.SameBehaviour.mono {R S : α → β → Prop} (h : ∀ a b, R a b → S a b) {x : Except ε α} {y : Except ε β} (hx : SameBehaviour R x y) :
    SameBehaviour S x y := by
  cases hx with
  | ok h' => exact .ok (h _ _ h')
  | error e => exact .error e

theorem Spec.SameBehaviour.eq {x y : Except ε α} (h : SameBehaviour Eq x y) : x = y := by
  cases h with
  | ok h => rw [h]
  | error e => rfl

theorem Spec.SameBehaviour.forRange {σ τ : Type} {R : σ → τ → Prop} {f : ℕ → σ → Py (σ × Bool)} {g : ℕ → τ → Py (τ × Bool)}
    (h : ∀ k s t, R s t → SameBehaviour (fun a b => R a.1 b.1 ∧ a.2 = b.2) (f k s) (g k t)) :
    ∀ (r k : ℕ) (s : σ) (t : τ), R s t → SameBehaviour R (pyForRange f k r s) (pyForRange g k r t)
  | 0, _, _, _, hs => .ok hs
  | r + 1, k, s, t, hs => by
    rw [pyForRange, pyForRange]
    refine (h k s t hs).bind ?_
    rintro ⟨a, b⟩ ⟨a', b'⟩ ⟨h1, h2⟩
    dsimp only at h1 h2 ⊢
    subst h2
    cases b with
    | true => exact .ok h1
    | false => exact SameBehaviour.forRange h r (k + 1) a a' h1

end Behaviour

variable {n m : ℕ}

/-- Two circuits that prepare the same state. -/
def SameState (U V : Matrix (Fin (2 ^ n)) (Fin (2 ^ n)) ℂ) : Prop := SameRay (stateFromUnitary U) (stateFromUnitary V)

theorem SameState.refl (U : Matrix (Fin (2 ^ n)) (Fin (2 ^ n)) ℂ) : SameState U U := ⟨1, by simp, by simp⟩

theorem stateFromUnitary_mul (A U : Matrix (Fin (2 ^ n)) (Fin (2 ^ n)) ℂ) : stateFromUnitary (A * U) = A *ᵥ stateFromUnitary U := by
  funext i
  rfl

theorem SameState.mul_left {U V : Matrix (Fin (2 ^ n)) (Fin (2 ^ n)) ℂ} (h : SameState U V) (A : Matrix (Fin (2 ^ n)) (Fin (2 ^ n)) ℂ) :
    SameState (A * U) (A * V) := by
  obtain ⟨c, hc, h⟩ := h
  refine ⟨c, hc, ?_⟩
  rw [stateFromUnitary_mul, stateFromUnitary_mul, h]
  funext i
  exact congrFun (Matrix.mulVec_smul A c (stateFromUnitary V)) i

theorem norm_one_mul {c : ℂ} (hc : ‖c‖ = 1) : star c * c = 1 := by
  have h := Complex.conj_mul' c
  rw [hc] at h
  simpa using h

/-- A sesquilinear expression in the state is the same for both. -/
theorem sandwich_eq {φ ψ : Ket n} (h : SameRay φ ψ) (A : Matrix (Fin (2 ^ n)) (Fin (2 ^ n)) ℂ) : star φ ⬝ᵥ (A *ᵥ φ) = star ψ ⬝ᵥ (A *ᵥ ψ) := by
  obtain ⟨c, hc, h⟩ := h
  have h' : φ = c • ψ := h
  rw [h', Matrix.mulVec_smul, star_smul, smul_dotProduct, dotProduct_smul, smul_smul, norm_one_mul hc, one_smul]

theorem omegaC_ray {φ ψ : Ket n} (h : SameRay φ ψ) (p o : Matrix (Fin (2 ^ n)) (Fin (2 ^ n)) ℂ) : omegaC φ p o = omegaC ψ p o :=
  sandwich_eq h _

theorem density_ray {φ ψ : Ket n} (h : SameRay φ ψ) : Matrix.vecMulVec φ (star φ) = Matrix.vecMulVec ψ (star ψ) := by
  obtain ⟨c, hc, rfl⟩ := h
  funext i j
  have := norm_one_mul hc
  simp only [Matrix.vecMulVec_apply, Pi.star_apply, star_mul']
  calc c * ψ i * (star c * star (ψ j)) = (star c * c) * (ψ i * star (ψ j)) := by ring
    _ = _ := by rw [this, one_mul]

theorem omegaSum_ray {φ ψ : Ket n} (h : SameRay φ ψ) (os : List (Matrix (Fin (2 ^ n)) (Fin (2 ^ n)) ℂ)) (p : Matrix (Fin (2 ^ n)) (Fin (2 ^ n)) ℂ) :
    omegaSum φ os p = omegaSum ψ os p := by
  simp only [omegaSum, omegaC_ray h]

theorem absOmegas_ray {φ ψ : Ket n} (h : SameRay φ ψ) (os : List (Matrix (Fin (2 ^ n)) (Fin (2 ^ n)) ℂ))
    (fp : List (Key × Matrix (Fin (2 ^ n)) (Fin (2 ^ n)) ℂ)) : absOmegas φ os fp = absOmegas ψ os fp := by
  simp only [absOmegas, omegaSum_ray h]

variable {U V : Matrix (Fin (2 ^ n)) (Fin (2 ^ n)) ℂ}

theorem expval_ray (h : SameState U V) (o : Obs) : expvalFromUnitary U o = expvalFromUnitary V o := by
  simp only [expvalFromUnitary, sandwich_eq h]

theorem costLoop_ray (h : SameState U V) : ∀ (os : List Obs) (acc : ℝ), costLoop U os acc = costLoop V os acc
  | [], _ => rfl
  | o :: os, acc => by simp only [costLoop, expval_ray h, costLoop_ray h os]

theorem totalCost_ray (h : SameState U V) (os : List Obs) : totalCost U os = totalCost V os := costLoop_ray h os 0

theorem addCosts_ray (h : SameState U V) (i : ℤ) : ∀ (os : List Obs) (l : List ℝ), addCosts U i os l = addCosts V i os l
  | [], _ => rfl
  | o :: os, l => by simp only [addCosts, expval_ray h, addCosts_ray h i os]

theorem directions_ray (h : SameState U V) (os : List Obs) : getAllSuNDirections U os = getAllSuNDirections V os := by
  have key : ∀ (fs : List (Matrix (Fin (2 ^ n)) (Fin (2 ^ n)) ℂ)) (l : List (NpMat × String)),
      directionsLoop (stateFromUnitary U) fs l = directionsLoop (stateFromUnitary V) fs l := by
    intro fs l
    induction l with
    | nil => rfl
    | cons e l ih =>
      obtain ⟨p, name⟩ := e
      simp only [directionsLoop, omega, sandwich_eq h, ih]
  simp only [getAllSuNDirections, key]

theorem rotosolve_ray (h : SameState U V) (p : Matrix (Fin (2 ^ n)) (Fin (2 ^ n)) ℂ) (os : List Obs) (k : ℕ) :
    SameBehaviour (fun a b => SameState a.1 b.1 ∧ a.2 = b.2) (rotosolve p os U k) (rotosolve p os V k) := by
  rw [rotosolve, rotosolve, totalCost_ray h, totalCost_ray (h.mul_left _), totalCost_ray (h.mul_left _)]
  refine .bind_eq _ fun a => .bind_eq _ fun b => .bind_eq _ fun c => .ok ⟨h.mul_left _, rfl⟩

theorem trotterLoop_ray {φ ψ : Ket n} (hφ : SameRay φ ψ) (svd : SvdFn n) (eta : ℝ) (check : Bool) (obs : Matrix (Fin (2 ^ n)) (Fin (2 ^ n)) ℂ) :
    ∀ (ps : List (Matrix (Fin (2 ^ n)) (Fin (2 ^ n)) ℂ)) {U V : Matrix (Fin (2 ^ n)) (Fin (2 ^ n)) ℂ}, SameState U V →
    SameState (trotterLoop svd eta check φ obs ps U) (trotterLoop svd eta check ψ obs ps V)
  | [], _, _, h => h
  | p :: ps, U, V, h => by
    rw [trotterLoop, trotterLoop, omegaC_ray hφ]
    exact trotterLoop_ray hφ svd eta check obs ps (h.mul_left _)

theorem groupStep_ray {φ ψ : Ket n} (hφ : SameRay φ ψ) (svd : SvdFn n) (eta : ℝ) (check tr : Bool) (obs : Matrix (Fin (2 ^ n)) (Fin (2 ^ n)) ℂ)
    (ps : List (Matrix (Fin (2 ^ n)) (Fin (2 ^ n)) ℂ)) (h : SameState U V) :
    SameBehaviour SameState (groupStep svd eta check tr φ obs ps U) (groupStep svd eta check tr ψ obs ps V) := by
  rw [groupStep, groupStep]
  simp only [omegaC_ray hφ]
  split
  · exact .ok (trotterLoop_ray hφ svd eta check obs ps h)
  · split
    · exact .error _
    · exact .ok (h.mul_left _)

theorem groupsLoop_ray {φ ψ : Ket n} (hφ : SameRay φ ψ) (svd : SvdFn n) (eta : ℝ) (check tr : Bool) (obs : Matrix (Fin (2 ^ n)) (Fin (2 ^ n)) ℂ) :
    ∀ (gs : List (List (Matrix (Fin (2 ^ n)) (Fin (2 ^ n)) ℂ))) {U V : Matrix (Fin (2 ^ n)) (Fin (2 ^ n)) ℂ}, SameState U V →
    SameBehaviour SameState (groupsLoop svd eta check tr φ obs gs U) (groupsLoop svd eta check tr ψ obs gs V)
  | [], _, _, h => .ok h
  | g :: gs, U, V, h => by
    rw [groupsLoop, groupsLoop]
    exact (groupStep_ray hφ svd eta check tr obs g h).bind fun _ _ h' => groupsLoop_ray hφ svd eta check tr obs gs h'

theorem obsLoop_ray {φ ψ : Ket n} (hφ : SameRay φ ψ) (svd : SvdFn n) (eta : ℝ) (check tr : Bool) (groups : List (List (Matrix (Fin (2 ^ n)) (Fin (2 ^ n)) ℂ))) :
    ∀ (os : List (Matrix (Fin (2 ^ n)) (Fin (2 ^ n)) ℂ)) {U V : Matrix (Fin (2 ^ n)) (Fin (2 ^ n)) ℂ}, SameState U V →
    SameBehaviour SameState (obsLoop svd eta check tr φ groups os U) (obsLoop svd eta check tr ψ groups os V)
  | [], _, _, h => .ok h
  | o :: os, U, V, h => by
    rw [obsLoop, obsLoop]
    exact (groupsLoop_ray hφ svd eta check tr o groups h).bind fun _ _ h' => obsLoop_ray hφ svd eta check tr groups os h'

theorem customObsLoop_ray {φ ψ : Ket n} (hφ : SameRay φ ψ) (svd : SvdFn n) (L : CustomLayer n) :
    ∀ (os : List (Matrix (Fin (2 ^ n)) (Fin (2 ^ n)) ℂ)) {U V : Matrix (Fin (2 ^ n)) (Fin (2 ^ n)) ℂ}, SameState U V →
    SameBehaviour SameState (customObsLoop svd L φ os U) (customObsLoop svd L ψ os V)
  | [], _, _, h => .ok h
  | o :: os, U, V, h => by
    rw [customObsLoop, customObsLoop]
    refine .bind_eq _ fun ms => ?_
    exact (groupStep_ray hφ svd L.eta L.check L.trotterize o ms h).bind fun _ _ h' => customObsLoop_ray hφ svd L os h'

theorem stochasticLoop_ray {φ ψ : Ket n} (hφ : SameRay φ ψ) (svd : SvdFn n) (L : StochasticLayer n) (k : Key) :
    ∀ (os : List (Matrix (Fin (2 ^ n)) (Fin (2 ^ n)) ℂ)) {U V : Matrix (Fin (2 ^ n)) (Fin (2 ^ n)) ℂ}, SameState U V →
    SameBehaviour SameState (stochasticLoop svd L φ k os U) (stochasticLoop svd L ψ k os V)
  | [], _, _, h => .ok h
  | o :: os, U, V, h => by
    rw [stochasticLoop, stochasticLoop]
    simp only [omegaC_ray hφ]
    exact .bind_eq _ fun p => stochasticLoop_ray hφ svd L k os (h.mul_left _)

theorem zassStep_ray {φ ψ : Ket n} (hφ : SameRay φ ψ) (ord : SetOrder ℕ) (os : List (Matrix (Fin (2 ^ n)) (Fin (2 ^ n)) ℂ))
    (d4 d8 : List (Key × Matrix (Fin (2 ^ n)) (Fin (2 ^ n)) ℂ)) (cur k : Key) (s : ZassCands) :
    zassStep ord φ os d4 d8 cur k s = zassStep ord ψ os d4 d8 cur k s := by
  simp only [zassStep, omegaSum_ray hφ]

theorem zassLoop_ray {φ ψ : Ket n} (hφ : SameRay φ ψ) (ord : SetOrder ℕ) (os : List (Matrix (Fin (2 ^ n)) (Fin (2 ^ n)) ℂ))
    (d4 d8 : List (Key × Matrix (Fin (2 ^ n)) (Fin (2 ^ n)) ℂ)) (cur : Key) : ∀ (ks : List Key) (s : ZassCands),
    zassLoop ord φ os d4 d8 cur ks s = zassLoop ord ψ os d4 d8 cur ks s
  | [], _ => rfl
  | k :: ks, s => by simp only [zassLoop, zassStep_ray hφ, zassLoop_ray hφ ord os d4 d8 cur ks]

/-- What a call of a layer does depends on the circuit only through its state. -/
theorem call_ray (E : LayerEnv n) (L : AnyLayer n) (params : List (List ℝ)) (h : SameState U V) :
    SameBehaviour (fun a b => SameState a.1 b.1 ∧ a.2 = b.2) (L.call E params U) (L.call E params V) := by
  have hs : SameRay (stateFromUnitary U) (stateFromUnitary V) := h
  cases L with
  | loc L =>
    simp only [AnyLayer.call, LocalLayer.call]
    exact (obsLoop_ray hs _ _ _ _ _ _ h).bind fun _ _ h' => .ok ⟨h', rfl⟩
  | custom L =>
    simp only [AnyLayer.call, CustomLayer.call]
    exact (customObsLoop_ray hs _ _ _ h).bind fun _ _ h' => .ok ⟨h', rfl⟩
  | stochastic L =>
    simp only [AnyLayer.call, StochasticLayer.call]
    refine .bind (R := SameState) (.bind_eq _ fun k => ?_) fun _ _ h' => .ok ⟨h', rfl⟩
    exact stochasticLoop_ray hs _ _ _ _ h
  | squared L =>
    simp only [AnyLayer.call, SquaredLayer.call, SquaredLayer.omegas, absOmegas_ray hs]
    refine .bind (R := fun a b => SameState a.1 b.1 ∧ a.2 = b.2) (.bind_eq _ fun k => .bind_eq _ fun p => ?_)
      fun a b h' => .ok ⟨h'.1, by rw [h'.2]⟩
    exact (rotosolve_ray h _ _ _).bind fun a b h' => .ok ⟨h'.1, rfl⟩
  | adapt L =>
    simp only [AnyLayer.call, AdaptLayer.call, AdaptLayer.select, absOmegas_ray hs]
    exact .refl (fun a => ⟨.refl _, rfl⟩) _
  | su8 L =>
    simp only [AnyLayer.call, SU8Layer.call, absOmegas_ray hs]
    refine .bind (R := fun a b => SameState a.1 b.1 ∧ a.2 = b.2) (.bind_eq _ fun k => .bind_eq _ fun p => ?_)
      fun a b h' => .ok ⟨h'.1, rfl⟩
    exact (rotosolve_ray h _ _ _).bind fun a b h' => .ok ⟨h'.1, rfl⟩
  | zass L =>
    simp only [AnyLayer.call, ZassLayer.call]
    refine .bind (R := fun a b => SameState a.1 b.1 ∧ a.2 = b.2) ?_ fun a b h' => .ok ⟨h'.1, by rw [h'.2]⟩
    split
    · simp only [ZassLayer.callSu4, absOmegas_ray hs]
      refine .bind_eq _ fun k => .bind_eq _ fun p => ?_
      exact (rotosolve_ray h _ _ _).bind fun a b h' => .ok ⟨h'.1, by rw [h'.2]⟩
    · simp only [ZassLayer.callSu8, zassLoop_ray hs, omegaSum_ray hs]
      refine .bind_eq _ fun cur => .bind_eq _ fun _ => .bind_eq _ fun wA => .bind_eq _ fun s => .bind_eq _ fun pick => .bind_eq _ fun bk =>
        .bind_eq _ fun p8 => .bind_eq _ fun sign => .bind_eq _ fun wB => .bind_eq _ fun pB => ?_
      exact .ok ⟨h.mul_left _, rfl⟩
  | v2 nm L =>
    simp only [AnyLayer.call, ZassV2Layer.call, ZassV2Layer.omegas, omegaSum_ray hs]
    exact .refl (fun a => ⟨.refl _, rfl⟩) _

end Oranssi
