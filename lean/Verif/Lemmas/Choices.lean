import Verif.Lemmas.PauliOp
import Verif.Props.RunUnitary
import Mathlib.Data.List.Sort

/-! # Results that do not depend on unspecified choices: eigenvectors, singular vectors, set orders (for C83) -/

namespace Oranssi
open Spec
open scoped Matrix

variable {n m : ℕ}

theorem nodup_key_inj {α β : Type} (f : α → β) : ∀ {l : List α}, (l.map f).Nodup → ∀ {a b : α}, a ∈ l → b ∈ l → f a = f b → a = b :=
  fun h _ _ ha hb hab => List.inj_on_of_nodup_map h ha hb hab

/-- The constructor of monomials sorts, so it does not depend on the order in which it is given the Paulis. -/
theorem new_perm {l l' : List Pauli} (h : l.Perm l') : Mono.new l = Mono.new l' := by
  have hs := (List.mergeSort_perm l (fun p q => p.alpha ≤ q.alpha)).trans (h.trans (List.mergeSort_perm l' (fun p q => p.alpha ≤ q.alpha)).symm)
  rw [Mono.new, Mono.new]
  by_cases hn : ((l.mergeSort (fun p q => p.alpha ≤ q.alpha)).map (·.alpha)).Nodup
  · have he : l.mergeSort (fun p q => p.alpha ≤ q.alpha) = l'.mergeSort (fun p q => p.alpha ≤ q.alpha) := by
      refine hs.eq_of_pairwise (le := fun p q : Pauli => p.alpha ≤ q.alpha) ?_ ?_ ?_
      · intro a b ha hb hab hba
        exact nodup_key_inj (fun p : Pauli => p.alpha) hn ha (hs.mem_iff.2 hb) (le_antisymm hab hba)
      · exact (List.pairwise_mergeSort (le := fun p q : Pauli => decide (p.alpha ≤ q.alpha)) (fun a b c h1 h2 => by
          simp only [decide_eq_true_eq] at *; omega) (fun a b => by simp only [Bool.or_eq_true, decide_eq_true_eq]; omega) l).imp (by simp)
      · exact (List.pairwise_mergeSort (le := fun p q : Pauli => decide (p.alpha ≤ q.alpha)) (fun a b c h1 h2 => by
          simp only [decide_eq_true_eq] at *; omega) (fun a b => by simp only [Bool.or_eq_true, decide_eq_true_eq]; omega) l').imp (by simp)
    rw [he]
  · have hn' : ¬ ((l'.mergeSort (fun p q => p.alpha ≤ q.alpha)).map (·.alpha)).Nodup := fun h' => hn ((hs.map _).nodup_iff.2 h')
    simp only [pyAssert]
    rw [if_neg hn, if_neg hn']
    rfl

theorem mulList_perm (ord ord' : SetOrder ℕ) (a b : Mono) : (mulList ord a b).Perm (mulList ord' a b) := by
  rw [mulList, mulList]
  have h : ∀ l, (ord.run l).Perm (ord'.run l) := fun l => (ord.perm l).trans (ord'.perm l).symm
  exact ((h _).map _).append ((h _).map _) |>.append ((h _).map _)

theorem mul_ord (ord ord' : SetOrder ℕ) (a b : Mono) : a.mul ord b = a.mul ord' b := by
  rw [mul_eq_new, mul_eq_new]
  exact new_perm (mulList_perm ord ord' a b)

theorem commutator_ord (ord ord' : SetOrder ℕ) (a b : Mono) : a.commutator ord b = a.commutator ord' b := by
  rw [Mono.commutator, Mono.commutator, mul_ord ord ord', mul_ord ord ord']

theorem commutesWith_ord (ord ord' : SetOrder ℕ) (a b : Mono) : a.commutesWith ord b = a.commutesWith ord' b := by
  rw [Mono.commutesWith, Mono.commutesWith, mul_ord ord ord', mul_ord ord ord']

theorem zassLoop_ord (ord ord' : SetOrder ℕ) (phi : Ket n) (obsFull : List (QMat n)) (d4 d8 : List (Key × QMat n)) (cur : Key) :
    ∀ (ks : List Key) (s : ZassCands), zassLoop ord phi obsFull d4 d8 cur ks s = zassLoop ord' phi obsFull d4 d8 cur ks s
  | [], _ => rfl
  | k :: ks, s => by
    have h : zassStep ord phi obsFull d4 d8 cur k s = zassStep ord' phi obsFull d4 d8 cur k s := by
      simp only [zassStep, commutator_ord ord ord']
    rw [zassLoop, zassLoop, h]
    simp only [zassLoop_ord ord ord' phi obsFull d4 d8 cur ks]

theorem zassCall_ord (ord ord' : SetOrder ℕ) (L : ZassLayer n) (U : QMat n) : L.call ord U = L.call ord' U := by
  simp only [ZassLayer.call, ZassLayer.callSu8, zassLoop_ord ord ord']

/-! ### The singular value decomposition -/

theorem groupStep_svd {svd svd' : SvdFn n} (hs : ValidSvd svd) (hs' : ValidSvd svd') (eta : ℝ) (b trot : Bool) (phi : Ket n) {obs : QMat n}
    (ho : obsᴴ = obs) {ps : List (QMat n)} (h : ∀ p ∈ ps, pᴴ = p) (U : QMat n) :
    groupStep svd eta b trot phi obs ps U = groupStep svd' eta b trot phi obs ps U := by
  by_cases hne : ps ≠ [] ∨ trot = true
  · rw [groupStep_eq hs eta b trot phi ho h hne, groupStep_eq hs' eta b trot phi ho h hne]
  · push Not at hne
    obtain ⟨rfl, h2⟩ := hne
    have h3 : trot = false := by simpa using h2
    subst h3
    rfl

theorem groupsLoop_svd {svd svd' : SvdFn n} (hs : ValidSvd svd) (hs' : ValidSvd svd') (eta : ℝ) (b trot : Bool) (phi : Ket n) {obs : QMat n}
    (ho : obsᴴ = obs) : ∀ (gs : List (List (QMat n))), (∀ g ∈ gs, ∀ p ∈ g, pᴴ = p) → ∀ U : QMat n,
    groupsLoop svd eta b trot phi obs gs U = groupsLoop svd' eta b trot phi obs gs U
  | [], _, _ => rfl
  | g :: gs, h, U => by
    rw [groupsLoop, groupsLoop, groupStep_svd hs hs' eta b trot phi ho (h g List.mem_cons_self)]
    simp only [groupsLoop_svd hs hs' eta b trot phi ho gs (fun g hg => h g (List.mem_cons_of_mem _ hg))]

theorem obsLoop_svd {svd svd' : SvdFn n} (hs : ValidSvd svd) (hs' : ValidSvd svd') (eta : ℝ) (b trot : Bool) (phi : Ket n)
    {gs : List (List (QMat n))} (h : ∀ g ∈ gs, ∀ p ∈ g, pᴴ = p) : ∀ (os : List (QMat n)), (∀ o ∈ os, oᴴ = o) → ∀ U : QMat n,
    obsLoop svd eta b trot phi gs os U = obsLoop svd' eta b trot phi gs os U
  | [], _, _ => rfl
  | o :: os, ho, U => by
    rw [obsLoop, obsLoop, groupsLoop_svd hs hs' eta b trot phi (ho o List.mem_cons_self) gs h]
    simp only [obsLoop_svd hs hs' eta b trot phi h os (fun o' h' => ho o' (List.mem_cons_of_mem _ h'))]

theorem customObsLoop_svd {svd svd' : SvdFn n} (hs : ValidSvd svd) (hs' : ValidSvd svd') (L : CustomLayer n) (phi : Ket n)
    (h : ∀ ms, customMatrices L.fullPaulis = .ok ms → ∀ p ∈ ms, pᴴ = p) : ∀ (os : List (QMat n)), (∀ o ∈ os, oᴴ = o) → ∀ U : QMat n,
    customObsLoop svd L phi os U = customObsLoop svd' L phi os U
  | [], _, _ => rfl
  | o :: os, ho, U => by
    rw [customObsLoop, customObsLoop]
    cases hm : customMatrices L.fullPaulis with
    | error e => rfl
    | ok ms =>
      change (groupStep svd L.eta L.check L.trotterize phi o ms U >>= _) = (groupStep svd' L.eta L.check L.trotterize phi o ms U >>= _)
      rw [groupStep_svd hs hs' _ _ _ _ (ho o List.mem_cons_self) (h ms hm)]
      simp only [customObsLoop_svd hs hs' L phi h os (fun o' h' => ho o' (List.mem_cons_of_mem _ h'))]

/-- The layers whose calls do not depend on the singular vectors: what a call multiplies onto the circuit is exactly unitary. -/
def HermLayer : AnyLayer n → Prop
  | .loc L => (∀ g ∈ L.fullPaulis, ∀ p ∈ g, pᴴ = p) ∧ ∀ o ∈ L.observables, oᴴ = o
  | .custom L => (∀ ms, customMatrices L.fullPaulis = .ok ms → ∀ p ∈ ms, pᴴ = p) ∧ ∀ o ∈ L.observables, oᴴ = o
  | _ => True

theorem hermLayer_call {E : LayerEnv n} {L L' : AnyLayer n} (h : HermLayer L) {ps ps' : List (List ℝ)} {U V : QMat n}
    (hc : L.call E ps U = .ok (V, ps', L')) : HermLayer L' := by
  cases L with
  | loc L =>
    rw [AnyLayer.call] at hc
    obtain ⟨W, -, hc⟩ := bind_ok_iff.1 hc
    obtain ⟨-, hc2⟩ := Prod.mk.inj (Except.ok.inj hc)
    obtain ⟨-, rfl⟩ := Prod.mk.inj hc2
    exact h
  | custom L =>
    rw [AnyLayer.call] at hc
    obtain ⟨W, -, hc⟩ := bind_ok_iff.1 hc
    obtain ⟨-, hc2⟩ := Prod.mk.inj (Except.ok.inj hc)
    obtain ⟨-, rfl⟩ := Prod.mk.inj hc2
    exact h
  | stochastic L =>
    rw [AnyLayer.call] at hc
    obtain ⟨W, -, hc⟩ := bind_ok_iff.1 hc
    obtain ⟨-, hc2⟩ := Prod.mk.inj (Except.ok.inj hc)
    obtain ⟨-, rfl⟩ := Prod.mk.inj hc2
    trivial
  | squared L =>
    rw [AnyLayer.call] at hc
    obtain ⟨W, -, hc⟩ := bind_ok_iff.1 hc
    obtain ⟨-, hc2⟩ := Prod.mk.inj (Except.ok.inj hc)
    obtain ⟨-, rfl⟩ := Prod.mk.inj hc2
    trivial
  | adapt L =>
    rw [AnyLayer.call] at hc
    obtain ⟨W, -, hc⟩ := bind_ok_iff.1 hc
    obtain ⟨-, hc2⟩ := Prod.mk.inj (Except.ok.inj hc)
    obtain ⟨-, rfl⟩ := Prod.mk.inj hc2
    trivial
  | su8 L =>
    rw [AnyLayer.call] at hc
    obtain ⟨W, -, hc⟩ := bind_ok_iff.1 hc
    obtain ⟨-, hc2⟩ := Prod.mk.inj (Except.ok.inj hc)
    obtain ⟨-, rfl⟩ := Prod.mk.inj hc2
    trivial
  | zass L =>
    rw [AnyLayer.call] at hc
    obtain ⟨W, -, hc⟩ := bind_ok_iff.1 hc
    obtain ⟨-, hc2⟩ := Prod.mk.inj (Except.ok.inj hc)
    obtain ⟨-, rfl⟩ := Prod.mk.inj hc2
    trivial
  | v2 nm L =>
    rw [AnyLayer.call] at hc
    obtain ⟨W, -, hc⟩ := bind_ok_iff.1 hc
    obtain ⟨-, hc2⟩ := Prod.mk.inj (Except.ok.inj hc)
    obtain ⟨-, rfl⟩ := Prod.mk.inj hc2
    trivial

/-- A call does not depend on the singular vectors and the set orders. -/
theorem call_choices {E E' : LayerEnv n} (hs : ValidSvd E.svd) (hs' : ValidSvd E'.svd) (hgd : E.gd = E'.gd) {L : AnyLayer n} (h : HermLayer L)
    (ps : List (List ℝ)) (U : QMat n) : L.call E ps U = L.call E' ps U := by
  cases L with
  | loc L =>
    rw [AnyLayer.call, AnyLayer.call, LocalLayer.call, LocalLayer.call, obsLoop_svd hs hs' _ _ _ _ h.1 _ h.2]
  | custom L =>
    rw [AnyLayer.call, AnyLayer.call, CustomLayer.call, CustomLayer.call, customObsLoop_svd hs hs' _ _ h.1 _ h.2]
  | stochastic L => rfl
  | squared L => rfl
  | adapt L =>
    rw [AnyLayer.call, AnyLayer.call]
    have : psForAdapt E L.observables = psForAdapt E' L.observables := by
      funext c p
      rw [psForAdapt, psForAdapt, hgd]
    rw [this]
  | su8 L => rfl
  | zass L => rw [AnyLayer.call, AnyLayer.call, zassCall_ord E.ord E'.ord]
  | v2 nm L => rfl

theorem customMatrices_key (es : List (Key × QMat n)) (ms : List (QMat n))
    (h : customMatrices (n := n) (es.map (fun e => (e.1, CustomVal.key e.1))) = .ok ms) : ms = [] := by
  cases es with
  | nil => exact (Except.ok.inj h).symm
  | cons e es => rw [List.map_cons, customMatrices] at h; simp at h

theorem customLayer_none {gs : List (Gate n)} {args : LayerArgs} {L : CustomLayer n} (hL : customLayer n (gs.map Gate.obs) none args = .ok L) :
    (∀ ms, customMatrices L.fullPaulis = .ok ms → ms = []) ∧ L.observables = gs.map (fun g => full n g.ws g.A) := by
  obtain ⟨a, ha, hf, hd, -⟩ := algebraSU4_getAll n
  rw [customLayer, promoteAll_gates, ha] at hL
  obtain ⟨-, -, hL⟩ := bind_ok_iff.1 hL
  obtain ⟨e, -, hL⟩ := bind_ok_iff.1 hL
  obtain ⟨a', ha', hL⟩ := bind_ok_iff.1 hL
  obtain rfl := Except.ok.inj ha'
  obtain ⟨dp, hdp, hL⟩ := bind_ok_iff.1 hL
  obtain rfl := Except.ok.inj hdp
  obtain ⟨os, hos, hL⟩ := bind_ok_iff.1 hL
  obtain rfl := Except.ok.inj hos
  obtain ⟨b, -, hL⟩ := bind_ok_iff.1 hL
  obtain ⟨t, -, hL⟩ := bind_ok_iff.1 hL
  obtain rfl := Except.ok.inj hL
  refine ⟨fun ms hms => ?_, rfl⟩
  have hnd : ((stdDict n (allWords [1, 2])).map Prod.fst).Nodup := stdDict_nodup (allWords_nodup (by simp))
  dsimp only at hms
  rw [hf, dictZip_map _ hnd (fun e => CustomVal.key e.1)] at hms
  exact customMatrices_key _ _ hms

theorem hermLayer_fresh {L : AnyLayer n} (h : Fresh L) : HermLayer L := by
  cases h with
  | loc hs hH locality la stride D L hL =>
    have hok := localLayer_inv hs hL
    obtain ⟨k, e0, b, t, hk, rfl, he, hb, ht, hL'⟩ := localLayer_ok hs hok
    rw [hL'] at hL
    obtain rfl := Except.ok.inj hL
    refine ⟨?_, gates_herm hH⟩
    intro g hg p hp
    obtain ⟨q, -, rfl⟩ := List.mem_map.1 hg
    obtain ⟨w, -, rfl⟩ := List.mem_map.1 hp
    exact pauliWord_herm _
  | custom hs hH D la L hL =>
    cases D with
    | some D =>
      obtain ⟨h1, h2, h3, -⟩ := customLayer_some hL
      refine ⟨fun ms hms => ?_, by rw [h3]; exact gates_herm hH⟩
      rw [h2] at hms
      obtain rfl := Except.ok.inj hms
      exact customKept_herm
    | none =>
      obtain ⟨h1, h2⟩ := customLayer_none hL
      refine ⟨fun ms hms => ?_, by rw [h2]; exact gates_herm hH⟩
      rw [h1 ms hms]
      simp
  | stochastic hs la L hL => trivial
  | squared hs la L hL => trivial
  | adapt hs la L hL => trivial
  | su8 hs la b1 b2 L hL => trivial
  | zass hs la b1 b2 r L hL => trivial
  | v2 => trivial

end Oranssi
