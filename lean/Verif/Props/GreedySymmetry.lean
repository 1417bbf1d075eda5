import Verif.Props.Symmetry
import Verif.Props.ApproxTotal
import Verif.Props.GreedyMore

/-! # C111: greedy layers and the symmetries of the observables

The squared and SU(8) layers rotate about the direction with the largest gradient.  In a sector of a Pauli word that commutes with the observables the
gradients along the directions that leave the sector vanish, so the layers keep the sector as long as some gradient does not vanish.  Where all gradients
vanish the first direction of the dictionary is taken, and the sector may be left. -/

namespace Oranssi
open Spec
open scoped Matrix

variable {n m : ℕ}

theorem totalObs_commute {w : Fin n → Letter} {gs : List (Gate n)} (hQ : ∀ g ∈ gs, Commute (pauliWord w) (full n g.ws g.A)) : Commute (pauliWord w) (totalObs gs) := by
  rw [totalObs]
  refine Commute.list_sum_right _ _ fun A hA => ?_
  obtain ⟨g, hg, rfl⟩ := List.mem_map.1 hA
  exact hQ g hg

/-- A direction with a gradient commutes with the symmetry. -/
theorem grad_commute {w v : Fin n → Letter} {H U : QMat n} {c : ℂ} (hQ : Commute (pauliWord w) H) (hc : InSector (pauliWord w) c (fun i => U i 0))
    (hg : grad H U (pauliWord v) ≠ 0) : Commute (pauliWord w) (pauliWord v) := by
  rcases pauliWord_comm_or w v with h | h
  · exact h
  · refine absurd ?_ hg
    have := omegaC_sector hQ hc h
    rw [omegaC] at this
    rw [grad, this, Complex.zero_im]

/-- A step of a greedy layer along a direction which has the largest gradient of a list. -/
theorem greedy_step_sector {w : Fin n → Letter} {H U V : QMat n} {c : ℂ} {l : List (Key × QMat n)} {k : Key} {P : QMat n} {r : ℕ}
    (hl : ∀ e ∈ l, ∃ v, e.2 = pauliWord v) (hQ : Commute (pauliWord w) H) (hc : InSector (pauliWord w) c (fun i => U i 0))
    (hmax : IsFirstMax (fun e : Key × QMat n => |grad H U e.2|) l (k, P)) (hs : IsRotoStep H P U V r) (hne : ∃ e ∈ l, grad H U e.2 ≠ 0) :
    InSector (pauliWord w) c (fun i => V i 0) := by
  obtain ⟨e, he, hg⟩ := hne
  obtain ⟨v, hv⟩ := hl _ hmax.mem
  have h1 : grad H U P ≠ 0 := abs_pos.1 ((abs_pos.2 hg).trans_le (hmax.le e he))
  dsimp only at hv
  subst hv
  obtain ⟨η, rfl⟩ := hs.rotation
  have hcomm : Commute (pauliWord w) (NormedSpace.exp ((-Complex.I * (η : ℂ)) • pauliWord v)) := Commute.exp_right (Commute.smul_right (grad_commute hQ hc h1) _)
  exact foldl_sector (Fs := [NormedSpace.exp ((-Complex.I * (η : ℂ)) • pauliWord v)]) (by simpa using hcomm) hc

theorem stdDict_words {L : List (List Letter)} : ∀ e ∈ stdDict n L, ∃ v, e.2 = pauliWord v := by
  intro e he
  obtain ⟨v, -, q, -, rfl⟩ := mem_stdDict.1 he
  exact ⟨_, rfl⟩

/-- C111 (squared layer): in every history of calls, a call on a circuit in a sector of a Pauli word that commutes with the observables returns a circuit in the
same sector, if some direction other than the one of the previous call has a gradient. -/
theorem C111_squared (hn : 1 ≤ n) (gs : List (Gate n)) (args : LayerArgs) (L : SquaredLayer n) (hL : squaredLayer n (gs.map Gate.obs) args = .ok L)
    (Us : List (QMat n)) (w : Fin n → Letter) (hQ : ∀ g ∈ gs, Commute (pauliWord w) (full n g.ws g.A)) :
    ∃ res L', L.runAll Us = .ok (res, L') ∧ res.length = Us.length ∧ ∀ (i : ℕ) (U : QMat n) (r : Key × QMat n) (c : ℂ), Us[i]? = some U → res[i]? = some r →
      InSector (pauliWord w) c (fun j => U j 0) →
      (∃ e ∈ L.lastate.fullPaulis, (∀ r', i ≠ 0 → res[i - 1]? = some r' → e.1 ≠ r'.1) ∧ grad (totalObs gs) U e.2 ≠ 0) →
      InSector (pauliWord w) c (fun j => r.2 j 0) := by
  obtain ⟨-, -, hd, -⟩ := squaredLayer_inv hL
  obtain ⟨-, res, L', h1, h2, h3, -⟩ := C35_squared hn gs args L hL Us
  refine ⟨res, L', h1, h2, fun i U r c hi hr hc hne => ?_⟩
  obtain ⟨P, h4, h5⟩ := h3 i U r hi hr
  refine greedy_step_sector (fun e he => stdDict_words e (hd ▸ (List.mem_filter.1 he).1)) (totalObs_commute hQ) hc h4 h5 ?_
  obtain ⟨e, he, he1, he2⟩ := hne
  refine ⟨e, List.mem_filter.2 ⟨he, ?_⟩, he2⟩
  by_cases hi0 : i = 0
  · simp [hi0]
  · rw [if_neg hi0]
    have hlt : i - 1 < res.length := by
      have := (List.getElem?_eq_some_iff.1 hr).1
      omega
    have := he1 _ hi0 (List.getElem?_eq_getElem hlt)
    simpa [List.getElem?_eq_getElem hlt] using this

/-- C111 (SU(8) layer): a call on a circuit in a sector of a Pauli word that commutes with the observables returns a circuit in the same sector, if some
direction of the layer has a gradient. -/
theorem C111_su8 (gs : List (Gate n)) (args : LayerArgs) (b1 b2 : Bool) (L : SU8Layer n) (hL : su8Layer n (gs.map Gate.obs) args b1 b2 = .ok L) (U : QMat n)
    (w : Fin n → Letter) (hQ : ∀ g ∈ gs, Commute (pauliWord w) (full n g.ws g.A)) (c : ℂ) (hc : InSector (pauliWord w) c (fun i => U i 0))
    (hne : ∃ e ∈ L.lastate.fullPaulis, grad (totalObs gs) U e.2 ≠ 0) : ∃ V k, L.call U = .ok (V, k) ∧ InSector (pauliWord w) c (fun i => V i 0) := by
  obtain ⟨-, k, P, V, h1, h2, h3⟩ := C36_su8 gs args b1 b2 L hL U
  obtain ⟨-, -, -, hd⟩ := su8Layer_inv hL
  refine ⟨V, k, h1, greedy_step_sector (fun e he => stdDict_words e (hd ▸ he)) (totalObs_commute hQ) hc h2 h3 hne⟩

/-- A layer for the observables `gs` that keeps the symmetries of Pauli words where two directions have a gradient: local and custom layers (which always do),
squared and SU(8) layers. -/
inductive GreedyFor (w : Fin n → Letter) (gs : List (Gate n)) : AnyLayer n → Prop
  | symmetric (L : AnyLayer n) (h : SymmetricLayer w L) : GreedyFor w gs L
  | squared (hn : 1 ≤ n) (la : LayerArgs) (L : SquaredLayer n) (hL : squaredLayer n (gs.map Gate.obs) la = .ok L) (k : Key) : GreedyFor w gs (.squared { L with previousPauli := k })
  | su8 (la : LayerArgs) (L : SU8Layer n) (hL : su8Layer n (gs.map Gate.obs) la = .ok L) : GreedyFor w gs (.su8 L)

/-- Two directions of one or two letters have a gradient in the circuit `U`. -/
def Spec.TwoGradients (gs : List (Gate n)) (U : QMat n) : Prop :=
  ∃ v q v' q', v ∈ allWords [1, 2] ∧ v' ∈ allWords [1, 2] ∧ q ∈ combinations (List.range n) v.length ∧ q' ∈ combinations (List.range n) v'.length ∧
    (letterStr v, q) ≠ (letterStr v', q') ∧ grad (totalObs gs) U (pauliWord (placed n v q)) ≠ 0 ∧ grad (totalObs gs) U (pauliWord (placed n v' q')) ≠ 0

theorem greedyFor_call (E : LayerEnv n) (hs : ValidSvd E.svd) {w : Fin n → Letter} {gs : List (Gate n)} (hQ : ∀ g ∈ gs, Commute (pauliWord w) (full n g.ws g.A))
    {L : AnyLayer n} (h : GreedyFor w gs L) (ps : List (List ℝ)) (U : QMat n) (c : ℂ) (hc : InSector (pauliWord w) c (fun i => U i 0)) (hg : TwoGradients gs U) :
    ∃ V L', L.call E ps U = .ok (V, ps, L') ∧ GreedyFor w gs L' ∧ InSector (pauliWord w) c (fun i => V i 0) ∧ (Unitary U → Unitary V) := by
  obtain ⟨v, q, v', q', hv, hv', hq, hq', hne, g1, g2⟩ := hg
  cases h with
  | symmetric L h =>
    obtain ⟨V, h1, h2, h3⟩ := C95_call E hs h ps U c hc
    exact ⟨V, L, h1, .symmetric L h, h2, h3⟩
  | squared hn la L hL k =>
    obtain ⟨ho, hf, hd, -⟩ := squaredLayer_inv hL
    obtain ⟨k', P, V, h1, h2, h3, -⟩ := squared_call hn (L := { L with previousPauli := k }) ho hf hd U
    refine ⟨V, .squared { L with previousPauli := k' }, by rw [AnyLayer.call, h1]; rfl, .squared hn la L hL k', ?_, h3.unitary⟩
    refine greedy_step_sector (fun e he => stdDict_words e (List.mem_filter.1 he).1) (totalObs_commute hQ) hc h2 h3 ?_
    by_cases hk : (letterStr v, q) = k
    · exact ⟨_, List.mem_filter.2 ⟨mem_stdDict.2 ⟨v', hv', q', hq', rfl⟩, by simpa using fun h => hne (hk.trans h.symm)⟩, g2⟩
    · exact ⟨_, List.mem_filter.2 ⟨mem_stdDict.2 ⟨v, hv, q, hq, rfl⟩, by simpa using hk⟩, g1⟩
  | su8 la L hL =>
    obtain ⟨-, k, P, V, h1, h2, h3⟩ := C36_su8 gs la true true L hL U
    obtain ⟨-, -, -, hd⟩ := su8Layer_inv hL
    refine ⟨V, .su8 L, by rw [AnyLayer.call, h1]; rfl, .su8 la L hL, ?_, h3.unitary⟩
    refine greedy_step_sector (fun e he => stdDict_words e (hd ▸ he)) (totalObs_commute hQ) hc h2 h3 ⟨((letterStr v, q), pauliWord (placed n v q)), ?_, g1⟩
    rw [hd]
    exact mem_stdDict.2 ⟨v, mem_allWords.2 ⟨by have := (mem_allWords.1 hv).1; simp [lens8] at this ⊢; omega, (mem_allWords.1 hv).2⟩, q, hq, rfl⟩

/-- C111 (runs): with local, custom, squared and SU(8) layers for the optimizer's observables and without perturbation, every circuit reported is in the sector of
the initial one as long as all circuits reported before have at least two directions with a gradient. -/
theorem C111_run (E : LayerEnv n) (hs : ValidSvd E.svd) (eigh : EighFn n) (rnd : ℕ → Matrix (Fin (2 ^ n)) (Fin (2 ^ n)) ℝ) (ret : CircuitRet)
    (ops : List (NpMat × List ℤ)) (params : List (List ℝ)) (gs : List (Gate n)) (objs : Fin m → AnyLayer n) (layers : List (Fin m)) (args : ApproxArgs)
    (out : OptOut (ApproxItem n) × (Fin m → AnyLayer n)) (hp : args.perturb = .bool false) (hr : args.returnUnitary = .bool true) (U : QMat n) (hU : compileLoop n ops 1 = .ok U)
    (w : Fin n → Letter) (c : ℂ) (hQ : ∀ g ∈ gs, Commute (pauliWord w) (full n g.ws g.A)) (hobjs : ∀ i, GreedyFor w gs (objs i))
    (hc : InSector (pauliWord w) c (fun i => U i 0))
    (h : approximateLieOptimizer E eigh rnd ret ops params (gs.map Gate.obs) objs layers args = .ok out) :
    ∃ l, approxUnitaries out.1 = some l ∧ l.length = (approxCosts out.1).length ∧ l[0]? = some U ∧
      ∀ (K : ℕ) (X : QMat n), l[K]? = some X → (∀ k < K, ∀ Y, l[k]? = some Y → TwoGradients gs Y) → InSector (pauliWord w) c (fun i => X i 0) := by
  obtain ⟨-, N, e, t, F, hv, V, W, j, r, h0, hp0, ho0, hrun, rfl, hcost, hst, hun, -⟩ := approx_outcome E eigh rnd ret ops params gs objs layers args out h
  obtain ⟨r1, r2, -, r4, -⟩ := approxOutput_read r F
  have hF : F.perturb = false := by
    have := hv.flagP
    rw [hp] at this
    exact (BoolArg.bool.inj this).symm
  have hF' : F.returnUnitary = true := by
    have := hv.flagU
    rw [hr] at this
    exact (BoolArg.bool.inj this).symm
  rw [hF] at hrun
  have hV0 : (V 0).U = U := Except.ok.inj (h0.symm.trans hU)
  rw [hF', if_pos rfl] at hun
  have hget : ∀ k ≤ j, r.unitaries[k]? = some (V k).U := fun k hk => by
    rw [hun, List.getElem?_map, List.getElem?_range (by omega)]
    rfl
  refine ⟨r.unitaries, by rw [r4, hF', if_pos rfl], by rw [r1, hun, hcost]; simp, by rw [hget 0 (by omega), hV0], fun K X hX hK => ?_⟩
  have hKj : K ≤ j := by
    have := (List.getElem?_eq_some_iff.1 hX).1
    rw [hun] at this
    simp at this
    omega
  have hVW : ∀ k ≤ K, InSector (pauliWord w) c (fun i => (V k).U i 0) ∧ (∀ i, GreedyFor w gs ((V k).objs i)) ∧ W k = V k := by
    intro k
    induction k with
    | zero => intro _; exact ⟨by rw [hV0]; exact hc, by rw [ho0]; exact hobjs, hrun.start⟩
    | succ k ih =>
      intro hk
      obtain ⟨i, L', hi, hcall, hobj⟩ := hrun.advance k (by omega)
      obtain ⟨i1, i3, i4⟩ := ih (by omega)
      rw [i4] at hcall hobj
      obtain ⟨X, L'', hX, hX1, hX2, -⟩ := greedyFor_call E hs hQ (i3 i) (V k).params (V k).U c i1 (hK k (by omega) _ (hget k (by omega)))
      rw [hX] at hcall
      obtain ⟨h3, h4⟩ := Prod.mk.inj (Except.ok.inj hcall)
      obtain ⟨h4, h5⟩ := Prod.mk.inj h4
      refine ⟨by rw [← h3]; exact hX2, fun i' => ?_, hrun.kept k (by omega) (.inr rfl)⟩
      rw [hobj, ← h5]
      by_cases hii : i' = i
      · subst hii; rw [Function.update_self]; exact hX1
      · rw [Function.update_of_ne hii]; exact i3 i'
  have hXV : X = (V K).U := Option.some.inj (hX.symm.trans (hget K hKj))
  rw [hXV]
  exact (hVW K le_rfl).1

end Oranssi
