import Verif.Props.Tfim
import Verif.Props.ApproxTrace

/-! # C117: greedy layers and symmetries made of X letters

A greedy layer follows the direction with the largest gradient, and a direction with a gradient commutes with the Pauli symmetries of the observables (C111).  Where all
gradients vanish it follows the first direction of its dictionary, which consists of letters `X`.  So symmetries such as the flip of all qubits are kept without any
condition on the gradients.  A call of a `ZassenhausLayer` in the phase `su8` only succeeds with a direction that has a gradient, and keeps all Pauli symmetries. -/

namespace Oranssi
open Spec
open scoped Matrix

variable {n m : ℕ}

/-- A word whose letters on the first three qubits are `I` or `X`. -/
def Spec.StartsWithX (w : Fin n → Letter) : Prop := ∀ q : Fin n, q.val < 3 → w q = .I ∨ w q = .X

theorem placed_X (k : ℕ) (qs : List ℕ) (q : Fin n) : placed n (List.replicate k .X) qs q = .X ∨ placed n (List.replicate k .X) qs q = .I := by
  rw [placed, List.getElem?_replicate]
  split
  · exact .inl rfl
  · exact .inr rfl

theorem commute_X {w : Fin n → Letter} (hw : StartsWithX w) (k : ℕ) (qs : List ℕ) (hk : qs.length = k) (hq : ∀ q ∈ qs, q < 3) :
    Commute (pauliWord w) (pauliWord (placed n (List.replicate k .X) qs)) := by
  rw [Commute, SemiconjBy, pauliWord_swap, Finset.prod_eq_one, one_smul]
  intro q _
  by_cases h3 : q.val < 3
  · rcases hw q h3 with h | h <;> rcases placed_X k qs q with h' | h' <;> rw [h, h'] <;> simp [letterSign]
  · have h' : placed n (List.replicate k .X) qs q = .I := by
      rw [placed, List.idxOf_eq_length_iff.2 fun hm => h3 (hq _ hm), hk, List.getElem?_replicate, if_neg (by omega)]
      rfl
    rw [h']
    cases w q <;> simp [letterSign]

/-- The first entry of a dictionary of directions. -/
theorem stdDict_first (k : ℕ) (ls : List ℕ) (hk : k = 1 ∨ k = 2 ∨ k = 3) (hn : 3 ≤ n) :
    ∃ t, stdDict n (allWords (k :: ls)) = ((letterStr (List.replicate k .X), List.range k), pauliWord (placed n (List.replicate k .X) (List.range k))) :: t := by
  obtain ⟨m, rfl⟩ : ∃ m, n = m + 3 := ⟨n - 3, by omega⟩
  have h1 : ∃ t, allWords (k :: ls) = List.replicate k .X :: t := by
    rcases hk with rfl | rfl | rfl <;> exact ⟨_, rfl⟩
  obtain ⟨t, ht⟩ := h1
  have h2 : ∃ t', combinations (List.range (m + 3)) k = List.range k :: t' := by
    rw [List.range_succ_eq_map, List.range_succ_eq_map, List.range_succ_eq_map]
    rcases hk with rfl | rfl | rfl <;> simp only [List.map_cons, combinations, List.cons_append] <;> exact ⟨_, rfl⟩
  obtain ⟨t', ht'⟩ := h2
  rw [ht, stdDict, List.flatMap_cons, List.length_replicate, ht', List.map_cons, List.cons_append]
  exact ⟨_, rfl⟩

theorem stdDict_two (hn : 3 ≤ n) : ∃ t, stdDict n (allWords [1, 2]) = (("X", [0]), pauliWord (placed n [.X] [0])) :: (("X", [1]), pauliWord (placed n [.X] [1])) :: t := by
  obtain ⟨m, rfl⟩ : ∃ m, n = m + 3 := ⟨n - 3, by omega⟩
  have h1 : ∃ t, allWords [1, 2] = [.X] :: t := ⟨_, rfl⟩
  obtain ⟨t, ht⟩ := h1
  have h2 : ∃ t', combinations (List.range (m + 3)) 1 = [0] :: [1] :: t' := by
    rw [List.range_succ_eq_map, List.range_succ_eq_map, List.range_succ_eq_map]
    simp only [List.map_cons, combinations, List.cons_append]
    exact ⟨_, rfl⟩
  obtain ⟨t', ht'⟩ := h2
  rw [ht, stdDict, List.flatMap_cons, List.length_singleton, ht', List.map_cons, List.cons_append, List.map_cons, List.cons_append]
  exact ⟨_, rfl⟩

/-- The direction a greedy layer follows commutes with a symmetry that commutes with the first direction. -/
theorem greedy_commute {w : Fin n → Letter} {H U : QMat n} {c : ℂ} {e₀ : Key × QMat n} {l : List (Key × QMat n)} {k : Key} {P : QMat n}
    (hl : ∀ e ∈ e₀ :: l, ∃ v, e.2 = pauliWord v) (hQ : Commute (pauliWord w) H) (hc : InSector (pauliWord w) c (fun i => U i 0))
    (hmax : IsFirstMax (fun e : Key × QMat n => |grad H U e.2|) (e₀ :: l) (k, P)) (h₀ : Commute (pauliWord w) e₀.2) : Commute (pauliWord w) P := by
  by_cases hne : ∃ e ∈ e₀ :: l, grad H U e.2 ≠ 0
  · obtain ⟨e, he, hg⟩ := hne
    obtain ⟨v, hv⟩ := hl _ hmax.mem
    have h1 : grad H U P ≠ 0 := abs_pos.1 ((abs_pos.2 hg).trans_le (hmax.le e he))
    dsimp only at hv
    subst hv
    exact grad_commute hQ hc h1
  · push Not at hne
    have := firstMax_head hmax fun z hz => by rw [hne z hz, abs_zero]
    rw [← this] at h₀
    exact h₀

theorem rotation_sector {Q P U : QMat n} {c z : ℂ} (hc : InSector Q c (fun i => U i 0)) (h : Commute Q P) :
    InSector Q c (fun i => (NormedSpace.exp (z • P) * U) i 0) := by
  have h1 : Commute Q (NormedSpace.exp (z • P)) := (h.smul_right z).exp_right
  rw [InSector] at hc ⊢
  rw [mul_column, Matrix.mulVec_mulVec, h1.eq, ← Matrix.mulVec_mulVec, hc, Matrix.mulVec_smul]

/-- A layer for the observables `gs` that keeps the symmetry `w`. -/
inductive KeepsX (w : Fin n → Letter) (gs : List (Gate n)) : AnyLayer n → Prop
  | symmetric (L : AnyLayer n) (h : SymmetricLayer w L) : KeepsX w gs L
  | squared (la : LayerArgs) (L : SquaredLayer n) (hL : squaredLayer n (gs.map Gate.obs) la = .ok L) (k : Key) : KeepsX w gs (.squared { L with previousPauli := k })
  | su8 (la : LayerArgs) (b1 b2 : Bool) (L : SU8Layer n) (hL : su8Layer n (gs.map Gate.obs) la b1 b2 = .ok L) : KeepsX w gs (.su8 L)
  | zass (L : ZassLayer n) (h : ZassGood gs L) : KeepsX w gs (.zass L)

/-- A new `ZassenhausLayer` is of this kind. -/
theorem keepsX_zass {w : Fin n → Letter} {gs : List (Gate n)} {la : LayerArgs} {b2 : Bool} {r : ℤ × ℤ} {L : ZassLayer n}
    (hL : zassLayer n (gs.map Gate.obs) la false b2 r = .ok L) : KeepsX w gs (.zass L) := .zass L (zassGood_init hL)

/-- A call in the phase `su4`. -/
theorem su4_call {gs : List (Gate n)} {L L' : ZassLayer n} {U V : QMat n} (hn : 3 ≤ n) (hg : ZassGood gs L) (h : L.callSu4 U = .ok (V, L')) :
    ∃ k P, IsFirstMax (fun e : Key × QMat n => |grad (totalObs gs) U e.2|) (stdDict n (allWords [2])) (k, P) ∧ L'.currentPauli = some k ∧
      ∃ η, rotosolve P (gs.map Gate.obs) U k.1.toList.length = .ok (V, η) ∧ L'.previousEta = some η := by
  obtain ⟨t, ht⟩ := stdDict_first (n := n) 2 [] (.inr (.inl rfl)) hn
  obtain ⟨e, h1, h2⟩ := argmax_dict U gs (stdDict n (allWords [2])) (by rw [ht]; simp)
  have h3 := dictGet_mem (stdDict_nodup (allWords_nodup (by simp))) h2.mem
  rw [ZassLayer.callSu4, hg.dict4, hg.obsFull, hg.obs, h1] at h
  simp only [bind, Except.bind, h3] at h
  split at h
  · simp at h
  rename_i r hr
  obtain ⟨rfl, rfl⟩ := Prod.mk.inj (Except.ok.inj h)
  exact ⟨e.1, e.2, h2, rfl, r.2, hr, rfl⟩

theorem zassGood_su8 {ord : SetOrder ℕ} {gs : List (Gate n)} {L L' : ZassLayer n} (hg : ZassGood gs L) (hp : L.phase = .su8)
    {w : Fin n → Letter} (hQ : ∀ g ∈ gs, Commute (pauliWord w) (full n g.ws g.A)) {c : ℂ} {U V : QMat n} (hc : InSector (pauliWord w) c (fun i => U i 0))
    (hcall : L.call ord U = .ok (V, L')) : InSector (pauliWord w) c (fun i => V i 0) := by
  obtain ⟨wa, qa, η, ha, hcur, hη⟩ := hg.cur.resolve_left (by rw [hp]; simp)
  rw [ZassLayer.call, hp] at hcall
  dsimp only at hcall
  rcases su8_call ord hg ha hcur hη U with ⟨wb, qb, w', q, σ, hcand, -, hB, k1, k2⟩ | ⟨-, k⟩
  · by_cases h0 : η = 0
    · rw [k1 h0] at hcall; simp at hcall
    · obtain ⟨L'', m1, -⟩ := k2 h0
      rw [m1] at hcall
      obtain ⟨rfl, -⟩ := Prod.mk.inj (Except.ok.inj hcall)
      exact rotation_sector hc (grad_commute (totalObs_commute hQ) hc hB)
  · rw [k] at hcall; simp at hcall

/-- C117 (phase `su8`): a successful call of a `ZassenhausLayer` in the phase `su8` keeps every Pauli symmetry of the observables. -/
theorem C117_su8 (ord ord' : SetOrder ℕ) (gs : List (Gate n)) (args : LayerArgs) (b2 : Bool) (r : ℤ × ℤ) (L₀ L L' : ZassLayer n)
    (hL : zassLayer n (gs.map Gate.obs) args false b2 r = .ok L₀) (Us : List (QMat n)) (h : L₀.runAll ord Us = .ok L) (hp : L.phase = .su8)
    (w : Fin n → Letter) (hQ : ∀ g ∈ gs, Commute (pauliWord w) (full n g.ws g.A)) (c : ℂ) (U V : QMat n) (hc : InSector (pauliWord w) c (fun i => U i 0))
    (hcall : L.call ord' U = .ok (V, L')) : InSector (pauliWord w) c (fun i => V i 0) :=
  zassGood_su8 (zassGood_run Us L₀ L (zassGood_init hL) h) hp hQ hc hcall

/-- C117 (calls): a successful call of any of these layers keeps a symmetry that has only letters `I` and `X` on the first three qubits, whatever the gradients are. -/
theorem C117_call (hn : 3 ≤ n) (E : LayerEnv n) (hs : ValidSvd E.svd) {w : Fin n → Letter} (hw : StartsWithX w) {gs : List (Gate n)}
    (hQ : ∀ g ∈ gs, Commute (pauliWord w) (full n g.ws g.A)) {L L' : AnyLayer n} (h : KeepsX w gs L) (ps ps' : List (List ℝ)) (U V : QMat n) (c : ℂ)
    (hc : InSector (pauliWord w) c (fun i => U i 0)) (hcall : L.call E ps U = .ok (V, ps', L')) : InSector (pauliWord w) c (fun i => V i 0) ∧ KeepsX w gs L' := by
  have hQ' := totalObs_commute hQ
  cases h with
  | symmetric L h =>
    obtain ⟨V', h1, h2, h3⟩ := C95_call E hs h ps U c hc
    rw [h1] at hcall
    obtain ⟨rfl, h4⟩ := Prod.mk.inj (Except.ok.inj hcall)
    obtain ⟨-, rfl⟩ := Prod.mk.inj h4
    exact ⟨h2, .symmetric L h⟩
  | squared la L hL k =>
    obtain ⟨ho, hf, hd, -⟩ := squaredLayer_inv hL
    obtain ⟨k', P, V', h1, h2, h3, -⟩ := squared_call (by omega) (L := { L with previousPauli := k }) ho hf hd U
    rw [AnyLayer.call, h1] at hcall
    obtain ⟨rfl, h4⟩ := Prod.mk.inj (Except.ok.inj hcall)
    obtain ⟨-, rfl⟩ := Prod.mk.inj h4
    refine ⟨?_, .squared la L hL k'⟩
    obtain ⟨η, rfl⟩ := h3.rotation
    refine rotation_sector hc ?_
    obtain ⟨t, ht⟩ := stdDict_two hn
    have hall : ∀ e ∈ (stdDict n (allWords [1, 2])).filter (fun e => e.1 ≠ k), ∃ v, e.2 = pauliWord v := fun e he => stdDict_words e (List.mem_filter.1 he).1
    dsimp only at h2
    by_cases hk : k = ("X", [0])
    · rw [ht, List.filter_cons_of_neg (by simp [hk]), List.filter_cons_of_pos (by simp [hk])] at h2 hall
      exact greedy_commute hall hQ' hc h2 (commute_X hw 1 [1] rfl (by simp))
    · rw [ht, List.filter_cons_of_pos (by simpa using fun h => hk h.symm)] at h2 hall
      exact greedy_commute hall hQ' hc h2 (commute_X hw 1 [0] rfl (by simp))
  | su8 la b1 b2 L hL =>
    obtain ⟨-, k, P, V', h1, h2, h3⟩ := C36_su8 gs la b1 b2 L hL U
    obtain ⟨-, -, -, hd⟩ := su8Layer_inv hL
    rw [AnyLayer.call, h1] at hcall
    obtain ⟨rfl, h4⟩ := Prod.mk.inj (Except.ok.inj hcall)
    obtain ⟨-, rfl⟩ := Prod.mk.inj h4
    refine ⟨?_, .su8 la b1 b2 L hL⟩
    obtain ⟨η, rfl⟩ := h3.rotation
    refine rotation_sector hc ?_
    have hfirst : ∃ j t, j ≤ 3 ∧ L.lastate.fullPaulis = ((letterStr (List.replicate j .X), List.range j), pauliWord (placed n (List.replicate j .X) (List.range j))) :: t := by
      rw [hd]
      cases b1 with
      | true => obtain ⟨t, ht⟩ := stdDict_first (n := n) 1 ((if b2 then [2] else []) ++ [3]) (by simp) hn; exact ⟨1, t, by omega, ht⟩
      | false =>
        cases b2 with
        | true => obtain ⟨t, ht⟩ := stdDict_first (n := n) 2 [3] (by simp) hn; exact ⟨2, t, by omega, ht⟩
        | false => obtain ⟨t, ht⟩ := stdDict_first (n := n) 3 [] (by simp) hn; exact ⟨3, t, by omega, ht⟩
    obtain ⟨j, t, hj, ht⟩ := hfirst
    have hall : ∀ e ∈ L.lastate.fullPaulis, ∃ v, e.2 = pauliWord v := fun e he => stdDict_words e (hd ▸ he)
    rw [ht] at h2 hall
    exact greedy_commute hall hQ' hc h2 (commute_X hw j _ (by simp) fun q hq => by have := List.mem_range.1 hq; omega)
  | zass L h =>
    rw [AnyLayer.call] at hcall
    simp only [bind, Except.bind] at hcall
    split at hcall
    · simp at hcall
    rename_i res hres
    obtain ⟨rfl, h4⟩ := Prod.mk.inj (Except.ok.inj hcall)
    obtain ⟨-, rfl⟩ := Prod.mk.inj h4
    refine ⟨?_, .zass _ (zassGood_step h hres).1⟩
    cases hp : L.phase with
    | su8 => exact zassGood_su8 h hp hQ hc hres
    | su4 =>
      rw [ZassLayer.call, hp] at hres
      obtain ⟨k, P, h2, -, η, hη, -⟩ := su4_call hn h hres
      rw [rotosolve_ok] at hη
      obtain ⟨hη, -⟩ := Prod.mk.inj (Except.ok.inj hη)
      rw [← hη]
      refine rotation_sector hc ?_
      obtain ⟨t, ht⟩ := stdDict_first (n := n) 2 [] (.inr (.inl rfl)) hn
      have hall : ∀ e ∈ stdDict n (allWords [2]), ∃ v, e.2 = pauliWord v := fun e he => stdDict_words e he
      rw [ht] at h2 hall
      exact greedy_commute hall hQ' hc h2 (commute_X hw 2 _ rfl fun q hq => by have := List.mem_range.1 hq; omega)

/-- C117 (runs): without perturbation every circuit reported by a run with these layers keeps the symmetry. -/
theorem C117_run (hn : 3 ≤ n) (E : LayerEnv n) (hs : ValidSvd E.svd) (eigh : EighFn n) (rnd : ℕ → Matrix (Fin (2 ^ n)) (Fin (2 ^ n)) ℝ) (ret : CircuitRet)
    (ops : List (NpMat × List ℤ)) (params : List (List ℝ)) (gs : List (Gate n)) (objs : Fin m → AnyLayer n) (layers : List (Fin m)) (args : ApproxArgs)
    (out : OptOut (ApproxItem n) × (Fin m → AnyLayer n)) (hp : args.perturb = .bool false) (hr : args.returnUnitary = .bool true) (U : QMat n) (hU : compileLoop n ops 1 = .ok U)
    (w : Fin n → Letter) (hw : StartsWithX w) (c : ℂ) (hQ : ∀ g ∈ gs, Commute (pauliWord w) (full n g.ws g.A)) (hobjs : ∀ i, KeepsX w gs (objs i))
    (hc : InSector (pauliWord w) c (fun i => U i 0))
    (h : approximateLieOptimizer E eigh rnd ret ops params (gs.map Gate.obs) objs layers args = .ok out) :
    ∃ l, approxUnitaries out.1 = some l ∧ l.length = (approxCosts out.1).length ∧ l[0]? = some U ∧ (∀ X ∈ l, InSector (pauliWord w) c (fun i => X i 0)) ∧
      ∀ i, KeepsX w gs (out.2 i) := by
  obtain ⟨-, N, e, t, F, hv, V, W, j, r, h0, hp0, ho0, hrun, rfl, hcost, hst, hun, -⟩ := approx_outcome E eigh rnd ret ops params gs objs layers args out h
  obtain ⟨r1, r2, -, r4, -⟩ := approxOutput_read r F
  have hF : F.perturb = false := by
    have := hv.flagP
    rw [hp] at this
    exact (BoolArg.bool.inj this).symm
  have hF' : F.returnUnitary = true := by
    have := hv.flagU
    rw [hr] at this
    exact (BoolArg.bool.inj this).symm
  rw [hF] at hrun
  have hV0 : (V 0).U = U := Except.ok.inj (h0.symm.trans hU)
  rw [hF', if_pos rfl] at hun
  have hVW : ∀ k ≤ j, InSector (pauliWord w) c (fun i => (V k).U i 0) ∧ (∀ i, KeepsX w gs ((V k).objs i)) ∧ W k = V k := by
    intro k
    induction k with
    | zero => intro _; exact ⟨by rw [hV0]; exact hc, by rw [ho0]; exact hobjs, hrun.start⟩
    | succ k ih =>
      intro hk
      obtain ⟨i, L', hi, hcall, hobj⟩ := hrun.advance k (by omega)
      obtain ⟨i1, i3, i4⟩ := ih (by omega)
      rw [i4] at hcall hobj
      obtain ⟨hX2, hX1⟩ := C117_call hn E hs hw hQ (i3 i) _ _ _ _ c i1 hcall
      refine ⟨hX2, fun i' => ?_, hrun.kept k (by omega) (.inr rfl)⟩
      rw [hobj]
      by_cases hii : i' = i
      · subst hii; rw [Function.update_self]; exact hX1
      · rw [Function.update_of_ne hii]; exact i3 i'
  refine ⟨r.unitaries, by rw [r4, hF', if_pos rfl], by rw [r1, hun, hcost]; simp, ?_, fun X hX => ?_, fun i => ?_⟩
  · rw [hun, List.getElem?_map, List.getElem?_range (by omega), ← hV0]
    rfl
  · rw [hun] at hX
    obtain ⟨k, hk, rfl⟩ := List.mem_map.1 hX
    exact (hVW k (by have := List.mem_range.1 hk; omega)).1
  · dsimp only
    rw [(hVW j le_rfl).2.2]
    exact (hVW j le_rfl).2.1 i

/-- The layers for which the scripts train the Ising ring greedily: `tfim_su4_linesearch.py` (51), `tfim_su8_linesearch.py` (40) and `tfim_zassenhaus` in `zassenhaus.py` (142-143),
for any arguments they accept and any ratio of the phases. -/
inductive GreedyTfim (n : ℕ) : AnyLayer n → Prop
  | line (L : AnyLayer n) (hL : TfimLayer n L) : GreedyTfim n L
  | zass (la : LayerArgs) (b2 : Bool) (r : ℤ × ℤ) (L : ZassLayer n) (hL : zassLayer n (tfimObservables n) la false b2 r = .ok L) : GreedyTfim n (.zass L)

/-- C117 (Ising ring): in every successful run of these scripts, all circuits reported are symmetric under the flip of all qubits, and every qubit has a vanishing expectation
of `Z` and `Y`.  The condition on the gradients in C112 is not needed. -/
theorem C117_tfim (hn : 3 ≤ n) (E : LayerEnv n) (hs : ValidSvd E.svd) (eigh : EighFn n) (rnd : ℕ → Matrix (Fin (2 ^ n)) (Fin (2 ^ n)) ℝ) (params : List (List ℝ))
    (L : AnyLayer n) (hL : GreedyTfim n L) (args : ApproxArgs) (hp : args.perturb = .bool false) (hr : args.returnUnitary = .bool true)
    (out : OptOut (ApproxItem n) × (Fin 1 → AnyLayer n))
    (h : approximateLieOptimizer E eigh rnd .state (tfimCircuit n) params (tfimObservables n) (fun _ : Fin 1 => L) [0] args = .ok out) :
    ∃ l, approxUnitaries out.1 = some l ∧ l.length = (approxCosts out.1).length ∧ l[0]? = some (hadamardAll n) ∧
      ∀ X ∈ l, InSector (pauliWord (flipAll n)) 1 (fun i => X i 0) ∧
        ∀ (q : Fin n), ∀ a ∈ [Letter.Z, .Y], star (fun i => X i 0) ⬝ᵥ pauliWord (placed n [a] [q.val]) *ᵥ (fun i => X i 0) = 0 := by
  have h2 : 2 ≤ n := by omega
  have hK : KeepsX (flipAll n) (tfimGates n h2) L := by
    cases hL with
    | line L hL =>
      cases hL with
      | squared la L hL => exact .squared la L (by rw [← tfimGates_obs]; exact hL) L.previousPauli
      | su8 la L hL => exact .su8 la true true L (by rw [← tfimGates_obs]; exact hL)
    | zass la b2 r L hL => exact keepsX_zass (la := la) (b2 := b2) (r := r) (by rw [← tfimGates_obs]; exact hL)
  rw [tfimGates_obs h2] at h
  obtain ⟨l, h1, h3, h4, h5, -⟩ := C117_run hn E hs eigh rnd .state (tfimCircuit n) params (tfimGates n h2) (fun _ => L) [0] args out hp hr (hadamardAll n) (tfim_compile n) (flipAll n)
    (fun _ _ => .inr rfl) 1 (tfim_symmetry h2) (fun _ => hK) (plus_flip _ fun q => .inl rfl) h
  refine ⟨l, h1, h3, h4, fun X hX => ?_⟩
  have hS := h5 X hX
  refine ⟨hS, fun q a ha => ?_⟩
  rw [InSector, one_smul] at hS
  refine expect_flip (pauliWord_herm _) hS ?_
  rw [word_site _ _ q.val q.isLt]
  simp only [List.mem_cons, List.not_mem_nil, or_false] at ha
  rcases ha with rfl | rfl <;> simp [flipAll, letterSign]

/-! ### Examples -/

theorem zassLayer_default (hn : 3 ≤ n) (gs : List (Gate n)) (r : ℤ × ℤ) : ∃ L, zassLayer n (gs.map Gate.obs) {} false false r = .ok L := by
  obtain ⟨a0, h0, h1, h2, h3, h4⟩ := algebraSU8_attrs n false false
  have hl2 : (lens8 false false).Nodup := by simp [lens8]
  have h02 : 0 ∉ lens8 false false := by simp [lens8]
  have hne : ∀ w ∈ allWords (lens8 false false), w ≠ [] := fun w hw hc => h02 (by simpa [hc] using (mem_allWords.1 hw).1)
  have ha := getAll8_std (allWords_nodup hl2) hne _ h1 h2 h4 [] (Or.inl rfl) h3
  obtain ⟨k1, k2, k3, k4⟩ := algebraSU4_attrs n false
  have kl : ∀ w ∈ allWords (if false then [1, 2] else [2]), w.length = 1 ∨ w.length = 2 := fun w hw => by
    have := (mem_allWords.1 hw).1; simp at this; simp [this]
  have hka := getAll_std (allWords_nodup (by simp)) kl _ k1 k2 k3 [] (Or.inl rfl) k4
  obtain ⟨a2, hk2, -⟩ := C27_su2 n
  rw [zassLayer, promoteAll_gates, h0, hka, hk2]
  simp only [bind, Except.bind, ha]
  rw [show validateEta (Option.getD ({} : LayerArgs).eta (.float 0.1)) = .ok 0.1 from defaultEta_ok', show pyAssert (n ≥ 3) = .ok () from by simp [pyAssert, hn]]
  exact ⟨_, rfl⟩

/-- The layer of `tfim_zassenhaus` (132-143, ratio `(4, 2)`) and a successful step of the optimizer: the hypotheses of `C117_tfim` can be met. -/
example (E : LayerEnv 6) (eigh : EighFn 6) (rnd : ℕ → Matrix (Fin (2 ^ 6)) (Fin (2 ^ 6)) ℝ) : ∃ L, GreedyTfim 6 L ∧ ∃ args : ApproxArgs, args.perturb = .bool false ∧
    args.returnUnitary = .bool true ∧
    ∃ out, approximateLieOptimizer E eigh rnd .state (tfimCircuit 6) [] (tfimObservables 6) (fun _ : Fin 1 => L) [0] args = .ok out := by
  obtain ⟨L, hL⟩ := zassLayer_default (by omega) (tfimGates 6 (by omega)) (4, 2)
  refine ⟨.zass L, .zass {} false (4, 2) L (by rw [tfimGates_obs]; exact hL), { nsteps := .int (1 : ℕ), returnUnitary := .bool true }, rfl, rfl, ?_⟩
  rw [tfimOps_eq, tfimGates_obs (by omega)]
  refine approx_one_step E eigh rnd (tfimOps 6) [] (tfimGates 6 (by omega)) _ 0 [] (fun U => ?_) _ 0.1 (some (.fin 1e-3)) ⟨false, false, true, false, false, false, false⟩
    (approxValid_of 1 le_rfl (some (.float 1e-3)) (some (.fin 1e-3)) ⟨rfl, by norm_num⟩ ⟨false, false, true, false, false, false, false⟩) rfl
  obtain ⟨-, -, -, -, -, -, -, hp, -⟩ := zassLayer_inv hL
  obtain ⟨V, L', hc⟩ := C43_su4_partial E.ord (tfimGates 6 (by omega)) {} false (4, 2) L L hL [] rfl hp U
  exact ⟨(V, [], .zass L'), by rw [AnyLayer.call, hc]; rfl⟩

end Oranssi
