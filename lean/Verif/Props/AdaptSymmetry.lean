import Verif.Props.Tfim
import Verif.Props.AdaptShift

/-! # C114: the adaptive layer and the flip of all qubits

The circuit that an `AdaptVQELayer` builds starts with a Hadamard gate on every qubit, which prepares a state that the flip of all qubits leaves alone.  If the
observables have this symmetry and the layer with the largest gradient has a gradient at all, then every rotation of this layer commutes with the flip.  So the
circuits keep the symmetry, whatever angles the inner optimizer returns. -/

namespace Oranssi
open Spec
open scoped Matrix

variable {n m : ℕ}

/-- Two layers of rotations about different words have a gradient in the circuit `U`. -/
def Spec.TwoLayerGradients (gs : List (Gate n)) (U : QMat n) : Prop :=
  ∃ c ∈ candidateLayers, ∃ c' ∈ candidateLayers, c.1 ≠ c'.1 ∧ layerGrad (totalObs gs) U c.1 c.2 ≠ 0 ∧ layerGrad (totalObs gs) U c'.1 c'.2 ≠ 0

/-- The sign with which the flip of all qubits commutes with a word of one or two letters. -/
def flipSign (w : List Letter) : ℂ := (w.map (letterSign .X)).prod

theorem flip_placed (hn : 2 ≤ n) {c : List Letter × LayerKind} (hc : GoodLayer c) {q : List ℕ} (hq : q ∈ c.2.sites n) :
    pauliWord (flipAll n) * pauliWord (placed n c.1 q) = flipSign c.1 • (pauliWord (placed n c.1 q) * pauliWord (flipAll n)) := by
  obtain ⟨h1, h2⟩ := sites_ok hn hc hq
  have hl : c.1.length = 1 ∨ c.1.length = 2 := by
    rw [GoodLayer] at hc
    split at hc
    · exact .inl hc
    · exact .inr hc
  rcases hl with hl | hl
  · obtain ⟨a, ha⟩ := List.length_eq_one_iff.1 hl
    obtain ⟨i, hi⟩ := List.length_eq_one_iff.1 (h1.trans hl)
    have hin : i < n := h2.2 i (by simp [hi])
    rw [ha, hi, word_site _ _ i hin]
    simp [flipSign, flipAll]
  · obtain ⟨a, b, ha⟩ := List.length_eq_two.1 hl
    obtain ⟨i, j, hi⟩ := List.length_eq_two.1 (h1.trans hl)
    have hin : i < n := h2.2 i (by simp [hi])
    have hjn : j < n := h2.2 j (by simp [hi])
    have hij : i ≠ j := by have := h2.1; rw [hi] at this; simpa using this
    rw [ha, hi, placed_two i j hin hjn hij, ← mul_assoc, word_site _ _ i hin, smul_mul_assoc, mul_assoc, word_site _ _ j hjn, mul_smul_comm, smul_smul, mul_assoc]
    simp [flipSign, flipAll]

/-- A layer with a gradient in a symmetric circuit: the flip commutes with all its words. -/
theorem layer_flip (hn : 2 ≤ n) {H U : QMat n} {z : ℂ} (hQ : Commute (pauliWord (flipAll n)) H) (hz : InSector (pauliWord (flipAll n)) z (fun i => U i 0))
    {c : List Letter × LayerKind} (hc : GoodLayer c) (hg : layerGrad H U c.1 c.2 ≠ 0) : flipSign c.1 = 1 := by
  have hex : ∃ q ∈ c.2.sites n, grad H U (pauliWord (placed n c.1 q)) ≠ 0 := by
    by_contra hno
    push Not at hno
    refine hg (List.sum_eq_zero fun x hx => ?_)
    obtain ⟨q, hq, rfl⟩ := List.mem_map.1 hx
    rw [hno q hq, abs_zero]
  obtain ⟨q, hq, hgq⟩ := hex
  have h1 := flip_placed hn hc hq
  rw [(grad_commute hQ hz hgq).eq] at h1
  have h2 : (1 : QMat n) = flipSign c.1 • 1 := by
    have := congrArg (fun M => pauliWord (flipAll n) * (pauliWord (placed n c.1 q) * M)) (show (1 : QMat n) = 1 from rfl)
    have h3 := congrArg (fun M => pauliWord (placed n c.1 q) * M * pauliWord (flipAll n)) h1
    simp only [mul_smul_comm, smul_mul_assoc] at h3
    rw [← mul_assoc (pauliWord (placed n c.1 q)), pauliWord_sq, one_mul, pauliWord_sq] at h3
    exact h3
  have h3 := congrFun (congrFun h2 0) 0
  simp only [Matrix.smul_apply, Matrix.one_apply_eq, smul_eq_mul, mul_one] at h3
  exact h3.symm

/-- The gates of a layer are rotations about its word on its qubits. -/
theorem layerGates_rots {c : List Letter × LayerKind} (hc : GoodLayer c) {ps : List ℝ} {r : List (NpMat × List ℤ)}
    (h : layerGates n (letterStr c.1, c.2.toParity) ps = .ok r) : ∀ g ∈ r, ∃ θ, ∃ q ∈ c.2.sites n, g = rotGate θ (letterStr c.1) q := by
  obtain ⟨w, k⟩ := c
  have hb : ∀ (start : ℕ) (r : List (NpMat × List ℤ)), (bondStarts n start).zipIdx.mapM (fun e => do
      let θ ← pyGetItem ps (e.2 : ℤ)
      .ok (rotGate θ (letterStr w) [e.1, e.1 + 1])) = (.ok r : Py _) → ∀ g ∈ r, ∃ θ, ∃ i ∈ bondStarts n start, g = rotGate θ (letterStr w) [i, i + 1] := by
    intro start r h g hg
    obtain ⟨e, he, h1⟩ := mapM_mem h g hg
    simp only [bind, Except.bind] at h1
    split at h1
    · simp at h1
    obtain rfl := Except.ok.inj h1
    exact ⟨_, e.1, List.fst_mem_of_mem_zipIdx he, rfl⟩
  rw [layerGates, letterStr_length] at h
  cases k with
  | single =>
    rw [GoodLayer, if_pos rfl] at hc
    rw [if_pos hc] at h
    intro g hg
    obtain ⟨i, hi, h1⟩ := mapM_mem h g hg
    simp only [bind, Except.bind] at h1
    split at h1
    · simp at h1
    obtain rfl := Except.ok.inj h1
    exact ⟨_, [i], List.mem_map.2 ⟨i, hi, rfl⟩, rfl⟩
  | even =>
    rw [GoodLayer, if_neg (by simp)] at hc
    dsimp only at hc h
    rw [if_neg (by rw [hc]; decide), if_pos (show LayerKind.toParity .even = Parity.even from rfl)] at h
    intro g hg
    obtain ⟨θ, i, hi, rfl⟩ := hb 0 r h g hg
    rw [bondStarts_eq n 0 (.inl rfl)] at hi
    exact ⟨θ, _, List.mem_map.2 ⟨i, hi, rfl⟩, rfl⟩
  | odd =>
    rw [GoodLayer, if_neg (by simp)] at hc
    dsimp only at hc h
    rw [if_neg (by rw [hc]; decide), if_neg (by simp [LayerKind.toParity])] at h
    simp only [bind, Except.bind] at h
    split at h
    · simp at h
    rename_i gs hgs
    split at h
    · simp at h
    obtain rfl := Except.ok.inj h
    intro g hg
    rcases List.mem_append.1 hg with hg | hg
    · obtain ⟨θ, i, hi, rfl⟩ := hb 1 gs hgs g hg
      rw [bondStarts_eq n 1 (.inr rfl)] at hi
      exact ⟨θ, _, List.mem_append_left _ (List.mem_map.2 ⟨i, hi, rfl⟩), rfl⟩
    · exact ⟨_, _, List.mem_append_right _ (List.mem_singleton.2 rfl), List.mem_singleton.1 hg⟩

/-- A rotation that commutes with the flip of all qubits. -/
def FlipRot (n : ℕ) (g : NpMat × List ℤ) : Prop :=
  ∃ θ w q, w ≠ [] ∧ q.length = w.length ∧ ValidWires n q ∧ g = rotGate θ (letterStr w) q ∧ Commute (pauliWord (flipAll n)) (pauliWord (placed n w q))

theorem compile_flip : ∀ (l : List (NpMat × List ℤ)), (∀ g ∈ l, FlipRot n g) → ∀ (U V : QMat n), InSector (pauliWord (flipAll n)) 1 (fun i => U i 0) →
    compileLoop n l U = .ok V → InSector (pauliWord (flipAll n)) 1 (fun i => V i 0)
  | [], _, U, V, hU, h => by
    rw [compileLoop] at h
    rw [← Except.ok.inj h]
    exact hU
  | g :: l, hl, U, V, hU, h => by
    obtain ⟨θ, w, q, hw, hq, hv, rfl, hcomm⟩ := hl g (by simp)
    have hne : q ≠ [] := by rintro rfl; exact hw (List.length_eq_zero_iff.1 hq.symm)
    rw [rotGate_letterStr, compileLoop, getFullOperator_npQ hq hne hv, full_pauliRot hq hv] at h
    simp only [bind, Except.bind] at h
    have hR : Commute (pauliWord (flipAll n)) (rotOp n θ w q) := (Commute.smul_right (Commute.one_right _) _).sub_right (hcomm.smul_right _)
    exact compile_flip l (fun x hx => hl x (by simp [hx])) (rotOp n θ w q * U) V (foldl_sector (Fs := [rotOp n θ w q]) (by simpa using hR) hU) h

/-- The circuit of layers that commute with the flip prepares a symmetric state, whatever the angles. -/
theorem circuitVqe_flip (hn : 2 ≤ n) {cs : List (List Letter × LayerKind)} (hcs : ∀ c ∈ cs, GoodLayer c ∧ flipSign c.1 = 1) {ps : List (List ℝ)}
    {gates : List (NpMat × List ℤ)} (h : circuitVqe n (cs.map (fun c => (letterStr c.1, c.2.toParity))) ps = .ok gates) {V : QMat n} (hV : compileLoop n gates 1 = .ok V) :
    InSector (pauliWord (flipAll n)) 1 (fun i => V i 0) := by
  rw [circuitVqe] at h
  simp only [bind, Except.bind] at h
  split at h
  · simp at h
  rename_i gs hgs
  obtain rfl := Except.ok.inj h
  rw [compile_hadamards n (List.range n) (by simp), hadamards_eq] at hV
  refine compile_flip _ (fun g hg => ?_) _ V (plus_flip _ fun q => .inl rfl) hV
  obtain ⟨l, hl, hg⟩ := List.mem_flatten.1 hg
  obtain ⟨e, he, h1⟩ := mapM_mem hgs l hl
  split at h1
  · simp at h1
  obtain ⟨c, hc, hce⟩ := List.mem_map.1 (List.fst_mem_of_mem_zipIdx he)
  rw [← hce] at h1
  obtain ⟨hgood, hs⟩ := hcs c hc
  obtain ⟨θ, q, hq, rfl⟩ := layerGates_rots hgood h1 g hg
  obtain ⟨h3, h4⟩ := sites_ok hn hgood hq
  refine ⟨θ, c.1, q, ?_, h3, h4, rfl, ?_⟩
  · intro h0
    rw [GoodLayer, h0] at hgood
    split at hgood <;> simp at hgood
  · have := flip_placed hn hgood hq
    rwa [hs, one_smul] at this

/-- The states of an `AdaptVQELayer` with symmetric layers. -/
def AdaptFlip (gs : List (Gate n)) (L : AdaptLayer n) : Prop :=
  AdaptOk gs L ∧ ∃ cs : List (List Letter × LayerKind), (∀ c ∈ cs, GoodLayer c ∧ flipSign c.1 = 1) ∧ L.layers = cs.map (fun c => (letterStr c.1, c.2.toParity))

theorem letterStr_inj {v w : List Letter} (h : letterStr v = letterStr w) : v = w := by
  rw [← lettersOfStr_letterStr v, h, lettersOfStr_letterStr]

theorem adapt_call_flip (hn : 2 ≤ n) {gs : List (Gate n)} (hQ : ∀ g ∈ gs, Commute (pauliWord (flipAll n)) (full n g.ws g.A)) {L L' : AdaptLayer n} (hL : AdaptFlip gs L)
    {opt : VqeOptimizer} {params last : List (List ℝ)} {U V : QMat n} {z : ℂ} (hz : InSector (pauliWord (flipAll n)) z (fun i => U i 0)) (hg : TwoLayerGradients gs U)
    (h : L.call opt params U = .ok (V, last, L')) : AdaptFlip gs L' ∧ InSector (pauliWord (flipAll n)) 1 (fun i => V i 0) := by
  obtain ⟨hok, cs, hcs, hl⟩ := hL
  obtain ⟨k, hk, rfl, gates, hgates, hV⟩ := adapt_call_inv h
  obtain ⟨c, hc, hm⟩ := adapt_select hn hok U
  rw [hc] at hk
  obtain rfl := Except.ok.inj hk
  obtain ⟨c₁, hc₁, c₂, hc₂, hne, g₁, g₂⟩ := hg
  have hex : ∃ c' ∈ candidateLayers.filter (fun c => some (letterStr c.1) ≠ L.previousDirection), layerGrad (totalObs gs) U c'.1 c'.2 ≠ 0 := by
    by_cases hp : some (letterStr c₁.1) = L.previousDirection
    · refine ⟨c₂, List.mem_filter.2 ⟨hc₂, ?_⟩, g₂⟩
      rw [← hp]
      simpa using fun h => hne (letterStr_inj h).symm
    · exact ⟨c₁, List.mem_filter.2 ⟨hc₁, by simpa using hp⟩, g₁⟩
  obtain ⟨c', hc', hg'⟩ := hex
  have hnn : ∀ w k, 0 ≤ layerGrad (totalObs gs) U w k := fun w k => List.sum_nonneg fun x hx => by
    obtain ⟨q, -, rfl⟩ := List.mem_map.1 hx
    exact abs_nonneg _
  have hgc : layerGrad (totalObs gs) U c.1 c.2 ≠ 0 := (((hnn _ _).lt_of_ne' hg').trans_le (hm.le c' hc')).ne'
  have hgood := candidate_good (List.mem_filter.1 hm.mem).1
  have hs := layer_flip hn (totalObs_commute hQ) hz hgood hgc
  have hall : ∀ x ∈ cs ++ [c], GoodLayer x ∧ flipSign x.1 = 1 := by
    intro x hx
    rcases List.mem_append.1 hx with hx | hx
    · exact hcs x hx
    · rw [List.mem_singleton.1 hx]; exact ⟨hgood, hs⟩
  have he : L.layers ++ [(letterStr c.1, c.2.toParity)] = (cs ++ [c]).map (fun c => (letterStr c.1, c.2.toParity)) := by rw [hl, List.map_append]; rfl
  rw [he] at hgates
  exact ⟨⟨⟨hok.obs, hok.obsFull, hok.dict, hok.dirs⟩, cs ++ [c], hall, he⟩, circuitVqe_flip hn hall hgates hV⟩

theorem adapt_runAll_flip (hn : 2 ≤ n) {gs : List (Gate n)} (hQ : ∀ g ∈ gs, Commute (pauliWord (flipAll n)) (full n g.ws g.A)) :
    ∀ (inputs : List (VqeOptimizer × List (List ℝ) × QMat n)) {L L' : AdaptLayer n}, AdaptFlip gs L →
      (∀ i ∈ inputs, (∃ z, InSector (pauliWord (flipAll n)) z (fun j => i.2.2 j 0)) ∧ TwoLayerGradients gs i.2.2) → L.runAll inputs = .ok L' → AdaptFlip gs L'
  | [], L, L', hL, _, h => by
    rw [AdaptLayer.runAll] at h
    rwa [← Except.ok.inj h]
  | i :: is, L, L', hL, hi, h => by
    rw [AdaptLayer.runAll] at h
    simp only [bind, Except.bind] at h
    split at h
    · simp at h
    rename_i r hr
    obtain ⟨⟨z, hz⟩, hg⟩ := hi i (by simp)
    exact adapt_runAll_flip hn hQ is (adapt_call_flip hn hQ hL (V := r.1) (last := r.2.1) (L' := r.2.2) hz hg hr).1 (fun x hx => hi x (by simp [hx])) h

/-- C114 (calls): let the flip of all qubits commute with the observables.  After any history of calls on circuits of definite symmetry with gradients, a further
call on such a circuit returns a circuit that prepares a symmetric state, whatever inner optimizer is used and whatever angles it returns. -/
theorem C114_call (hn : 2 ≤ n) (gs : List (Gate n)) (args : LayerArgs) (L L₁ L₂ : AdaptLayer n) (hL : adaptLayer n (gs.map Gate.obs) args = .ok L)
    (hQ : ∀ g ∈ gs, Commute (pauliWord (flipAll n)) (full n g.ws g.A)) (inputs : List (VqeOptimizer × List (List ℝ) × QMat n)) (h : L.runAll inputs = .ok L₁)
    (hi : ∀ i ∈ inputs, (∃ z, InSector (pauliWord (flipAll n)) z (fun j => i.2.2 j 0)) ∧ TwoLayerGradients gs i.2.2)
    (opt : VqeOptimizer) (params last : List (List ℝ)) (U V : QMat n) (z : ℂ) (hz : InSector (pauliWord (flipAll n)) z (fun j => U j 0)) (hg : TwoLayerGradients gs U)
    (hc : L₁.call opt params U = .ok (V, last, L₂)) : InSector (pauliWord (flipAll n)) 1 (fun j => V j 0) := by
  obtain ⟨h1, -, h2⟩ := adaptLayer_inv hL
  have h0 : AdaptFlip gs L := ⟨h1, [], by simp, by simpa using h2⟩
  exact (adapt_call_flip hn hQ (adapt_runAll_flip hn hQ inputs h0 hi h) hz hg hc).2

/-- C114 (runs): with a fresh adaptive layer for the optimizer's observables and without perturbation, every circuit reported after the initial one prepares a
state that the flip of all qubits leaves alone, as long as the circuits reported before have at least two layers with a gradient. -/
theorem C114_run (hn : 2 ≤ n) (E : LayerEnv n) (eigh : EighFn n) (rnd : ℕ → Matrix (Fin (2 ^ n)) (Fin (2 ^ n)) ℝ) (ret : CircuitRet)
    (ops : List (NpMat × List ℤ)) (params : List (List ℝ)) (gs : List (Gate n)) (la : LayerArgs) (L : AdaptLayer n) (hL : adaptLayer n (gs.map Gate.obs) la = .ok L) (args : ApproxArgs)
    (out : OptOut (ApproxItem n) × (Fin 1 → AnyLayer n)) (hp : args.perturb = .bool false) (hr : args.returnUnitary = .bool true) (U : QMat n) (hU : compileLoop n ops 1 = .ok U)
    (z : ℂ) (hQ : ∀ g ∈ gs, Commute (pauliWord (flipAll n)) (full n g.ws g.A)) (hz : InSector (pauliWord (flipAll n)) z (fun i => U i 0))
    (h : approximateLieOptimizer E eigh rnd ret ops params (gs.map Gate.obs) (fun _ : Fin 1 => .adapt L) [0] args = .ok out) :
    ∃ l, approxUnitaries out.1 = some l ∧ l.length = (approxCosts out.1).length ∧ l[0]? = some U ∧
      ∀ (K : ℕ) (X : QMat n), l[K + 1]? = some X → (∀ k ≤ K, ∀ Y, l[k]? = some Y → TwoLayerGradients gs Y) → InSector (pauliWord (flipAll n)) 1 (fun i => X i 0) := by
  obtain ⟨-, N, e, t, F, hv, V, W, j, r, h0, hp0, ho0, hrun, rfl, hcost, hst, hun, -⟩ := approx_outcome E eigh rnd ret ops params gs _ _ args out h
  obtain ⟨r1, r2, -, r4, -⟩ := approxOutput_read r F
  have hF : F.perturb = false := by
    have := hv.flagP
    rw [hp] at this
    exact (BoolArg.bool.inj this).symm
  have hF' : F.returnUnitary = true := by
    have := hv.flagU
    rw [hr] at this
    exact (BoolArg.bool.inj this).symm
  rw [hF] at hrun
  have hV0 : (V 0).U = U := Except.ok.inj (h0.symm.trans hU)
  rw [hF', if_pos rfl] at hun
  have hget : ∀ k ≤ j, r.unitaries[k]? = some (V k).U := fun k hk => by
    rw [hun, List.getElem?_map, List.getElem?_range (by omega)]
    rfl
  refine ⟨r.unitaries, by rw [r4, hF', if_pos rfl], by rw [r1, hun, hcost]; simp, by rw [hget 0 (by omega), hV0], fun K X hX hK => ?_⟩
  have hKj : K + 1 ≤ j := by
    have := (List.getElem?_eq_some_iff.1 hX).1
    rw [hun] at this
    simp at this
    omega
  obtain ⟨a1, -, a2⟩ := adaptLayer_inv hL
  have hVW : ∀ k ≤ K + 1, InSector (pauliWord (flipAll n)) (if k = 0 then z else 1) (fun i => (V k).U i 0) ∧ (∃ L', (V k).objs = (fun _ => .adapt L') ∧ AdaptFlip gs L') ∧ W k = V k := by
    intro k
    induction k with
    | zero => intro _; exact ⟨by rw [hV0]; exact hz, ⟨L, ho0, a1, [], by simp, by simpa using a2⟩, hrun.start⟩
    | succ k ih =>
      intro hk
      obtain ⟨i, L', -, hcall, hobj⟩ := hrun.advance k (by omega)
      obtain ⟨i1, ⟨L₁, e1, i3⟩, i4⟩ := ih (by omega)
      rw [i4] at hcall hobj
      rw [e1, AnyLayer.call] at hcall
      simp only [bind, Except.bind] at hcall
      split at hcall
      · simp at hcall
      rename_i res hres
      obtain ⟨h3, h4⟩ := Prod.mk.inj (Except.ok.inj hcall)
      obtain ⟨h4, h5⟩ := Prod.mk.inj h4
      obtain ⟨j1, j2⟩ := adapt_call_flip hn hQ i3 (V := res.1) (last := res.2.1) (L' := res.2.2) i1 (hK k (by omega) _ (hget k (by omega))) hres
      refine ⟨by rw [← h3, if_neg (by omega)]; exact j2, ⟨res.2.2, ?_, j1⟩, hrun.kept k (by omega) (.inr rfl)⟩
      rw [hobj, ← h5]
      funext i'
      rw [Subsingleton.elim i' i, Function.update_self]
  have hXV : X = (V (K + 1)).U := Option.some.inj (hX.symm.trans (hget (K + 1) hKj))
  rw [hXV]
  exact (hVW (K + 1) le_rfl).1

/-! ### The adaptive script -/

theorem placed_none {a b : Letter} {i k l : ℕ} (hi : i < n) (hk : i ≠ k) (hl : i ≠ l) : placed n [a, b] [k, l] ⟨i, hi⟩ = .I := by
  have e0 : (k == i) = false := by simpa using hk.symm
  have e1 : (l == i) = false := by simpa using hl.symm
  simp [placed, List.idxOf_cons, e0, e1]

/-- The bonds of the ring. -/
def RingBond (n k l : ℕ) : Prop := l = k + 1 ∨ (k = 0 ∧ l = n - 1)

/-- The gradient of the Hamiltonian in the initial state along a word is the sum of those of the bonds. -/
theorem tfim_grad_bonds (hn : 2 ≤ n) (v : Fin n → Letter) : grad (totalObs (tfimGates n hn)) (hadamardAll n) (pauliWord v) =
    ∑ i : Fin (n - 1), grad (pauliWord (placed n [.Z, .Z] [i.val, i.val + 1])) (hadamardAll n) (pauliWord v) +
      grad (pauliWord (placed n [.Z, .Z] [0, n - 1])) (hadamardAll n) (pauliWord v) := by
  rw [totalObs, grad_sum, List.map_map, tfimGates, List.map_append, List.map_append, List.sum_append, List.sum_append, List.map_map, List.map_map, ← Fin.sum_univ_def, ← Fin.sum_univ_def]
  have e1 : ∀ i : Fin n, grad (full n (siteObs i.val i.isLt .X).ws (siteObs i.val i.isLt .X).A) (hadamardAll n) (pauliWord v) = 0 := by
    intro i
    rw [siteObs_full]
    exact grad_flip (plus_flip _ fun q => by rw [placed_one]; split <;> simp) _
  simp only [Function.comp_apply, e1, Finset.sum_const_zero, zero_add, List.map_cons, List.map_nil, List.sum_cons, List.sum_nil, add_zero, bondObs_full]
  rw [placed_swap (n - 1) 0 (by omega)]

/-- No gradient along single letters. -/
theorem tfim_grad_one (hn : 2 ≤ n) (a : Letter) {k : ℕ} (hk : k < n) : grad (totalObs (tfimGates n hn)) (hadamardAll n) (pauliWord (placed n [a] [k])) = 0 := by
  have hout : ∀ i (hi : i < n), i ≠ k → Commute (pauliWord (placed n [.X] [i])) (pauliWord (placed n [a] [k])) := by
    intro i hi h
    rw [Commute, SemiconjBy, word_site _ _ k hk, placed_one, if_neg (by simpa using h.symm)]
    cases a <;> simp [letterSign]
  have hb : ∀ i j, i < n → j < n → i ≠ j → grad (pauliWord (placed n [.Z, .Z] [i, j])) (hadamardAll n) (pauliWord (placed n [a] [k])) = 0 := by
    intro i j hi hj hij
    by_cases h : i = k
    · rw [placed_swap _ _ hij]
      exact plus_grad_bond hj hi hij.symm (hout j hj (by omega))
    · exact plus_grad_bond hi hj hij (hout i hi h)
  rw [tfim_grad_bonds hn, hb 0 (n - 1) (by omega) (by omega) (by omega), Finset.sum_eq_zero fun i _ => hb i.val (i.val + 1) (by omega) (by omega) (by omega), add_zero]

/-- The gradients along words of two letters on a bond. -/
theorem tfim_grad_two (hn : 3 ≤ n) (a b : Letter) {k l : ℕ} (hk : k < n) (hl : l < n) (hkl : RingBond n k l) :
    grad (totalObs (tfimGates n (by omega))) (hadamardAll n) (pauliWord (placed n [a, b] [k, l])) =
      grad (pauliWord (placed n [.Z, .Z] [k, l])) (hadamardAll n) (pauliWord (placed n [a, b] [k, l])) := by
  have hne : k ≠ l := by rcases hkl with h | h <;> omega
  have hout : ∀ i (hi : i < n), i ≠ k → i ≠ l → Commute (pauliWord (placed n [.X] [i])) (pauliWord (placed n [a, b] [k, l])) := by
    intro i hi h0 h1
    refine Commute.symm ?_
    rw [Commute, SemiconjBy, word_site _ _ i hi, placed_none hi h0 h1]
    simp [letterSign]
  have hb : ∀ i j, i < n → j < n → i ≠ j → (i ≠ k ∧ i ≠ l) ∨ (j ≠ k ∧ j ≠ l) →
      grad (pauliWord (placed n [.Z, .Z] [i, j])) (hadamardAll n) (pauliWord (placed n [a, b] [k, l])) = 0 := by
    intro i j hi hj hij h
    rcases h with ⟨h1, h2⟩ | ⟨h1, h2⟩
    · exact plus_grad_bond hi hj hij (hout i hi h1 h2)
    · rw [placed_swap _ _ hij]
      exact plus_grad_bond hj hi hij.symm (hout j hj h1 h2)
  rw [tfim_grad_bonds (by omega)]
  rcases hkl with rfl | ⟨rfl, rfl⟩
  · rw [hb 0 (n - 1) (by omega) (by omega) (by omega) (by omega), add_zero, Finset.sum_eq_single (⟨k, by omega⟩ : Fin (n - 1))]
    · intro i _ hi
      have : i.val ≠ k := fun h => hi (Fin.ext h)
      exact hb _ _ (by omega) (by omega) (by omega) (by omega)
    · intro h; exact absurd (Finset.mem_univ _) h
  · rw [Finset.sum_eq_zero fun i _ => hb i.val (i.val + 1) (by omega) (by omega) (by omega) (by omega), zero_add]

/-- The gradient of a bond along a word on it: 2 for `Y Z` and `Z Y`, 0 otherwise. -/
def bondGrad : Letter → Letter → ℕ
  | .Y, .Z => 2
  | .Z, .Y => 2
  | _, _ => 0

theorem grad_commuting {A U P : QMat n} (h : Commute P A) : grad A U P = 0 := by
  rw [grad, h.eq, sub_self]
  simp

theorem plus_grad_word (a b : Letter) {k l : ℕ} (hk : k < n) (hl : l < n) (hkl : k ≠ l) :
    grad (pauliWord (placed n [.Z, .Z] [k, l])) (hadamardAll n) (pauliWord (placed n [a, b] [k, l])) = bondGrad a b := by
  have hX : ∀ c d : Letter, letterSign .X c = 1 → Commute (pauliWord (placed n [.X] [k])) (pauliWord (placed n [c, d] [k, l])) := by
    intro c d h
    rw [placed_two k l hk hl hkl, Commute, SemiconjBy, ← mul_assoc, word_site _ _ k hk, smul_mul_assoc, mul_assoc, word_site _ _ l hl, mul_smul_comm, smul_smul, mul_assoc,
      placed_one, placed_one, if_pos rfl, if_neg (by simpa using hkl.symm), h]
    cases d <;> simp [letterSign]
  have hX' : ∀ c d : Letter, letterSign .X d = 1 → Commute (pauliWord (placed n [.X] [l])) (pauliWord (placed n [c, d] [k, l])) := by
    intro c d h
    rw [placed_two k l hk hl hkl, Commute, SemiconjBy, ← mul_assoc, word_site _ _ k hk, smul_mul_assoc, mul_assoc, word_site _ _ l hl, mul_smul_comm, smul_smul, mul_assoc,
      placed_one, placed_one, if_pos rfl, if_neg (by simpa using hkl), h]
    cases c <;> simp [letterSign]
  have h1 : ∀ c d : Letter, letterSign .X c = 1 → grad (pauliWord (placed n [.Z, .Z] [k, l])) (hadamardAll n) (pauliWord (placed n [c, d] [k, l])) = 0 :=
    fun c d h => plus_grad_bond hk hl hkl (hX c d h)
  have h2 : ∀ c d : Letter, letterSign .X d = 1 → grad (pauliWord (placed n [.Z, .Z] [k, l])) (hadamardAll n) (pauliWord (placed n [c, d] [k, l])) = 0 :=
    fun c d h => by
      have := plus_grad_bond hl hk hkl.symm (hX' c d h)
      rwa [placed_swap l k hkl.symm] at this
  have hYZ : grad (pauliWord (placed n [.Z, .Z] [k, l])) (hadamardAll n) (pauliWord (placed n [.Y, .Z] [k, l])) = 2 := plus_grad_self hk hl hkl
  have hZY : grad (pauliWord (placed n [.Z, .Z] [k, l])) (hadamardAll n) (pauliWord (placed n [.Z, .Y] [k, l])) = 2 := by
    have := plus_grad_self hl hk hkl.symm
    rwa [placed_swap l k hkl.symm, placed_swap l k hkl.symm] at this
  have hYY : Commute (pauliWord (placed n [.Y, .Y] [k, l])) (pauliWord (placed n [.Z, .Z] [k, l])) := by
    rw [placed_two k l hk hl hkl .Z .Z, Commute, SemiconjBy, ← mul_assoc, word_site _ _ k hk, smul_mul_assoc, mul_assoc, word_site _ _ l hl, mul_smul_comm, smul_smul, mul_assoc]
    have e0 : (k == l) = false := by simpa using hkl
    simp [placed, List.idxOf_cons, e0, letterSign]
  cases a <;> cases b <;> simp only [bondGrad, Nat.cast_zero, Nat.cast_ofNat]
  · exact h1 _ _ rfl
  · exact h1 _ _ rfl
  · exact h1 _ _ rfl
  · exact h1 _ _ rfl
  · exact h1 _ _ rfl
  · exact h1 _ _ rfl
  · exact h1 _ _ rfl
  · exact h1 _ _ rfl
  · exact h2 _ _ rfl
  · exact h2 _ _ rfl
  · exact grad_commuting hYY
  · exact hYZ
  · exact h2 _ _ rfl
  · exact h2 _ _ rfl
  · exact hZY
  · exact grad_commuting (Commute.refl _)

theorem sites_ring (hn : 2 ≤ n) {k : LayerKind} (hk : k ≠ .single) {q : List ℕ} (hq : q ∈ k.sites n) : ∃ i j, q = [i, j] ∧ i < n ∧ j < n ∧ RingBond n i j := by
  cases k with
  | single => exact absurd rfl hk
  | even =>
    obtain ⟨i, hi, rfl⟩ := List.mem_map.1 hq
    have := (List.mem_filter.1 hi).2
    simp only [decide_eq_true_eq] at this
    exact ⟨i, i + 1, rfl, by omega, by omega, .inl rfl⟩
  | odd =>
    rcases List.mem_append.1 hq with hq | hq
    · obtain ⟨i, hi, rfl⟩ := List.mem_map.1 hq
      have := (List.mem_filter.1 hi).2
      simp only [decide_eq_true_eq] at this
      exact ⟨i, i + 1, rfl, by omega, by omega, .inl rfl⟩
    · exact ⟨0, n - 1, List.mem_singleton.1 hq, by omega, by omega, .inr ⟨rfl, rfl⟩⟩

/-- The gradients of the candidate layers in the initial state: twice the number of bonds for the words `Y Z` and `Z Y`, and 0 otherwise. -/
def tfimLayerGrad (n : ℕ) (c : List Letter × LayerKind) : ℕ :=
  match c.1 with
  | [a, b] => (c.2.sites n).length * bondGrad a b
  | _ => 0

theorem tfim_layerGrad (hn : 3 ≤ n) {c : List Letter × LayerKind} (hc : GoodLayer c) :
    layerGrad (totalObs (tfimGates n (by omega))) (hadamardAll n) c.1 c.2 = tfimLayerGrad n c := by
  obtain ⟨w, k⟩ := c
  rw [GoodLayer] at hc
  by_cases hk : k = .single
  · rw [if_pos hk] at hc
    subst hk
    obtain ⟨a, rfl⟩ := List.length_eq_one_iff.1 hc
    rw [layerGrad, tfimLayerGrad]
    refine (List.sum_eq_zero fun x hx => ?_).trans (by simp)
    obtain ⟨q, hq, rfl⟩ := List.mem_map.1 hx
    obtain ⟨i, hi, rfl⟩ := List.mem_map.1 hq
    rw [tfim_grad_one (by omega) a (by simpa using hi), abs_zero]
  · rw [if_neg hk] at hc
    obtain ⟨a, b, rfl⟩ := List.length_eq_two.1 hc
    rw [layerGrad, tfimLayerGrad]
    dsimp only
    rw [show ∀ l : List (List ℕ), (∀ q ∈ l, q ∈ k.sites n) → (l.map (fun q => |grad (totalObs (tfimGates n (by omega))) (hadamardAll n) (pauliWord (placed n [a, b] q))|)).sum =
      ((l.length * bondGrad a b : ℕ) : ℝ) from ?_]
    · exact fun q hq => hq
    · intro l
      induction l with
      | nil => simp
      | cons q l ih =>
        intro hl
        obtain ⟨i, j, rfl, hi, hj, hij⟩ := sites_ring (by omega) hk (hl q (by simp))
        rw [List.map_cons, List.sum_cons, ih (fun x hx => hl x (by simp [hx])), tfim_grad_two hn a b hi hj hij, plus_grad_word a b hi hj (by rcases hij with h | h <;> omega), Nat.abs_cast,
          List.length_cons]
        push_cast
        ring

theorem even_count : ∀ m, ((List.range m).filter (fun i => i % 2 = 0)).length = (m + 1) / 2
  | 0 => rfl
  | m + 1 => by
    rw [List.range_succ, List.filter_append, List.length_append, even_count m]
    by_cases h : m % 2 = 0
    · rw [List.filter_cons_of_pos (by simpa using h)]; simp; omega
    · rw [List.filter_cons_of_neg (by simpa using h)]; simp; omega

theorem odd_count : ∀ m, ((List.range m).filter (fun i => i % 2 = 1)).length = m / 2
  | 0 => rfl
  | m + 1 => by
    rw [List.range_succ, List.filter_append, List.length_append, odd_count m]
    by_cases h : m % 2 = 1
    · rw [List.filter_cons_of_pos (by simpa using h)]; simp; omega
    · rw [List.filter_cons_of_neg (by simpa using h)]; simp; omega

theorem filter_last (r n : ℕ) : (List.range (n + 1)).filter (fun i => i % 2 = r ∧ i + 1 < n + 1) = (List.range n).filter (fun i => i % 2 = r) := by
  rw [List.range_succ, List.filter_append, List.filter_cons_of_neg (by simp), List.filter_nil, List.append_nil]
  refine List.filter_congr fun i hi => ?_
  have : i < n := by simpa using hi
  simp [this]

theorem sites_count (n : ℕ) : (LayerKind.even.sites (n + 1)).length = (n + 1) / 2 ∧ (LayerKind.odd.sites (n + 1)).length = n / 2 + 1 := by
  rw [LayerKind.sites, LayerKind.sites, List.length_append, List.length_map, List.length_map, filter_last, filter_last, even_count, odd_count]
  exact ⟨rfl, rfl⟩

/-- The kind of the first layer. -/
def firstKind (n : ℕ) : LayerKind := if n % 2 = 0 then .even else .odd

theorem tfim_first (n : ℕ) (hn : 3 ≤ n) : IsFirstMax (fun c => (tfimLayerGrad n c : ℝ)) candidateLayers ([.Y, .Z], firstKind n) := by
  obtain ⟨m, rfl⟩ : ∃ m, n = m + 1 := ⟨n - 1, by omega⟩
  obtain ⟨h1, h2⟩ := sites_count m
  rcases Nat.even_or_odd' m with ⟨k, rfl | rfl⟩
  · have e1 : (LayerKind.even.sites (2 * k + 1)).length = k := by rw [h1]; omega
    have e2 : (LayerKind.odd.sites (2 * k + 1)).length = k + 1 := by rw [h2]; omega
    rw [show firstKind (2 * k + 1) = .odd by rw [firstKind, if_neg (by omega)]]
    refine ⟨[([.X], .single), ([.Y], .single), ([.Z], .single), ([.X, .X], .even), ([.X, .X], .odd), ([.X, .Y], .even), ([.X, .Y], .odd), ([.X, .Z], .even), ([.X, .Z], .odd),
      ([.Y, .X], .even), ([.Y, .X], .odd), ([.Y, .Y], .even), ([.Y, .Y], .odd), ([.Y, .Z], .even)],
      [([.Z, .X], .even), ([.Z, .X], .odd), ([.Z, .Y], .even), ([.Z, .Y], .odd), ([.Z, .Z], .even), ([.Z, .Z], .odd)], rfl, ?_, ?_⟩
    · simp only [List.forall_mem_cons, tfimLayerGrad, e1, e2, bondGrad]
      norm_num
      positivity
    · simp only [List.forall_mem_cons, tfimLayerGrad, e1, e2, bondGrad]
      norm_num
      positivity
  · have e1 : (LayerKind.even.sites (2 * k + 1 + 1)).length = k + 1 := by rw [h1]; omega
    have e2 : (LayerKind.odd.sites (2 * k + 1 + 1)).length = k + 1 := by rw [h2]; omega
    rw [show firstKind (2 * k + 1 + 1) = .even by rw [firstKind, if_pos (by omega)]]
    refine ⟨[([.X], .single), ([.Y], .single), ([.Z], .single), ([.X, .X], .even), ([.X, .X], .odd), ([.X, .Y], .even), ([.X, .Y], .odd), ([.X, .Z], .even), ([.X, .Z], .odd),
      ([.Y, .X], .even), ([.Y, .X], .odd), ([.Y, .Y], .even), ([.Y, .Y], .odd)],
      [([.Y, .Z], .odd), ([.Z, .X], .even), ([.Z, .X], .odd), ([.Z, .Y], .even), ([.Z, .Y], .odd), ([.Z, .Z], .even), ([.Z, .Z], .odd)], rfl, ?_, ?_⟩
    · simp only [List.forall_mem_cons, tfimLayerGrad, e1, e2, bondGrad]
      norm_num
      positivity
    · simp only [List.forall_mem_cons, tfimLayerGrad, e1, e2, bondGrad]
      norm_num
      positivity

theorem isFirstMax_congr {α : Type} {f g : α → ℝ} {l : List α} {x : α} (h : ∀ y ∈ l, f y = g y) (hx : IsFirstMax f l x) : IsFirstMax g l x := by
  obtain ⟨l₁, l₂, rfl, h1, h2⟩ := hx
  refine ⟨l₁, l₂, rfl, fun y hy => ?_, fun y hy => ?_⟩
  · rw [← h y (by simp [hy]), ← h x (by simp)]; exact h1 y hy
  · rw [← h y (by simp [hy]), ← h x (by simp)]; exact h2 y hy

theorem tfim_twoLayerGradients (hn : 3 ≤ n) : TwoLayerGradients (tfimGates n (by omega)) (hadamardAll n) := by
  obtain ⟨m, rfl⟩ : ∃ m, n = m + 1 := ⟨n - 1, by omega⟩
  obtain ⟨h1, -⟩ := sites_count m
  refine ⟨([.Y, .Z], .even), by decide, ([.Z, .Y], .even), by decide, by decide, ?_, ?_⟩
  · rw [tfim_layerGrad hn (c := ([.Y, .Z], .even)) rfl]
    simp only [tfimLayerGrad, h1, bondGrad, ne_eq, Nat.cast_eq_zero]
    omega
  · rw [tfim_layerGrad hn (c := ([.Z, .Y], .even)) rfl]
    simp only [tfimLayerGrad, h1, bondGrad, ne_eq, Nat.cast_eq_zero]
    omega

/-- C115 (first layer): for the Hamiltonian of the Ising scripts on three or more qubits and their initial state, a fresh adaptive layer selects the rotations about
`Y Z`, on the bonds `(i, i+1)` with even `i` if the number of qubits is even, and on the other bonds of the ring if it is odd; whatever the inner optimizer does, the
circuit returned consists of Hadamard gates and of these rotations. -/
theorem C115_first (hn : 3 ≤ n) (la : LayerArgs) (L : AdaptLayer n) (hL : adaptLayer n (tfimObservables n) la = .ok L) :
    L.select (hadamardAll n) = .ok ("YZ", if n % 2 = 0 then .even else .odd) ∧
    ∀ (opt : VqeOptimizer) (params : List (List ℝ)) (last : List ℝ) (V : QMat n) (L' : AdaptLayer n), L.call opt params (hadamardAll n) = .ok (V, [last], L') → last.length = n →
      L'.layers = [("YZ", if n % 2 = 0 then .even else .odd)] ∧
      V = inOrder (layerRots n ([.Y, .Z], if n % 2 = 0 then .even else .odd) last) * hadamardAll n := by
  rw [tfimGates_obs (by omega)] at hL
  obtain ⟨hok, hp, hl⟩ := adaptLayer_inv hL
  obtain ⟨c, hc, hm⟩ := adapt_select (by omega) hok (hadamardAll n)
  have hall : candidateLayers.filter (fun c => some (letterStr c.1) ≠ L.previousDirection) = candidateLayers := by
    rw [hp]
    exact List.filter_eq_self.2 fun c _ => by simp
  rw [hall] at hm
  have hm' := isFirstMax_congr (fun y hy => tfim_layerGrad hn (candidate_good hy)) hm
  obtain rfl := IsFirstMax_unique hm' (tfim_first n hn)
  have hk : (letterStr [.Y, .Z], (firstKind n).toParity) = (("YZ", if n % 2 = 0 then .even else .odd) : String × Parity) := by
    rw [firstKind]
    split <;> rfl
  rw [← hk]
  refine ⟨hc, fun opt params last V L' hcall hlast => ?_⟩
  have hlay : L'.layers = [(letterStr [.Y, .Z], (firstKind n).toParity)] := by
    obtain ⟨k, hk, rfl, -⟩ := adapt_call_inv hcall
    rw [hc] at hk
    obtain rfl := Except.ok.inj hk
    simp [hl]
  refine ⟨hlay, ?_⟩
  obtain ⟨cs, c', -, h1, h2, -, h4⟩ := C40_circuit_partial (by omega) (tfimGates n (by omega)) la L L L' hL [] rfl opt params [last] (hadamardAll n) V hcall (by rw [hlay]; rfl)
    (by simpa using hlast)
  have hcs : cs = [] := by rw [hl] at h1; simpa using h1.symm
  rw [hc] at h2
  have h2' := Except.ok.inj h2
  have hw : c'.1 = [.Y, .Z] := letterStr_inj (Prod.mk.inj h2').1.symm
  have hkd : c'.2 = firstKind n := by
    have := (Prod.mk.inj h2').2
    revert this
    generalize c'.2 = a
    generalize firstKind n = b
    cases a <;> cases b <;> simp [LayerKind.toParity]
  rw [h4, hcs, List.nil_append, List.zipWith_cons_cons, List.zipWith_nil_left, List.flatten_cons, List.flatten_nil, List.append_nil]
  congr 3
  exact Prod.ext hw (by rw [hkd]; rfl)

/-- C115 (run): with three or more qubits the call of the optimizer in tfim_su4_adapt_vqe.py succeeds for all valid arguments, the first circuit reported is the
initial one, in which two layers have a gradient, and a later one prepares a state that the flip of all qubits leaves alone as long as those between have two such
layers; every qubit has then a vanishing expectation of `Z` and `Y`. -/
theorem C115_run (hn : 3 ≤ n) (E : LayerEnv n) (hs : ValidSvd E.svd) (hgd : ValidGd E.gd) (eigh : EighFn n) (rnd : ℕ → Matrix (Fin (2 ^ n)) (Fin (2 ^ n)) ℝ)
    (la : LayerArgs) (L : AdaptLayer n) (hL : adaptLayer n (tfimObservables n) la = .ok L) (args : ApproxArgs) (hp : args.perturb = .bool false)
    (hr : args.returnUnitary = .bool true) (ho : args.returnOmegas = .bool false) (hv : ∃ N e t F, ApproxValid args N e t F) :
    ∃ out l, approximateLieOptimizer E eigh rnd .state (tfimCircuit n) [] (tfimObservables n) (fun _ : Fin 1 => .adapt L) [0] args = .ok out ∧ approxUnitaries out.1 = some l ∧
      l.length = (approxCosts out.1).length ∧ l[0]? = some (hadamardAll n) ∧ TwoLayerGradients (tfimGates n (by omega)) (hadamardAll n) ∧
      ∀ (K : ℕ) (X : QMat n), l[K]? = some X → (∀ k < K, 1 ≤ k → ∀ Y, l[k]? = some Y → TwoLayerGradients (tfimGates n (by omega)) Y) →
        InSector (pauliWord (flipAll n)) 1 (fun i => X i 0) ∧
        ∀ (q : Fin n), ∀ a ∈ [Letter.Z, .Y], star (fun i => X i 0) ⬝ᵥ pauliWord (placed n [a] [q.val]) *ᵥ (fun i => X i 0) = 0 := by
  have h2 : 2 ≤ n := by omega
  have hL' := hL
  rw [tfimGates_obs h2] at hL'
  obtain ⟨out, hout⟩ := (C79_runs_succeed h2 E hs hgd eigh rnd .state (tfimOps n) [] (tfimGates n h2) (fun _ : Fin 1 => .adapt L) [0] args (by simp)
    (fun _ => .inr ⟨_, la, L, hL', rfl⟩) (by simp) ho).2 ⟨rfl, hv⟩
  rw [← tfimOps_eq] at hout
  have hplus : InSector (pauliWord (flipAll n)) 1 (fun i => hadamardAll n i 0) := plus_flip _ fun q => .inl rfl
  obtain ⟨l, h1, h3, h4, h5⟩ := C114_run h2 E eigh rnd .state (tfimCircuit n) [] (tfimGates n h2) la L hL' args out hp hr (hadamardAll n) (tfim_compile n) 1
    (tfim_symmetry h2) hplus hout
  rw [← tfimGates_obs] at hout
  refine ⟨out, l, hout, h1, h3, h4, tfim_twoLayerGradients hn, fun K X hX hK => ?_⟩
  have hS : InSector (pauliWord (flipAll n)) 1 (fun i => X i 0) := by
    cases K with
    | zero =>
      rw [← Option.some.inj (h4.symm.trans hX)]
      exact hplus
    | succ K =>
      refine h5 K X hX fun k hk Y hY => ?_
      rcases Nat.eq_zero_or_pos k with rfl | hk0
      · rw [← Option.some.inj (h4.symm.trans hY)]
        exact tfim_twoLayerGradients hn
      · exact hK k (by omega) hk0 Y hY
  refine ⟨hS, fun q a ha => ?_⟩
  rw [InSector, one_smul] at hS
  refine expect_flip (pauliWord_herm _) hS ?_
  rw [word_site _ _ q.val q.isLt]
  simp only [List.mem_cons, List.not_mem_nil, or_false] at ha
  rcases ha with rfl | rfl <;> simp [flipAll, letterSign]

/-! ### Examples -/

theorem tfim_adapt (n : ℕ) (hn : 2 ≤ n) : ∃ L, adaptLayer n (tfimObservables n) {} = .ok L := by
  obtain ⟨a, ha, -⟩ := algebraSU4_getAll n
  rw [tfimGates_obs hn, adaptLayer, promoteAll_gates, ha]
  simp only [bind, Except.bind]
  rw [show validateEta (Option.getD ({} : LayerArgs).eta (.float 0.1)) = .ok 0.1 from defaultEta_ok']
  exact ⟨_, rfl⟩

/-- The hypotheses of C114 and C115 are met by the script's layer on four qubits and its initial circuit. -/
example : ∃ L, adaptLayer 4 (tfimObservables 4) {} = .ok L ∧ (∀ g ∈ tfimGates 4 (by omega), Commute (pauliWord (flipAll 4)) (full 4 g.ws g.A)) ∧
    InSector (pauliWord (flipAll 4)) 1 (fun i => hadamardAll 4 i 0) ∧ TwoLayerGradients (tfimGates 4 (by omega)) (hadamardAll 4) ∧ L.select (hadamardAll 4) = .ok ("YZ", .even) := by
  obtain ⟨L, hL⟩ := tfim_adapt 4 (by omega)
  exact ⟨L, hL, tfim_symmetry _, plus_flip _ fun q => .inl rfl, tfim_twoLayerGradients (by omega), (C115_first (by omega) {} L hL).1⟩

/-- The arguments of the script are valid. -/
example : ∃ N e t F, ApproxValid { nsteps := .int 15, eta := .float 1.0, returnUnitary := .bool true, escapeTol := .float 1e-5 } N e t F :=
  ⟨15, 1, some (.fin 1e-3), ⟨false, false, true, false, false, false, false⟩, by constructor <;> first | rfl | exact ⟨rfl, by norm_num⟩ | norm_num⟩

end Oranssi
