import Verif.Lemmas.LieLayers

/-! # Properties C28-C34: layers built from matrix exponentials -/

namespace Oranssi
open Spec
open scoped Matrix

/-! ### Facts about constructed layers -/

theorem local_groups {n k : ℕ} {D : Option (List String)} {t : Bool} (hne : D ≠ some [] ∨ t = true)
    (hD : ∀ D', D = some D' → ∀ d ∈ D', d ∈ (wordsXYZ k).map letterStr) :
    ∀ g ∈ (combinations (List.range n) k).map (fun q => (keptWords k D).map (fun w => pauliWord (placed n w q))),
      (∀ p ∈ g, pᴴ = p) ∧ (g ≠ [] ∨ t = true) := by
  intro g hg
  obtain ⟨q, -, rfl⟩ := List.mem_map.1 hg
  refine ⟨?_, ?_⟩
  · intro p hp
    obtain ⟨w, -, rfl⟩ := List.mem_map.1 hp
    exact pauliWord_herm _
  · rcases hne with hne | rfl
    · left
      rw [ne_eq, List.map_eq_nil_iff, keptWords]
      cases D with
      | none =>
        intro hc
        have := congrArg List.length hc
        simp [wordsXYZ_length] at this
      | some D =>
        cases D with
        | nil => exact absurd rfl hne
        | cons d D =>
          intro hc
          obtain ⟨w, hw, rfl⟩ := List.mem_map.1 (hD _ rfl d List.mem_cons_self)
          have : w ∈ (wordsXYZ k).filter (fun w => decide (letterStr w ∈ letterStr w :: D)) := by
            rw [List.mem_filter]; simp [hw]
          have h2 := List.filter_eq_nil_iff.1 hc w hw
          simp at h2
    · exact Or.inr rfl

theorem gates_herm {n : ℕ} {gs : List (Gate n)} (h : ∀ g ∈ gs, g.Aᴴ = g.A) : ∀ o ∈ gs.map (fun g => full n g.ws g.A), oᴴ = o := by
  intro o ho
  obtain ⟨g, hg, rfl⟩ := List.mem_map.1 ho
  rw [← full_conjTranspose rfl g.valid.2, h g hg]

/-- All factors a `LocalLieAlgebraLayer` multiplies onto the circuit, in the order of application. -/
theorem localLayer_call {n : ℕ} {gs : List (Gate n)} (hH : ∀ g ∈ gs, g.Aᴴ = g.A) {locality : ℤ} {args : LayerArgs} {stride : Option ℤ}
    {D : Option (List String)} {L : LocalLayer n} (hL : localLayer n (gs.map Gate.obs) locality args stride D = .ok L)
    {svd : SvdFn n} (hs : ValidSvd svd) (e : ℝ) (U : QMat n) (hne : D ≠ some [] ∨ L.trotterize = true) :
    (∀ g ∈ L.fullPaulis, ∀ p ∈ g, pᴴ = p) ∧ (∀ o ∈ L.observables, oᴴ = o) ∧
    (L.setEta e).call svd U = .ok ((L.observables.flatMap (fun o => L.fullPaulis.flatMap
      (groupFactors e L.trotterize (stateFromUnitary U) o))).foldl (fun U F => F * U) U) := by
  have hok := localLayer_inv gs hL
  obtain ⟨k, e0, b, t, hk, rfl, he, hb, ht, hL'⟩ := localLayer_ok gs hok
  rw [hL'] at hL
  have hLe := Except.ok.inj hL
  subst hLe
  have hg := local_groups (n := n) hne (by simpa using hok.dirs)
  exact ⟨fun g hg' => (hg g hg').1, gates_herm hH, obsLoop_eq hs e b t (stateFromUnitary U) hg _ (gates_herm hH) U⟩

/-- C28 (Local): a call on a unitary circuit matrix returns a unitary matrix, whatever the options and the step size (also one set
later with `set_eta`). -/
theorem C28_local {n : ℕ} (gs : List (Gate n)) (hH : ∀ g ∈ gs, g.Aᴴ = g.A) (locality : ℤ) (args : LayerArgs) (stride : Option ℤ)
    (D : Option (List String)) (L : LocalLayer n) (hL : localLayer n (gs.map Gate.obs) locality args stride D = .ok L)
    (svd : SvdFn n) (hs : ValidSvd svd) (eta : ℝ) (U : QMat n) (hU : Unitary U) :
    (∀ V, (L.setEta eta).call svd U = .ok V → Unitary V) ∧
    ((D ≠ some [] ∨ L.trotterize = true) → ∃ V, (L.setEta eta).call svd U = .ok V) := by
  by_cases hne : D ≠ some [] ∨ L.trotterize = true
  · obtain ⟨h1, h2, h3⟩ := localLayer_call hH hL hs eta U hne
    refine ⟨?_, fun _ => ⟨_, h3⟩⟩
    intro V hV
    rw [h3] at hV
    rw [← Except.ok.inj hV]
    exact foldl_unitary (obsFactors_unitary eta L.trotterize _ h1 h2) hU
  · refine ⟨?_, fun h => absurd h hne⟩
    intro V hV
    push Not at hne
    obtain ⟨rfl, ht⟩ := hne
    have hok := localLayer_inv gs hL
    obtain ⟨k, e0, b, t, hk, rfl, he, hb, ht', hL'⟩ := localLayer_ok gs hok
    rw [hL'] at hL
    have hLe := Except.ok.inj hL
    subst hLe
    simp only [ne_eq, Bool.not_eq_true] at ht
    subst ht
    -- every group is empty: the call raises or there is nothing to do
    have hgr : ∀ (gl : List (List (QMat n))), (∀ g ∈ gl, g = []) → ∀ o W V', groupsLoop svd eta b false (stateFromUnitary U) o gl W = .ok V' → V' = W := by
      intro gl hgl o W V' h
      cases gl with
      | nil => exact (Except.ok.inj h).symm
      | cons g gl =>
        rw [hgl g List.mem_cons_self] at h
        simp [groupsLoop, groupStep, bind, Except.bind] at h
    have hempty : ∀ g ∈ (combinations (List.range n) k).map (fun q => (keptWords k (some [])).map (fun w => pauliWord (placed n w q))), g = [] := by
      intro g hg
      obtain ⟨q, -, rfl⟩ := List.mem_map.1 hg
      simp [keptWords]
    have hob : ∀ (os : List (QMat n)) W V', obsLoop svd eta b false (stateFromUnitary U)
        ((combinations (List.range n) k).map (fun q => (keptWords k (some [])).map (fun w => pauliWord (placed n w q)))) os W = .ok V' → V' = W := by
      intro os
      induction os with
      | nil => intro W V' h; exact (Except.ok.inj h).symm
      | cons o os ih =>
        intro W V' h
        rw [obsLoop] at h
        cases hg : groupsLoop svd eta b false (stateFromUnitary U) o
          ((combinations (List.range n) k).map (fun q => (keptWords k (some [])).map (fun w => pauliWord (placed n w q)))) W with
        | error x => rw [hg] at h; simp [bind, Except.bind] at h
        | ok W' =>
          rw [hg] at h
          simp only [bind, Except.bind] at h
          rw [ih W' V' h, hgr _ hempty o W W' hg]
    have := hob _ U V hV
    rw [this]; exact hU

/-! ### The custom layer -/

/-- The entries a `CustomDirectionLieAlgebraLayer` keeps. -/
noncomputable def customKept (n : ℕ) (D : List String) : List (Key × QMat n) :=
  (stdDict n (allWords [1, 2])).filter (fun e => decide (e.1.1 ∈ D))

theorem customKept_herm {n : ℕ} {D : List String} : ∀ p ∈ (customKept n D).map Prod.snd, pᴴ = p := by
  intro p hp
  obtain ⟨e, he, rfl⟩ := List.mem_map.1 hp
  obtain ⟨w, -, q, -, rfl⟩ := mem_stdDict.1 (List.mem_filter.1 he).1
  exact pauliWord_herm _

theorem customKept_nodup (n : ℕ) (D : List String) : ((customKept n D).map Prod.fst).Nodup :=
  (stdDict_nodup (allWords_nodup (by simp))).sublist (List.filter_sublist.map _)

theorem algebraSU4_getAll (n : ℕ) : ∃ a, (algebraSU4 n true).getAll = .ok a ∧ a.fullPaulis = stdDict n (allWords [1, 2]) ∧
    a.directions = (allWords [1, 2]).map letterStr ∧ a.paulis = tableOf (allWords [1, 2]) := by
  obtain ⟨h1, h2, h3, h4⟩ := algebraSU4_attrs n true
  have hl : ∀ w ∈ allWords [1, 2], w.length = 1 ∨ w.length = 2 := fun w hw => by
    have := (mem_allWords.1 hw).1; simpa using this
  exact ⟨_, getAll_std (allWords_nodup (by simp)) hl _ h1 h2 h3 [] (Or.inl rfl) h4, rfl, h1, h2⟩

theorem customMatrices_matrix {n : ℕ} : ∀ (es : List (Key × QMat n)),
    customMatrices (es.map (fun e => (e.1, CustomVal.matrix e.2))) = .ok (es.map Prod.snd) := by
  intro es
  induction es with
  | nil => rfl
  | cons e es ih => rw [List.map_cons, customMatrices, ih]; rfl

theorem dictZip_map {n : ℕ} {α : Type} (es : List (Key × QMat n)) (h : (es.map Prod.fst).Nodup) (f : Key × QMat n → α) :
    dictZip (es.map Prod.fst) (es.map f) = es.map (fun e => (e.1, f e)) := by
  have h2 := dictZip_eq (es.map (fun e => (e.1, f e))) (by simpa [List.map_map, Function.comp_def] using h)
  simpa [List.map_map, Function.comp_def] using h2

/-- What a constructed custom layer looks like. -/
theorem customLayer_some {n : ℕ} {gs : List (Gate n)} {D : List String} {args : LayerArgs} {L : CustomLayer n}
    (h : customLayer n (gs.map Gate.obs) (some D) args = .ok L) : (∀ d ∈ D, d ∈ (allWords [1, 2]).map letterStr) ∧
    customMatrices L.fullPaulis = .ok ((customKept n D).map Prod.snd) ∧ L.observables = gs.map (fun g => full n g.ws g.A) ∧
    L.directions = (customKept n D).map Prod.fst := by
  obtain ⟨a, ha, hf, hd, -⟩ := algebraSU4_getAll n
  rw [customLayer, promoteAll_gates, ha] at h
  simp only [bind, Except.bind] at h
  cases he : validateEta (args.eta.getD (.float 0.1)) with
  | error x => rw [he] at h; simp at h
  | ok e =>
    rw [he] at h
    simp only [pyAssert, hd, hf] at h
    by_cases hD : ∀ d ∈ D, d ∈ (allWords [1, 2]).map letterStr
    · rw [if_pos hD] at h
      simp only at h
      cases hb : validateBool (args.unitaryErrorCheck.getD (.bool false)) with
      | error x => rw [hb] at h; simp at h
      | ok b =>
        rw [hb] at h
        simp only at h
        cases ht : validateBool (args.trotterize.getD (.bool false)) with
        | error x => rw [ht] at h; simp at h
        | ok t =>
          rw [ht] at h
          have := Except.ok.inj h
          subst this
          refine ⟨hD, ?_, rfl, rfl⟩
          have e2 := dictZip_map (customKept n D) (customKept_nodup n D) (fun e => CustomVal.matrix e.2)
          show customMatrices (dictZip ((customKept n D).map Prod.fst) ((customKept n D).map (fun e => CustomVal.matrix e.2))) = _
          rw [e2, customMatrices_matrix]
    · rw [if_neg hD] at h; simp at h

theorem customObsLoop_eq {n : ℕ} {svd : SvdFn n} (L : CustomLayer n) (phi : Ket n) {ms : List (QMat n)}
    (hm : customMatrices L.fullPaulis = .ok ms) : ∀ (os : List (QMat n)) (U : QMat n),
    customObsLoop svd L phi os U = obsLoop svd L.eta L.check L.trotterize phi [ms] os U := by
  intro os
  induction os with
  | nil => intro U; rfl
  | cons o os ih =>
    intro U
    rw [customObsLoop, obsLoop, hm]
    simp only [bind, Except.bind, groupsLoop]
    cases groupStep svd L.eta L.check L.trotterize phi o ms U with
    | error x => rfl
    | ok V => exact ih V

theorem customKept_ne {n : ℕ} {D : List String} (hD : ∀ d ∈ D, d ∈ (allWords [1, 2]).map letterStr)
    (hne : ∃ d ∈ D, d.toList.length ≤ n) : (customKept n D).map Prod.snd ≠ [] := by
  obtain ⟨d, hd, hdn⟩ := hne
  obtain ⟨w, hw, rfl⟩ := List.mem_map.1 (hD d hd)
  obtain ⟨h1, h2⟩ := mem_allWords.1 hw
  rw [letterStr_length] at hdn
  have hq : List.range w.length ∈ combinations (List.range n) w.length := by
    rw [mem_combinations_range]
    refine ⟨List.length_range, List.pairwise_lt_range, ?_⟩
    intro x hx
    rw [List.mem_range] at hx
    omega
  have hm : ((letterStr w, List.range w.length), pauliWord (placed n w (List.range w.length))) ∈ customKept n D := by
    rw [customKept, List.mem_filter]
    exact ⟨mem_stdDict.2 ⟨w, hw, _, hq, rfl⟩, by simpa using hd⟩
  intro hc
  rw [List.map_eq_nil_iff] at hc
  rw [hc] at hm
  simp at hm

/-- `set_eta` of the custom layer, opt_tools.py:79-87. -/
def CustomLayer.setEta {n : ℕ} (L : CustomLayer n) (eta : ℝ) : CustomLayer n := { L with eta := eta }

/-- All factors a custom layer multiplies onto the circuit. -/
theorem customLayer_call {n : ℕ} {gs : List (Gate n)} (hH : ∀ g ∈ gs, g.Aᴴ = g.A) {D : List String} {args : LayerArgs} {L : CustomLayer n}
    (hL : customLayer n (gs.map Gate.obs) (some D) args = .ok L) {svd : SvdFn n} (hs : ValidSvd svd) (e : ℝ) (U : QMat n)
    (hne : (∃ d ∈ D, d.toList.length ≤ n) ∨ L.trotterize = true) :
    (L.setEta e).call svd U = .ok (((gs.map (fun g => full n g.ws g.A)).flatMap (fun o =>
      groupFactors e L.trotterize (stateFromUnitary U) o ((customKept n D).map Prod.snd))).foldl (fun U F => F * U) U) := by
  obtain ⟨h1, h2, h3, -⟩ := customLayer_some hL
  rw [CustomLayer.call, customObsLoop_eq (L.setEta e) _ h2]
  have hg : ∀ g ∈ [(customKept n D).map Prod.snd], (∀ p ∈ g, pᴴ = p) ∧ (g ≠ [] ∨ L.trotterize = true) := by
    intro g hg
    rw [List.mem_singleton] at hg
    subst hg
    refine ⟨customKept_herm, ?_⟩
    rcases hne with hD | ht
    · exact Or.inl (customKept_ne h1 hD)
    · exact Or.inr ht
  have hob : (L.setEta e).observables = gs.map (fun g => full n g.ws g.A) := h3
  rw [hob]
  have := obsLoop_eq hs e L.check L.trotterize (stateFromUnitary U) hg _ (gates_herm hH) U
  simp only [List.flatMap_cons, List.flatMap_nil, List.append_nil] at this
  exact this

/-- C28 (Custom): same for the layer with explicit directions.  (On one qubit a two-qubit direction has no operator, and a
layer without any operator raises unless trotterized.) -/
theorem C28_custom {n : ℕ} (gs : List (Gate n)) (hH : ∀ g ∈ gs, g.Aᴴ = g.A) (D : List String) (args : LayerArgs)
    (L : CustomLayer n) (hL : customLayer n (gs.map Gate.obs) (some D) args = .ok L)
    (svd : SvdFn n) (hs : ValidSvd svd) (eta : ℝ) (U : QMat n) (hU : Unitary U) :
    (∀ V, (L.setEta eta).call svd U = .ok V → Unitary V) ∧
    ((∃ d ∈ D, d.toList.length ≤ n) ∨ L.trotterize = true → ∃ V, (L.setEta eta).call svd U = .ok V) := by
  refine ⟨?_, fun h => ⟨_, customLayer_call hH hL hs eta U h⟩⟩
  intro V hV
  obtain ⟨h1, h2, h3, -⟩ := customLayer_some hL
  rw [CustomLayer.call, customObsLoop_eq (L.setEta eta) _ h2] at hV
  by_cases hne : (customKept n D).map Prod.snd ≠ [] ∨ L.trotterize = true
  · have hg : ∀ g ∈ [(customKept n D).map Prod.snd], (∀ p ∈ g, pᴴ = p) ∧ (g ≠ [] ∨ L.trotterize = true) := by
      intro g hg
      rw [List.mem_singleton] at hg
      subst hg
      exact ⟨customKept_herm, hne⟩
    have hob : (L.setEta eta).observables = gs.map (fun g => full n g.ws g.A) := h3
    rw [hob] at hV
    have := obsLoop_eq hs eta L.check L.trotterize (stateFromUnitary U) hg _ (gates_herm hH) U
    have e : (L.setEta eta).eta = eta ∧ (L.setEta eta).check = L.check ∧ (L.setEta eta).trotterize = L.trotterize := ⟨rfl, rfl, rfl⟩
    rw [e.1, e.2.1, e.2.2, this] at hV
    rw [← Except.ok.inj hV]
    exact foldl_unitary (obsFactors_unitary eta L.trotterize _ (fun g hg' => (hg g hg').1) (gates_herm hH)) hU
  · push Not at hne
    obtain ⟨he, ht⟩ := hne
    have ht' : (L.setEta eta).trotterize = false := by show L.trotterize = false; simpa using ht
    rw [he, ht'] at hV
    cases ho : (L.setEta eta).observables with
    | nil => rw [ho] at hV; rw [← Except.ok.inj hV]; exact hU
    | cons o os => rw [ho] at hV; simp [obsLoop, groupsLoop, groupStep, bind, Except.bind] at hV

/-! ### C29 -/

/-- C29 (Local): the circuit is returned unchanged when the step is zero, and when its state is an eigenvector of every observable. -/
theorem C29_local {n : ℕ} (gs : List (Gate n)) (hH : ∀ g ∈ gs, g.Aᴴ = g.A) (locality : ℤ) (args : LayerArgs) (stride : Option ℤ)
    (D : Option (List String)) (L : LocalLayer n) (hL : localLayer n (gs.map Gate.obs) locality args stride D = .ok L)
    (hne : D ≠ some [] ∨ L.trotterize = true) (svd : SvdFn n) (hs : ValidSvd svd) (eta : ℝ) (U : QMat n)
    (h : eta = 0 ∨ ∀ g ∈ gs, ∃ c : ℂ, full n g.ws g.A *ᵥ (fun i => U i 0) = c • (fun i => U i 0)) :
    (L.setEta eta).call svd U = .ok U := by
  obtain ⟨h1, h2, h3⟩ := localLayer_call hH hL hs eta U hne
  rw [h3, foldl_one]
  intro F hF
  obtain ⟨o, ho, hF⟩ := List.mem_flatMap.1 hF
  obtain ⟨g, hg, hF⟩ := List.mem_flatMap.1 hF
  refine groupFactors_one L.trotterize ?_ F hF
  rcases h with h | h
  · exact Or.inl h
  · right
    intro p hp
    have hok := localLayer_inv gs hL
    obtain ⟨k, e0, b, t, hk, rfl, he, hb, ht, hL'⟩ := localLayer_ok gs hok
    rw [hL'] at hL
    have hLe := Except.ok.inj hL
    subst hLe
    obtain ⟨g0, hg0, rfl⟩ := List.mem_map.1 ho
    obtain ⟨c, hc⟩ := h g0 hg0
    exact omegaC_eigen (h1 g hg p hp) (h2 _ ho) hc

/-- C29 (Custom). -/
theorem C29_custom {n : ℕ} (gs : List (Gate n)) (hH : ∀ g ∈ gs, g.Aᴴ = g.A) (D : List String) (args : LayerArgs)
    (L : CustomLayer n) (hL : customLayer n (gs.map Gate.obs) (some D) args = .ok L) (hne : (∃ d ∈ D, d.toList.length ≤ n) ∨ L.trotterize = true)
    (svd : SvdFn n) (hs : ValidSvd svd) (eta : ℝ) (U : QMat n)
    (h : eta = 0 ∨ ∀ g ∈ gs, ∃ c : ℂ, full n g.ws g.A *ᵥ (fun i => U i 0) = c • (fun i => U i 0)) :
    (L.setEta eta).call svd U = .ok U := by
  rw [customLayer_call hH hL hs eta U hne, foldl_one]
  intro F hF
  obtain ⟨o, ho, hF⟩ := List.mem_flatMap.1 hF
  refine groupFactors_one L.trotterize ?_ F hF
  rcases h with h | h
  · exact Or.inl h
  · right
    intro p hp
    have hoh := gates_herm hH o ho
    obtain ⟨g0, hg0, rfl⟩ := List.mem_map.1 ho
    obtain ⟨c, hc⟩ := h g0 hg0
    exact omegaC_eigen (customKept_herm p hp) hoh hc

end Oranssi
