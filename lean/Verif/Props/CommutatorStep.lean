import Verif.Lemmas.Parts
import Verif.Props.ApproxTrace
import Verif.Props.ExactTrace

/-! # C75: the local and custom layers step along the commutator -/

namespace Oranssi
open Spec
open scoped Matrix

theorem omegaC_trace {n : ℕ} (U P O : QMat n) : omegaC (stateFromUnitary U) P O = -(P * riemannGen O U).trace := by
  rw [riemannGen, omegaC, ← density_eq]
  have h : ∀ M : QMat n, star (stateFromUnitary U) ⬝ᵥ (M *ᵥ stateFromUnitary U) = (M * Matrix.vecMulVec (stateFromUnitary U) (star (stateFromUnitary U))).trace := by
    intro M
    rw [Matrix.mul_vecMulVec, Matrix.trace_vecMulVec, dotProduct_comm]
  rw [h, mul_sub, Matrix.trace_sub, neg_sub, sub_mul, Matrix.trace_sub, ← mul_assoc P O, ← mul_assoc P _ O, Matrix.trace_mul_comm (P * _) O, ← mul_assoc O P]

theorem omegaC_component {n : ℕ} (e : ℝ) (U O : QMat n) (v : Fin n → Letter) :
    (-(e / 2 ^ n : ℝ) : ℂ) • (omegaC (stateFromUnitary U) (pauliWord v) O • pauliWord v) = ((e : ℂ) * component (riemannGen O U) v) • pauliWord v := by
  rw [omegaC_trace, component, smul_smul]
  congr 1
  push_cast
  ring

/-- One group without trotterization. -/
theorem groupFactors_sum {n : ℕ} (e : ℝ) (U O : QMat n) (vs : List (Fin n → Letter)) :
    groupFactors e false (stateFromUnitary U) O (vs.map pauliWord) =
      [NormedSpace.exp ((e : ℂ) • (vs.map (fun v => component (riemannGen O U) v • pauliWord v)).sum)] := by
  rw [groupFactors, if_neg (by simp), List.map_map, List.smul_sum, List.smul_sum, List.map_map, List.map_map]
  congr 3
  refine List.map_congr_left fun v _ => ?_
  simp only [Function.comp_apply]
  rw [omegaC_component, smul_smul]

/-- One group with trotterization. -/
theorem groupFactors_trotter {n : ℕ} (e : ℝ) (U O : QMat n) (vs : List (Fin n → Letter)) :
    groupFactors e true (stateFromUnitary U) O (vs.map pauliWord) =
      vs.map (fun v => NormedSpace.exp (((e : ℂ) * component (riemannGen O U) v) • pauliWord v)) := by
  rw [groupFactors, if_pos rfl, List.map_map]
  refine List.map_congr_left fun v _ => ?_
  simp only [Function.comp_apply]
  rw [omegaC_component]

/-! ### The words of the layers -/

/-- The words kept by the custom layer. -/
noncomputable def customWords (n : ℕ) (D : List String) : List (Fin n → Letter) :=
  ((allWords [1, 2]).filter (fun w => decide (letterStr w ∈ D))).flatMap (fun w => (combinations (List.range n) w.length).map (placed n w))

theorem filter_flatMap_const {α β : Type*} (p : β → Bool) (q : α → Bool) (f : α → List β) : ∀ l : List α, (∀ a ∈ l, ∀ b ∈ f a, p b = q a) →
    (l.flatMap f).filter p = (l.filter q).flatMap f
  | [], _ => rfl
  | a :: l, h => by
    rw [List.flatMap_cons, List.filter_append, filter_flatMap_const p q f l (fun a' ha' => h a' (List.mem_cons_of_mem _ ha')), List.filter_cons]
    have h1 := h a List.mem_cons_self
    cases hq : q a with
    | true =>
      rw [if_pos rfl, List.flatMap_cons, List.filter_eq_self.2 (fun b hb => (h1 b hb).trans hq)]
    | false =>
      rw [if_neg (by simp), List.filter_eq_nil_iff.2 (fun b hb => by rw [h1 b hb, hq]; simp), List.nil_append]

theorem customKept_eq (n : ℕ) (D : List String) :
    customKept n D = (customWords n D).map (fun v => ((letterStr (lettersIn v), (actsOn v).map Fin.val), pauliWord v)) := by
  rw [customKept, stdDict, filter_flatMap_const _ (fun w => decide (letterStr w ∈ D)), customWords, List.map_flatMap]
  · refine List.flatMap_congr ?_
    intro w hw
    obtain ⟨h1, h2⟩ := mem_allWords.1 (List.mem_filter.1 hw).1
    rw [List.map_map]
    refine List.map_congr_left fun q hq => ?_
    obtain ⟨h3, h4, h5⟩ := mem_combinations_range.1 hq
    simp only [Function.comp_apply]
    rw [lettersIn_placed h3 h2 h4 h5, actsOn_placed h3 h2 h4 h5]
  · intro w _ b hb
    obtain ⟨q, -, rfl⟩ := List.mem_map.1 hb
    rfl

theorem customWords_nodup (n : ℕ) (D : List String) : (customWords n D).Nodup := by
  have h := customKept_nodup n D
  rw [customKept_eq, List.map_map] at h
  exact List.Nodup.of_map _ h

theorem mem_customWords {n : ℕ} {D : List String} (hD : ∀ d ∈ D, d ∈ (allWords [1, 2]).map letterStr) {v : Fin n → Letter} :
    v ∈ customWords n D ↔ letterStr (lettersIn v) ∈ D := by
  rw [customWords, List.mem_flatMap]
  constructor
  · rintro ⟨w, hw, hv⟩
    obtain ⟨hw, hwD⟩ := List.mem_filter.1 hw
    obtain ⟨q, hq, rfl⟩ := List.mem_map.1 hv
    obtain ⟨h3, h4, h5⟩ := mem_combinations_range.1 hq
    rw [lettersIn_placed h3 (mem_allWords.1 hw).2 h4 h5]
    simpa using hwD
  · intro h
    obtain ⟨w, hw, he⟩ := List.mem_map.1 (hD _ h)
    have hwv : w = lettersIn v := letterStr_injective he
    refine ⟨w, List.mem_filter.2 ⟨hw, by rw [hwv]; simpa using h⟩, List.mem_map.2 ⟨(actsOn v).map Fin.val, ?_, ?_⟩⟩
    · rw [mem_combinations_range, hwv]
      refine ⟨by simp [lettersIn], ?_, ?_⟩
      · rw [List.pairwise_map]; exact actsOn_sorted v
      · intro x hx
        obtain ⟨i, -, rfl⟩ := List.mem_map.1 hx
        exact i.isLt
    · rw [hwv, placed_letters]

/-! ### C75 -/

/-- C75 (custom layer, not trotterized).  For every observable `O` the circuit is multiplied by `exp(eta·K)`, where `K` consists of those components of
`[ρ, O]` (at the circuit `U` of the call) whose letters are among the directions. -/
theorem C75_custom {n : ℕ} (gs : List (Gate n)) (hH : ∀ g ∈ gs, g.Aᴴ = g.A) (D : List String) (args : LayerArgs) (L : CustomLayer n)
    (hL : customLayer n (gs.map Gate.obs) (some D) args = .ok L) (ht : L.trotterize = false) (hD : ∃ d ∈ D, d.toList.length ≤ n)
    (svd : SvdFn n) (hs : ValidSvd svd) (eta : ℝ) (U : QMat n) :
    ∃ K : Gate n → QMat n, (∀ g ∈ gs, IsPart (fun v => letterStr (lettersIn v) ∈ D) (riemannGen (full n g.ws g.A) U) (K g)) ∧
      (L.setEta eta).call svd U = .ok ((gs.map (fun g => NormedSpace.exp ((eta : ℂ) • K g))).foldl (fun V F => F * V) U) := by
  have h1 := (customLayer_some hL).1
  refine ⟨fun g => ((customWords n D).map (fun v => component (riemannGen (full n g.ws g.A) U) v • pauliWord v)).sum, ?_, ?_⟩
  · intro g _
    have h := isPart_sum (riemannGen (full n g.ws g.A) U) _ (customWords_nodup n D)
    simpa only [mem_customWords h1] using h
  · rw [customLayer_call hH hL hs eta U (.inl hD), ht, customKept_eq, List.map_map]
    have e1 : (Prod.snd ∘ fun v : Fin n → Letter => ((letterStr (lettersIn v), (actsOn v).map Fin.val), pauliWord v)) = pauliWord := rfl
    rw [e1]
    congr 2
    rw [List.flatMap_map]
    simp only [groupFactors_sum]
    exact List.map_eq_flatMap.symm

/-- C75 (custom layer, trotterized).  For every observable `O` and every word with letters among the directions (in a fixed order) the circuit is multiplied by the
exponential of that component of `[ρ, O]` alone; `ρ` is the state of the circuit `U` of the call throughout. -/
theorem C75_custom_trotter {n : ℕ} (gs : List (Gate n)) (hH : ∀ g ∈ gs, g.Aᴴ = g.A) (D : List String) (args : LayerArgs) (L : CustomLayer n)
    (hL : customLayer n (gs.map Gate.obs) (some D) args = .ok L) (ht : L.trotterize = true) :
    ∃ vs : List (Fin n → Letter), vs.Nodup ∧ (∀ v, v ∈ vs ↔ letterStr (lettersIn v) ∈ D) ∧
      ∀ (svd : SvdFn n), ValidSvd svd → ∀ (eta : ℝ) (U : QMat n), (L.setEta eta).call svd U = .ok ((gs.flatMap (fun g => vs.map (fun v =>
        NormedSpace.exp (((eta : ℂ) * component (riemannGen (full n g.ws g.A) U) v) • pauliWord v)))).foldl (fun V F => F * V) U) := by
  have h1 := (customLayer_some hL).1
  refine ⟨customWords n D, customWords_nodup n D, fun v => mem_customWords h1, ?_⟩
  intro svd hs eta U
  rw [customLayer_call hH hL hs eta U (.inr ht), ht, customKept_eq, List.map_map]
  have e1 : (Prod.snd ∘ fun v : Fin n → Letter => ((letterStr (lettersIn v), (actsOn v).map Fin.val), pauliWord v)) = pauliWord := rfl
  rw [e1, List.flatMap_map]
  simp only [groupFactors_trotter]

/-- The words on exactly the qubits `q` with letters from `ws`. -/
theorem wordsOn_part {n k : ℕ} (M : QMat n) (D : Option (List String)) {q : List ℕ} (hq : q ∈ combinations (List.range n) k) :
    ((keptWords k D).map (placed n · q)).Nodup ∧
    ∀ v, v ∈ (keptWords k D).map (placed n · q) ↔ (actsOn v).map Fin.val = q ∧ ∀ D', D = some D' → letterStr (lettersIn v) ∈ D' := by
  obtain ⟨h3, h4, h5⟩ := mem_combinations_range.1 hq
  have hk : ∀ w ∈ keptWords k D, q.length = w.length ∧ ∀ a ∈ w, a ≠ .I := by
    intro w hw
    obtain ⟨h1, h2⟩ := mem_wordsXYZ.1 (List.mem_filter.1 hw).1
    exact ⟨h3.trans h1.symm, h2⟩
  refine ⟨?_, ?_⟩
  · refine List.Nodup.map_on ?_ ((wordsXYZ_nodup k).sublist List.filter_sublist)
    intro w hw w' hw' he
    obtain ⟨h1, h2⟩ := hk w hw
    obtain ⟨h1', h2'⟩ := hk w' hw'
    rw [← lettersIn_placed h1 h2 h4 h5, ← lettersIn_placed h1' h2' h4 h5]
    exact congrArg _ he
  · intro v
    rw [List.mem_map]
    constructor
    · rintro ⟨w, hw, rfl⟩
      obtain ⟨h1, h2⟩ := hk w hw
      rw [lettersIn_placed h1 h2 h4 h5, actsOn_placed h1 h2 h4 h5]
      refine ⟨rfl, ?_⟩
      rintro D' rfl
      simpa using (List.mem_filter.1 hw).2
    · rintro ⟨h1, h2⟩
      refine ⟨lettersIn v, List.mem_filter.2 ⟨mem_wordsXYZ.2 ⟨?_, ?_⟩, ?_⟩, by rw [← h1, placed_letters]⟩
      · rw [← h3, ← h1]; simp [lettersIn]
      · intro a ha
        obtain ⟨i, hi, rfl⟩ := List.mem_map.1 ha
        exact mem_actsOn.1 hi
      · cases D with
        | none => rfl
        | some D' => simpa using h2 D' rfl

/-- C75 (local layer, not trotterized).  For every observable `O` and every qubit (pair of qubits) the circuit is multiplied by `exp(eta·K)`, where `K` consists of
those components of `[ρ, O]` that act on exactly these qubits and have their letters among the directions. -/
theorem C75_local {n k : ℕ} (gs : List (Gate n)) (hH : ∀ g ∈ gs, g.Aᴴ = g.A) (args : LayerArgs) (stride : Option ℤ) (D : Option (List String)) (L : LocalLayer n)
    (hL : localLayer n (gs.map Gate.obs) k args stride D = .ok L) (ht : L.trotterize = false) (hD : D ≠ some []) :
    ∃ qs : List (List ℕ), qs.Nodup ∧ (∀ q, q ∈ qs ↔ q.length = k ∧ q.Pairwise (· < ·) ∧ ∀ x ∈ q, x < n) ∧
      ∀ (svd : SvdFn n), ValidSvd svd → ∀ (eta : ℝ) (U : QMat n), ∃ K : Gate n → List ℕ → QMat n,
        (∀ g ∈ gs, ∀ q ∈ qs, IsPart (fun v => (actsOn v).map Fin.val = q ∧ ∀ D', D = some D' → letterStr (lettersIn v) ∈ D')
          (riemannGen (full n g.ws g.A) U) (K g q)) ∧
        (L.setEta eta).call svd U = .ok ((gs.flatMap (fun g => qs.map (fun q => NormedSpace.exp ((eta : ℂ) • K g q)))).foldl (fun V F => F * V) U) := by
  refine ⟨combinations (List.range n) k, combinations_nodup List.nodup_range _, fun q => mem_combinations_range, ?_⟩
  intro svd hs eta U
  refine ⟨fun g q => (((keptWords k D).map (placed n · q)).map (fun v => component (riemannGen (full n g.ws g.A) U) v • pauliWord v)).sum, ?_, ?_⟩
  · intro g _ q hq
    obtain ⟨h1, h2⟩ := wordsOn_part (riemannGen (full n g.ws g.A) U) D hq
    have h := isPart_sum (riemannGen (full n g.ws g.A) U) _ h1
    simpa only [h2] using h
  · rw [(localLayer_call hH hL hs eta U (.inl hD)).2.2, ht]
    have hok := localLayer_inv gs hL
    obtain ⟨k', e0, b, t, hk, hkk, he, hb, ht', hL'⟩ := localLayer_ok gs hok
    obtain rfl : k' = k := by exact_mod_cast hkk.symm
    rw [hL'] at hL
    have hLe := Except.ok.inj hL
    subst hLe
    simp only
    rw [List.flatMap_map]
    congr 2
    refine List.flatMap_congr fun g _ => ?_
    rw [List.flatMap_map, List.map_eq_flatMap]
    refine List.flatMap_congr fun q _ => ?_
    rw [← groupFactors_sum, List.map_map]
    rfl

/-! ### All directions on at most two qubits -/

theorem component_riemannGen_one {n : ℕ} (O U : QMat n) {v : Fin n → Letter} (hv : ∀ i, v i = .I) : component (riemannGen O U) v = 0 := by
  have h1 : pauliWord v = 1 := by
    have : v = fun _ => .I := funext hv
    rw [this, pauliWord]
    exact tensor_one
  rw [component, h1, one_mul, riemannGen, Matrix.trace_sub, Matrix.trace_mul_comm, sub_self, zero_div]

theorem lettersIn_le {n : ℕ} (v : Fin n → Letter) : (lettersIn v).length ≤ n := by
  rw [lettersIn, List.length_map, actsOn]
  exact (List.length_filter_le _ _).trans (by simp)

/-- On at most two qubits every word but the identity has a name of one or two letters. -/
theorem words_two {n : ℕ} (hn : n ≤ 2) {v : Fin n → Letter} (hv : ¬ ∀ i, v i = .I) : lettersIn v ∈ allWords [1, 2] := by
  rw [mem_allWords]
  constructor
  · have h1 := lettersIn_le v
    have h2 : (lettersIn v).length ≠ 0 := by
      push Not at hv
      obtain ⟨i, hi⟩ := hv
      have := mem_actsOn.2 hi
      rw [lettersIn, List.length_map]
      exact (List.length_pos_of_mem this).ne'
    have : (lettersIn v).length = 1 ∨ (lettersIn v).length = 2 := by omega
    simpa using this
  · intro a ha
    obtain ⟨i, hi, rfl⟩ := List.mem_map.1 ha
    exact mem_actsOn.1 hi

/-- C75 (all directions).  On one or two qubits, with all the directions and without trotterization, the circuit is multiplied by `exp(eta·[ρ, O])` for every
observable `O`, with `ρ` the state of the circuit `U` of the call. -/
theorem C75_all_directions {n : ℕ} (hn1 : 1 ≤ n) (hn : n ≤ 2) (gs : List (Gate n)) (hH : ∀ g ∈ gs, g.Aᴴ = g.A) (D : List String)
    (hD : ∀ w ∈ allWords [1, 2], letterStr w ∈ D) (args : LayerArgs) (L : CustomLayer n)
    (hL : customLayer n (gs.map Gate.obs) (some D) args = .ok L) (ht : L.trotterize = false)
    (svd : SvdFn n) (hs : ValidSvd svd) (eta : ℝ) (U : QMat n) :
    (L.setEta eta).call svd U =
      .ok ((gs.map (fun g => NormedSpace.exp ((eta : ℂ) • riemannGen (full n g.ws g.A) U))).foldl (fun V F => F * V) U) := by
  have hx : [Letter.X] ∈ allWords [1, 2] := by decide
  obtain ⟨K, hK, h⟩ := C75_custom gs hH D args L hL ht ⟨_, hD _ hx, by rw [letterStr_length]; simpa using hn1⟩ svd hs eta U
  rw [h]
  congr 2
  refine List.map_congr_left fun g hg => ?_
  rw [isPart_all (hK g hg)]
  intro v hv
  by_cases hI : ∀ i, v i = .I
  · exact component_riemannGen_one _ _ hI
  · exact absurd (hD _ (words_two hn hI)) hv

/-- C75 (agreement).  On one or two qubits a call of the custom layer with all the directions does what a step of `exact_lie_optimizer` with twice the step size does,
for one involutory observable. -/
theorem C75_agrees {n : ℕ} (hn1 : 1 ≤ n) (hn : n ≤ 2) (g : Gate n) (hA : g.Aᴴ = g.A) (hA2 : g.A * g.A = 1) (D : List String)
    (hD : ∀ w ∈ allWords [1, 2], letterStr w ∈ D) (args : LayerArgs) (L : CustomLayer n)
    (hL : customLayer n [g.obs] (some D) args = .ok L) (ht : L.trotterize = false)
    (svd : SvdFn n) (hs : ValidSvd svd) (eigh : EighFn n) (he : ValidEigh eigh) (eta : ℝ) (U : QMat n) :
    (L.setEta eta).call svd U = exactUpdates eigh (2 * eta) [g.obs] U := by
  have h := C75_all_directions hn1 hn [g] (by simpa using hA) D hD args L hL ht svd hs eta U
  rw [h, exactUpdates, C47_riemannian_step eigh he _ g hA hA2]
  simp only [bind, Except.bind, exactUpdates, List.map_cons, List.map_nil, List.foldl_cons, List.foldl_nil]
  rw [mul_div_cancel_left₀ _ (two_ne_zero)]

/-- C75 (runs).  On one or two qubits, for one involutory observable and from the same circuit, a run of `approximate_lie_optimizer` with such a layer and a run of
`exact_lie_optimizer` with twice its step size, both without perturbation, report the same costs (as long as both go on). -/
theorem C75_runs {n m : ℕ} (hn1 : 1 ≤ n) (hn : n ≤ 2) (g : Gate n) (hA : g.Aᴴ = g.A) (hA2 : g.A * g.A = 1) (D : List String)
    (hD : ∀ w ∈ allWords [1, 2], letterStr w ∈ D) (largs : LayerArgs) (L : CustomLayer n)
    (hL : customLayer n [g.obs] (some D) largs = .ok L) (ht : L.trotterize = false)
    (E : LayerEnv n) (hs : ValidSvd E.svd) (eigh eigh' : EighFn n) (he : ValidEigh eigh)
    (rnd rnd' : ℕ → Matrix (Fin (2 ^ n)) (Fin (2 ^ n)) ℝ) (ret ret' : CircuitRet) (ops : List (NpMat × List ℤ))
    (params : List (List ℝ)) (objs : Fin m → AnyLayer n) (layers : List (Fin m)) (hl : ∀ i ∈ layers, objs i = .custom L)
    (args : ExactArgs) (out : OptOut (ExactItem n)) (h : exactLieOptimizer eigh rnd ret ops [g.obs] args = .ok out)
    (hp : args.perturbation = .bool false) (heta : args.eta = .float (2 * L.eta))
    (args' : ApproxArgs) (out' : OptOut (ApproxItem n) × (Fin m → AnyLayer n))
    (h' : approximateLieOptimizer E eigh' rnd' ret' ops params [g.obs] objs layers args' = .ok out') (hp' : args'.perturb = .bool false)
    (k : ℕ) (c c' : ℝ) (hc : (exactCosts out)[k]? = some c) (hc' : (approxCosts out'.1)[k]? = some c') : c = c' := by
  obtain ⟨N, -, e, he1, V, W, j, -, hV0, hlen, hcost, hstep, -, hW, -⟩ := C44_trace eigh rnd ret ops [g] args out h
  obtain ⟨N', -, e', -, V', W', j', -, -, hV0', -, hobj, -, hstep', -, hW', -, -, hlen', hcost', -⟩ :=
    C50_trace E eigh' rnd' ret' ops params [g] objs layers args' out' h'
  rw [heta] at he1
  obtain rfl := PyVal.float.inj he1
  have hkey : ∀ k, k ≤ j → k ≤ j' → V k = (V' k).U ∧ (V' k).objs = objs := by
    intro k
    induction k with
    | zero =>
      intro _ _
      exact ⟨Except.ok.inj (hV0.symm.trans hV0'), hobj⟩
    | succ k ih =>
      intro hk hk'
      obtain ⟨hU, ho⟩ := ih (by omega) (by omega)
      have h1 := hstep k (by omega)
      rw [hW hp k (by omega)] at h1
      obtain ⟨i, L', hi, hcall, hup⟩ := hstep' k (by omega)
      rw [hW' hp' k (by omega)] at hcall hup
      have hiL : objs i = .custom L := hl i (List.mem_of_getElem? hi)
      rw [ho, hiL, AnyLayer.call] at hcall
      have h2 := C75_agrees hn1 hn g hA hA2 D hD largs L hL ht E.svd hs eigh he L.eta (V' k).U
      have h3 : (L.setEta L.eta) = L := rfl
      rw [h3, ← hU] at h2
      rw [← hU, h2] at hcall
      have h1' : exactUpdates eigh (2 * L.eta) [g.obs] (V k) = .ok (V (k + 1)) := h1
      rw [h1'] at hcall
      simp only [bind, Except.bind] at hcall
      have h4 := Except.ok.inj hcall
      simp only [Prod.mk.injEq] at h4
      refine ⟨h4.1, ?_⟩
      rw [hup, ← h4.2.2, ho, ← hiL, Function.update_eq_self]
  have hkj : k ≤ j := by
    have := (List.getElem?_eq_some_iff.1 hc).1
    omega
  have hkj' : k ≤ j' := by
    have := (List.getElem?_eq_some_iff.1 hc').1
    omega
  rw [hcost k hkj] at hc
  rw [hcost' k hkj'] at hc'
  rw [← Option.some.inj hc, ← Option.some.inj hc', (hkey k hkj hkj').1]

end Oranssi
