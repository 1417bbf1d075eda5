import Verif.Lemmas.Shift
import Verif.Props.AdaptStep
import Verif.Props.ApproxTotal

/-! # C79: the parameter-shift rule for AdaptVQE circuits; runs with an `AdaptVQELayer` succeed -/

namespace Oranssi
open Spec
open scoped Matrix

variable {n : ℕ}

theorem isTable_set {θ : List (List ℝ)} {r : ℕ} (h : IsTable θ r n) (j i : ℕ) (t : ℝ) : IsTable (setAngle θ j i t) r n := by
  refine ⟨by rw [setAngle, List.length_set, h.1], fun ps hps => ?_⟩
  by_cases hj : j < θ.length
  · rcases List.mem_or_eq_of_mem_set hps with h1 | h1
    · exact h.2 _ h1
    · rw [h1, List.length_set, List.getD_eq_getElem _ _ hj]
      exact h.2 _ (List.getElem_mem hj)
  · rw [setAngle, List.set_eq_of_length_le (by omega)] at hps
    exact h.2 _ hps

theorem pyGetItem_take {α : Type} (l : List α) (m i : ℕ) (hi : i < m) : pyGetItem (l.take m) (i : ℤ) = pyGetItem l (i : ℤ) := by
  by_cases h : i < l.length
  · rw [pyGetItem_nat h, pyGetItem_nat (by rw [List.length_take]; omega), List.getElem_take]
  · have h1 : ∀ k ≤ i, pyIndex k (i : ℤ) = none := fun k hk => by rw [pyIndex, if_pos (by omega), Int.toNat_natCast, if_neg (by omega)]
    rw [pyGetItem, pyGetItem, h1 _ (by rw [List.length_take]; omega), h1 _ (by omega)]
    rfl

theorem mapM_congr_mem {α β : Type} {F G : α → Py β} : ∀ {l : List α}, (∀ a ∈ l, F a = G a) → l.mapM F = l.mapM G
  | [], _ => rfl
  | a :: l, h => by
    rw [List.mapM_cons, List.mapM_cons, h a (by simp), mapM_congr_mem (l := l) (fun x hx => h x (by simp [hx]))]

theorem circuitVqe_take (layers : List (String × Parity)) (θ : List (List ℝ)) : circuitVqe n layers θ = circuitVqe n layers (θ.take layers.length) := by
  rw [circuitVqe, circuitVqe, mapM_congr_mem fun l hl => ?_]
  rw [pyGetItem_take _ _ _ (by simpa using List.snd_lt_of_mem_zipIdx hl)]

/-- The circuit of the layers with a table of angles of at least as many rows. -/
theorem circuitVqe_table (hn : 2 ≤ n) {cs : List (List Letter × LayerKind)} (hcs : ∀ c ∈ cs, GoodLayer c) {θ : List (List ℝ)} {r : ℕ} (hr : cs.length ≤ r)
    (hθ : IsTable θ r n) : circuitUnitary n (circuitVqe n (cs.map (fun c => (letterStr c.1, c.2.toParity)))) θ =
      .ok (inOrder (List.zipWith (layerRots n) cs θ).flatten * hadamardAll n) := by
  obtain ⟨gates, h1, h2⟩ := circuitVqe_eq hn hcs (last := θ.take cs.length) (by rw [List.length_take, hθ.1]; omega) (fun ps hps => hθ.2 ps (List.mem_of_mem_take hps))
  have e : List.zipWith (layerRots n) cs (θ.take cs.length) = List.zipWith (layerRots n) cs θ := by
    apply List.ext_getElem
    · simp
    · intro i h1 h2; simp
  rw [circuitUnitary, circuitVqe_take, List.length_map, h1, ← e]
  exact h2

/-- The state of an `AdaptVQELayer` between calls: built by the constructor, layers among the candidates. -/
theorem adaptInv_fresh {gs : List (Gate n)} {la : LayerArgs} {L : AdaptLayer n} (hL : adaptLayer n (gs.map Gate.obs) la = .ok L) : AdaptInv gs L := by
  obtain ⟨h3, -, h4⟩ := adaptLayer_inv hL
  exact ⟨h3, [], by simp, h4⟩

/-- The cost of the circuit of the layers as a function of the table of angles. -/
noncomputable def adaptCost (gs : List (Gate n)) (cs : List (List Letter × LayerKind)) (θ : List (List ℝ)) : ℝ :=
  cost (totalObs gs) (inOrder (List.zipWith (layerRots n) cs θ).flatten * hadamardAll n)

theorem psCost_table (hn : 2 ≤ n) (gs : List (Gate n)) {cs : List (List Letter × LayerKind)} (hcs : ∀ c ∈ cs, GoodLayer c) {θ : List (List ℝ)} {r : ℕ} (hr : cs.length ≤ r)
    (hθ : IsTable θ r n) : psCost n (circuitVqe n (cs.map (fun c => (letterStr c.1, c.2.toParity)))) (gs.map Gate.obs) θ = .ok (adaptCost gs cs θ) := by
  rw [psCost, circuitVqe_table hn hcs hr hθ]
  exact totalCost_gates _ _

theorem adaptCost_shift (gs : List (Gate n)) (cs : List (List Letter × LayerKind)) {θ : List (List ℝ)} (hθ : ∀ ps ∈ θ, ps.length = n) (j i : ℕ) :
    (∃ a b c : ℝ, ∀ t, adaptCost gs cs (setAngle θ j i t) = a + b * Real.cos t + c * Real.sin t) ∧
    ∀ t, HasDerivAt (fun t => adaptCost gs cs (setAngle θ j i t))
      ((adaptCost gs cs (setAngle θ j i (t + Real.pi / 2)) - adaptCost gs cs (setAngle θ j i (t - Real.pi / 2))) / 2) t := by
  obtain ⟨w, q, h⟩ := rots_onePlace cs θ hθ j i
  obtain ⟨a, b, c, habc⟩ := cost_onePlace (totalObs gs) (hadamardAll n) h
  have habc' : ∀ t, adaptCost gs cs (setAngle θ j i t) = a + b * Real.cos t + c * Real.sin t := habc
  refine ⟨⟨a, b, c, habc'⟩, fun t => ?_⟩
  simp only [habc']
  exact sinusoid_shift a b c t

/-- C79.  The cost of the circuit an `AdaptVQELayer` has built up (after any history of calls), as a function of its table of angles: it is defined for
every table with enough rows of `n` angles; in each angle it is a sinusoid of period `2π`; its derivative with respect to any angle is given by the
parameter-shift rule. -/
theorem C79_parameter_shift (hn : 2 ≤ n) (gs : List (Gate n)) (la : LayerArgs) (L L' : AdaptLayer n) (hL : adaptLayer n (gs.map Gate.obs) la = .ok L)
    (inputs : List (VqeOptimizer × List (List ℝ) × QMat n)) (h : L.runAll inputs = .ok L') (r : ℕ) (hr : L'.layers.length ≤ r) :
    ∃ F : List (List ℝ) → ℝ, (∀ θ, IsTable θ r n → psCost n (circuitVqe n L'.layers) L'.observables θ = .ok (F θ)) ∧
      ∀ θ, IsTable θ r n → ∀ j < r, ∀ i < n, (∃ a b c : ℝ, ∀ t, F (setAngle θ j i t) = a + b * Real.cos t + c * Real.sin t) ∧
        HasDerivAt (fun t => F (setAngle θ j i t)) (shiftRule F θ j i) (angle θ j i) := by
  obtain ⟨hok, cs, h1, h2⟩ := reached_layers hn hL h
  refine ⟨adaptCost gs cs, fun θ hθ => ?_, fun θ hθ j _ i _ => ?_⟩
  · rw [h2, hok.obs]
    exact psCost_table hn gs (fun c hc => candidate_good (h1 c hc)) (by rw [h2, List.length_map] at hr; exact hr) hθ
  · obtain ⟨h3, h4⟩ := adaptCost_shift gs cs hθ.2 j i
    exact ⟨h3, h4 _⟩

/-- One inner step of the training: a table stays a table, and every angle moves against the parameter-shift gradient. -/
theorem gd_table (hn : 2 ≤ n) {gd : ℝ → (List (List ℝ) → Py ℝ) → List (List ℝ) → Py (List (List ℝ))} (hgd : ValidGd gd) (gs : List (Gate n))
    {cs : List (List Letter × LayerKind)} (hcs : ∀ c ∈ cs, GoodLayer c) {θ : List (List ℝ)} {r : ℕ} (hr : cs.length ≤ r) (hθ : IsTable θ r n) (eta : ℝ) :
    ∃ θ', gd eta (psCost n (circuitVqe n (cs.map (fun c => (letterStr c.1, c.2.toParity)))) (gs.map Gate.obs)) θ = .ok θ' ∧ IsTable θ' r n ∧
      ∀ j < r, ∀ i < n, angle θ' j i = angle θ j i - eta * shiftRule (adaptCost gs cs) θ j i := by
  have hd : ∀ j i, HasDerivAt (fun t => adaptCost gs cs (setAngle θ j i t)) (shiftRule (adaptCost gs cs) θ j i) (angle θ j i) := fun j i =>
    (adaptCost_shift gs cs hθ.2 j i).2 (angle θ j i)
  have hc : ∀ θ', IsTable θ' r n → psCost n (circuitVqe n (cs.map (fun c => (letterStr c.1, c.2.toParity)))) (gs.map Gate.obs) θ' = .ok (adaptCost gs cs θ') :=
    fun θ' hθ' => psCost_table hn gs hcs hr hθ'
  generalize psCost n (circuitVqe n (cs.map (fun c => (letterStr c.1, c.2.toParity)))) (gs.map Gate.obs) = f at hc ⊢
  generalize adaptCost gs cs = F at hc hd ⊢
  obtain ⟨θ', h1, h2, h3⟩ := hgd eta f F θ r n hθ hc (fun j _ i _ => (hd j i).differentiableAt)
  exact ⟨θ', h1, h2, fun j hj i hi => by rw [h3 j hj i hi, (hd j i).deriv]⟩

/-- The inner optimizer succeeds on tables. -/
theorem ps_table_ok (hn : 2 ≤ n) {gd : ℝ → (List (List ℝ) → Py ℝ) → List (List ℝ) → Py (List (List ℝ))} (hgd : ValidGd gd) (gs : List (Gate n))
    {cs : List (List Letter × LayerKind)} (hcs : ∀ c ∈ cs, GoodLayer c) {θ : List (List ℝ)} {r : ℕ} (hr : cs.length ≤ r) (hθ : IsTable θ r n)
    (args : PsArgs) (N : ℕ) (e : ℝ) (t : Tol) (hv : PsValid args N e t false) (hrp : args.returnParams = .int 1) :
    ∃ cost pps, parameterShiftOptimizer (n := n) gd .nothing (circuitVqe n (cs.map (fun c => (letterStr c.1, c.2.toParity)))) θ (gs.map Gate.obs) args =
      .ok (.tuple [.costs cost, .params pps]) := by
  set C := circuitVqe n (cs.map (fun c => (letterStr c.1, c.2.toParity))) with hC
  have hbody : ∀ k (s : PsState n (List (List ℝ))), s.costs.length = k + 1 ∧ IsTable s.params r n →
      ∃ s' b, psBody (n := n) gd C (gs.map Gate.obs) e t false true k s = .ok (s', b) ∧ s'.costs.length = k + 1 + 1 ∧ IsTable s'.params r n := by
    rintro k s ⟨hl, ht⟩
    obtain ⟨q, hq, hq2, -⟩ := gd_table hn hgd gs hcs hr ht e
    have hc := psCost_table hn gs hcs hr hq2
    have h1 : pyGetItem (s.costs ++ [adaptCost gs cs q]) (-1) = .ok (adaptCost gs cs q) := getItem_last
    have h2 := getItem_neg (s.costs ++ [adaptCost gs cs q]) 1 (by simp [hl])
    rw [show (-(((1 : ℕ) : ℤ) + 1)) = -2 by norm_num] at h2
    refine ⟨{ params := q, costs := s.costs ++ [adaptCost gs cs q], states := s.states, paramsPerStep := s.paramsPerStep ++ [q] },
        if k > 2 then isCloseTol (adaptCost gs cs q) ((s.costs ++ [adaptCost gs cs q]).getD ((s.costs ++ [adaptCost gs cs q]).length - 2) 0) t else false, ?_, by simp [hl], hq2⟩
    unfold psBody
    simp only [bind_ok_iff]
    refine ⟨q, hq, _, hc, s.states, rfl, ?_⟩
    by_cases hk : k > 2
    · rw [if_pos hk, if_pos hk, h1, h2]
      rfl
    · rw [if_neg hk, if_neg hk]; rfl
  obtain ⟨s, hs⟩ := forRange_total (psBody (n := n) gd C (gs.map Gate.obs) e t false true)
    (fun k s => s.costs.length = k + 1 ∧ IsTable s.params r n) (fun k s h => by
      obtain ⟨s', b, h1, h2⟩ := hbody k s h
      exact ⟨(s', b), h1, h2⟩) N 0 { params := θ, costs := [adaptCost gs cs θ], states := [], paramsPerStep := [θ] } ⟨rfl, hθ⟩
  have hcirc : ∃ ops, C θ = .ok ops := by
    have := circuitVqe_table hn hcs hr hθ
    rw [circuitUnitary] at this
    cases h : C θ with
    | error x => rw [← hC, h] at this; cases this
    | ok ops => exact ⟨ops, rfl⟩
  refine ⟨s.costs, s.paramsPerStep, (ps_ok_iff ..).mpr ⟨hcirc, rfl, N, e, t, false, hv, [], _, s, rfl, psCost_table hn gs hcs hr hθ, ?_, ?_⟩⟩
  · rw [hrp]; exact hs
  · rw [hrp]; exact psOut_bool s false true

theorem psForAdapt_ok (hn : 2 ≤ n) (E : LayerEnv n) (hgd : ValidGd E.gd) (gs : List (Gate n)) {cs : List (List Letter × LayerKind)} (hcs : ∀ c ∈ cs, GoodLayer c)
    {θ : List (List ℝ)} {r : ℕ} (hr : cs.length ≤ r) (hθ : IsTable θ r n) :
    ∃ out, psForAdapt E (gs.map Gate.obs) (circuitVqe n (cs.map (fun c => (letterStr c.1, c.2.toParity)))) θ = .ok out := by
  obtain ⟨c, pps, h⟩ := ps_table_ok hn hgd gs hcs hr hθ { eta := .float 0.01, tol := .float 1e-5, returnParams := .int 1 } 40 0.01 (.fin 1e-5)
    ⟨rfl, by norm_num, rfl, by norm_num, by norm_num, ⟨rfl, by norm_num⟩, rfl⟩ rfl
  rw [psForAdapt, h]
  exact ⟨_, rfl⟩

theorem isTable_append {θ : List (List ℝ)} {r : ℕ} (h : IsTable θ r n) (x : ℝ) : IsTable (θ ++ [List.replicate n x]) (r + 1) n := by
  refine ⟨by simp [h.1], fun ps hps => ?_⟩
  rcases List.mem_append.1 hps with h1 | h1
  · exact h.2 _ h1
  · rw [List.mem_singleton.1 h1, List.length_replicate]

/-- Every table of the inner run is a table, and every angle moves against the parameter-shift gradient. -/
theorem inner_tables (hn : 2 ≤ n) {E : LayerEnv n} (hgd : ValidGd E.gd) (gs : List (Gate n)) {cs : List (List Letter × LayerKind)} (hcs : ∀ c ∈ cs, GoodLayer c)
    {θ : ℕ → List (List ℝ)} {r m : ℕ} (hr : cs.length ≤ r) (h0 : IsTable (θ 0) r n) (eta : ℝ)
    (h : ∀ j < m, E.gd eta (psCost n (circuitVqe n (cs.map (fun c => (letterStr c.1, c.2.toParity)))) (gs.map Gate.obs)) (θ j) = .ok (θ (j + 1))) :
    (∀ k ≤ m, IsTable (θ k) r n) ∧
      ∀ k < m, ∀ j < r, ∀ i < n, angle (θ (k + 1)) j i = angle (θ k) j i - eta * shiftRule (adaptCost gs cs) (θ k) j i := by
  have ht : ∀ k ≤ m, IsTable (θ k) r n := by
    intro k
    induction k with
    | zero => intro _; exact h0
    | succ k ih =>
      intro hk
      obtain ⟨θ', h1, h2, -⟩ := gd_table hn hgd gs hcs hr (ih (by omega)) eta
      rw [h k (by omega)] at h1
      rw [Except.ok.inj h1]; exact h2
  refine ⟨ht, fun k hk j hj i hi => ?_⟩
  obtain ⟨θ', h1, -, h3⟩ := gd_table hn hgd gs hcs hr (ht k hk.le) eta
  rw [h k hk] at h1
  rw [Except.ok.inj h1]; exact h3 j hj i hi

theorem adaptInv_select (hn : 2 ≤ n) {gs : List (Gate n)} {L : AdaptLayer n} (hL : AdaptInv gs L) (U : QMat n) :
    ∃ (k : String × Parity) (cs : List (List Letter × LayerKind)), L.select U = .ok k ∧ (∀ c ∈ cs, GoodLayer c) ∧ L.layers ++ [k] = cs.map (fun c => (letterStr c.1, c.2.toParity)) := by
  obtain ⟨hok, cs, hcs, hl⟩ := hL
  obtain ⟨c, hc, hm⟩ := adapt_select hn hok U
  refine ⟨_, cs ++ [c], hc, fun x hx => ?_, by rw [hl]; simp⟩
  rcases List.mem_append.1 hx with h | h
  · exact hcs x h
  · rw [List.mem_singleton.1 h]; exact candidate_good (List.mem_filter.1 hm.mem).1

/-- With PennyLane's gradient descent, a call of the layer in the optimizer succeeds for every circuit and every table of angles with enough rows; the
result is a table with one more row. -/
theorem adapt_call_table (hn : 2 ≤ n) (E : LayerEnv n) (hgd : ValidGd E.gd) (gs : List (Gate n)) {L : AdaptLayer n} (hL : AdaptInv gs L) {θ : List (List ℝ)} {r : ℕ}
    (hr : L.layers.length ≤ r) (hθ : IsTable θ r n) (U : QMat n) :
    ∃ V θ' L', (AnyLayer.adapt L).call E θ U = .ok (V, θ', .adapt L') ∧ AdaptInv gs L' ∧ L'.layers.length = L.layers.length + 1 ∧ IsTable θ' (r + 1) n := by
  obtain ⟨k, cs, hk, hcs, e⟩ := adaptInv_select hn hL U
  have hlen := congrArg List.length e
  rw [List.length_append, List.length_singleton, List.length_map] at hlen
  have hθ' := isTable_append hθ 0.1
  obtain ⟨out, hout⟩ := psForAdapt_ok hn E hgd gs hcs (by omega) hθ'
  obtain ⟨Θ, W, m, -, h0, hg, hW, -, -, rfl⟩ := psForAdapt_inv hout
  have hT := (inner_tables hn hgd gs hcs (r := r + 1) (by omega) (by rw [h0]; exact hθ') 0.01 hg).1
  have hWm := hW m le_rfl
  rw [circuitUnitary] at hWm
  have hcall : L.call (psForAdapt E L.observables) θ U = .ok (W m, Θ m, { L with layers := L.layers ++ [k], previousDirection := some k.1 }) := by
    rw [AdaptLayer.call, hk, hL.1.obs]
    simp only [bind, Except.bind]
    rw [e, hout]
    dsimp only
    rw [getItem_range_last]
    dsimp only
    cases hgt : circuitVqe n (cs.map (fun c => (letterStr c.1, c.2.toParity))) (Θ m) with
    | error x => rw [hgt] at hWm; cases hWm
    | ok gates =>
      rw [hgt] at hWm
      replace hWm : compileLoop n gates 1 = .ok (W m) := hWm
      simp only [hWm]
  refine ⟨W m, Θ m, _, by rw [AnyLayer.call, hcall]; rfl, (adapt_unitary hn hL hcall).2, by simp, hT m le_rfl⟩

/-- C79.  In the training that a call of the layer performs (see `C78_adapt_step` for the tables `θ j`), with PennyLane's gradient descent, every angle
moves by 0.01 times the parameter-shift derivative of the cost, downwards. -/
theorem C79_training (hn : 2 ≤ n) (E : LayerEnv n) (hgd : ValidGd E.gd) (gs : List (Gate n)) (la : LayerArgs) (L L₁ : AdaptLayer n)
    (hL : adaptLayer n (gs.map Gate.obs) la = .ok L) (inputs : List (VqeOptimizer × List (List ℝ) × QMat n)) (h1 : L.runAll inputs = .ok L₁)
    (params params' : List (List ℝ)) (r : ℕ) (hr : L₁.layers.length ≤ r) (hp : IsTable params r n) (U V : QMat n) (L' : AnyLayer n)
    (h : (AnyLayer.adapt L₁).call E params U = .ok (V, params', L')) :
    ∃ (k : String × Parity) (F : List (List ℝ) → ℝ) (θ : ℕ → List (List ℝ)) (m : ℕ), L₁.select U = .ok k ∧
      (∀ θ, IsTable θ (r + 1) n → psCost n (circuitVqe n (L₁.layers ++ [k])) (gs.map Gate.obs) θ = .ok (F θ)) ∧ m ≤ 40 ∧
      θ 0 = params ++ [List.replicate n 0.1] ∧ (∀ k ≤ m, IsTable (θ k) (r + 1) n) ∧
      (∀ k < m, ∀ j < r + 1, ∀ i < n, angle (θ (k + 1)) j i = angle (θ k) j i - 0.01 * shiftRule F (θ k) j i) ∧
      params' = θ m ∧ cost (totalObs gs) V = F (θ m) := by
  obtain ⟨hok, cs₁, hcs₁, hl⟩ := reached_layers hn hL h1
  have hinv : AdaptInv gs L₁ := ⟨hok, cs₁, fun c hc => candidate_good (hcs₁ c hc), hl⟩
  obtain ⟨k, θ, W, m, hk, -, hm, h0, hg, hW, -, -, h4, h5⟩ := C78_adapt_step E gs L₁ hok.obs params params' U V L' h
  obtain ⟨k', cs, hk', hcs, e⟩ := adaptInv_select hn hinv U
  rw [hk] at hk'
  obtain rfl := Except.ok.inj hk'
  have hlen := congrArg List.length e
  rw [List.length_append, List.length_singleton, List.length_map] at hlen
  have hT0 : IsTable (θ 0) (r + 1) n := by rw [h0]; exact isTable_append hp 0.1
  rw [e] at hg hW
  obtain ⟨hT, hA⟩ := inner_tables hn hgd gs hcs (by omega) hT0 0.01 hg
  refine ⟨k, adaptCost gs cs, θ, m, hk, fun θ hθ => ?_, hm, h0, hT, hA, h4, ?_⟩
  · rw [e]; exact psCost_table hn gs hcs (by omega) hθ
  · have := hW m le_rfl
    rw [circuitVqe_table hn hcs (by omega) (hT m le_rfl)] at this
    rw [h5, ← Except.ok.inj this]
    rfl

theorem adaptCost_idle (gs : List (Gate n)) (cs : List (List Letter × LayerKind)) (θ : List (List ℝ)) {j : ℕ} (hj : cs.length ≤ j) (i : ℕ) (t : ℝ) :
    adaptCost gs cs (setAngle θ j i t) = adaptCost gs cs θ := by
  have e : List.zipWith (layerRots n) cs (setAngle θ j i t) = List.zipWith (layerRots n) cs θ := by
    apply List.ext_getElem
    · simp [setAngle]
    · intro k h1 h2
      rw [List.length_zipWith] at h1
      simp only [List.getElem_zipWith, setAngle]
      rw [List.getElem_set_ne (by omega)]
  rw [adaptCost, adaptCost, e]

/-- C79.  A call only trains the rows of the layers of its own object.  If the table already has more rows than the object has layers (because another
`AdaptVQELayer` of the pattern appended them), the row that the call appends for its new layer is left at 0.1 and the new layer uses an old row. -/
theorem C79_foreign_rows (hn : 2 ≤ n) (E : LayerEnv n) (hgd : ValidGd E.gd) (gs : List (Gate n)) (la : LayerArgs) (L L₁ : AdaptLayer n)
    (hL : adaptLayer n (gs.map Gate.obs) la = .ok L) (inputs : List (VqeOptimizer × List (List ℝ) × QMat n)) (h1 : L.runAll inputs = .ok L₁)
    (params params' : List (List ℝ)) (r : ℕ) (hr : L₁.layers.length < r) (hp : IsTable params r n) (U V : QMat n) (L' : AnyLayer n)
    (h : (AnyLayer.adapt L₁).call E params U = .ok (V, params', L')) :
    IsTable params' (r + 1) n ∧ (∀ i < n, angle params' r i = 0.1) ∧
      ∀ j, L₁.layers.length < j → j < r → ∀ i < n, angle params' j i = angle params j i := by
  obtain ⟨hok, cs₁, hcs₁, hl⟩ := reached_layers hn hL h1
  have hinv : AdaptInv gs L₁ := ⟨hok, cs₁, fun c hc => candidate_good (hcs₁ c hc), hl⟩
  obtain ⟨k, θ, W, m, hk, -, hm, h0, hg, hW, -, -, h4, h5⟩ := C78_adapt_step E gs L₁ hok.obs params params' U V L' h
  obtain ⟨k', cs, hk', hcs, e⟩ := adaptInv_select hn hinv U
  rw [hk] at hk'
  obtain rfl := Except.ok.inj hk'
  have hlen := congrArg List.length e
  rw [List.length_append, List.length_singleton, List.length_map] at hlen
  have hT0 : IsTable (θ 0) (r + 1) n := by rw [h0]; exact isTable_append hp 0.1
  rw [e] at hg
  obtain ⟨hT, hA⟩ := inner_tables hn hgd gs hcs (by omega) hT0 0.01 hg
  have hidle : ∀ j, cs.length ≤ j → j < r + 1 → ∀ i < n, ∀ l ≤ m, angle (θ l) j i = angle (θ 0) j i := by
    intro j hj hjr i hi l
    induction l with
    | zero => intro _; rfl
    | succ l ih =>
      intro hlm
      rw [hA l (by omega) j hjr i hi, ih (by omega), shiftRule, adaptCost_idle gs cs _ hj, adaptCost_idle gs cs _ hj]
      ring
  rw [h4]
  refine ⟨hT m le_rfl, fun i hi => ?_, fun j hj hjr i hi => ?_⟩
  · rw [hidle r (by omega) (by omega) i hi m le_rfl, h0, angle, ← hp.1]
    simp [List.getD_replicate, hi]
  · rw [hidle j (by omega) (by omega) i hi m le_rfl, h0, angle, angle, List.getD_append _ _ _ _ (by rw [hp.1]; exact hjr)]

/-- The layers of a run that cannot fail: of the classes of `FreshTotal`, or an `AdaptVQELayer`. -/
def FreshTotal' (n : ℕ) (L : AnyLayer n) : Prop :=
  FreshTotal L ∨ ∃ (gs : List (Gate n)) (la : LayerArgs) (A : AdaptLayer n), adaptLayer n (gs.map Gate.obs) la = .ok A ∧ L = .adapt A

/-- C79.  Runs of `approximate_lie_optimizer` whose layers are AdaptVQE layers and layers of the classes that cannot fail succeed whenever the arguments
are valid, if PennyLane's gradient descent is used and the initial parameters are a table of `n` columns (the empty list, for example). -/
theorem C79_runs_succeed {m : ℕ} (hn : 2 ≤ n) (E : LayerEnv n) (hsvd : ValidSvd E.svd) (hgd : ValidGd E.gd) (eigh : EighFn n)
    (rnd : ℕ → Matrix (Fin (2 ^ n)) (Fin (2 ^ n)) ℝ) (ret : CircuitRet) (cs : List (Gate n)) (params : List (List ℝ)) (gs : List (Gate n)) (objs : Fin m → AnyLayer n)
    (layers : List (Fin m)) (args : ApproxArgs) (hne : layers ≠ []) (hT : ∀ i, FreshTotal' n (objs i)) (hp : ∀ ps ∈ params, ps.length = n)
    (ho : args.returnOmegas = .bool false) :
    (∃ out, approximateLieOptimizer E eigh rnd ret (cs.map (fun g => (g.obs.matrix, g.obs.wires))) params (gs.map Gate.obs) objs layers args = .ok out) ↔
      ret = .state ∧ ∃ N e t F, ApproxValid args N e t F := by
  refine C50_succeeds_iff E eigh rnd ret params gs objs layers args cs hne
    (fun ps os => ∃ r, IsTable ps r n ∧ ∀ i, TotalInv (os i) ∨ ∃ gs A, os i = .adapt A ∧ AdaptInv gs A ∧ A.layers.length ≤ r) ?_ ?_ ho
  · refine ⟨params.length, ⟨rfl, hp⟩, fun i => ?_⟩
    rcases hT i with h | ⟨gs, la, A, hA, h⟩
    · exact .inl (totalInv_fresh h)
    · exact .inr ⟨gs, A, h, adaptInv_fresh hA, by rw [(adaptLayer_inv hA).2.2]; simp⟩
  · rintro ps os U i ⟨r, ht, h⟩
    rcases h i with hi | ⟨gs, A, hA, hinv, hl⟩
    · obtain ⟨⟨V, ps', L'⟩, hc, hi'⟩ := totalInv_call E hsvd hi ps U
      have hps : ps' = ps := by
        cases hL : os i with
        | adapt A => rw [hL] at hi; cases hi
        | _ => 
          rw [hL, AnyLayer.call] at hc
          simp only [bind_ok_iff] at hc
          obtain ⟨V, -, hc⟩ := hc
          exact (Prod.mk.inj (Prod.mk.inj (Except.ok.inj hc)).2).1.symm
      refine ⟨_, hc, r, by rw [hps]; exact ht, fun j => ?_⟩
      by_cases hj : j = i
      · subst hj; rw [Function.update_self]; exact .inl hi'
      · rw [Function.update_of_ne hj]; exact h j
    · obtain ⟨V, θ', L', hc, hinv', hl', ht'⟩ := adapt_call_table hn E hgd gs hinv hl ht U
      rw [← hA] at hc
      refine ⟨_, hc, r + 1, ht', fun j => ?_⟩
      by_cases hj : j = i
      · subst hj; rw [Function.update_self]; exact .inr ⟨gs, L', rfl, hinv', by omega⟩
      · rw [Function.update_of_ne hj]
        rcases h j with h' | ⟨gs', A', h1, h2, h3⟩
        · exact .inl h'
        · exact .inr ⟨gs', A', h1, h2, by omega⟩

/-- A function that satisfies the contract of gradient descent. -/
theorem exists_validGd : ∃ gd : ℝ → (List (List ℝ) → Py ℝ) → List (List ℝ) → Py (List (List ℝ)), ValidGd gd := by
  refine ⟨fun eta f θ => .ok ((List.range θ.length).map (fun j => (List.range (θ.getD j []).length).map (fun i =>
    angle θ j i - eta * deriv (fun t => okOr0 (f (setAngle θ j i t))) (angle θ j i)))), fun eta f F θ r n hθ hf hd => ?_⟩
  have hrow : ∀ j < r, (θ.getD j []).length = n := fun j hj => by
    rw [List.getD_eq_getElem _ _ (by rw [hθ.1]; exact hj)]; exact hθ.2 _ (List.getElem_mem _)
  refine ⟨_, rfl, ⟨by simp [hθ.1], fun ps hps => ?_⟩, fun j hj i hi => ?_⟩
  · obtain ⟨j, hj, rfl⟩ := List.mem_map.1 hps
    rw [List.length_map, List.length_range]
    exact hrow j (by rw [← hθ.1]; exact List.mem_range.1 hj)
  · have hF : ∀ t, okOr0 (f (setAngle θ j i t)) = F (setAngle θ j i t) := fun t => by rw [hf _ (isTable_set hθ j i t)]; rfl
    simp only [← hF]
    conv_lhs => rw [angle]
    have h1 : j < ((List.range θ.length).map (fun j => (List.range (θ.getD j []).length).map (fun i =>
        angle θ j i - eta * deriv (fun t => okOr0 (f (setAngle θ j i t))) (angle θ j i)))).length := by
      rw [List.length_map, List.length_range, hθ.1]; exact hj
    rw [List.getD_eq_getElem (hn := h1), List.getElem_map, List.getElem_range, List.getD_eq_getElem (hn := by
      rw [List.length_map, List.length_range, hrow j hj]; exact hi), List.getElem_map, List.getElem_range]

theorem exAdapt : ∃ L, adaptLayer 2 ([exObsZ].map Gate.obs) {} = .ok L := by
  obtain ⟨a, ha, -⟩ := algebraSU4_getAll 2
  rw [adaptLayer, promoteAll_gates, ha]
  simp only [bind, Except.bind]
  rw [show validateEta (Option.getD ({} : LayerArgs).eta (.float 0.1)) = .ok 0.1 from defaultEta_ok']
  exact ⟨_, rfl⟩

/-- Hypotheses of C78 and C79: a run of 12 steps that alternates an AdaptVQE layer and a local layer on two qubits, without initial parameters; and calls
of the layer that succeed, without parameters and with a row that belongs to no layer of the object. -/
example (rnd : ℕ → Matrix (Fin (2 ^ 2)) (Fin (2 ^ 2)) ℝ) : ∃ (E : LayerEnv 2) (eigh : EighFn 2) (objs : Fin 2 → AnyLayer 2) (args : ApproxArgs) (L : AdaptLayer 2),
    ValidSvd E.svd ∧ ValidGd E.gd ∧ (∀ i, FreshTotal' 2 (objs i)) ∧ adaptLayer 2 ([exObsZ].map Gate.obs) {} = .ok L ∧ objs 0 = .adapt L ∧
      (∃ out, approximateLieOptimizer E eigh rnd .state ([exObsZ].map (fun g => (g.obs.matrix, g.obs.wires))) [] ([exObsZ].map Gate.obs) objs [0, 1] args = .ok out) ∧
      (∃ V ps L', (AnyLayer.adapt L).call E [] 1 = .ok (V, ps, L')) ∧ L.layers.length = 0 ∧ IsTable [[0.3, 0.2]] 1 2 ∧
      ∃ V ps L', (AnyLayer.adapt L).call E [[0.3, 0.2]] 1 = .ok (V, ps, L') := by
  obtain ⟨svd, hsvd⟩ := exists_validSvd 2
  obtain ⟨gd, hgd⟩ := exists_validGd
  obtain ⟨eigh, -⟩ := exists_validEigh 2
  obtain ⟨L, hL⟩ := exAdapt
  obtain ⟨S, hS⟩ := exLocal
  let E : LayerEnv 2 := ⟨svd, ⟨List.reverse, List.reverse_perm⟩, gd⟩
  have hE : ValidSvd E.svd := hsvd
  have hG : ValidGd E.gd := hgd
  obtain ⟨objs, hT, h0⟩ : ∃ objs : Fin 2 → AnyLayer 2, (∀ i, FreshTotal' 2 (objs i)) ∧ objs 0 = .adapt L := by
    refine ⟨fun i => if i = 0 then .adapt L else .loc S, fun i => ?_, rfl⟩
    by_cases hi : i = 0
    · simp only [hi, if_true]
      exact Or.inr ⟨_, _, L, hL, rfl⟩
    · simp only [hi, if_false]
      exact Or.inl (.loc [exObsZ] exObsZ_herm 2 {} none none S hS (.inl (by simp)))
  refine ⟨E, eigh, objs, { nsteps := .int (12 : ℕ), returnOmegas := .bool false }, L, hE, hG, hT, hL, h0, ?_, ?_, by rw [(adaptLayer_inv hL).2.2]; rfl, ⟨rfl, by simp⟩, ?_⟩
  · exact (C79_runs_succeed le_rfl E hE hG eigh rnd .state [exObsZ] [] [exObsZ] objs [0, 1] _ (List.cons_ne_nil _ _) hT (by simp) rfl).mpr
      ⟨rfl, 12, 0.1, some (.fin 1e-3), _, approxValid_of 12 (by norm_num) (some (.float 1e-3)) (some (.fin 1e-3)) ⟨rfl, by norm_num⟩ ⟨false, false, false, false, false, false, false⟩⟩
  · obtain ⟨V, ps, L', h, -⟩ := adapt_call_table le_rfl E hG [exObsZ] (adaptInv_fresh hL) (θ := []) (r := 0) (by rw [(adaptLayer_inv hL).2.2]; simp) ⟨rfl, by simp⟩ 1
    exact ⟨V, ps, _, h⟩
  · obtain ⟨V, ps, L', h, -⟩ := adapt_call_table le_rfl E hG [exObsZ] (adaptInv_fresh hL) (θ := [[0.3, 0.2]]) (r := 1) (by rw [(adaptLayer_inv hL).2.2]; simp) ⟨rfl, by simp⟩ 1
    exact ⟨V, ps, _, h⟩

end Oranssi
