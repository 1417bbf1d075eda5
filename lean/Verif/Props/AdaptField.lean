import Verif.Props.AdaptKick
import Verif.Props.AdaptTfim
import Verif.Props.InvolutionRun
import Verif.Props.Zassenhaus

/-! # C144: an `AdaptVQELayer` leaves the ground state of the field -/

namespace Oranssi
open Spec
open scoped Matrix

variable {n : ℕ}

/-- The observable `-X` on qubit `i`. -/
noncomputable def fieldObs (i : ℕ) (h : i < n) : Gate n := ⟨[i], -pauliWord ([Letter.X] : List Letter).get, by simp, by simp, by simpa using h⟩

noncomputable def fieldGates (n : ℕ) : List (Gate n) := (List.finRange n).map (fun i => fieldObs i.val i.isLt)

theorem fieldObs_full (i : ℕ) (h : i < n) : full n (fieldObs i h).ws (fieldObs i h).A = -pauliWord (placed n [.X] [i]) := by
  have := full_placed (n := n) (w := [.X]) (qs := [i]) rfl ⟨by simp, by simpa using h⟩
  rw [← this, ← full_neg]
  rfl

theorem field_total : totalObs (fieldGates n) = -((List.range n).map (fun i => pauliWord (placed n [.X] [i]))).sum := by
  have e : totalObs (fieldGates n) = ((List.range n).map (fun i => -pauliWord (placed n [.X] [i]))).sum := by
    rw [totalObs, fieldGates, List.map_map, ← List.map_coe_finRange_eq_range, List.map_map]
    congr 1
    refine List.map_congr_left fun i _ => ?_
    exact fieldObs_full i.val i.isLt
  rw [e]
  generalize List.range n = l
  induction l with
  | nil => simp
  | cons i l ih => rw [List.map_cons, List.sum_cons, ih, List.map_cons, List.sum_cons, neg_add]

theorem field_herm : ∀ g ∈ fieldGates n, g.Aᴴ = g.A := by
  intro g hg
  obtain ⟨i, -, rfl⟩ := List.mem_map.1 hg
  change (-pauliWord ([Letter.X] : List Letter).get)ᴴ = -pauliWord ([Letter.X] : List Letter).get
  rw [Matrix.conjTranspose_neg, pauliWord_herm]

theorem field_cost (U : QMat n) : cost (totalObs (fieldGates n)) U = -∑ i ∈ Finset.range n, cost (pauliWord (placed n [.X] [i])) U := by
  rw [field_total, cost_neg, cost_list_sum, List.map_map, ← List.sum_toFinset _ List.nodup_range, List.toFinset_range]
  rfl

/-- All the qubits in the state `|+⟩`, up to a phase. -/
def Plus (U : QMat n) : Prop := ∀ i < n, InSector (pauliWord (placed n [.X] [i])) 1 (fun k => U k 0)

theorem plus_hadamard : Plus (hadamardAll n) := fun i _ => plus_flip _ fun q => by rw [placed_one]; split <;> simp

theorem plus_mul {U R : QMat n} (hU : Plus U) (hR : ∀ i < n, Commute (pauliWord (placed n [.X] [i])) R) : Plus (R * U) := by
  intro i hi
  have h := hU i hi
  rw [InSector, one_smul] at h ⊢
  rw [mul_column, Matrix.mulVec_mulVec, (hR i hi).eq, ← Matrix.mulVec_mulVec, h]

theorem plus_layer {U : QMat n} (hU : Plus U) (f : ℕ → ℝ) : ∀ l : List ℕ, Plus (inOrder (l.map (fun i => rotOp n (f i) [.X] [i])) * U) := by
  intro l
  refine plus_mul hU fun i hi => ?_
  have hw : ∀ j, Commute (pauliWord (placed n [.X] [i])) (pauliWord (placed n [.X] [j])) := fun j => by
    rw [Commute, SemiconjBy, pauliWord_swap, Finset.prod_eq_one, one_smul]
    intro q _
    rw [placed_one, placed_one]
    split <;> split <;> simp [letterSign]
  rw [inOrder_eq_prod]
  refine Commute.list_prod_right _ _ fun R hR => ?_
  obtain ⟨j, -, rfl⟩ := List.mem_map.1 (List.mem_reverse.1 hR)
  exact rotOp_commute (hw j) _

theorem plus_eigen {U : QMat n} (h : Plus U) : totalObs (fieldGates n) *ᵥ (fun i => U i 0) = ((-n : ℝ) : ℂ) • (fun i => U i 0) := by
  have hl : ∀ l : List ℕ, (∀ i ∈ l, i < n) → (l.map (fun i => pauliWord (placed n [.X] [i]))).sum *ᵥ (fun i => U i 0) = (l.length : ℂ) • (fun i => U i 0) := by
    intro l
    induction l with
    | nil => intro _; simp
    | cons i l ih =>
      intro hi
      have h1 := h i (hi i List.mem_cons_self)
      rw [InSector] at h1
      rw [List.map_cons, List.sum_cons, Matrix.add_mulVec, ih fun j hj => hi j (List.mem_cons_of_mem _ hj), h1, ← add_smul, List.length_cons]
      congr 1
      push_cast
      ring
  rw [field_total, Matrix.neg_mulVec, hl _ fun i hi => List.mem_range.1 hi, List.length_range, ← neg_smul]
  push_cast
  rfl

theorem plus_grad {U : QMat n} (h : Plus U) (P : QMat n) : grad (totalObs (fieldGates n)) U P = 0 := grad_eigen (totalObs_herm _ field_herm) (plus_eigen h)

theorem plus_layerGrad {U : QMat n} (h : Plus U) (w : List Letter) (k : LayerKind) : layerGrad (totalObs (fieldGates n)) U w k = 0 := by
  rw [layerGrad]
  refine List.sum_eq_zero fun x hx => ?_
  obtain ⟨q, -, rfl⟩ := List.mem_map.1 hx
  rw [plus_grad h, abs_zero]

theorem plus_cost {U : QMat n} (hU : Unitary U) (h : Plus U) : cost (totalObs (fieldGates n)) U = -n := by
  rw [cost_sector hU (plus_eigen h), Complex.ofReal_re]

theorem zeroMax_head {α : Type} {f : α → ℝ} {l : List α} {x : α} (h : IsFirstMax f l x) (h0 : ∀ y ∈ l, f y = 0) : l.head? = some x := by
  obtain ⟨l₁, l₂, rfl, h1, -⟩ := h
  cases l₁ with
  | nil => rfl
  | cons y l₁ =>
    have := h1 y List.mem_cons_self
    rw [h0 y (by simp), h0 x (by simp)] at this
    exact absurd this (lt_irrefl _)

theorem layerRots_single (a : Letter) {ps : List ℝ} (h : ps.length = n) : layerRots n ([a], .single) ps = (List.range n).map (fun i => rotOp n (ps.getD i 0) [a] [i]) := by
  apply List.ext_getElem
  · simp [layerRots, LayerKind.angles, LayerKind.sites, h]
  · intro i h1 h2
    have hi : i < ps.length := by simp at h2; omega
    simp [layerRots, LayerKind.angles, LayerKind.sites, hi]

theorem cost_turned {U : QMat n} (hU : Unitary U) (h : Plus U) (f : ℕ → ℝ) {i : ℕ} (hi : i < n) :
    cost (pauliWord (placed n [.X] [i])) (inOrder ((List.range n).map (fun i => rotOp n (f i) [.Y] [i])) * U) = Real.cos (f i) := by
  rw [cost_single (R := fun i => rotOp n (f i) [.Y] [i]) (k := i) (fun j => rotOp_unitary _ _ _) _ List.nodup_range (List.mem_range.2 hi) (fun j hj hji => ?_), cost_anti,
    cost_sector hU (h i hi), grad_flip (h i hi)]
  · simp
  · rw [word_site _ _ i hi, placed_one, if_pos rfl]
    simp [letterSign]
  · have hj' : j < n := List.mem_range.1 hj
    refine ⟨rotOp_commute ?_ _, rotOp_commute (Commute.symm (rotOp_commute ?_ _)) _⟩
    · rw [Commute, SemiconjBy, word_site _ _ j hj', placed_one, if_neg hji]
      simp [letterSign]
    · rw [Commute, SemiconjBy, word_site _ _ i hi, placed_one, if_neg (Ne.symm hji)]
      simp [letterSign]

theorem rots_unitary {l : List (QMat n)} (h : ∀ R ∈ l, Unitary R) : Unitary (inOrder l) := by
  rw [inOrder]
  induction l using List.reverseRecOn with
  | nil => exact Matrix.mul_one _ |>.trans (Matrix.conjTranspose_one)
  | append_singleton l R ih =>
    rw [List.foldl_append]
    exact (h R (by simp)).mul (ih fun S hS => h S (by simp [hS]))

/-- The circuit of two layers, about `X` and then about `Y`. -/
theorem two_layer_cost {θ : List (List ℝ)} (h : IsTable θ 2 n) :
    adaptCost (fieldGates n) [([.X], .single), ([.Y], .single)] θ = -∑ i ∈ Finset.range n, Real.cos (angle θ 1 i) := by
  obtain ⟨h1, h2⟩ := h
  obtain ⟨a, b, rfl⟩ := List.length_eq_two.1 h1
  have ha : a.length = n := h2 a (by simp)
  have hb : b.length = n := h2 b (by simp)
  rw [adaptCost, List.zipWith_cons_cons, List.zipWith_cons_cons, List.zipWith_nil_left, List.flatten_cons, List.flatten_cons, List.flatten_nil, List.append_nil, inOrder, List.foldl_append, foldl_left,
    ← inOrder, mul_assoc, layerRots_single .X ha, layerRots_single .Y hb, field_cost]
  congr 1
  refine Finset.sum_congr rfl fun i hi => ?_
  rw [cost_turned ?_ (plus_layer plus_hadamard _ _) _ (Finset.mem_range.1 hi)]
  · rfl
  · exact (rots_unitary fun R hR => by
      obtain ⟨j, -, rfl⟩ := List.mem_map.1 hR
      exact rotOp_unitary _ _ _).mul (hadamardAll_unitary n)

theorem two_layer_shift {θ : List (List ℝ)} (h : IsTable θ 2 n) {i : ℕ} (hi : i < n) :
    shiftRule (adaptCost (fieldGates n) [([.X], .single), ([.Y], .single)]) θ 1 i = Real.sin (angle θ 1 i) := by
  have hang : ∀ t, ∀ k < n, angle (setAngle θ 1 i t) 1 k = if k = i then t else angle θ 1 k := by
    intro t k hk
    rw [← flatten_at _ _ hk, flatten_set h (by norm_num) hi]
    by_cases hki : k = i
    · rw [hki, Function.update_self, if_pos rfl]
    · rw [Function.update_of_ne (by omega), if_neg hki, flatten_at _ _ hk]
  have hc : ∀ t, adaptCost (fieldGates n) [([.X], .single), ([.Y], .single)] (setAngle θ 1 i t) = -Real.cos t - ∑ k ∈ (Finset.range n).erase i, Real.cos (angle θ 1 k) := by
    intro t
    rw [two_layer_cost (isTable_set h 1 i t), ← Finset.add_sum_erase _ _ (Finset.mem_range.2 hi), hang t i hi, if_pos rfl, Finset.sum_congr rfl fun k hk => by
      rw [hang t k (Finset.mem_range.1 (Finset.mem_of_mem_erase hk)), if_neg (Finset.ne_of_mem_erase hk)]]
    ring
  rw [shiftRule, hc, hc, Real.cos_add_pi_div_two, Real.cos_sub_pi_div_two]
  ring

/-- The angles of the second layer during the training. -/
noncomputable def turnAngle : ℕ → ℝ
  | 0 => 0.1
  | j + 1 => turnAngle j - 0.01 * Real.sin (turnAngle j)

theorem turnAngle_bounds : ∀ j, 0.1 * 0.99 ^ j ≤ turnAngle j ∧ turnAngle j ≤ 0.1
  | 0 => by norm_num [turnAngle]
  | j + 1 => by
    obtain ⟨h1, h2⟩ := turnAngle_bounds j
    have h0 : 0 < turnAngle j := lt_of_lt_of_le (by positivity) h1
    have h3 := Real.sin_lt h0
    have h4 := Real.sin_pos_of_pos_of_lt_pi h0 (by linarith [Real.pi_gt_three])
    rw [turnAngle, pow_succ]
    constructor <;> linarith

/-- C144.  For the observables `-X` on every qubit the circuit of Hadamard gates is a ground state, and so is the circuit that the first call of an
`AdaptVQELayer` returns.  The second call selects the rotations about `Y`, all with the angle 0.1 at first.  The at most 40 steps of the training bring these back to
an angle between 0.06 and 0.1 only: the cost of the circuit returned is larger than before. -/
theorem C144_raises (hn : 2 ≤ n) (E : LayerEnv n) (hgd : ValidGd E.gd) (la : LayerArgs) (L : AdaptLayer n) (hL : adaptLayer n ((fieldGates n).map Gate.obs) la = .ok L)
    (V₁ V₂ : QMat n) (ps₁ ps₂ : List (List ℝ)) (L₁ L₂ : AnyLayer n) (h1 : (AnyLayer.adapt L).call E [] (hadamardAll n) = .ok (V₁, ps₁, L₁)) (h2 : L₁.call E ps₁ V₁ = .ok (V₂, ps₂, L₂)) :
    cost (totalObs (fieldGates n)) (hadamardAll n) = -n ∧ cost (totalObs (fieldGates n)) V₁ = -n ∧ (∀ W : QMat n, Unitary W → -n ≤ cost (totalObs (fieldGates n)) W) ∧
      (∃ x, 0.06 ≤ x ∧ x ≤ 0.1 ∧ cost (totalObs (fieldGates n)) V₂ = -(n * Real.cos x)) ∧ cost (totalObs (fieldGates n)) V₁ < cost (totalObs (fieldGates n)) V₂ := by
  obtain ⟨hok, hprev, hl⟩ := adaptLayer_inv hL
  -- the first call
  obtain ⟨k, θ, W, m, hk, rfl, hm, h0, hg, hW, -, -, rfl, rfl⟩ := C78_adapt_step E _ L hok.obs [] ps₁ (hadamardAll n) V₁ L₁ h1
  obtain ⟨c, hc, hmax⟩ := adapt_select hn hok (hadamardAll n)
  have hx := zeroMax_head hmax fun y _ => plus_layerGrad plus_hadamard _ _
  rw [hprev] at hx
  have hx' : ([.X], .single) = c := Option.some.inj hx
  subst hx'
  rw [hk] at hc
  obtain rfl := Except.ok.inj hc
  have hgood1 : ∀ c ∈ ([([.X], .single)] : List (List Letter × LayerKind)), GoodLayer c := by
    intro c hc
    rw [List.mem_singleton.1 hc]; rfl
  have e1 : L.layers ++ [(letterStr ([.X] : List Letter), LayerKind.single.toParity)] = ([([.X], .single)] : List (List Letter × LayerKind)).map (fun c => (letterStr c.1, c.2.toParity)) := by
    rw [hl]; rfl
  rw [e1] at hg hW
  have hT0 : IsTable (θ 0) 1 n := by
    rw [h0]
    exact ⟨rfl, by simp⟩
  obtain ⟨hT, -⟩ := inner_tables hn hgd (fieldGates n) hgood1 (r := 1) le_rfl hT0 0.01 hg
  have hV1 : W m = inOrder (List.zipWith (layerRots n) [([.X], .single)] (θ m)).flatten * hadamardAll n := by
    have := hW m le_rfl
    rw [circuitVqe_table hn hgood1 le_rfl (hT m le_rfl)] at this
    exact (Except.ok.inj this).symm
  obtain ⟨a, ha⟩ := List.length_eq_one_iff.1 (hT m le_rfl).1
  have hal : a.length = n := (hT m le_rfl).2 a (by rw [ha]; simp)
  rw [ha, List.zipWith_cons_cons, List.zipWith_nil_left, List.flatten_cons, List.flatten_nil, List.append_nil, layerRots_single .X hal] at hV1
  have hplus : Plus (W m) := by
    rw [hV1]
    exact plus_layer plus_hadamard _ _
  have hun : Unitary (W m) := by
    rw [hV1]
    exact (rots_unitary fun R hR => by
      obtain ⟨j, -, rfl⟩ := List.mem_map.1 hR
      exact rotOp_unitary _ _ _).mul (hadamardAll_unitary n)
  -- the second call
  have hok2 : AdaptOk (fieldGates n) { L with layers := L.layers ++ [(letterStr ([.X] : List Letter), LayerKind.single.toParity)], previousDirection := some (letterStr ([.X] : List Letter)) } := by
    obtain ⟨x1, x2, x3, x4⟩ := hok
    exact ⟨x1, x2, x3, x4⟩
  obtain ⟨k', θ', W', m', hk', -, hm', h0', hg', hW', -, -, rfl, rfl⟩ := C78_adapt_step E _ _ hok2.obs (θ m) ps₂ (W m) V₂ L₂ h2
  obtain ⟨c', hc', hmax'⟩ := adapt_select hn hok2 (W m)
  have hy := zeroMax_head hmax' fun y _ => plus_layerGrad hplus _ _
  have hy' : ([.Y], .single) = c' := by
    rw [show (candidateLayers.filter (fun c => some (letterStr c.1) ≠ some (letterStr ([.X] : List Letter)))).head? = some ([.Y], .single) by decide] at hy
    exact Option.some.inj hy
  subst hy'
  rw [hk'] at hc'
  obtain rfl := Except.ok.inj hc'
  have hgood2 : ∀ c ∈ ([([.X], .single), ([.Y], .single)] : List (List Letter × LayerKind)), GoodLayer c := by
    intro c hc
    rcases List.mem_cons.1 hc with rfl | hc
    · rfl
    · rw [List.mem_singleton.1 hc]; rfl
  have e2 : (L.layers ++ [(letterStr ([.X] : List Letter), LayerKind.single.toParity)]) ++ [(letterStr ([.Y] : List Letter), LayerKind.single.toParity)] =
      ([([.X], .single), ([.Y], .single)] : List (List Letter × LayerKind)).map (fun c => (letterStr c.1, c.2.toParity)) := by
    rw [hl]; rfl
  dsimp only at hg' hW'
  rw [e2] at hg' hW'
  have hT0' : IsTable (θ' 0) 2 n := by
    rw [h0']
    exact isTable_append (hT m le_rfl) 0.1
  obtain ⟨hT', hA'⟩ := inner_tables hn hgd (fieldGates n) hgood2 (r := 2) le_rfl hT0' 0.01 hg'
  have hang : ∀ j ≤ m', ∀ i < n, angle (θ' j) 1 i = turnAngle j := by
    intro j
    induction j with
    | zero =>
      intro _ i hi
      rw [h0', ha]
      simp [angle, turnAngle, hi]
    | succ j ih =>
      intro hj i hi
      rw [hA' j (by omega) 1 (by omega) i hi, two_layer_shift (hT' j (by omega)) hi, ih (by omega) i hi, turnAngle]
  have hcost : cost (totalObs (fieldGates n)) (W' m') = -(n * Real.cos (turnAngle m')) := by
    have hw := hW' m' le_rfl
    rw [circuitVqe_table hn hgood2 le_rfl (hT' m' le_rfl)] at hw
    have hc2 := two_layer_cost (hT' m' le_rfl)
    rw [Finset.sum_congr rfl fun i hi => by rw [hang m' le_rfl i (Finset.mem_range.1 hi)], Finset.sum_const, Finset.card_range, nsmul_eq_mul] at hc2
    rw [← Except.ok.inj hw]
    exact hc2
  obtain ⟨b1, b2⟩ := turnAngle_bounds m'
  have hlow : (0.06 : ℝ) ≤ turnAngle m' := by
    have : (0.99 : ℝ) ^ 40 ≤ 0.99 ^ m' := pow_le_pow_of_le_one (by norm_num) (by norm_num) hm'
    have h6 : (0.6 : ℝ) ≤ 0.99 ^ 40 := by norm_num
    linarith
  have hV1c := plus_cost hun hplus
  refine ⟨plus_cost (hadamardAll_unitary n) plus_hadamard, hV1c, fun W hW => ?_, ⟨turnAngle m', hlow, b2, hcost⟩, ?_⟩
  · rw [field_cost, neg_le_neg_iff]
    calc ∑ i ∈ Finset.range n, cost (pauliWord (placed n [.X] [i])) W ≤ ∑ i ∈ Finset.range n, (1 : ℝ) := Finset.sum_le_sum fun i _ => by
          have := (abs_le.1 (cost_abs_le (pauliWord (placed n [.X] [i])) W hW)).2
          rwa [pauliWord_norm] at this
      _ = n := by simp
  · rw [hV1c, hcost]
    have hcos : Real.cos (turnAngle m') < 1 := by
      have := Real.cos_lt_cos_of_nonneg_of_le_pi_div_two le_rfl (by linarith [Real.pi_gt_three]) (show (0 : ℝ) < turnAngle m' by linarith)
      rwa [Real.cos_zero] at this
    have hn' : (2 : ℝ) ≤ n := by exact_mod_cast hn
    nlinarith

/-- C144 (run).  A run of `approximate_lie_optimizer` with this layer, from the circuit of Hadamard gates, with two steps or more and whatever other arguments,
reports the smallest possible cost twice and a larger one then. -/
theorem C144_run (hn : 2 ≤ n) (E : LayerEnv n) (hs : ValidSvd E.svd) (hgd : ValidGd E.gd) (eigh : EighFn n) (rnd : ℕ → Matrix (Fin (2 ^ n)) (Fin (2 ^ n)) ℝ) (la : LayerArgs) (L : AdaptLayer n)
    (hL : adaptLayer n ((fieldGates n).map Gate.obs) la = .ok L) (args : ApproxArgs) (ho : args.returnOmegas = .bool false) (hv : ∃ N e t F, ApproxValid args N e t F ∧ 2 ≤ N) :
    ∃ out, approximateLieOptimizer E eigh rnd .state (tfimCircuit n) [] ((fieldGates n).map Gate.obs) (fun _ : Fin 1 => .adapt L) [0] args = .ok out ∧
      (approxCosts out.1)[0]? = some (-n : ℝ) ∧ (approxCosts out.1)[1]? = some (-n : ℝ) ∧ ∃ x, 0.06 ≤ x ∧ x ≤ 0.1 ∧ (approxCosts out.1)[2]? = some (-(n * Real.cos x)) := by
  obtain ⟨N, e, t, F, hv, hN⟩ := hv
  obtain ⟨out, hout⟩ := (C79_runs_succeed hn E hs hgd eigh rnd .state (tfimOps n) [] (fieldGates n) (fun _ : Fin 1 => .adapt L) [0] args (by simp)
    (fun _ => .inr ⟨_, la, L, hL, rfl⟩) (by simp) ho).2 ⟨rfl, N, e, t, F, hv⟩
  rw [← tfimOps_eq] at hout
  obtain ⟨-, N', e', t', F', hv', V, W, j, r, h0, hp0, ho0, hrun, hr, hcost, -⟩ := approx_outcome E eigh rnd .state (tfimCircuit n) [] (fieldGates n) _ _ args out hout
  have hNN : N' = N := by
    have := hv'.nsteps.symm.trans hv.nsteps
    have := NArg.int.inj this
    omega
  subst hNN
  have hout1 : approxCosts out.1 = r.costs := by rw [hr]; exact (approxOutput_read r F').1
  have hj : 2 ≤ j := by
    rcases hrun.ended with h | ⟨-, k, h, h9, -⟩
    · rw [h]; exact hN
    · have : 9 ≤ k := h9
      omega
  have hV0 : (V 0).U = hadamardAll n := Except.ok.inj (h0.symm.trans (tfim_compile _))
  obtain ⟨i, L₁, -, hcall, ho1⟩ := hrun.advance 0 (by omega)
  rw [hrun.start, ho0, hp0, hV0] at hcall
  have hW1 : W 1 = V 1 := hrun.kept 0 (by omega) (.inl fun h => by have : 9 ≤ 0 := h.1; omega)
  obtain ⟨i', L₂, -, hcall', -⟩ := hrun.advance 1 (by omega)
  rw [hW1] at hcall'
  have hobj : (V 1).objs i' = L₁ := by
    rw [ho1, Subsingleton.elim i' i, Function.update_self]
  rw [hobj] at hcall'
  obtain ⟨c0, c1, -, ⟨x, x1, x2, c2⟩, -⟩ := C144_raises hn E hgd la L hL _ _ _ _ _ _ hcall hcall'
  refine ⟨out, hout, ?_, ?_, x, x1, x2, ?_⟩
  · rw [hout1, hcost, List.getElem?_map, List.getElem?_range (by omega), Option.map_some, hV0, c0]
  · rw [hout1, hcost, List.getElem?_map, List.getElem?_range (by omega), Option.map_some]
    exact congrArg some c1
  · rw [hout1, hcost, List.getElem?_map, List.getElem?_range (by omega), Option.map_some]
    exact congrArg some c2

theorem fieldLayer (n : ℕ) : ∃ L, adaptLayer n ((fieldGates n).map Gate.obs) {} = .ok L := by
  obtain ⟨a, ha, -⟩ := algebraSU4_getAll n
  rw [adaptLayer, promoteAll_gates, ha]
  simp only [bind, Except.bind]
  rw [show validateEta (Option.getD ({} : LayerArgs).eta (.float 0.1)) = .ok 0.1 from defaultEta_ok']
  exact ⟨_, rfl⟩

/-- Hypotheses of C144 met: on every register of two or more qubits there is such a layer, and both calls succeed. -/
example (hn : 2 ≤ n) : ∃ (E : LayerEnv n) (L : AdaptLayer n), ValidGd E.gd ∧ adaptLayer n ((fieldGates n).map Gate.obs) {} = .ok L ∧
    ∃ V₁ ps₁ L₁ V₂ ps₂ L₂, (AnyLayer.adapt L).call E [] (hadamardAll n) = .ok (V₁, ps₁, .adapt L₁) ∧ (AnyLayer.adapt L₁).call E ps₁ V₁ = .ok (V₂, ps₂, L₂) := by
  obtain ⟨svd, hsvd⟩ := exists_validSvd n
  obtain ⟨gd, hgd⟩ := exists_validGd
  obtain ⟨L, hL⟩ := fieldLayer n
  let E : LayerEnv n := ⟨svd, ⟨List.reverse, List.reverse_perm⟩, gd⟩
  have hG : ValidGd E.gd := hgd
  have hl : L.layers = [] := (adaptLayer_inv hL).2.2
  obtain ⟨V, ps, L', h, hi, hle, ht⟩ := adapt_call_table hn E hG (fieldGates n) (adaptInv_fresh hL) (θ := []) (r := 0) (by rw [hl]; simp) ⟨rfl, by simp⟩ (hadamardAll n)
  obtain ⟨V', ps', L'', h', -⟩ := adapt_call_table hn E hG (fieldGates n) hi (θ := ps) (r := 1) (by rw [hle, hl]; simp) ht V
  exact ⟨E, L, hG, hL, V, ps, L', V', ps', _, h, h'⟩

/-- The arguments of the run in C144 exist, for example the default ones. -/
example : ∃ N e t F, ApproxValid {} N e t F ∧ 2 ≤ N :=
  ⟨40, 0.1, some (.fin 1e-3), ⟨false, false, false, false, false, false, false⟩, by constructor <;> first | rfl | exact ⟨rfl, by norm_num⟩ | norm_num, by norm_num⟩

end Oranssi
