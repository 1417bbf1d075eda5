import Verif.Props.AdaptKick
import Mathlib.Algebra.Order.Chebyshev

/-! # C146: how far the angles of an `AdaptVQELayer` move in a call -/

namespace Oranssi
open Spec
open scoped Matrix
open scoped Matrix.Norms.L2Operator

variable {n : ℕ}

theorem adaptCost_le (hn : 1 ≤ n) (gs : List (Gate n)) {cs : List (List Letter × LayerKind)} {θ : List (List ℝ)} {r : ℕ} (hr : cs.length ≤ r) (hθ : IsTable θ r n) :
    |adaptCost gs cs θ| ≤ ‖totalObs gs‖ := by
  rw [adaptCost, ← adapt_ansatz hn hθ hr]
  exact cost_abs_le _ _ (ansatz_unitary (adaptPieces_valid cs) _)

theorem shiftRule_le (hn : 1 ≤ n) (gs : List (Gate n)) {cs : List (List Letter × LayerKind)} {θ : List (List ℝ)} {r : ℕ} (hr : cs.length ≤ r) (hθ : IsTable θ r n) (j i : ℕ) :
    |shiftRule (adaptCost gs cs) θ j i| ≤ ‖totalObs gs‖ := by
  have h1 := abs_le.1 (adaptCost_le hn gs hr (isTable_set hθ j i (angle θ j i + Real.pi / 2)))
  have h2 := abs_le.1 (adaptCost_le hn gs hr (isTable_set hθ j i (angle θ j i - Real.pi / 2)))
  rw [shiftRule, abs_le]
  constructor <;> linarith

/-- C146.  In a call of an `AdaptVQELayer`, with PennyLane's gradient descent, no angle moves by more than `0.4 ‖H‖`: neither the ones it is given nor the ones of the new
layer, which begin at 0.1. -/
theorem C146_reach (hn : 2 ≤ n) (E : LayerEnv n) (hgd : ValidGd E.gd) (gs : List (Gate n)) (la : LayerArgs) (L L₁ : AdaptLayer n)
    (hL : adaptLayer n (gs.map Gate.obs) la = .ok L) (inputs : List (VqeOptimizer × List (List ℝ) × QMat n)) (h1 : L.runAll inputs = .ok L₁)
    (params params' : List (List ℝ)) (r : ℕ) (hr : L₁.layers.length ≤ r) (hp : IsTable params r n) (U V : QMat n) (L' : AnyLayer n)
    (h : (AnyLayer.adapt L₁).call E params U = .ok (V, params', L')) :
    (∀ j < r, ∀ i < n, |angle params' j i - angle params j i| ≤ 0.4 * ‖totalObs gs‖) ∧
    ∀ i < n, |angle params' r i - 0.1| ≤ 0.4 * ‖totalObs gs‖ := by
  obtain ⟨hok, cs₁, hcs₁, hl⟩ := reached_layers hn hL h1
  have hinv : AdaptInv gs L₁ := ⟨hok, cs₁, fun c hc => candidate_good (hcs₁ c hc), hl⟩
  obtain ⟨k, θ, W, m, hk, -, hm, h0, hstep, hW, -, hstop, h4, h5⟩ := C78_adapt_step E gs L₁ hok.obs params params' U V L' h
  obtain ⟨k', cs, hk', hcs, e⟩ := adaptInv_select hn hinv U
  rw [hk] at hk'
  obtain rfl := Except.ok.inj hk'
  have hlen := congrArg List.length e
  rw [List.length_append, List.length_singleton, List.length_map] at hlen
  have hT0 : IsTable (θ 0) (r + 1) n := by rw [h0]; exact isTable_append hp 0.1
  rw [e] at hstep
  obtain ⟨hT, hA⟩ := inner_tables hn hgd gs hcs (by omega) hT0 0.01 hstep
  have key : ∀ l ≤ m, ∀ j < r + 1, ∀ i < n, |angle (θ l) j i - angle (θ 0) j i| ≤ 0.01 * l * ‖totalObs gs‖ := by
    intro l
    induction l with
    | zero => intro _ j _ i _; simp
    | succ l ih =>
      intro hlm j hj i hi
      have a := abs_le.1 (ih (by omega) j hj i hi)
      have b := abs_le.1 (shiftRule_le (by omega) gs (r := r + 1) (cs := cs) (by omega) (hT l (by omega)) j i)
      rw [hA l (by omega) j hj i hi, abs_le]
      push_cast
      constructor <;> nlinarith [a.1, a.2, b.1, b.2]
  have fin : ∀ j < r + 1, ∀ i < n, |angle params' j i - angle (θ 0) j i| ≤ 0.4 * ‖totalObs gs‖ := by
    intro j hj i hi
    rw [h4]
    refine (key m le_rfl j hj i hi).trans (mul_le_mul_of_nonneg_right ?_ (norm_nonneg _))
    have : (m : ℝ) ≤ 40 := by exact_mod_cast hm
    linarith
  refine ⟨fun j hj i hi => ?_, fun i hi => ?_⟩
  · have := fin j (by omega) i hi
    rwa [h0, angle, angle, List.getD_append _ _ _ _ (by rw [hp.1]; exact hj)] at this
  · have := fin r (by omega) i hi
    rwa [h0, show angle (params ++ [List.replicate n 0.1]) r i = 0.1 by
      rw [angle, List.getD_append_right _ _ _ _ (by rw [hp.1]), hp.1, Nat.sub_self, List.getD_cons_zero, List.getD_eq_getElem _ _ (by simpa using hi), List.getElem_replicate]] at this

/-- C146: if `‖H‖ < 1/4`, every angle of the new layer is positive when the call returns, also when the cost falls in the other direction. -/
theorem C146_positive (hn : 2 ≤ n) (E : LayerEnv n) (hgd : ValidGd E.gd) (gs : List (Gate n)) (la : LayerArgs) (L L₁ : AdaptLayer n)
    (hL : adaptLayer n (gs.map Gate.obs) la = .ok L) (inputs : List (VqeOptimizer × List (List ℝ) × QMat n)) (h1 : L.runAll inputs = .ok L₁)
    (params params' : List (List ℝ)) (r : ℕ) (hr : L₁.layers.length ≤ r) (hp : IsTable params r n) (U V : QMat n) (L' : AnyLayer n)
    (h : (AnyLayer.adapt L₁).call E params U = .ok (V, params', L')) (hH : ‖totalObs gs‖ < 1 / 4) (i : ℕ) (hi : i < n) : 0 < angle params' r i := by
  have := abs_le.1 ((C146_reach hn E hgd gs la L L₁ hL inputs h1 params params' r hr hp U V L' h).2 i hi)
  linarith [this.1]

theorem moved_sq {m : ℕ} (hm : m ≤ 40) (f : ℕ → ℝ) : (-0.01 * ∑ a ∈ Finset.range m, f a) ^ 2 ≤ 0.004 * ∑ a ∈ Finset.range m, f a ^ 2 := by
  have c := sq_sum_le_card_mul_sum_sq (s := Finset.range m) (f := f)
  rw [Finset.card_range] at c
  have hm' : (m : ℝ) ≤ 40 := by exact_mod_cast hm
  have hnn : 0 ≤ ∑ a ∈ Finset.range m, f a ^ 2 := Finset.sum_nonneg fun _ _ => sq_nonneg _
  have := mul_le_mul_of_nonneg_right hm' hnn
  rw [mul_pow]
  linarith

theorem sum_swap (c : ℝ) (R N m : ℕ) (f : ℕ → ℕ → ℕ → ℝ) : ∑ j ∈ Finset.range R, ∑ i ∈ Finset.range N, c * ∑ a ∈ Finset.range m, f a j i =
    c * ∑ a ∈ Finset.range m, ∑ j ∈ Finset.range R, ∑ i ∈ Finset.range N, f a j i := by
  simp only [← Finset.mul_sum]
  rw [Finset.sum_comm (s := Finset.range m)]
  refine congrArg (fun x => c * x) (Finset.sum_congr rfl fun j _ => Finset.sum_comm)

/-- C146 (small circuits).  Where the training descends (C142), the squared distance that the table of angles moves is at most 0.8 times the amount by which the training lowers the cost. -/
theorem C146_distance (hn : 2 ≤ n) (E : LayerEnv n) (hgd : ValidGd E.gd) (gs : List (Gate n)) (hg : ∀ g ∈ gs, g.Aᴴ = g.A) (la : LayerArgs) (L L₁ : AdaptLayer n)
    (hL : adaptLayer n (gs.map Gate.obs) la = .ok L) (inputs : List (VqeOptimizer × List (List ℝ) × QMat n)) (h1 : L.runAll inputs = .ok L₁)
    (params params' : List (List ℝ)) (r : ℕ) (hr : L₁.layers.length ≤ r) (hp : IsTable params r n) (U V : QMat n) (L' : AnyLayer n)
    (hsmall : ∀ k, L₁.select U = .ok k → ‖totalObs gs‖ * (((L₁.layers ++ [k]).map (fun l => layerSize n l.2)).sum : ℕ) ≤ 100)
    (h : (AnyLayer.adapt L₁).call E params U = .ok (V, params', L')) :
    ∃ (k : String × Parity) (W : QMat n), L₁.select U = .ok k ∧
      circuitUnitary n (circuitVqe n (L₁.layers ++ [k])) (params ++ [List.replicate n 0.1]) = .ok W ∧
      ∑ j ∈ Finset.range (r + 1), ∑ i ∈ Finset.range n, (angle params' j i - angle (params ++ [List.replicate n 0.1]) j i) ^ 2 ≤
        0.8 * (cost (totalObs gs) W - cost (totalObs gs) V) := by
  obtain ⟨hok, cs₁, hcs₁, hl⟩ := reached_layers hn hL h1
  have hinv : AdaptInv gs L₁ := ⟨hok, cs₁, fun c hc => candidate_good (hcs₁ c hc), hl⟩
  obtain ⟨k, θ, W, m, hk, -, hm, h0, hstep, hW, -, hstop, h4, h5⟩ := C78_adapt_step E gs L₁ hok.obs params params' U V L' h
  obtain ⟨k', cs, hk', hcs, e⟩ := adaptInv_select hn hinv U
  rw [hk] at hk'
  obtain rfl := Except.ok.inj hk'
  have hW0 := hW 0 (Nat.zero_le _)
  rw [h0] at hW0
  have hlen := congrArg List.length e
  rw [List.length_append, List.length_singleton, List.length_map] at hlen
  have hT0 : IsTable (θ 0) (r + 1) n := by rw [h0]; exact isTable_append hp 0.1
  have hs := hsmall k hk
  rw [e] at hstep hW hs
  obtain ⟨hT, hA⟩ := inner_tables hn hgd gs hcs (by omega) hT0 0.01 hstep
  have hF : ∀ j ≤ m, cost (totalObs gs) (W j) = adaptCost gs cs (θ j) := by
    intro j hj
    have := hW j hj
    rw [circuitVqe_table hn hcs (by omega) (hT j hj)] at this
    rw [← Except.ok.inj this]
    rfl
  have hrot : (rotations n cs : ℝ) ≤ (((cs.map (fun c => (letterStr c.1, c.2.toParity))).map (fun l => layerSize n l.2)).sum : ℕ) := by
    exact_mod_cast rotations_size (by omega) cs
  have hsm : ‖totalObs gs‖ * rotations n cs * 0.01 ≤ 1 := by
    have := mul_le_mul_of_nonneg_left hrot (norm_nonneg (totalObs gs))
    linarith
  have hsum : ∀ l ≤ m, 0.005 * ∑ j ∈ Finset.range l, shiftSq (adaptCost gs cs) (r + 1) n (θ j) ≤ cost (totalObs gs) (W 0) - cost (totalObs gs) (W l) := by
    intro l
    induction l with
    | zero => intro _; simp
    | succ l ih =>
      intro hl
      have h1 := ih (by omega)
      have h2 := adapt_drop (by omega) gs hg (by omega) (hT l (by omega)) (hT (l + 1) (by omega)) (by norm_num) hsm (hA l (by omega))
      rw [hF (l + 1) (by omega)]
      rw [hF l (by omega)] at h1
      rw [Finset.sum_range_succ]
      linarith
  have hmove : ∀ l ≤ m, ∀ j < r + 1, ∀ i < n, angle (θ l) j i - angle (θ 0) j i = -0.01 * ∑ a ∈ Finset.range l, shiftRule (adaptCost gs cs) (θ a) j i := by
    intro l
    induction l with
    | zero => intro _ j _ i _; simp
    | succ l ih =>
      intro hl j hj i hi
      have := ih (by omega) j hj i hi
      rw [hA l (by omega) j hj i hi, Finset.sum_range_succ]
      linarith
  refine ⟨k, W 0, hk, hW0, ?_⟩
  rw [← h0, h4, h5]
  have hterm : ∀ j ∈ Finset.range (r + 1), ∀ i ∈ Finset.range n, (angle (θ m) j i - angle (θ 0) j i) ^ 2 ≤
      0.004 * ∑ a ∈ Finset.range m, shiftRule (adaptCost gs cs) (θ a) j i ^ 2 := by
    intro j hj i hi
    rw [hmove m le_rfl j (Finset.mem_range.1 hj) i (Finset.mem_range.1 hi)]
    exact moved_sq hm _
  refine (Finset.sum_le_sum fun j hj => Finset.sum_le_sum (hterm j hj)).trans ?_
  have hswap : ∑ j ∈ Finset.range (r + 1), ∑ i ∈ Finset.range n, 0.004 * ∑ a ∈ Finset.range m, shiftRule (adaptCost gs cs) (θ a) j i ^ 2 =
      0.004 * ∑ a ∈ Finset.range m, shiftSq (adaptCost gs cs) (r + 1) n (θ a) := by
    exact sum_swap _ _ _ _ (fun a j i => shiftRule (adaptCost gs cs) (θ a) j i ^ 2)
  rw [hswap]
  have := hsum m le_rfl
  linarith

/-- The observable `0.2 Z` on the second of two qubits. -/
noncomputable def weakObs : Gate 2 := ⟨[1], (0.2 : ℂ) • pauliWord (n := 1) (fun _ => .Z), by simp, by simp, by simp⟩

theorem weakObs_norm : ‖totalObs [weakObs]‖ < 1 / 4 := by
  have e : totalObs [weakObs] = (0.2 : ℂ) • totalObs [exObsZ] := by
    simp only [totalObs, List.map_cons, List.map_nil, List.sum_cons, List.sum_nil, add_zero]
    exact full_smul _ _
  have h : ‖totalObs [exObsZ]‖ ≤ 1 := by
    refine (totalObs_norm [exObsZ] fun g hg => ?_).trans (by norm_num)
    rw [List.mem_singleton] at hg
    subst hg
    exact ⟨pauliWord_herm _, pauliWord_sq _⟩
  rw [e, norm_smul]
  have : ‖(0.2 : ℂ)‖ = 0.2 := by norm_num
  rw [this]
  linarith

/-- Hypotheses of C146 met: two qubits, the observable `0.2 Z`, one row of parameters. -/
example : ∃ (E : LayerEnv 2) (L : AdaptLayer 2), ValidGd E.gd ∧ adaptLayer 2 ([weakObs].map Gate.obs) {} = .ok L ∧ L.layers.length = 0 ∧ ‖totalObs [weakObs]‖ < 1 / 4 ∧
    IsTable [[0.3, 0.2]] 1 2 ∧ ∃ V ps L', (AnyLayer.adapt L).call E [[0.3, 0.2]] 1 = .ok (V, ps, L') := by
  obtain ⟨svd, hsvd⟩ := exists_validSvd 2
  obtain ⟨gd, hgd⟩ := exists_validGd
  have ⟨L, hL⟩ : ∃ L, adaptLayer 2 ([weakObs].map Gate.obs) {} = .ok L := by
    obtain ⟨a, ha, -⟩ := algebraSU4_getAll 2
    rw [adaptLayer, promoteAll_gates, ha]
    simp only [bind, Except.bind]
    rw [show validateEta (Option.getD ({} : LayerArgs).eta (.float 0.1)) = .ok 0.1 from defaultEta_ok']
    exact ⟨_, rfl⟩
  let E : LayerEnv 2 := ⟨svd, ⟨List.reverse, List.reverse_perm⟩, gd⟩
  have hG : ValidGd E.gd := hgd
  have hl : L.layers = [] := (adaptLayer_inv hL).2.2
  obtain ⟨V, ps, L', h, -⟩ := adapt_call_table le_rfl E hG [weakObs] (adaptInv_fresh hL) (θ := [[0.3, 0.2]]) (r := 1) (by rw [hl]; simp) ⟨rfl, by simp⟩ 1
  exact ⟨E, L, hG, hL, by rw [hl]; rfl, weakObs_norm, ⟨rfl, by simp⟩, V, ps, _, h⟩

end Oranssi
