import Verif.Props.AdaptRate
import Verif.Lemmas.StepBound

/-! # C143: what a call of an `AdaptVQELayer` does to the cost of the circuit it is given -/

namespace Oranssi
open Spec
open scoped Matrix
open scoped Matrix.Norms.L2Operator

variable {n : ℕ}

theorem zipWith_right {α β γ : Type} (g : β → γ) : ∀ (l : List α) (l' : List β), l'.length ≤ l.length → List.zipWith (fun _ b => g b) l l' = l'.map g
  | _, [], _ => by simp
  | [], b :: l', h => by simp at h
  | a :: l, b :: l', h => by
    rw [List.zipWith_cons_cons, List.map_cons, zipWith_right g l l' (by simpa using h)]

theorem cols_length (hn : 1 ≤ n) (k : LayerKind) : (k.sites n).length ≤ (k.cols n).length := by
  have h := sites_size hn k
  cases k with
  | single => simp [LayerKind.sites, LayerKind.cols]
  | even =>
    simp only [layerSize, LayerKind.toParity] at h
    simp only [LayerKind.cols, List.length_range]
    omega
  | odd => simp [LayerKind.sites, LayerKind.cols]

theorem layerRots_const (hn : 1 ≤ n) (c : List Letter × LayerKind) (t : ℝ) : layerRots n c (List.replicate n t) = (c.2.sites n).map (fun q => rotOp n t c.1 q) := by
  have e : (c.2.cols n).map (fun i => (List.replicate n t).getD i 0) = (c.2.cols n).map (fun _ => t) := by
    refine List.map_congr_left fun i hi => ?_
    have := cols_lt hn c.2 i hi
    rw [List.getD_eq_getElem _ _ (by rwa [List.length_replicate]), List.getElem_replicate]
  rw [layerRots, angles_cols c.2 (by simp) hn, e, List.zipWith_map_left]
  exact zipWith_right (fun q => rotOp n t c.1 q) _ _ (cols_length hn c.2)

/-- A layer in which all the angles are `t`. -/
theorem layer_kick (hn : 1 ≤ n) {H U : QMat n} (hH : Hᴴ = H) (hU : Unitary U) (c : List Letter × LayerKind) {t : ℝ} (ht : 0 ≤ t) :
    |cost H (inOrder (layerRots n c (List.replicate n t)) * U) - cost H U + t / 2 * ((c.2.sites n).map (fun q => grad H U (pauliWord (placed n c.1 q)))).sum| ≤
      ‖H‖ * t ^ 2 * (c.2.sites n).length ^ 2 / 2 := by
  have hA : ∀ A ∈ (c.2.sites n).map (fun q => (-Complex.I / 2) • pauliWord (placed n c.1 q)), Aᴴ = -A := by
    intro A h
    obtain ⟨q, -, rfl⟩ := List.mem_map.1 h
    rw [Matrix.conjTranspose_smul, pauliWord_herm, ← neg_smul]
    congr 1
    simp
    ring
  have h := cost_fold_le H U hH hU _ hA ht
  have e1 : (((c.2.sites n).map (fun q => (-Complex.I / 2) • pauliWord (placed n c.1 q))).map (fun A => NormedSpace.exp ((t : ℂ) • A))) = layerRots n c (List.replicate n t) := by
    rw [layerRots_const hn, List.map_map]
    refine List.map_congr_left fun q _ => ?_
    rw [Function.comp_apply, smul_smul, rotOp_exp_half, half_angle]
  have e2 : (((c.2.sites n).map (fun q => (-Complex.I / 2) • pauliWord (placed n c.1 q))).map norm).sum = (c.2.sites n).length / 2 := by
    rw [List.map_map, List.map_congr_left (g := fun _ => (1 / 2 : ℝ)) fun q _ => by
      rw [Function.comp_apply, norm_smul, pauliWord_norm]; simp]
    simp
    ring
  have e3 : ∀ l : List (List ℕ), (star (fun i => U i 0) ⬝ᵥ ((H * (l.map (fun q => (-Complex.I / 2) • pauliWord (placed n c.1 q))).sum -
      (l.map (fun q => (-Complex.I / 2) • pauliWord (placed n c.1 q))).sum * H) *ᵥ (fun i => U i 0))).re = -(1 / 2) * (l.map (fun q => grad H U (pauliWord (placed n c.1 q)))).sum := by
    intro l
    induction l with
    | nil => simp
    | cons q l ih =>
      simp only [List.map_cons, List.sum_cons]
      have : H * ((-Complex.I / 2) • pauliWord (placed n c.1 q) + (l.map (fun q => (-Complex.I / 2) • pauliWord (placed n c.1 q))).sum) -
          ((-Complex.I / 2) • pauliWord (placed n c.1 q) + (l.map (fun q => (-Complex.I / 2) • pauliWord (placed n c.1 q))).sum) * H =
          (Complex.I / 2) • (pauliWord (placed n c.1 q) * H - H * pauliWord (placed n c.1 q)) +
          (H * (l.map (fun q => (-Complex.I / 2) • pauliWord (placed n c.1 q))).sum - (l.map (fun q => (-Complex.I / 2) • pauliWord (placed n c.1 q))).sum * H) := by
        rw [Matrix.mul_add, Matrix.add_mul, Matrix.mul_smul, Matrix.smul_mul, smul_sub, neg_div, neg_smul, neg_smul]
        abel
      rw [this, Matrix.add_mulVec, dotProduct_add, Complex.add_re, ih, Matrix.smul_mulVec, dotProduct_smul, mul_add, grad]
      congr 1
      simp
  rw [e1, e2, e3] at h
  have hf := fold_mul_right (layerRots n c (List.replicate n t)) 1 U
  rw [Matrix.one_mul] at hf
  rw [hf] at h
  have r1 : ‖H‖ * t ^ 2 * (c.2.sites n).length ^ 2 / 2 = 2 * ‖H‖ * (t * ((c.2.sites n).length / 2)) ^ 2 := by ring
  rw [r1]
  refine le_trans (le_of_eq ?_) h
  rw [inOrder]
  congr 1
  ring

/-- C143.  A call of an `AdaptVQELayer` that is given the circuit of its layers, with the parameters that go with it (as the call before returned
them), for Hermitian observables and layers with together at most `100 / ‖H‖` rotations: the new layer, which has the angles 0.1 at first, changes the cost by
`-0.05` times the sum of its gradients to first order, and the training does not raise the cost.  What is returned is again the circuit of the layers with its parameters. -/
theorem C143_call (hn : 2 ≤ n) (E : LayerEnv n) (hgd : ValidGd E.gd) (gs : List (Gate n)) (hg : ∀ g ∈ gs, g.Aᴴ = g.A) (la : LayerArgs) (L L₁ : AdaptLayer n)
    (hL : adaptLayer n (gs.map Gate.obs) la = .ok L) (inputs : List (VqeOptimizer × List (List ℝ) × QMat n)) (h1 : L.runAll inputs = .ok L₁)
    (params params' : List (List ℝ)) (hp : IsTable params L₁.layers.length n) (U V : QMat n) (L' : AnyLayer n)
    (hU : circuitUnitary n (circuitVqe n L₁.layers) params = .ok U)
    (hsmall : ∀ k, L₁.select U = .ok k → ‖totalObs gs‖ * (((L₁.layers ++ [k]).map (fun l => layerSize n l.2)).sum : ℕ) ≤ 100)
    (h : (AnyLayer.adapt L₁).call E params U = .ok (V, params', L')) :
    ∃ c ∈ candidateLayers, L₁.select U = .ok (letterStr c.1, c.2.toParity) ∧ IsTable params' (L₁.layers.length + 1) n ∧
      circuitUnitary n (circuitVqe n (L₁.layers ++ [(letterStr c.1, c.2.toParity)])) params' = .ok V ∧
      cost (totalObs gs) V ≤ cost (totalObs gs) U - 0.05 * ((c.2.sites n).map (fun q => grad (totalObs gs) U (pauliWord (placed n c.1 q)))).sum +
        0.005 * ‖totalObs gs‖ * (c.2.sites n).length ^ 2 := by
  obtain ⟨hok, cs₁, hcs₁, hl⟩ := reached_layers hn hL h1
  obtain ⟨c, hc, hm⟩ := adapt_select hn hok U
  have hcand : c ∈ candidateLayers := (List.mem_filter.1 hm.mem).1
  have hcs : ∀ x ∈ cs₁ ++ [c], GoodLayer x := by
    intro x hx
    rcases List.mem_append.1 hx with hx | hx
    · exact candidate_good (hcs₁ x hx)
    · rw [List.mem_singleton.1 hx]; exact candidate_good hcand
  have hlen : L₁.layers.length = cs₁.length := by rw [hl, List.length_map]
  obtain ⟨k, F, θ, W, m, hk, -, -, h0, hps, hV, hW, -, hcost, -⟩ := C142_training hn E hgd gs hg la L L₁ hL inputs h1 params params' _ le_rfl hp U V L' hsmall h
  obtain ⟨k', F', θ', m', hk', -, -, -, hT, -, hps', -⟩ := C79_training hn E hgd gs la L L₁ hL inputs h1 params params' _ le_rfl hp U V L' h
  have e : k = (letterStr c.1, c.2.toParity) := by
    rw [hk] at hc
    exact Except.ok.inj hc
  subst e
  have hUeq : U = inOrder (List.zipWith (layerRots n) cs₁ params).flatten * hadamardAll n := by
    rw [hl, circuitVqe_table hn (fun x hx => hcs x (List.mem_append_left _ hx)) le_rfl (by rw [← hlen]; exact hp)] at hU
    exact (Except.ok.inj hU).symm
  have hUu : Unitary U := by
    rw [hUeq, ← adapt_ansatz (by omega) (by rw [← hlen]; exact hp) le_rfl]
    exact ansatz_unitary (adaptPieces_valid cs₁) _
  have hel : L₁.layers ++ [(letterStr c.1, c.2.toParity)] = (cs₁ ++ [c]).map (fun c => (letterStr c.1, c.2.toParity)) := by rw [hl]; simp
  have hW0 : W 0 = inOrder (layerRots n c (List.replicate n 0.1)) * U := by
    have := hW 0 (Nat.zero_le _)
    rw [h0, hel, circuitVqe_table hn hcs (r := L₁.layers.length + 1) (by rw [hlen]; simp) (isTable_append hp 0.1)] at this
    rw [← Except.ok.inj this, List.zipWith_append (by rw [hp.1, hlen]), List.flatten_append, hUeq, ← Matrix.mul_assoc]
    congr 1
    rw [inOrder, List.foldl_append]
    have := fold_mul_right (layerRots n c (List.replicate n 0.1)) 1 (inOrder (List.zipWith (layerRots n) cs₁ params).flatten)
    rw [Matrix.one_mul] at this
    rw [List.zipWith_cons_cons, List.zipWith_nil_left, List.flatten_singleton]
    exact this
  refine ⟨c, hcand, hc, by rw [hps']; exact hT _ le_rfl, ?_, ?_⟩
  · rw [hps, hV]; exact hW m le_rfl
  · have h2 := (abs_le.1 (layer_kick (by omega) (totalObs_herm gs hg) hUu c (t := 0.1) (by norm_num))).2
    rw [← hW0] at h2
    have h3 : 0 ≤ ∑ j ∈ Finset.range m, shiftSq F (L₁.layers.length + 1) n (θ j) :=
      Finset.sum_nonneg fun _ _ => Finset.sum_nonneg fun _ _ => Finset.sum_nonneg fun _ _ => sq_nonneg _
    linarith

/-- Hypotheses of C143 met by a non-trivial case: the first call of a layer for one observable on two qubits, given the circuit of no layers. -/
example : ∃ (E : LayerEnv 2) (L : AdaptLayer 2), ValidGd E.gd ∧ (∀ g ∈ [exObsZ], g.Aᴴ = g.A) ∧ adaptLayer 2 ([exObsZ].map Gate.obs) {} = .ok L ∧
    L.runAll [] = .ok L ∧ IsTable [] L.layers.length 2 ∧ circuitUnitary 2 (circuitVqe 2 L.layers) [] = .ok (hadamardAll 2) ∧
    (∀ k, L.select (hadamardAll 2) = .ok k → ‖totalObs [exObsZ]‖ * (((L.layers ++ [k]).map (fun l => layerSize 2 l.2)).sum : ℕ) ≤ 100) ∧
    ∃ V ps L', (AnyLayer.adapt L).call E [] (hadamardAll 2) = .ok (V, ps, L') := by
  obtain ⟨svd, hsvd⟩ := exists_validSvd 2
  obtain ⟨gd, hgd⟩ := exists_validGd
  obtain ⟨L, hL⟩ := exAdapt
  let E : LayerEnv 2 := ⟨svd, ⟨List.reverse, List.reverse_perm⟩, gd⟩
  have hG : ValidGd E.gd := hgd
  have hl : L.layers = [] := (adaptLayer_inv hL).2.2
  obtain ⟨V, ps, L', h, -⟩ := adapt_call_table le_rfl E hG [exObsZ] (adaptInv_fresh hL) (θ := []) (r := 0) (by rw [hl]; simp) ⟨rfl, by simp⟩ (hadamardAll 2)
  have ht : IsTable [] 0 2 := ⟨rfl, by simp⟩
  have hc := circuitVqe_table (n := 2) le_rfl (cs := []) (by simp) le_rfl ht
  refine ⟨E, L, hG, exObsZ_herm, hL, rfl, by rw [hl]; exact ht, ?_, fun k _ => ?_, V, ps, _, h⟩
  · rw [hl]
    simpa [inOrder] using hc
  · refine C142_small (fun g hg => ?_) (by norm_num) _ (by rw [hl]; simp)
    rw [List.mem_singleton] at hg
    subst hg
    exact ⟨pauliWord_herm _, pauliWord_sq _⟩

end Oranssi
