import Verif.Spec.Ansatz
import Verif.Props.ExactRate
import Verif.Props.TfimVqePeriod
import Mathlib.Analysis.Calculus.FDeriv.Pow

/-! # C141: how fast `parameter_shift_optimizer` descends -/

namespace Oranssi
open Spec
open scoped Matrix
open scoped Matrix.Norms.L2Operator

variable {n : ℕ}

/-! ### Moving the parameters turns the state by a product of exponentials -/

theorem piece_unitary {p : Piece n} (h : p.Valid) (θ : ℕ → ℝ) : Unitary (p.mat θ) := by
  cases p with
  | fixed W => exact h
  | rot i G => exact flow_unitary h _

theorem ansatz_snoc (ps : List (Piece n)) (p : Piece n) (θ : ℕ → ℝ) : ansatz (ps ++ [p]) θ = p.mat θ * ansatz ps θ := by
  simp [ansatz]

theorem ansatz_unitary {ps : List (Piece n)} (h : ∀ p ∈ ps, p.Valid) (θ : ℕ → ℝ) : Unitary (ansatz ps θ) := by
  induction ps using List.reverseRecOn with
  | nil => simp [ansatz, Unitary]
  | append_singleton ps p ih =>
    rw [ansatz_snoc]
    have h1 := ih fun q hq => h q (by simp [hq])
    have h2 := piece_unitary (h p (by simp)) θ
    rw [Unitary] at *
    rw [Matrix.conjTranspose_mul, Matrix.mul_assoc, ← Matrix.mul_assoc _ _ (ansatz ps θ), h2, Matrix.one_mul, h1]

theorem exp_conj_unitary {W : QMat n} (hW : Unitary W) (A : QMat n) : NormedSpace.exp (W * A * Wᴴ) = W * NormedSpace.exp A * Wᴴ := by
  have h2 : W * Wᴴ = 1 := mul_eq_one_comm.1 hW
  have hu : IsUnit W := ⟨⟨W, Wᴴ, h2, hW⟩, rfl⟩
  have hi : W⁻¹ = Wᴴ := Matrix.inv_eq_left_inv hW
  have := Matrix.exp_conj W A hu
  rwa [hi] at this

/-- Conjugation passes through the product. -/
theorem fold_conj {W : QMat n} (hW : Unitary W) : ∀ (Fs : List (QMat n)) (U : QMat n),
    W * Fs.foldl (fun U F => F * U) U = (Fs.map (fun F => W * F * Wᴴ)).foldl (fun U F => F * U) (W * U)
  | [], _ => rfl
  | F :: Fs, U => by
    rw [List.foldl_cons, List.map_cons, List.foldl_cons, fold_conj hW Fs]
    congr 1
    have h : Wᴴ * W = 1 := hW
    simp only [Matrix.mul_assoc]
    rw [← Matrix.mul_assoc Wᴴ W, h, Matrix.one_mul]

theorem exp_add_smul (a b : ℝ) (G : QMat n) : NormedSpace.exp (((a + b : ℝ) : ℂ) • G) = NormedSpace.exp ((b : ℂ) • G) * NormedSpace.exp ((a : ℂ) • G) := by
  rw [← Matrix.exp_add_of_commute _ _ (((Commute.refl G).smul_left _).smul_right _), ← add_smul, add_comm]
  push_cast
  rfl

/-- At every point there are skew-Hermitian directions, one for each rotation and of the norm of its generator, such that a change `v` of the parameters multiplies the circuit by the
exponentials of the directions. -/
theorem ansatz_shift {ps : List (Piece n)} (h : ∀ p ∈ ps, p.Valid) (θ : ℕ → ℝ) :
    ∃ L : List (ℕ × QMat n), (∀ x ∈ L, x.2ᴴ = -x.2) ∧ L.map (fun x => (x.1, ‖x.2‖)) = ps.filterMap Piece.rate ∧
      ∀ v : ℕ → ℝ, ansatz ps (fun i => θ i + v i) = (L.map (fun x => NormedSpace.exp ((v x.1 : ℂ) • x.2))).foldl (fun U F => F * U) (ansatz ps θ) := by
  induction ps using List.reverseRecOn with
  | nil => exact ⟨[], by simp, rfl, fun v => rfl⟩
  | append_singleton ps p ih =>
    obtain ⟨L, h1, h2, h3⟩ := ih fun q hq => h q (by simp [hq])
    have hp := h p (by simp)
    have hW := piece_unitary hp θ
    set W := p.mat θ with hWd
    have hWs : W ∈ unitary (QMat n) := Unitary.mem_iff.2 ⟨hW, mul_eq_one_comm.1 hW⟩
    have hWs' : Wᴴ ∈ unitary (QMat n) := Unitary.star_mem hWs
    have hskew : ∀ x ∈ L.map (fun x : ℕ × QMat n => (x.1, W * x.2 * Wᴴ)), x.2ᴴ = -x.2 := by
      intro x hx
      obtain ⟨y, hy, rfl⟩ := List.mem_map.1 hx
      simp only
      rw [Matrix.conjTranspose_mul, Matrix.conjTranspose_mul, h1 y hy, Matrix.conjTranspose_conjTranspose]
      simp [Matrix.mul_assoc]
    have hnorm : (L.map (fun x : ℕ × QMat n => (x.1, W * x.2 * Wᴴ))).map (fun x => (x.1, ‖x.2‖)) = ps.filterMap Piece.rate := by
      rw [← h2, List.map_map]
      refine List.map_congr_left fun x _ => ?_
      simp only [Function.comp, CStarRing.norm_mul_mem_unitary _ hWs', CStarRing.norm_mem_unitary_mul _ hWs]
    have hmove : ∀ v : ℕ → ℝ, W * ansatz ps (fun i => θ i + v i) =
        ((L.map (fun x : ℕ × QMat n => (x.1, W * x.2 * Wᴴ))).map (fun x => NormedSpace.exp ((v x.1 : ℂ) • x.2))).foldl (fun U F => F * U) (W * ansatz ps θ) := by
      intro v
      rw [h3, fold_conj hW, List.map_map, List.map_map]
      congr 1
      refine List.map_congr_left fun x _ => ?_
      simp only [Function.comp]
      rw [← exp_conj_unitary hW, Matrix.mul_smul, Matrix.smul_mul]
    cases p with
    | fixed W' =>
      refine ⟨_, hskew, ?_, fun v => ?_⟩
      · rw [hnorm, List.filterMap_append]; simp [Piece.rate]
      · rw [ansatz_snoc, ansatz_snoc]; exact hmove v
    | rot i G =>
      refine ⟨L.map (fun x : ℕ × QMat n => (x.1, W * x.2 * Wᴴ)) ++ [(i, G)], ?_, ?_, fun v => ?_⟩
      · intro x hx
        rcases List.mem_append.1 hx with hx | hx
        · exact hskew x hx
        · rw [List.mem_singleton.1 hx]; exact hp
      · rw [List.map_append, hnorm, List.filterMap_append]; simp [Piece.rate]
      · rw [ansatz_snoc, ansatz_snoc, List.map_append, List.foldl_append, ← hWd, ← hmove v]
        simp only [List.map_cons, List.map_nil, List.foldl_cons, List.foldl_nil, Piece.mat]
        rw [exp_add_smul, Matrix.mul_assoc]
        rfl

/-! ### The cost to second order -/

/-- A sum over the rotations, arranged by the parameters that they read. -/
theorem sum_by_index {α : Type} (f : ℕ → ℝ) (w : α → ℕ × ℝ) (m : ℕ) : ∀ l : List α, (∀ x ∈ l, (w x).1 < m) →
    (l.map (fun x => f (w x).1 * (w x).2)).sum = ∑ i ∈ Finset.range m, f i * (l.map (fun x => if (w x).1 = i then (w x).2 else 0)).sum
  | [], _ => by simp
  | x :: l, h => by
    rw [List.map_cons, List.sum_cons, sum_by_index f w m l fun y hy => h y (List.mem_cons_of_mem _ hy)]
    simp only [List.map_cons, List.sum_cons, mul_add, Finset.sum_add_distrib]
    congr 1
    rw [Finset.sum_eq_single (w x).1]
    · simp
    · intro i _ hi; simp [Ne.symm hi]
    · intro hx; exact absurd (Finset.mem_range.2 (h x List.mem_cons_self)) hx

theorem slope_sum (H : QMat n) (φ : Ket n) (v : ℕ → ℝ) : ∀ L : List (ℕ × QMat n),
    (star φ ⬝ᵥ ((H * (L.map (fun x => (v x.1 : ℂ) • x.2)).sum - (L.map (fun x => (v x.1 : ℂ) • x.2)).sum * H) *ᵥ φ)).re =
      (L.map (fun x => v x.1 * (star φ ⬝ᵥ ((H * x.2 - x.2 * H) *ᵥ φ)).re)).sum
  | [] => by simp
  | x :: L => by
    simp only [List.map_cons, List.sum_cons]
    rw [← slope_sum H φ v L]
    set S := (L.map (fun x => (v x.1 : ℂ) • x.2)).sum
    have e : H * ((v x.1 : ℂ) • x.2 + S) - ((v x.1 : ℂ) • x.2 + S) * H = (v x.1 : ℂ) • (H * x.2 - x.2 * H) + (H * S - S * H) := by
      rw [Matrix.mul_add, Matrix.add_mul, Matrix.mul_smul, Matrix.smul_mul, smul_sub]; abel
    rw [e, Matrix.add_mulVec, Matrix.smul_mulVec, dotProduct_add, dotProduct_smul, Complex.add_re, smul_eq_mul, Complex.re_ofReal_mul]

/-- The cost of the circuit is, up to second order, a linear function of the change of the parameters. -/
theorem ansatz_taylor {H : QMat n} (hH : Hᴴ = H) {ps : List (Piece n)} (h : ∀ p ∈ ps, p.Valid) {m : ℕ} (hm : Reads ps m) (θ : ℕ → ℝ) :
    ∃ D : ℕ → ℝ, ∀ v : ℕ → ℝ, |cost H (ansatz ps (fun i => θ i + v i)) - cost H (ansatz ps θ) - ∑ i ∈ Finset.range m, v i * D i| ≤
      2 * ‖H‖ * (∑ i ∈ Finset.range m, |v i| * speed ps i) ^ 2 := by
  obtain ⟨L, h1, h2, h3⟩ := ansatz_shift h θ
  set U := ansatz ps θ with hU
  set φ : Ket n := fun i => U i 0 with hφ
  refine ⟨fun i => (L.map (fun x => if x.1 = i then (star φ ⬝ᵥ ((H * x.2 - x.2 * H) *ᵥ φ)).re else 0)).sum, fun v => ?_⟩
  have hr : ∀ x ∈ L, x.1 < m := fun x hx => hm (x.1, ‖x.2‖) (h2 ▸ List.mem_map.2 ⟨x, hx, rfl⟩)
  have hb := cost_fold_le H U hH (ansatz_unitary h θ) (L.map (fun x => (v x.1 : ℂ) • x.2)) (by
    intro A hA
    obtain ⟨x, hx, rfl⟩ := List.mem_map.1 hA
    rw [Matrix.conjTranspose_smul, h1 x hx]
    simp) (t := 1) zero_le_one
  rw [slope_sum, one_mul, one_mul, List.map_map, List.map_map] at hb
  have e1 : (L.map ((fun A : QMat n => NormedSpace.exp (((1 : ℝ) : ℂ) • A)) ∘ fun x => (v x.1 : ℂ) • x.2)) = L.map (fun x => NormedSpace.exp ((v x.1 : ℂ) • x.2)) :=
    List.map_congr_left fun x _ => by simp
  have e2 : (L.map (norm ∘ fun x => (v x.1 : ℂ) • x.2)).sum = ∑ i ∈ Finset.range m, |v i| * speed ps i := by
    have e3 : L.map (norm ∘ fun x => (v x.1 : ℂ) • x.2) = L.map (fun x => |v x.1| * ‖x.2‖) :=
      List.map_congr_left fun x _ => by simp [norm_smul]
    rw [e3, sum_by_index (fun i => |v i|) (fun x : ℕ × QMat n => (x.1, ‖x.2‖)) m L hr]
    refine Finset.sum_congr rfl fun i _ => ?_
    rw [speed, ← h2, List.map_map]
    rfl
  have e4 := sum_by_index v (fun x : ℕ × QMat n => (x.1, (star φ ⬝ᵥ ((H * x.2 - x.2 * H) *ᵥ φ)).re)) m L hr
  simp only at e4
  rw [e1, e2, ← h3 v, e4] at hb
  exact hb

/-- The derivative of the cost in parameter `i`. -/
noncomputable def Spec.costSlope (H : QMat n) (ps : List (Piece n)) (θ : ℕ → ℝ) (i : ℕ) : ℝ := deriv (fun t => cost H (ansatz ps (Function.update θ i t))) (θ i)

theorem slope_spec {H : QMat n} (hH : Hᴴ = H) {ps : List (Piece n)} (h : ∀ p ∈ ps, p.Valid) {m : ℕ} (hm : Reads ps m) (θ : ℕ → ℝ) :
    (∀ i < m, DifferentiableAt ℝ (fun t => cost H (ansatz ps (Function.update θ i t))) (θ i)) ∧
    ∀ v : ℕ → ℝ, |cost H (ansatz ps (fun i => θ i + v i)) - cost H (ansatz ps θ) - ∑ i ∈ Finset.range m, v i * costSlope H ps θ i| ≤
      2 * ‖H‖ * (∑ i ∈ Finset.range m, |v i| * speed ps i) ^ 2 := by
  obtain ⟨D, hD⟩ := ansatz_taylor hH h hm θ
  have hd : ∀ i < m, HasDerivAt (fun t => cost H (ansatz ps (Function.update θ i t))) (D i) (θ i) := by
    intro i hi
    rw [hasDerivAt_iff_isLittleO]
    refine Asymptotics.IsBigO.trans_isLittleO ?_ (Asymptotics.isLittleO_pow_sub_sub (θ i) (m := 2) (by norm_num))
    refine Asymptotics.IsBigO.of_bound (2 * ‖H‖ * speed ps i ^ 2) (Filter.Eventually.of_forall fun t => ?_)
    have := hD (fun j => if j = i then t - θ i else 0)
    have e1 : (fun j => θ j + if j = i then t - θ i else 0) = Function.update θ i t := by
      funext j
      by_cases hj : j = i
      · subst hj; simp
      · simp [hj]
    have e2 : ∑ j ∈ Finset.range m, (if j = i then t - θ i else 0) * D j = (t - θ i) * D i := by
      rw [Finset.sum_eq_single i] <;> simp +contextual [hi]
    have e3 : ∑ j ∈ Finset.range m, |if j = i then t - θ i else 0| * speed ps j = |t - θ i| * speed ps i := by
      rw [Finset.sum_eq_single i] <;> simp +contextual [hi]
    rw [e1, e2, e3] at this
    rw [Function.update_eq_self, Real.norm_eq_abs, smul_eq_mul, norm_pow, norm_norm, Real.norm_eq_abs]
    refine this.trans (le_of_eq ?_)
    ring
  have hs : ∀ i < m, costSlope H ps θ i = D i := fun i hi => (hd i hi).deriv
  refine ⟨fun i hi => (hd i hi).differentiableAt, fun v => ?_⟩
  rw [Finset.sum_congr rfl fun i hi => by rw [hs i (Finset.mem_range.1 hi)]]
  exact hD v

/-- The gradient of the cost, squared and summed over the first `m` parameters. -/
noncomputable def Spec.gradSq (H : QMat n) (ps : List (Piece n)) (m : ℕ) (θ : ℕ → ℝ) : ℝ := ∑ i ∈ Finset.range m, costSlope H ps θ i ^ 2

/-- How curved the cost can be: the squares of the speeds of the first `m` parameters, added. -/
noncomputable def Spec.stiffness (ps : List (Piece n)) (m : ℕ) : ℝ := ∑ i ∈ Finset.range m, speed ps i ^ 2

theorem gradSq_nonneg (H : QMat n) (ps : List (Piece n)) (m : ℕ) (θ : ℕ → ℝ) : 0 ≤ gradSq H ps m θ := Finset.sum_nonneg fun _ _ => sq_nonneg _

/-- A gradient step changes the cost by `-e` times the squared gradient, up to second order in the step size. -/
theorem gradient_step {H : QMat n} (hH : Hᴴ = H) {ps : List (Piece n)} (h : ∀ p ∈ ps, p.Valid) {m : ℕ} (hm : Reads ps m) (θ : ℕ → ℝ) (e : ℝ) (θ' : ℕ → ℝ)
    (hθ : ∀ i < m, θ' i = θ i - e * costSlope H ps θ i) (hθ' : ∀ i, m ≤ i → θ' i = θ i) :
    |cost H (ansatz ps θ') - cost H (ansatz ps θ) + e * gradSq H ps m θ| ≤ 2 * ‖H‖ * stiffness ps m * e ^ 2 * gradSq H ps m θ := by
  have hb := (slope_spec hH h hm θ).2 (fun i => if i < m then -(e * costSlope H ps θ i) else 0)
  have e1 : (fun i => θ i + if i < m then -(e * costSlope H ps θ i) else 0) = θ' := by
    funext i
    by_cases hi : i < m
    · rw [if_pos hi, hθ i hi]; ring
    · rw [if_neg hi, hθ' i (by omega)]; ring
  have e2 : ∑ i ∈ Finset.range m, (if i < m then -(e * costSlope H ps θ i) else 0) * costSlope H ps θ i = -(e * gradSq H ps m θ) := by
    rw [gradSq, Finset.mul_sum, ← Finset.sum_neg_distrib]
    refine Finset.sum_congr rfl fun i hi => ?_
    rw [if_pos (Finset.mem_range.1 hi)]
    ring
  have e3 : ∑ i ∈ Finset.range m, |if i < m then -(e * costSlope H ps θ i) else 0| * speed ps i = |e| * ∑ i ∈ Finset.range m, |costSlope H ps θ i| * speed ps i := by
    rw [Finset.mul_sum]
    refine Finset.sum_congr rfl fun i hi => ?_
    rw [if_pos (Finset.mem_range.1 hi), abs_neg, abs_mul]
    ring
  rw [e1, e2, e3, sub_neg_eq_add] at hb
  refine hb.trans ?_
  have hcs := Finset.sum_mul_sq_le_sq_mul_sq (Finset.range m) (fun i => |costSlope H ps θ i|) (speed ps)
  simp only [sq_abs] at hcs
  rw [mul_pow, sq_abs]
  have hn : 0 ≤ 2 * ‖H‖ * e ^ 2 := by positivity
  have := mul_le_mul_of_nonneg_left hcs hn
  rw [gradSq, stiffness]
  nlinarith

/-! ### The optimizer -/

/-- The circuit, called with `m` parameters, compiles to the ansatz. -/
def Spec.Realises (n : ℕ) (circuit : List ℝ → Py (List (NpMat × List ℤ))) (ps : List (Piece n)) (m : ℕ) : Prop :=
  ∀ p : List ℝ, p.length = m → circuitUnitary n circuit p = .ok (ansatz ps (fun i => p.getD i 0))

section
variable {gd : ℝ → (List ℝ → Py ℝ) → List ℝ → Py (List ℝ)} {circuit : List ℝ → Py (List (NpMat × List ℤ))} {ps : List (Piece n)} {gs : List (Gate n)}

/-- C141 (one step).  A gradient step of `parameter_shift_optimizer` subtracts from every parameter `eta` times its slope; the cost changes by `-eta` times the squared gradient, up to
`2 ‖H‖ K eta²` times the squared gradient, with `K` the stiffness of the circuit. -/
theorem C141_step (hgd : ValidGdList gd) (hg : ∀ g ∈ gs, g.Aᴴ = g.A) (hv : ∀ p ∈ ps, p.Valid) (p : List ℝ) (hm : Reads ps p.length) (hc : Realises n circuit ps p.length) (e : ℝ) :
    ∃ q, gd e (psCost n circuit (gs.map Gate.obs)) p = .ok q ∧ q.length = p.length ∧
      (∀ i < p.length, q.getD i 0 = p.getD i 0 - e * costSlope (totalObs gs) ps (fun i => p.getD i 0) i) ∧
      |cost (totalObs gs) (ansatz ps (fun i => q.getD i 0)) - cost (totalObs gs) (ansatz ps (fun i => p.getD i 0)) + e * gradSq (totalObs gs) ps p.length (fun i => p.getD i 0)| ≤
        2 * ‖totalObs gs‖ * stiffness ps p.length * e ^ 2 * gradSq (totalObs gs) ps p.length (fun i => p.getD i 0) := by
  have hH := totalObs_herm gs hg
  have hs := slope_spec hH hv hm (fun i => p.getD i 0)
  obtain ⟨q, h1, h2, h3⟩ := hgd e (psCost n circuit (gs.map Gate.obs)) (fun l => cost (totalObs gs) (ansatz ps (fun i => l.getD i 0))) p
    (fun p' hp' => by rw [psCost, hc p' hp']; exact totalCost_gates _ _)
    (fun i hi => by simp only [set_update hi]; exact hs.1 i hi)
  have h4 : ∀ i < p.length, q.getD i 0 = p.getD i 0 - e * costSlope (totalObs gs) ps (fun i => p.getD i 0) i := by
    intro i hi
    rw [h3 i hi]
    simp only [set_update hi]
    rfl
  refine ⟨q, h1, h2, h4, gradient_step hH hv hm _ e _ h4 fun i hi => ?_⟩
  rw [List.getD_eq_default _ _ (by omega), List.getD_eq_default _ _ hi]

/-- The parameters of a run, and what each step does to the cost. -/
theorem shift_descent (hgd : ValidGdList gd) (hg : ∀ g ∈ gs, g.Aᴴ = g.A) (hv : ∀ p ∈ ps, p.Valid) {params : List ℝ} (hm : Reads ps params.length)
    (hc : Realises n circuit ps params.length) {ret : CircuitRet} {args : PsArgs} {e : ℝ} (hE : args.eta = .float e) (hsmall : 4 * ‖totalObs gs‖ * stiffness ps params.length * e ≤ 1)
    {rp : Bool} (hrp : args.returnParams = boolFlag rp) {out : OptOut (PsItem n (List ℝ))}
    (h : parameterShiftOptimizer gd ret circuit params (gs.map Gate.obs) args = .ok out) :
    0 ≤ e ∧ ∃ (m : ℕ) (V : ℕ → List ℝ), V 0 = params ∧ (psCosts out).length = m + 1 ∧ (rp = true → psParams out = some ((List.range (m + 1)).map V)) ∧
      (∀ k ≤ m, (V k).length = params.length ∧ (psCosts out).getD k 0 = cost (totalObs gs) (ansatz ps (fun i => (V k).getD i 0))) ∧
      (∀ k < m, gd e (psCost n circuit (gs.map Gate.obs)) (V k) = .ok (V (k + 1))) ∧
      (∀ k < m, e / 2 * gradSq (totalObs gs) ps params.length (fun i => (V k).getD i 0) ≤ (psCosts out).getD k 0 - (psCosts out).getD (k + 1) 0) ∧
      ∀ N : ℕ, args.nsteps = .int (N : ℤ) → m = N ∨ ∀ t, args.tol = .float t → ∃ k, m = k + 1 ∧
        |(psCosts out).getD (k + 1) 0 - (psCosts out).getD k 0| ≤ t + 1e-5 * |(psCosts out).getD k 0| := by
  have h0 : 0 ≤ e := by
    obtain ⟨-, -, N, e', t, rs, hv', -⟩ := (ps_ok_iff ..).mp h
    have := hv'.eta
    rw [hE] at this
    exact PyVal.float.inj this ▸ hv'.eta0
  obtain ⟨N, e', t, V, m, hN, he', ht, hV0, -, hstep, hlen, hcost, -, hpar, -, hstop⟩ := C55_trace _ _ _ _ _ _ _ rp hrp h
  have e1 : e' = e := by rw [hE] at he'; exact (PyVal.float.inj he').symm
  subst e1
  have hl : ∀ k ≤ m, (V k).length = params.length := by
    intro k
    induction k with
    | zero => intro _; rw [hV0]
    | succ k ih =>
      intro hk
      have hk' := ih (by omega)
      obtain ⟨q, hq, hql, -⟩ := C141_step hgd hg hv (V k) (hk' ▸ hm) (hk' ▸ hc) e'
      rw [hstep k (by omega)] at hq
      rw [Except.ok.inj hq, hql, hk']
  have hco : ∀ k ≤ m, (psCosts out).getD k 0 = cost (totalObs gs) (ansatz ps (fun i => (V k).getD i 0)) := by
    intro k hk
    have := hcost k hk
    rw [psCost, hc _ (hl k hk)] at this
    exact (Except.ok.inj ((totalCost_gates _ _).symm.trans this)).symm
  refine ⟨h0, m, V, hV0, hlen, hpar, fun k hk => ⟨hl k hk, hco k hk⟩, hstep, fun k hk => ?_, fun N' hN' => ?_⟩
  · have hk' := hl k hk.le
    obtain ⟨q, hq, -, -, hb⟩ := C141_step hgd hg hv (V k) (hk' ▸ hm) (hk' ▸ hc) e'
    rw [hstep k hk] at hq
    obtain rfl := Except.ok.inj hq
    rw [hco k hk.le, hco (k + 1) hk]
    rw [hk'] at hb
    have h1 := (abs_le.1 hb).2
    have h2 := gradSq_nonneg (totalObs gs) ps params.length (fun i => (V k).getD i 0)
    have h3 := mul_le_mul_of_nonneg_right hsmall (mul_nonneg h0 h2)
    linarith
  · have eN : N = N' := by rw [hN'] at hN; simpa using hN.symm
    subst eN
    refine hstop.imp id ?_
    rintro ⟨k, -, -, hk, hclose⟩ t' ht'
    have et : t = .fin t' := by
      rw [ht'] at ht
      cases t with
      | fin x => obtain ⟨h1, -⟩ := ht; rw [PyVal.float.inj h1]
      | inf => cases ht
    subst et
    exact ⟨k, hk, hclose t' rfl⟩

/-- C141 (runs).  With a step size of at most `1 / (4 ‖H‖ K)` the costs never rise, whatever the circuit, the observables and the start; and among the parameters of the first `j` steps there are
some at which the squared gradient is at most `4 ‖H‖ / (eta j)`. -/
theorem C141_run (hgd : ValidGdList gd) (hg : ∀ g ∈ gs, g.Aᴴ = g.A) (hv : ∀ p ∈ ps, p.Valid) (params : List ℝ) (hm : Reads ps params.length)
    (hc : Realises n circuit ps params.length) (ret : CircuitRet) (args : PsArgs) (e : ℝ) (hE : args.eta = .float e) (hsmall : 4 * ‖totalObs gs‖ * stiffness ps params.length * e ≤ 1)
    (rp : Bool) (hrp : args.returnParams = boolFlag rp) (out : OptOut (PsItem n (List ℝ)))
    (h : parameterShiftOptimizer gd ret circuit params (gs.map Gate.obs) args = .ok out) :
    (∀ k, k + 1 < (psCosts out).length → (psCosts out).getD (k + 1) 0 ≤ (psCosts out).getD k 0) ∧
    ∀ j, 1 ≤ j → j < (psCosts out).length → 0 < e → ∃ k < j, ∃ p : List ℝ, p.length = params.length ∧ (rp = true → ∃ l, psParams out = some l ∧ l[k]? = some p) ∧
      (psCosts out)[k]? = some (cost (totalObs gs) (ansatz ps (fun i => p.getD i 0))) ∧
      gradSq (totalObs gs) ps params.length (fun i => p.getD i 0) ≤ 4 * ‖totalObs gs‖ / (e * j) := by
  obtain ⟨h0, m, V, hV0, hlen, hpar, hV, -, hdrop, -⟩ := shift_descent hgd hg hv hm hc hE hsmall hrp h
  refine ⟨fun k hk => ?_, fun j hj1 hj hepos => ?_⟩
  · have h1 := hdrop k (by omega)
    have h2 := mul_nonneg (div_nonneg h0 zero_le_two) (gradSq_nonneg (totalObs gs) ps params.length (fun i => (V k).getD i 0))
    linarith
  · rw [hlen] at hj
    have hsum : ∀ j ≤ m, e / 2 * ∑ k ∈ Finset.range j, gradSq (totalObs gs) ps params.length (fun i => (V k).getD i 0) ≤ (psCosts out).getD 0 0 - (psCosts out).getD j 0 := by
      intro j
      induction j with
      | zero => intro _; simp
      | succ j ih =>
        intro hj
        have h1 := ih (by omega)
        have h2 := hdrop j (by omega)
        rw [Finset.sum_range_succ, mul_add]
        linarith
    have hS := hsum j (by omega)
    have b0 := (abs_le.1 (cost_norm (H := totalObs gs) (ansatz_unitary hv (fun i => (V 0).getD i 0)))).2
    have bj := (abs_le.1 (cost_norm (H := totalObs gs) (ansatz_unitary hv (fun i => (V j).getD i 0)))).1
    rw [(hV 0 (by omega)).2, (hV j (by omega)).2] at hS
    have hjpos : (0 : ℝ) < j := by exact_mod_cast hj1
    set B := 4 * ‖totalObs gs‖ / (e * j) with hB
    have hBj : e / 2 * (j * B) = 2 * ‖totalObs gs‖ := by
      rw [hB]; field_simp; ring
    have hex : ∃ k < j, gradSq (totalObs gs) ps params.length (fun i => (V k).getD i 0) ≤ B := by
      by_contra hcon
      push Not at hcon
      have : ∑ k ∈ Finset.range j, B < ∑ k ∈ Finset.range j, gradSq (totalObs gs) ps params.length (fun i => (V k).getD i 0) :=
        Finset.sum_lt_sum_of_nonempty ⟨0, Finset.mem_range.2 hj1⟩ (fun k hk => hcon k (Finset.mem_range.1 hk))
      rw [Finset.sum_const, Finset.card_range, nsmul_eq_mul] at this
      have := mul_lt_mul_of_pos_left this (half_pos hepos)
      linarith
    obtain ⟨k, hk, hgk⟩ := hex
    obtain ⟨hlk, hck⟩ := hV k (by omega)
    refine ⟨k, hk, V k, hlk, fun h => ⟨_, hpar h, by simp [show k < m + 1 by omega]⟩, ?_, hgk⟩
    rw [← hck, List.getD_eq_getElem _ _ (by omega), List.getElem?_eq_getElem (by omega)]

/-- C141 (early stopping).  With such a step size, a run that stops before its last step, at the tolerance `t`, does so where the squared gradient is at most
`2 (t + 1e-5 |c|) / eta`, with `c` the last cost but one. -/
theorem C141_stop (hgd : ValidGdList gd) (hg : ∀ g ∈ gs, g.Aᴴ = g.A) (hv : ∀ p ∈ ps, p.Valid) (params : List ℝ) (hm : Reads ps params.length)
    (hc : Realises n circuit ps params.length) (ret : CircuitRet) (args : PsArgs) (e : ℝ) (hE : args.eta = .float e) (hepos : 0 < e)
    (hsmall : 4 * ‖totalObs gs‖ * stiffness ps params.length * e ≤ 1) (hrp : args.returnParams = boolFlag true) (t : ℝ) (ht : args.tol = .float t) (N : ℕ)
    (hN : args.nsteps = .int (N : ℤ)) (out : OptOut (PsItem n (List ℝ))) (h : parameterShiftOptimizer gd ret circuit params (gs.map Gate.obs) args = .ok out)
    (hearly : (psCosts out).length < N + 1) :
    ∃ k l p, (psCosts out).length = k + 2 ∧ psParams out = some l ∧ l[k]? = some p ∧
      gradSq (totalObs gs) ps params.length (fun i => p.getD i 0) ≤ 2 * (t + 1e-5 * |(psCosts out).getD k 0|) / e := by
  obtain ⟨h0, m, V, hV0, hlen, hpar, hV, -, hdrop, hstop⟩ := shift_descent hgd hg hv hm hc hE hsmall hrp h
  rcases hstop N hN with hs | hs
  · omega
  · obtain ⟨k, hk, hcl⟩ := hs t ht
    refine ⟨k, _, V k, by omega, hpar rfl, by simp [show k < m + 1 by omega], ?_⟩
    have h1 := hdrop k (by omega)
    have h2 := (abs_le.1 hcl).1
    rw [le_div_iff₀ hepos]
    linarith

end

/-! ### The ansatz of tfim_su4_linesearch.py -/

/-- The pieces of the circuit of tfim_su4_linesearch.py:17-33: Hadamard gates, then layers of evolutions under the couplings and under the field. -/
noncomputable def qaoaPieces (n : ℕ) : ℕ → List (Piece n)
  | 0 => [.fixed (hadamardAll n)]
  | m + 1 => qaoaPieces n m ++ [.rot (2 * m) ((-Complex.I / 2) • ringZZ n), .rot (2 * m + 1) ((-Complex.I / 2) • fieldX n)]

theorem half_angle (x : ℝ) : (x : ℂ) * (-Complex.I / 2) = -Complex.I * ((x / 2 : ℝ) : ℂ) := by push_cast; ring

theorem qaoa_ansatz (θ : ℕ → ℝ) : ∀ m, ansatz (qaoaPieces n m) θ = qaoa n θ m
  | 0 => by simp [qaoaPieces, ansatz, qaoa, Piece.mat]
  | m + 1 => by
    rw [qaoaPieces, qaoa, ← qaoa_ansatz θ m, show ∀ (l : List (Piece n)) (a b : Piece n), l ++ [a, b] = (l ++ [a]) ++ [b] by simp, ansatz_snoc, ansatz_snoc, qaoaLayer, Piece.mat, Piece.mat,
      Matrix.mul_assoc, smul_smul, smul_smul, half_angle, half_angle]

theorem qaoaPieces_rates (m : ℕ) : ∀ x ∈ (qaoaPieces n m).filterMap Piece.rate, x.1 < 2 * m := by
  induction m with
  | zero => simp [qaoaPieces, Piece.rate]
  | succ m ih =>
    intro x hx
    rw [qaoaPieces, List.filterMap_append] at hx
    rcases List.mem_append.1 hx with hx | hx
    · have := ih x hx; omega
    · simp only [List.filterMap_cons, Piece.rate, List.filterMap_nil, List.mem_cons, List.not_mem_nil, or_false] at hx
      rcases hx with rfl | rfl <;> simp only <;> omega

theorem ringZZ_herm : (ringZZ n)ᴴ = ringZZ n := by
  rw [ringZZ, Matrix.conjTranspose_add, Matrix.conjTranspose_sum]
  simp only [pauliWord_herm]

theorem fieldX_herm : (fieldX n)ᴴ = fieldX n := by
  rw [fieldX, Matrix.conjTranspose_sum]
  simp only [pauliWord_herm]

theorem ringZZ_norm (hn : 1 ≤ n) : ‖ringZZ n‖ ≤ n := by
  rw [ringZZ]
  refine (norm_add_le _ _).trans ?_
  have := norm_sum_le (Finset.range (n - 1)) (fun i => pauliWord (placed n [.Z, .Z] [i, i + 1]))
  simp only [pauliWord_norm, Finset.sum_const, Finset.card_range, nsmul_eq_mul, mul_one] at this ⊢
  rw [Nat.cast_sub hn] at this
  push_cast at this
  linarith

theorem fieldX_norm : ‖fieldX n‖ ≤ n := by
  rw [fieldX]
  refine (norm_sum_le _ _).trans ?_
  simp only [pauliWord_norm, Finset.sum_const, Finset.card_range, nsmul_eq_mul, mul_one, le_refl]

theorem qaoaPieces_valid (m : ℕ) : ∀ p ∈ qaoaPieces n m, p.Valid := by
  have hs : ∀ {X : QMat n}, Xᴴ = X → ((-Complex.I / 2) • X)ᴴ = -((-Complex.I / 2) • X) := fun hX => by
    rw [Matrix.conjTranspose_smul, hX, ← neg_smul]
    congr 1
    simp
    ring
  induction m with
  | zero =>
    intro p hp
    rw [qaoaPieces, List.mem_singleton] at hp
    subst hp
    exact hadamardAll_unitary n
  | succ m ih =>
    intro p hp
    rw [qaoaPieces] at hp
    rcases List.mem_append.1 hp with hp | hp
    · exact ih p hp
    · simp only [List.mem_cons, List.not_mem_nil, or_false] at hp
      rcases hp with rfl | rfl
      · exact hs ringZZ_herm
      · exact hs fieldX_herm

theorem speed_append (l l' : List (Piece n)) (i : ℕ) : speed (l ++ l') i = speed l i + speed l' i := by
  rw [speed, List.filterMap_append, List.map_append, List.sum_append]
  rfl

theorem speed_unread {l : List (Piece n)} {m : ℕ} (h : Reads l m) {i : ℕ} (hi : m ≤ i) : speed l i = 0 := by
  rw [speed]
  refine List.sum_eq_zero fun y hy => ?_
  obtain ⟨x, hx, rfl⟩ := List.mem_map.1 hy
  have := h x hx
  rw [if_neg (by omega)]

theorem qaoa_speed (hn : 1 ≤ n) (m i : ℕ) : 0 ≤ speed (qaoaPieces n m) i ∧ speed (qaoaPieces n m) i ≤ n / 2 := by
  have hI : ‖(-Complex.I / 2 : ℂ)‖ = 1 / 2 := by simp
  have hz := ringZZ_norm hn
  have hx := fieldX_norm (n := n)
  induction m with
  | zero =>
    have : speed (qaoaPieces n 0) i = 0 := rfl
    rw [this]
    exact ⟨le_rfl, by positivity⟩
  | succ m ih =>
    rw [qaoaPieces, speed_append]
    have e : speed [Piece.rot (2 * m) ((-Complex.I / 2) • ringZZ n), .rot (2 * m + 1) ((-Complex.I / 2) • fieldX n)] i =
        (if 2 * m = i then 1 / 2 * ‖ringZZ n‖ else 0) + (if 2 * m + 1 = i then 1 / 2 * ‖fieldX n‖ else 0) := by
      simp only [speed, List.filterMap_cons, Piece.rate, List.filterMap_nil, List.map_cons, List.map_nil, List.sum_cons, List.sum_nil, add_zero, norm_smul, hI]
    rw [e]
    have n1 := norm_nonneg (ringZZ n)
    have n2 := norm_nonneg (fieldX n)
    have hN : (0 : ℝ) ≤ n := Nat.cast_nonneg n
    by_cases h1 : 2 * m = i
    · rw [if_pos h1, if_neg (by omega), speed_unread (qaoaPieces_rates m) (by omega)]
      constructor <;> linarith
    · by_cases h2 : 2 * m + 1 = i
      · rw [if_neg h1, if_pos h2, speed_unread (qaoaPieces_rates m) (by omega)]
        constructor <;> linarith
      · rw [if_neg h1, if_neg h2]
        simpa using ih

theorem qaoa_stiffness (hn : 1 ≤ n) (m : ℕ) : stiffness (qaoaPieces n m) (2 * m) ≤ m * n ^ 2 / 2 := by
  rw [stiffness]
  have : ∀ i ∈ Finset.range (2 * m), speed (qaoaPieces n m) i ^ 2 ≤ (n / 2 : ℝ) ^ 2 := fun i _ =>
    pow_le_pow_left₀ (qaoa_speed hn m i).1 (qaoa_speed hn m i).2 2
  refine (Finset.sum_le_sum this).trans (le_of_eq ?_)
  rw [Finset.sum_const, Finset.card_range, nsmul_eq_mul]
  push_cast
  ring

theorem totalObs_norm : ∀ gs : List (Gate n), Involutions gs → ‖totalObs gs‖ ≤ gs.length
  | [], _ => by simp [totalObs]
  | g :: gs, h => by
    have h1 := totalObs_norm gs fun g' hg' => h g' (List.mem_cons_of_mem _ hg')
    have h2 := full_involution (h g List.mem_cons_self)
    have h3 := norm_of_involution h2.1 h2.2
    have e : totalObs (g :: gs) = full n g.ws g.A + totalObs gs := by simp [totalObs]
    rw [e, List.length_cons]
    refine (norm_add_le _ _).trans ?_
    push_cast
    linarith

theorem tfim_involutions (hn : 2 ≤ n) : Involutions (tfimGates n hn) := by
  intro g hg
  simp only [tfimGates, List.mem_append, List.mem_map, List.mem_singleton] at hg
  rcases hg with (⟨i, -, rfl⟩ | ⟨i, -, rfl⟩) | rfl <;> exact ⟨pauliWord_herm _, pauliWord_sq _⟩

/-- C141 (tfim_su4_linesearch.py).  The call of the script on `n` qubits, with a step size of at most `1 / (2 n⁴)` and any start: the costs never rise, and among the parameters of the first `j`
steps there are some at which the squared gradient is at most `8 n / (eta j)`. -/
theorem C141_tfim (hn : 2 ≤ n) {gd : ℝ → (List ℝ → Py ℝ) → List ℝ → Py (List ℝ)} (hgd : ValidGdList gd) (params : List ℝ) (hl : params.length = 2 * (n / 2)) (ret : CircuitRet)
    (args : PsArgs) (e : ℝ) (hE : args.eta = .float e) (hsmall : 2 * n ^ 4 * e ≤ 1) (rp : Bool) (hrp : args.returnParams = boolFlag rp) (out : OptOut (PsItem n (List ℝ)))
    (h : parameterShiftOptimizer gd ret (tfimVqeCircuit n) params (tfimObservables n) args = .ok out) :
    (∀ k, k + 1 < (psCosts out).length → (psCosts out).getD (k + 1) 0 ≤ (psCosts out).getD k 0) ∧
    ∀ j, 1 ≤ j → j < (psCosts out).length → 0 < e → ∃ k < j, ∃ p : List ℝ, p.length = 2 * (n / 2) ∧ (rp = true → ∃ l, psParams out = some l ∧ l[k]? = some p) ∧
      (psCosts out)[k]? = some (cost (totalObs (tfimGates n hn)) (qaoa n (fun i => p.getD i 0) (n / 2))) ∧
      ∑ i ∈ Finset.range (2 * (n / 2)), deriv (fun t => cost (totalObs (tfimGates n hn)) (qaoa n (Function.update (fun i => p.getD i 0) i t) (n / 2))) (p.getD i 0) ^ 2 ≤ 8 * n / (e * j) := by
  have h0 : 0 ≤ e := by
    obtain ⟨-, -, N, e', t, rs, hv', -⟩ := (ps_ok_iff ..).mp h
    have := hv'.eta
    rw [hE] at this
    exact PyVal.float.inj this ▸ hv'.eta0
  have hnorm : ‖totalObs (tfimGates n hn)‖ ≤ 2 * n := by
    have := totalObs_norm _ (tfim_involutions hn)
    have e1 : (tfimGates n hn).length = 2 * n := by
      rw [tfimGates]
      simp
      omega
    rw [e1] at this
    exact_mod_cast this
  have hst := qaoa_stiffness (n := n) (by omega) (n / 2)
  have hst0 : 0 ≤ stiffness (qaoaPieces n (n / 2)) (2 * (n / 2)) := Finset.sum_nonneg fun _ _ => sq_nonneg _
  have hN : (0 : ℝ) ≤ n := Nat.cast_nonneg n
  have hhalf : ((n / 2 : ℕ) : ℝ) ≤ n / 2 := by exact_mod_cast Nat.cast_div_le
  have hst' : stiffness (qaoaPieces n (n / 2)) (2 * (n / 2)) ≤ (n : ℝ) ^ 3 / 4 := by
    refine hst.trans ?_
    have := mul_le_mul_of_nonneg_right hhalf (sq_nonneg (n : ℝ))
    nlinarith
  have hprod : ‖totalObs (tfimGates n hn)‖ * stiffness (qaoaPieces n (n / 2)) (2 * (n / 2)) ≤ 2 * n * ((n : ℝ) ^ 3 / 4) :=
    mul_le_mul hnorm hst' hst0 (by positivity)
  rw [tfimGates_obs hn] at h
  have := C141_run hgd (fun g hg => (tfim_involutions hn g hg).1) (qaoaPieces_valid (n / 2)) params (by rw [hl]; exact qaoaPieces_rates _)
    (fun p hp => by rw [qaoa_ansatz]; exact C122_ansatz hn p (by omega)) ret args e hE (by
      rw [hl]
      have := mul_le_mul_of_nonneg_right hprod h0
      nlinarith) rp hrp out h
  refine ⟨this.1, fun j hj1 hj hepos => ?_⟩
  obtain ⟨k, hk, p, h1, h2, h3, h4⟩ := this.2 j hj1 hj hepos
  refine ⟨k, hk, p, h1.trans hl, h2, by rw [h3, qaoa_ansatz], ?_⟩
  have hjpos : (0 : ℝ) < j := by exact_mod_cast hj1
  have h5 : 4 * ‖totalObs (tfimGates n hn)‖ / (e * j) ≤ 8 * n / (e * j) := by
    apply div_le_div_of_nonneg_right _ (by positivity)
    linarith
  refine le_trans (le_of_eq ?_) (h4.trans h5)
  rw [gradSq, hl]
  simp only [costSlope, qaoa_ansatz]

/-- The script's circuit on 4 qubits from the script's start, with the step size 0.001: the run exists and its costs never rise. -/
example : ∃ gd out, ValidGdList gd ∧
    parameterShiftOptimizer (n := 4) gd .nothing (tfimVqeCircuit 4) [0.1, 0.1, 0.1, 0.1] (tfimObservables 4) { eta := .float 0.001, nsteps := .int 100, tol := .float 1e-5, returnParams := boolFlag true } = .ok out ∧
    ∀ k, k + 1 < (psCosts out).length → (psCosts out).getD (k + 1) 0 ≤ (psCosts out).getD k 0 := by
  obtain ⟨gd, hgd⟩ := exists_validGdList
  have hv : PsValid { eta := .float 0.001, nsteps := .int 100, tol := .float 1e-5, returnParams := boolFlag true } 100 0.001 (.fin 1e-5) false :=
    ⟨rfl, by norm_num, rfl, by norm_num, by norm_num, ⟨rfl, by norm_num⟩, rfl⟩
  obtain ⟨out, h⟩ := C123_succeeds (n := 4) (by norm_num) hgd [0.1, 0.1, 0.1, 0.1] (by simp) hv true rfl
  exact ⟨gd, out, hgd, h, (C141_tfim (by norm_num) hgd _ rfl _ _ 0.001 rfl (by norm_num) true rfl out h).1⟩

end Oranssi
