import Verif.Props.CommutingDirections
import Verif.Props.ZassenhausV2Reach
import Verif.Props.InvolutionRun

/-! # C107: the run of experiments_paper/approximate_example.py

The script starts in `|++⟩`, minimises `X0 + Y0 Z1` and lets the layer use the directions `YY` and `ZZ` only. -/

namespace Oranssi
open Spec
open scoped Matrix

theorem full_pair_self (A : QMat 2) : full 2 [0, 1] A = A := full_range 2 A

/-- The states `exp(-i θ/2 ZZ) |++⟩`. -/
noncomputable def zzState (θ : ℝ) : QMat 2 := rotOp 2 θ [.Z, .Z] [0, 1] * hadamardPair 2

theorem zzState_column (θ : ℝ) (i : Fin (2 ^ 2)) : zzState θ i 0 = 1 / 2 * (Real.cos (θ / 2) - Complex.I * Real.sin (θ / 2) * zzSign i) := by
  rw [zzState, rotOp_pair le_rfl, hadamardPair_full le_rfl, pair_mul le_rfl, full_pair_self, zz_column]

theorem double_angle_sin (θ : ℝ) : 2 * Real.sin (θ / 2) * Real.cos (θ / 2) = Real.sin θ := by
  rw [← Real.sin_two_mul]
  congr 1
  ring

/-- The whole commutator `[ρ, H]` lies along `ZZ` and `YY`. -/
theorem zzState_gen (θ : ℝ) : riemannGen (pairWord .X .I + pairWord .Y .Z) (zzState θ) =
    (Complex.I / 2 * ((Real.cos θ - Real.sin θ : ℝ) : ℂ)) • (pairWord .Z .Z - pairWord .Y .Y) := by
  have e : Real.cos θ - Real.sin θ = Real.cos (θ / 2) ^ 2 - Real.sin (θ / 2) ^ 2 - 2 * Real.sin (θ / 2) * Real.cos (θ / 2) := by rw [double_angle, double_angle_sin]
  rw [e]
  ext i j
  refine four_cases (P := fun i j => riemannGen (pairWord .X .I + pairWord .Y .Z) (zzState θ) i j = _) ?_ i j
  intro i hi j hj
  simp only [riemannGen, Matrix.sub_apply, Matrix.mul_apply, Matrix.smul_apply, Matrix.add_apply, density, Matrix.of_apply, zzState_column]
  generalize Real.cos (θ / 2) = C
  generalize Real.sin (θ / 2) = S
  simp only [sum_four]
  fin_cases hi <;> fin_cases hj <;> simp [zzSign, pairWord_apply, Letter.mat, Matrix.one_apply] <;> ring_nf <;> simp [Complex.I_sq] <;> ring

theorem pair_comm : pairWord .Y .Y * pairWord .Z .Z = pairWord .Z .Z * pairWord .Y .Y := by
  ext i j
  refine four_cases (P := fun i j => (pairWord .Y .Y * pairWord .Z .Z) i j = (pairWord .Z .Z * pairWord .Y .Y) i j) ?_ i j
  intro i hi j hj
  simp only [Matrix.mul_apply, sum_four]
  fin_cases hi <;> fin_cases hj <;> simp [pairWord_apply, Letter.mat]

/-- On these states `YY` acts as `-ZZ`. -/
theorem yy_zzState (θ : ℝ) : stateFromUnitary (pairWord .Y .Y * zzState θ) = -stateFromUnitary (pairWord .Z .Z * zzState θ) := by
  funext i
  have h : ∀ i ∈ ([0, 1, 2, 3] : List (Fin (2 ^ 2))), (pairWord .Y .Y * zzState θ) i 0 = -(pairWord .Z .Z * zzState θ) i 0 := by
    intro i hi
    simp only [Matrix.mul_apply, sum_four, zzState_column]
    generalize Real.cos (θ / 2) = C
    generalize Real.sin (θ / 2) = S
    fin_cases hi <;> simp [zzSign, pairWord_apply, Letter.mat] <;> ring
  exact h i ((by decide : ∀ i : Fin (2 ^ 2), i ∈ ([0, 1, 2, 3] : List (Fin (2 ^ 2)))) i)

theorem rot2_eq (t : ℝ) (a b : Letter) : NormedSpace.exp ((-Complex.I * ((t / 2 : ℝ) : ℂ)) • pairWord a b) = rotOp 2 t [a, b] [0, 1] := by
  rw [rotOp_exp_half, pair_word le_rfl, full_pair_self]

theorem rot2_lin (t : ℝ) (a b : Letter) : rotOp 2 t [a, b] [0, 1] = (Real.cos (t / 2) : ℂ) • (1 : QMat 2) - (Complex.I * Real.sin (t / 2)) • pairWord a b := by
  rw [rotOp_pair le_rfl, full_pair_self]

theorem rotZZ_zzState (a θ : ℝ) : rotOp 2 a [.Z, .Z] [0, 1] * zzState θ = zzState (a + θ) := by
  rw [zzState, zzState, ← Matrix.mul_assoc, rotOp_exp_half, rotOp_exp_half, rotOp_exp_half, ← Matrix.exp_add_of_commute]
  · congr 2
    rw [← add_smul]
    congr 1
    push_cast
    ring
  · exact ((Commute.refl _).smul_left _).smul_right _

theorem rotYY_zzState (b θ : ℝ) : SameState (rotOp 2 b [.Y, .Y] [0, 1] * zzState θ) (zzState (-b + θ)) := by
  rw [← rotZZ_zzState, rot2_lin, rot2_lin]
  refine ⟨1, by simp, ?_⟩
  have h : ∀ i, (pairWord .Y .Y * zzState θ) i 0 = -(pairWord .Z .Z * zzState θ) i 0 := fun i => congrFun (yy_zzState θ) i
  funext i
  have e : ∀ A : QMat 2, stateFromUnitary A i = A i 0 := fun _ => rfl
  rw [one_mul, e, e, Matrix.sub_mul, Matrix.sub_mul, Matrix.smul_mul, Matrix.smul_mul, Matrix.smul_mul, Matrix.smul_mul, Matrix.sub_apply, Matrix.sub_apply,
    Matrix.smul_apply, Matrix.smul_apply, Matrix.smul_apply, Matrix.smul_apply, h i, neg_div, Real.cos_neg, Real.sin_neg]
  simp

theorem riemannGen_sameState {n : ℕ} (O : QMat n) {U V : QMat n} (h : SameState U V) : riemannGen O U = riemannGen O V := by
  rw [riemannGen, riemannGen, ← density_eq, ← density_eq, density_ray h]

/-- A step along the whole commutator. -/
theorem zzState_step (e θ : ℝ) {U : QMat 2} (h : SameState U (zzState θ)) :
    SameState (NormedSpace.exp ((e : ℂ) • riemannGen (pairWord .X .I + pairWord .Y .Z) U) * U) (zzState (θ - 2 * (e * (Real.cos θ - Real.sin θ)))) := by
  rw [riemannGen_sameState _ h, zzState_gen]
  set g := Real.cos θ - Real.sin θ with hg
  have e1 : (e : ℂ) • ((Complex.I / 2 * (g : ℂ)) • (pairWord .Z .Z - pairWord .Y .Y)) =
      (-Complex.I * ((-(e * g) / 2 : ℝ) : ℂ)) • pairWord .Z .Z + (-Complex.I * ((e * g / 2 : ℝ) : ℂ)) • pairWord .Y .Y := by
    rw [smul_smul, smul_sub, sub_eq_add_neg, ← neg_smul]
    congr 2 <;> (push_cast; ring)
  have hc : Commute (pairWord .Y .Y) (pairWord .Z .Z) := pair_comm
  rw [e1, Matrix.exp_add_of_commute _ _ ((hc.symm.smul_left _).smul_right _), rot2_eq, rot2_eq, Matrix.mul_assoc]
  have h1 : SameState (rotOp 2 (e * g) [.Y, .Y] [0, 1] * U) (zzState (-(e * g) + θ)) := (h.mul_left _).trans (rotYY_zzState _ _)
  have h2 := h1.mul_left (rotOp 2 (-(e * g)) [.Z, .Z] [0, 1])
  rw [rotZZ_zzState] at h2
  convert h2 using 2
  ring

/-- A step along the `ZZ` component alone. -/
theorem zzState_step_one (e θ : ℝ) {U : QMat 2} (h : SameState U (zzState θ)) :
    SameState (NormedSpace.exp ((e : ℂ) • ((Complex.I / 2 * ((Real.cos θ - Real.sin θ : ℝ) : ℂ)) • pairWord .Z .Z)) * U) (zzState (θ - e * (Real.cos θ - Real.sin θ))) := by
  set g := Real.cos θ - Real.sin θ with hg
  have e1 : (e : ℂ) • ((Complex.I / 2 * (g : ℂ)) • pairWord .Z .Z) = (-Complex.I * ((-(e * g) / 2 : ℝ) : ℂ)) • pairWord .Z .Z := by
    rw [smul_smul]
    congr 1
    push_cast
    ring
  rw [e1, rot2_eq]
  have h2 := h.mul_left (rotOp 2 (-(e * g)) [.Z, .Z] [0, 1])
  rw [rotZZ_zzState] at h2
  convert h2 using 2
  ring

/-! ### The layers -/

/-- approximate_example.py:22 `observables = [qml.PauliX(0), qml.PauliY(0)@qml.PauliZ(1)]`. -/
noncomputable def exampleObs : List (Gate 2) := [siteObs 0 (by norm_num) .X, ⟨[0, 1], pairWord .Y .Z, by simp, by simp, by simp⟩]

theorem exampleObs_total : totalObs exampleObs = pairWord .X .I + pairWord .Y .Z := by
  rw [exampleObs, totalObs, List.map_cons, List.map_cons, siteObs_full, placed_first, pair_word le_rfl, full_pair_self]
  simp [full_pair_self]

theorem exampleObs_herm : ∀ g ∈ exampleObs, g.Aᴴ = g.A := by
  intro g hg
  simp only [exampleObs, List.mem_cons, List.not_mem_nil, or_false] at hg
  rcases hg with rfl | rfl
  · exact pauliWord_herm _
  · exact pauliWord_herm _

theorem exampleDirs_comm (v w : Fin 2 → Letter) (hv : letterStr (lettersIn v) ∈ ["YY", "ZZ"]) (hw : letterStr (lettersIn w) ∈ ["YY", "ZZ"]) :
    pauliWord v * pauliWord w = pauliWord w * pauliWord v := by
  have key : ∀ v : Fin 2 → Letter, letterStr (lettersIn v) ∈ ["YY", "ZZ"] → v = ([.Y, .Y] : List Letter).get ∨ v = ([.Z, .Z] : List Letter).get := by decide
  rcases key v hv with rfl | rfl <;> rcases key w hw with rfl | rfl
  · rfl
  · exact pair_comm
  · exact pair_comm.symm
  · rfl

theorem zzState_component (θ : ℝ) (v : Fin 2 → Letter) : component (riemannGen (totalObs exampleObs) (zzState θ)) v =
    Complex.I / 2 * ((Real.cos θ - Real.sin θ : ℝ) : ℂ) * ((if v = ([.Z, .Z] : List Letter).get then 1 else 0) - if v = ([.Y, .Y] : List Letter).get then 1 else 0) := by
  rw [exampleObs_total, zzState_gen, component_smul, sub_eq_add_neg (pairWord .Z .Z), component_add, ← neg_one_smul ℂ (pairWord .Y .Y), component_smul, pairWord, pairWord, component_word, component_word]
  ring

/-- C107 (one call).  On the states `exp(-i θ/2 ZZ) |++⟩` the directions `YY` and `ZZ` hold the whole commutator `[ρ, H]`: the call of the layer, trotterized or not,
is the full Riemannian step, and leads to another of these states. -/
theorem C107_call (args : LayerArgs) (L : CustomLayer 2) (hL : customLayer 2 (exampleObs.map Gate.obs) (some ["YY", "ZZ"]) args = .ok L) (svd : SvdFn 2) (hs : ValidSvd svd)
    (θ : ℝ) (U : QMat 2) (hU : SameState U (zzState θ)) :
    ∃ V, L.call svd U = .ok V ∧ V = NormedSpace.exp ((L.eta : ℂ) • riemannGen (totalObs exampleObs) U) * U ∧
      SameState V (zzState (θ - 2 * (L.eta * (Real.cos θ - Real.sin θ)))) := by
  obtain ⟨K, hK, h⟩ := C106_custom exampleObs exampleObs_herm _ args L hL (.inl ⟨"YY", by simp, by decide⟩) exampleDirs_comm svd hs L.eta U
  have hKe : K = riemannGen (totalObs exampleObs) U := by
    refine isPart_all hK fun v hv => ?_
    rw [riemannGen_sameState _ hU, zzState_component, if_neg, if_neg, sub_zero, mul_zero]
    · rintro rfl
      exact hv (by decide)
    · rintro rfl
      exact hv (by decide)
  subst hKe
  refine ⟨_, h, rfl, ?_⟩
  have := zzState_step L.eta θ hU
  rwa [← exampleObs_total] at this

/-- C107 (one call, `ZZ` only).  With the direction `ZZ` alone the layer makes half the step. -/
theorem C107_call_one (args : LayerArgs) (L : CustomLayer 2) (hL : customLayer 2 (exampleObs.map Gate.obs) (some ["ZZ"]) args = .ok L) (svd : SvdFn 2) (hs : ValidSvd svd)
    (θ : ℝ) (U : QMat 2) (hU : SameState U (zzState θ)) :
    ∃ V, L.call svd U = .ok V ∧ SameState V (zzState (θ - L.eta * (Real.cos θ - Real.sin θ))) := by
  obtain ⟨K, hK, h⟩ := C106_custom exampleObs exampleObs_herm _ args L hL (.inl ⟨"ZZ", by simp, by decide⟩) (C106_one_letter .Z _ (by decide)) svd hs L.eta U
  have hKe : K = (Complex.I / 2 * ((Real.cos θ - Real.sin θ : ℝ) : ℂ)) • pairWord .Z .Z := by
    refine isPart_unique hK ⟨fun v hv => ?_, fun v hv => ?_⟩
    · have : v = ([.Z, .Z] : List Letter).get := by
        have key : ∀ v : Fin 2 → Letter, letterStr (lettersIn v) ∈ ["ZZ"] → v = ([.Z, .Z] : List Letter).get := by decide
        exact key v hv
      subst this
      rw [riemannGen_sameState _ hU, zzState_component, component_smul, pairWord, component_word, if_pos rfl, if_neg (by decide), sub_zero]
    · rw [component_smul, pairWord, component_word, if_neg, mul_zero]
      rintro rfl
      exact hv (by decide)
  subst hKe
  exact ⟨_, h, zzState_step_one L.eta θ hU⟩

/-! ### The costs -/

theorem zzState_cost (x : ℝ) : cost (totalObs exampleObs) (zzState (Real.pi / 4 - x)) = Real.sqrt 2 * Real.cos x := by
  have h1 : cost (pairWord .X .I) (zzState (Real.pi / 4 - x)) = Real.cos (Real.pi / 4 - x) := by
    have := cost_zz_x0 (n := 2) le_rfl (Real.pi / 4 - x)
    rwa [placed_first, pair_word le_rfl, full_pair_self] at this
  have h2 : cost (pairWord .Y .Z) (zzState (Real.pi / 4 - x)) = Real.sin (Real.pi / 4 - x) := by
    have := cost_zz (n := 2) le_rfl (Real.pi / 4 - x) .Y .Z
    rw [pair_word le_rfl, full_pair_self] at this
    refine Eq.trans this (Eq.trans ?_ (double_angle_sin _))
    generalize Real.cos ((Real.pi / 4 - x) / 2) = C
    generalize Real.sin ((Real.pi / 4 - x) / 2) = S
    simp only [sum_four]
    simp [zzSign, pairWord_apply, Letter.mat]
    ring
  rw [exampleObs_total, cost_add, h1, h2, Real.cos_sub, Real.sin_sub, Real.cos_pi_div_four, Real.sin_pi_div_four]
  ring

theorem slope_at (x : ℝ) : Real.cos (Real.pi / 4 - x) - Real.sin (Real.pi / 4 - x) = Real.sqrt 2 * Real.sin x := by
  rw [Real.cos_sub, Real.sin_sub, Real.cos_pi_div_four, Real.sin_pi_div_four]
  ring

variable {m : ℕ} {E : LayerEnv 2} {eigh : EighFn 2} {rnd : ℕ → Matrix (Fin (2 ^ 2)) (Fin (2 ^ 2)) ℝ} {ret : CircuitRet} {ops : List (NpMat × List ℤ)}
  {params : List (List ℝ)} {objs : Fin m → AnyLayer 2} {layers : List (Fin m)} {args : ApproxArgs} {out : OptOut (ApproxItem 2) × (Fin m → AnyLayer 2)}

/-- A run whose steps follow the circle of states. -/
theorem zz_run (L : CustomLayer 2) (r : ℝ)
    (hstep : ∀ θ (U : QMat 2), SameState U (zzState θ) → ∃ V, L.call E.svd U = .ok V ∧ SameState V (zzState (θ - r * (Real.cos θ - Real.sin θ))))
    (hobjs : ∀ i, objs i = .custom L) (hp : args.perturb = .bool false) (x : ℝ) {U : QMat 2} (hU : compileLoop 2 ops 1 = .ok U) (hx : SameState U (zzState (Real.pi / 4 - x)))
    (h : approximateLieOptimizer E eigh rnd ret ops params (exampleObs.map Gate.obs) objs layers args = .ok out) :
    approxCosts out.1 = (List.range (approxCosts out.1).length).map (fun k => Real.sqrt 2 * Real.cos (flowAngle (r * Real.sqrt 2) x k)) ∧
      (args.returnUnitary = .bool true → ∃ l, approxUnitaries out.1 = some l ∧ l.length = (approxCosts out.1).length ∧
        ∀ (k : ℕ) (U : QMat 2), l[k]? = some U → SameState U (zzState (Real.pi / 4 - flowAngle (r * Real.sqrt 2) x k))) := by
  obtain ⟨N, -, e, -, V, W, j, -, -, h0, -, ho0, -, hadv, -, hWV, -, -, hlen, hc, -, hun, -⟩ := C50_trace E eigh rnd ret ops params exampleObs objs layers args out h
  have hV : ∀ k ≤ j, (V k).objs = objs ∧ SameState (V k).U (zzState (Real.pi / 4 - flowAngle (r * Real.sqrt 2) x k)) := by
    intro k
    induction k with
    | zero =>
      intro _
      refine ⟨ho0, ?_⟩
      rw [← Except.ok.inj (hU.symm.trans h0)]
      exact hx
    | succ k ih =>
      intro hk
      obtain ⟨i1, i2⟩ := ih (by omega)
      obtain ⟨i, L', hi, hcall, hobj⟩ := hadv k (by omega)
      rw [hWV hp k (by omega), i1] at hcall hobj
      obtain ⟨X, hX, hX2⟩ := hstep _ _ i2
      rw [hobjs i, AnyLayer.call, hX] at hcall
      obtain ⟨h3, h4⟩ := Prod.mk.inj (Except.ok.inj hcall)
      obtain ⟨-, h5⟩ := Prod.mk.inj h4
      refine ⟨by rw [hobj, ← h5, ← hobjs i]; exact Function.update_eq_self i objs, ?_⟩
      rw [← h3]
      rw [slope_at] at hX2
      convert hX2 using 2
      rw [flowAngle]
      ring
  refine ⟨?_, fun hru => ?_⟩
  swap
  · obtain ⟨l, hl, hll, hlk⟩ := hun hru
    refine ⟨l, hl, hll.trans hlen.symm, fun k U hkU => ?_⟩
    have hk : k ≤ j := by
      by_contra hk
      rw [List.getElem?_eq_none (by omega)] at hkU
      simp at hkU
    rw [hlk k hk] at hkU
    rw [← Option.some.inj hkU]
    exact (hV k hk).2
  apply List.ext_getElem?
  intro k
  by_cases hk : k ≤ j
  · rw [hc k hk, List.getElem?_map, List.getElem?_range (by omega), Option.map_some, cost_sameState (hV k hk).2, zzState_cost]
  · rw [List.getElem?_eq_none (by omega), List.getElem?_eq_none (by simp; omega)]

/-- C107 (the costs).  From a state `exp(-i θ/2 ZZ) |++⟩` with `θ = π/4 - x` (the script: `x = π/4`) a run with the directions `YY` and `ZZ` reports the costs
`√2 cos x_k`, where `x_{k+1} = x_k + 2√2 eta sin x_k`. -/
theorem C107_costs (hs : ValidSvd E.svd) (la : LayerArgs) (L : CustomLayer 2) (hL : customLayer 2 (exampleObs.map Gate.obs) (some ["YY", "ZZ"]) la = .ok L)
    (hobjs : ∀ i, objs i = .custom L) (hp : args.perturb = .bool false) (x : ℝ) {U : QMat 2} (hU : compileLoop 2 ops 1 = .ok U) (hx : SameState U (zzState (Real.pi / 4 - x)))
    (h : approximateLieOptimizer E eigh rnd ret ops params (exampleObs.map Gate.obs) objs layers args = .ok out) :
    approxCosts out.1 = (List.range (approxCosts out.1).length).map (fun k => Real.sqrt 2 * Real.cos (flowAngle (2 * L.eta * Real.sqrt 2) x k)) := by
  refine (zz_run L (2 * L.eta) (fun θ U hU => ?_) hobjs hp x hU hx h).1
  obtain ⟨V, hV, -, hV2⟩ := C107_call la L hL E.svd hs θ U hU
  refine ⟨V, hV, ?_⟩
  rwa [mul_assoc 2 L.eta]

/-- C107.  The direction `YY` only doubles the step size: a run with the direction `ZZ` alone reports the costs for half the step size. -/
theorem C107_one_direction (hs : ValidSvd E.svd) (la : LayerArgs) (L : CustomLayer 2) (hL : customLayer 2 (exampleObs.map Gate.obs) (some ["ZZ"]) la = .ok L)
    (hobjs : ∀ i, objs i = .custom L) (hp : args.perturb = .bool false) (x : ℝ) {U : QMat 2} (hU : compileLoop 2 ops 1 = .ok U) (hx : SameState U (zzState (Real.pi / 4 - x)))
    (h : approximateLieOptimizer E eigh rnd ret ops params (exampleObs.map Gate.obs) objs layers args = .ok out) :
    approxCosts out.1 = (List.range (approxCosts out.1).length).map (fun k => Real.sqrt 2 * Real.cos (flowAngle (L.eta * Real.sqrt 2) x k)) :=
  (zz_run L L.eta (fun θ U hU => C107_call_one la L hL E.svd hs θ U hU) hobjs hp x hU hx h).1

/-- C107 (descent).  For `0 < 2√2 eta ≤ 1` the costs decrease strictly and stay above `-√2`. -/
theorem C107_descends (hs : ValidSvd E.svd) (la : LayerArgs) (L : CustomLayer 2) (hL : customLayer 2 (exampleObs.map Gate.obs) (some ["YY", "ZZ"]) la = .ok L)
    (h0 : 0 < L.eta) (h1 : 2 * L.eta * Real.sqrt 2 ≤ 1)
    (hobjs : ∀ i, objs i = .custom L) (hp : args.perturb = .bool false) (x : ℝ) (hx0 : 0 < x) (hx1 : x < Real.pi)
    {U : QMat 2} (hU : compileLoop 2 ops 1 = .ok U) (hx : SameState U (zzState (Real.pi / 4 - x)))
    (h : approximateLieOptimizer E eigh rnd ret ops params (exampleObs.map Gate.obs) objs layers args = .ok out) :
    (approxCosts out.1).Pairwise (· > ·) ∧ ∀ c ∈ approxCosts out.1, -Real.sqrt 2 < c := by
  have hq : 0 < Real.sqrt 2 := by positivity
  have hrun := C107_costs hs la L hL hobjs hp x hU hx h
  have he : 0 < 2 * L.eta * Real.sqrt 2 := by positivity
  have hb := flowAngle_bounds _ x he.le h1 hx0 hx1
  have hm := flowAngle_strictMono _ x he h1 hx0 hx1
  constructor
  · rw [hrun, List.pairwise_map]
    exact List.Pairwise.imp (fun hab => mul_lt_mul_of_pos_left (Real.cos_lt_cos_of_nonneg_of_le_pi (hb _).1.le (hb _).2.le (hm hab)) hq) List.pairwise_lt_range
  · rw [hrun]
    intro c hc
    obtain ⟨k, -, rfl⟩ := List.mem_map.1 hc
    have := Real.cos_lt_cos_of_nonneg_of_le_pi (hb k).1.le le_rfl (hb k).2
    rw [Real.cos_pi] at this
    nlinarith

/-- C107 (limit).  Under the same conditions the costs come as close to `-√2` as wanted, after a number of steps that depends on the accuracy, the step size and `x` only. -/
theorem C107_limit (e x : ℝ) (h0 : 0 < e) (h1 : 2 * e * Real.sqrt 2 ≤ 1) (hx0 : 0 < x) (hx1 : x < Real.pi) (ε : ℝ) (hε : 0 < ε) :
    ∃ K : ℕ, ∀ (m : ℕ) (E : LayerEnv 2) (eigh : EighFn 2) (rnd : ℕ → Matrix (Fin (2 ^ 2)) (Fin (2 ^ 2)) ℝ) (ret : CircuitRet) (ops : List (NpMat × List ℤ))
      (params : List (List ℝ)) (objs : Fin m → AnyLayer 2) (layers : List (Fin m)) (args : ApproxArgs) (out : OptOut (ApproxItem 2) × (Fin m → AnyLayer 2))
      (la : LayerArgs) (L : CustomLayer 2) (U : QMat 2), ValidSvd E.svd → customLayer 2 (exampleObs.map Gate.obs) (some ["YY", "ZZ"]) la = .ok L → L.eta = e →
      (∀ i, objs i = .custom L) → args.perturb = .bool false → compileLoop 2 ops 1 = .ok U → SameState U (zzState (Real.pi / 4 - x)) →
      approximateLieOptimizer E eigh rnd ret ops params (exampleObs.map Gate.obs) objs layers args = .ok out →
      ∀ k ≥ K, ∀ c, (approxCosts out.1)[k]? = some c → |c - -Real.sqrt 2| < ε := by
  have he : 0 < 2 * e * Real.sqrt 2 := by positivity
  have ht : Filter.Tendsto (fun k => Real.sqrt 2 * Real.cos (flowAngle (2 * e * Real.sqrt 2) x k)) Filter.atTop (nhds (-Real.sqrt 2)) := by
    have := ((Real.continuous_cos.tendsto _).comp (flowAngle_tendsto _ x he h1 hx0 hx1)).const_mul (Real.sqrt 2)
    rw [Real.cos_pi, mul_neg, mul_one] at this
    exact this
  obtain ⟨K, hK⟩ := Metric.tendsto_atTop.1 ht ε hε
  refine ⟨K, ?_⟩
  rintro m E eigh rnd ret ops params objs layers args out la L U hs hL rfl hobjs hp hU hx h k hk c hc
  rw [C107_costs hs la L hL hobjs hp x hU hx h, List.getElem?_map, Option.map_eq_some_iff] at hc
  obtain ⟨i, hi, rfl⟩ := hc
  obtain ⟨-, rfl⟩ := List.getElem?_eq_some_iff.1 hi
  simpa [Real.dist_eq] using hK k hk

/-- C107.  `-√2` is the smallest cost of all circuits, so the value `min(eigvals)` which the script subtracts. -/
theorem C107_smallest : (∀ U : QMat 2, Unitary U → -Real.sqrt 2 ≤ cost (totalObs exampleObs) U) ∧ cost (totalObs exampleObs) (zzState (Real.pi / 4 - Real.pi)) = -Real.sqrt 2 := by
  refine ⟨fun U hU => ?_, by rw [zzState_cost, Real.cos_pi, mul_neg, mul_one]⟩
  rw [exampleObs_total]
  refine C103_smallest hU (pauliWord_herm _) (pauliWord_sq _) (pauliWord_herm _) (pauliWord_sq _) ?_
  ext i j
  refine four_cases (P := fun i j => (pairWord .X .I * pairWord .Y .Z) i j = (-(pairWord .Y .Z * pairWord .X .I)) i j) ?_ i j
  intro i hi j hj
  simp only [Matrix.neg_apply, Matrix.mul_apply, sum_four]
  fin_cases hi <;> fin_cases hj <;> simp [pairWord_apply, Letter.mat, Matrix.one_apply]

/-! ### The script -/

/-- approximate_example.py:17-20: a Hadamard gate on every qubit. -/
noncomputable def exampleCircuit : List (Gate 2) := [⟨[0], hadamard, by simp, by simp, by simp⟩, ⟨[1], hadamard, by simp, by simp, by simp⟩]

theorem exampleCircuit_compile : compileLoop 2 (exampleCircuit.map (fun g => (g.obs.matrix, g.obs.wires))) 1 = .ok (hadamardPair 2) := by
  have := compileLoop_gates exampleCircuit 1
  refine Eq.trans this ?_
  simp [exampleCircuit, hadamardPair]

theorem exampleCircuit_state : SameState (hadamardPair 2) (zzState (Real.pi / 4 - Real.pi / 4)) := by
  rw [sub_self, zzState]
  have : rotOp 2 0 [.Z, .Z] [0, 1] = 1 := by simp [rotOp]
  rw [this, Matrix.one_mul]
  exact SameState.refl _

/-- approximate_example.py:27-31: the script's run exists, and meets the hypotheses of C107 with `x = π/4` and `eta = 0.1`. -/
example (rnd : ℕ → Matrix (Fin (2 ^ 2)) (Fin (2 ^ 2)) ℝ) : ∃ (E : LayerEnv 2) (eigh : EighFn 2) (L : CustomLayer 2) (out : OptOut (ApproxItem 2) × (Fin 1 → AnyLayer 2)),
    ValidSvd E.svd ∧ customLayer 2 (exampleObs.map Gate.obs) (some ["YY", "ZZ"]) {} = .ok L ∧ 0 < L.eta ∧ 2 * L.eta * Real.sqrt 2 ≤ 1 ∧
    approximateLieOptimizer E eigh rnd .state (exampleCircuit.map (fun g => (g.obs.matrix, g.obs.wires))) [] (exampleObs.map Gate.obs) (fun _ : Fin 1 => .custom L) [0]
      { nsteps := .int (50 : ℕ), tol := some (.float 1e-6), eta := .float 0.1, returnUnitary := .bool true } = .ok out := by
  obtain ⟨svd, hsvd⟩ := exists_validSvd 2
  obtain ⟨eigh, heigh⟩ := exists_validEigh 2
  obtain ⟨L, hL, hLe, hLt⟩ := customLayer_default exampleObs ["YY", "ZZ"] (by decide)
  let E : LayerEnv 2 := ⟨svd, ⟨List.reverse, List.reverse_perm⟩, fun _ _ p => .ok p⟩
  have hex := (C50_total_layers E hsvd eigh rnd .state exampleCircuit [] exampleObs (fun _ : Fin 1 => .custom L) [0]
      { nsteps := .int (50 : ℕ), tol := some (.float 1e-6), eta := .float 0.1, returnUnitary := .bool true } (by simp [exampleObs])
      (fun _ => .custom exampleObs exampleObs_herm _ {} L hL (.inl ⟨"YY", by simp, by decide⟩)) rfl).mpr
      ⟨rfl, 50, 0.1, some (.fin 1e-6), _, approxValid_of 50 (by norm_num) (some (.float 1e-6)) (some (.fin 1e-6)) ⟨rfl, by norm_num⟩ ⟨false, false, true, false, false, false, false⟩⟩
  obtain ⟨out, hout⟩ := hex
  refine ⟨E, eigh, L, out, hsvd, hL, by rw [hLe]; norm_num, ?_, hout⟩
  rw [hLe]
  have : Real.sqrt 2 < 2 := by rw [Real.sqrt_lt' (by norm_num)]; norm_num
  linarith

end Oranssi
