import Verif.Model.SingleQubit
import Verif.Spec.GradientStep
import Verif.Props.InvolutionRun
import Verif.Props.ParamShift
import Verif.Props.SumOnly
import Verif.Props.AdaptStep
import Verif.Props.Variational

/-! # C91: parameter shift and Riemannian descent agree when one angle reaches every value of the observable -/

namespace Oranssi
open Spec
open scoped Matrix

variable {n : ℕ}

theorem exists_validGdList : ∃ gd : ℝ → (List ℝ → Py ℝ) → List ℝ → Py (List ℝ), ValidGdList gd := by
  refine ⟨fun eta f p => .ok ((List.range p.length).map (fun i => p.getD i 0 - eta * deriv (fun t => okOr0 (f (p.set i t))) (p.getD i 0))),
    fun eta f F p hf hd => ⟨_, rfl, by simp, fun i hi => ?_⟩⟩
  have hF : ∀ t, okOr0 (f (p.set i t)) = F (p.set i t) := fun t => by rw [hf _ (by simp)]; rfl
  simp only [← hF]
  rw [List.getD_eq_getElem (hn := by simpa using hi), List.getElem_map, List.getElem_range]

/-- A gradient step on a cost that depends on the entry `i` only, as the cosine of that entry plus a constant. -/
theorem gd_cosine {gd : ℝ → (List ℝ → Py ℝ) → List ℝ → Py (List ℝ)} (hgd : ValidGdList gd) {f : List ℝ → Py ℝ} {p : List ℝ} {i : ℕ} (hi : i < p.length)
    {φ : ℝ} (hf : ∀ p', p'.length = p.length → f p' = .ok (Real.cos (φ + p'.getD i 0))) (e : ℝ) :
    ∃ p', gd e f p = .ok p' ∧ p'.length = p.length ∧ p'.getD i 0 = p.getD i 0 + e * Real.sin (φ + p.getD i 0) := by
  have hset : ∀ t, (p.set i t).getD i 0 = t := fun t => by rw [List.getD_eq_getElem (hn := by simpa using hi), List.getElem_set_self]
  have hset' : ∀ j, j ≠ i → ∀ t, (p.set j t).getD i 0 = p.getD i 0 := fun j hj t => by
    rw [List.getD_eq_getElem (hn := by simpa using hi), List.getElem_set_ne hj, List.getD_eq_getElem (hn := hi)]
  have hd : HasDerivAt (fun t => Real.cos (φ + t)) (-Real.sin (φ + p.getD i 0)) (p.getD i 0) := by
    have := ((hasDerivAt_id (p.getD i 0)).const_add φ).cos
    simpa using this
  obtain ⟨p', h1, h2, h3⟩ := hgd e f (fun q => Real.cos (φ + q.getD i 0)) p hf (fun j hj => by
    by_cases hji : j = i
    · subst hji
      simp only [hset]
      exact hd.differentiableAt
    · simp only [hset' j hji]
      exact differentiableAt_const _)
  refine ⟨p', h1, h2, ?_⟩
  rw [h3 i hi]
  simp only [hset]
  rw [hd.deriv]
  ring

section
variable {eigh : EighFn n} {rnd : ℕ → Matrix (Fin (2 ^ n)) (Fin (2 ^ n)) ℝ} {ret ret' : CircuitRet} {cs : List (Gate n)} {g : Gate n}
  {gd : ℝ → (List ℝ → Py ℝ) → List ℝ → Py (List ℝ)} {circuit : List ℝ → Py (List (NpMat × List ℤ))} {p : List ℝ} {i : ℕ} {φ : ℝ}
  {argsE : ExactArgs} {argsP : PsArgs} {outE : OptOut (ExactItem n)} {outP : OptOut (PsItem n (List ℝ))}

/-- C91.  The parameters of a parameter-shift run on such a cost: the angle that matters follows the Riemannian flow. -/
theorem C91_parameters (hgd : ValidGdList gd) (hi : i < p.length)
    (hf : ∀ p', p'.length = p.length → psCost n circuit ([g].map Gate.obs) p' = .ok (Real.cos (φ + p'.getD i 0)))
    (e : ℝ) (V : ℕ → List ℝ) (m : ℕ) (h0 : V 0 = p) (hs : ∀ k < m, gd e (psCost n circuit ([g].map Gate.obs)) (V k) = .ok (V (k + 1))) :
    ∀ k ≤ m, (V k).length = p.length ∧ φ + (V k).getD i 0 = flowAngle e (φ + p.getD i 0) k := by
  intro k
  induction k with
  | zero => intro _; rw [h0]; exact ⟨rfl, rfl⟩
  | succ k ih =>
    intro hk
    obtain ⟨hl, ha⟩ := ih (by omega)
    obtain ⟨p', h1, h2, h3⟩ := gd_cosine hgd (p := V k) (i := i) (by omega) (φ := φ) (fun q hq => hf q (by omega)) e
    rw [hs k (by omega)] at h1
    obtain rfl := Except.ok.inj h1
    refine ⟨by omega, ?_⟩
    rw [h3, flowAngle, ← ha]
    ring

/-- C91.  Where one angle makes the expectation of an involutory observable run through `cos (φ + angle)`, the costs of `parameter_shift_optimizer` are an
initial segment of the costs of `exact_lie_optimizer` called with the same step size, tolerance and number of steps.  They are equal unless parameter shift
stops at its first test, which comes one step earlier. -/
theorem C91_costs (he : ValidEigh eigh) (hgd : ValidGdList gd) (hcs : ∀ c ∈ cs, c.Aᴴ * c.A = 1) (hA : g.Aᴴ = g.A) (hA2 : g.A * g.A = 1)
    (hi : i < p.length) (hp : circuit p = .ok (cs.map (fun g => (g.obs.matrix, g.obs.wires))))
    (hf : ∀ p', p'.length = p.length → psCost n circuit ([g].map Gate.obs) p' = .ok (Real.cos (φ + p'.getD i 0)))
    (hN : argsP.nsteps = argsE.nsteps) (hE : argsP.eta = argsE.eta) (hT : argsP.tol = argsE.tol) (hP : argsE.perturbation = .bool false)
    (rp : Bool) (hrp : argsP.returnParams = boolFlag rp)
    (hX : exactLieOptimizer eigh rnd ret (cs.map (fun g => (g.obs.matrix, g.obs.wires))) ([g].map Gate.obs) argsE = .ok outE)
    (hS : parameterShiftOptimizer gd ret' circuit p ([g].map Gate.obs) argsP = .ok outP) :
    psCosts outP <+: exactCosts outE ∧
      (psCosts outP = exactCosts outE ∨ ((psCosts outP).length = 5 ∧ 5 < (exactCosts outE).length ∧
        ∃ t, IsTol argsE.tol t ∧ Close t.spec ((exactCosts outE).getD 4 0) ((exactCosts outE).getD 3 0))) := by
  obtain ⟨N, e, t, V, m, hN1, he1, ht1, hV0, hmN, hstep, hl, hc, -, -, hnot, hend⟩ := C55_trace _ _ _ _ _ _ _ rp hrp hS
  obtain ⟨N', t', hN2, ht2, hnot', hend', hmin⟩ := C45_first_flat_step _ _ _ _ _ _ _ hX hP
  obtain rfl : N' = N := by
    have := hN1.symm.trans (hN.trans hN2)
    injection this with this
    exact_mod_cast this.symm
  obtain rfl : t' = t := by
    rw [hT] at ht1
    cases t <;> cases t' <;> simp only [IsTol] at ht1 ht2
    · obtain ⟨h1, -⟩ := ht1
      rw [h1] at ht2
      rw [PyVal.float.inj ht2.1]
    · rw [ht2] at ht1; exact absurd ht1.1 (by simp)
    · rw [ht1] at ht2; exact absurd ht2.1 (by simp)
    · rfl
  set x := φ + p.getD i 0 with hx
  have hVk := C91_parameters hgd hi hf e V m hV0 hstep
  have hcost : ∀ k ≤ m, (psCosts outP).getD k 0 = Real.cos (flowAngle e x k) := fun k hk => by
    have := hc k hk
    rw [hf _ (hVk k hk).1, (hVk k hk).2] at this
    exact (Except.ok.inj this).symm
  have hfirst : (exactCosts outE)[0]? = some (Real.cos x) := by
    obtain ⟨-, -, e', -, W, -, m', -, h0, -, hcE, -⟩ := C44_trace eigh rnd _ _ _ argsE outE hX
    rw [hcE 0 (by omega)]
    have h1 := hf p rfl
    simp only [psCost, circuitUnitary, hp, bind, Except.bind] at h1
    rw [h0] at h1
    simp only at h1
    rw [totalCost_gates] at h1
    rw [Except.ok.inj h1]
  have hE' := C76_costs he hcs hA hA2 hP e (hE ▸ he1) hX x hfirst
  have hcostE : ∀ k < (exactCosts outE).length, (exactCosts outE).getD k 0 = Real.cos (flowAngle e x k) := fun k hk => by
    rw [hE', List.getD_eq_getElem (hn := by simpa using hk), List.getElem_map, List.getElem_range]
  have hP' : psCosts outP = (List.range (m + 1)).map (fun k => Real.cos (flowAngle e x k)) := by
    refine List.ext_getElem (by simp [hl]) fun k hk _ => ?_
    rw [List.getElem_map, List.getElem_range, ← hcost k (by omega), List.getD_eq_getElem (hn := hk)]
  have hlen : (psCosts outP).length ≤ (exactCosts outE).length ∧ ((psCosts outP).length = (exactCosts outE).length ∨
      ((psCosts outP).length = 5 ∧ 5 < (exactCosts outE).length ∧ Close t'.spec ((exactCosts outE).getD 4 0) ((exactCosts outE).getD 3 0))) := by
    rcases hend with rfl | ⟨k, hk3, hkN, rfl, hcl⟩
    · rcases hend' with h' | ⟨k', hk4, hkN', hl', hcl'⟩
      · omega
      · by_cases hlt : k' + 1 < m
        · refine absurd ?_ (hnot k' (by omega) hlt)
          rw [hcost _ (by omega), hcost _ (by omega)]
          rwa [hcostE _ (by omega), hcostE _ (by omega)] at hcl'
        · omega
    · by_cases hk4 : 4 ≤ k
      · have h1 : ¬ k + 2 < (exactCosts outE).length := fun hlt => by
          refine hnot' k hk4 hlt ?_
          rw [hcostE _ (by omega), hcostE _ (by omega)]
          rwa [hcost _ (by omega), hcost _ (by omega)] at hcl
        have h2 : k + 2 ≤ (exactCosts outE).length := by
          rcases hend' with h' | ⟨k', hk4', hkN', hl', hcl'⟩
          · omega
          · by_contra hlt
            refine hnot k' (by omega) (by omega) ?_
            rw [hcost _ (by omega), hcost _ (by omega)]
            rwa [hcostE _ (by omega), hcostE _ (by omega)] at hcl'
        omega
      · obtain rfl : k = 3 := by omega
        have h5 : 5 ≤ (exactCosts outE).length := by omega
        refine ⟨by omega, ?_⟩
        by_cases h6 : (exactCosts outE).length = 5
        · exact .inl (by omega)
        · refine .inr ⟨by omega, by omega, ?_⟩
          rw [hcostE _ (by omega), hcostE _ (by omega)]
          rwa [hcost _ (by omega), hcost _ (by omega)] at hcl
  have hpre : psCosts outP <+: exactCosts outE := by
    rw [hE', hP', show m + 1 = (psCosts outP).length from hl.symm]
    exact (List.prefix_iff_eq_take.2 (by rw [List.take_range, List.length_range, min_eq_left hlen.1])).map _
  refine ⟨hpre, ?_⟩
  rcases hlen.2 with h | ⟨h1, h2, h3⟩
  · exact .inl (hpre.eq_of_length h)
  · exact .inr ⟨h1, h2, t', ht2, h3⟩

end

/-! ### Calls that succeed -/

/-- The parameter-shift optimizer succeeds when the parameters stay among those for which the circuit is valid and the gradient step succeeds. -/
theorem ps_succeeds {P : Type} (I : P → Prop) {gd : ℝ → (P → Py ℝ) → P → Py P} {circuit : P → Py (List (NpMat × List ℤ))} {gs : List (Gate n)} {params : P}
    (h0 : I params) (hU : ∀ p, I p → ∃ U, circuitUnitary n circuit p = .ok U)
    (hgd : ∀ e p, I p → ∃ q, gd e (psCost n circuit (gs.map Gate.obs)) p = .ok q ∧ I q) {args : PsArgs} {N : ℕ} {e : ℝ} {t : Tol} {rs : Bool}
    (hv : PsValid args N e t rs) (rp : Bool) (hrp : args.returnParams = boolFlag rp) :
    ∃ out, parameterShiftOptimizer (n := n) gd .nothing circuit params (gs.map Gate.obs) args = .ok out := by
  have hc : ∀ p, I p → ∃ c, psCost n circuit (gs.map Gate.obs) p = .ok c := by
    intro p hp
    obtain ⟨U, hU⟩ := hU p hp
    rw [psCost, hU]
    exact ⟨_, totalCost_gates _ _⟩
  have hst : ∀ (l : List (Ket n)) p, I p → ∃ states, (if rs then (do let U ← circuitUnitary n circuit p; .ok (l ++ [stateFromUnitary U]))
      else .ok l : Py (List (Ket n))) = .ok states := by
    intro l p hp
    obtain ⟨U, hU⟩ := hU p hp
    rw [hU]
    cases rs <;> exact ⟨_, rfl⟩
  obtain ⟨states, hst0⟩ := hst [] params h0
  obtain ⟨c0, hc0⟩ := hc params h0
  obtain ⟨s, hs⟩ := forRange_total (psBody gd circuit (gs.map Gate.obs) e t rs args.returnParams.truthy)
    (fun k s => s.costs.length = k + 1 ∧ I s.params) (by
      rintro k s ⟨hl, hI⟩
      obtain ⟨q, hq, hIq⟩ := hgd e s.params hI
      obtain ⟨st, hst⟩ := hst s.states q hIq
      obtain ⟨c, hc⟩ := hc q hIq
      have h1 : pyGetItem (s.costs ++ [c]) (-1) = .ok c := getItem_last
      have h2 := getItem_neg (s.costs ++ [c]) 1 (by simp [hl])
      rw [show (-(((1 : ℕ) : ℤ) + 1)) = -2 by norm_num] at h2
      have hbody : psBody gd circuit (gs.map Gate.obs) e t rs args.returnParams.truthy k s =
          .ok ({ params := q, costs := s.costs ++ [c], states := st,
                 paramsPerStep := if args.returnParams.truthy then s.paramsPerStep ++ [q] else s.paramsPerStep },
            if k > 2 then isCloseTol c ((s.costs ++ [c]).getD ((s.costs ++ [c]).length - 2) 0) t else false) := by
        unfold psBody
        simp only [bind_ok_iff]
        refine ⟨q, hq, _, hc, st, hst, ?_⟩
        by_cases hk : k > 2
        · rw [if_pos hk, if_pos hk, h1, h2]
          rfl
        · rw [if_neg hk, if_neg hk]
      exact ⟨_, hbody, by simp [hl], hIq⟩) N 0
    { params := params, costs := [c0], states := states, paramsPerStep := if args.returnParams.truthy then [params] else [] } ⟨rfl, h0⟩
  have ho := psOut_bool s rs rp
  rw [← hrp] at ho
  have hops : ∃ ops, circuit params = .ok ops := by
    obtain ⟨U, hU⟩ := hU params h0
    rw [circuitUnitary] at hU
    obtain ⟨ops, hops, -⟩ := bind_ok_iff.1 hU
    exact ⟨ops, hops⟩
  refine ⟨_, (ps_ok_iff ..).mpr ⟨hops, rfl, N, e, t, rs, hv, states, c0, s, ?_, hc0, hs, ho⟩⟩
  rw [← hst0]
  cases rs <;> simp

/-! ### The circuit of `plot_equal` -/

theorem pauliWord_one (w : Fin 1 → Letter) : pauliWord w = ((w 0).mat : Matrix (Fin 2) (Fin 2) ℂ) := by
  have hb : ∀ r : Fin (2 ^ 1), (⟨bit 1 r (0 : Fin 1), Nat.mod_lt _ (by decide)⟩ : Fin 2) = r := by
    intro r; fin_cases r <;> rfl
  funext r c
  rw [pauliWord, tensor, Fin.prod_univ_one, hb, hb]

/-- The gate `RY(a)`. -/
theorem rotGate_Y (a : ℝ) : rotGate a "Y" [0] = ((rotGate0 (a / 2)).obs.matrix, (rotGate0 (a / 2)).obs.wires) := by
  have h : pauliRot a [Letter.Y] = rot (a / 2) := by
    rw [pauliRot]
    change _ • (1 : Matrix (Fin 2) (Fin 2) ℂ) - _ • pauliWord (n := 1) _ = (!![_, _; _, _] : Matrix (Fin 2) (Fin 2) ℂ)
    rw [pauliWord_one]
    change _ • (1 : Matrix (Fin 2) (Fin 2) ℂ) - _ • (!![0, -Complex.I; Complex.I, 0] : Matrix (Fin 2) (Fin 2) ℂ) = _
    rw [Matrix.one_fin_two]
    ext i j
    fin_cases i <;> fin_cases j <;> simp [mul_right_comm Complex.I _ Complex.I]
  have hY : lettersOfStr "Y" = [Letter.Y] := by decide
  rw [rotGate, hY, h]
  rfl

theorem plotEqual_ok (p : List ℝ) (hp : 0 < p.length) :
    plotEqualCircuit p = .ok ([rotGate0 (p.getD 0 0 / 2)].map (fun g => (g.obs.matrix, g.obs.wires))) := by
  cases p with
  | nil => simp at hp
  | cons a p => simp [plotEqualCircuit, pyGetItem, pyIndex, bind, Except.bind, rotGate_Y]

theorem plotEqual_unitary (p : List ℝ) (hp : 0 < p.length) : circuitUnitary 1 plotEqualCircuit p = .ok (rot (p.getD 0 0 / 2)) := by
  rw [circuitUnitary, plotEqual_ok p hp]
  exact compile_rot _

theorem plotEqual_cost (p : List ℝ) (hp : 0 < p.length) :
    psCost 1 plotEqualCircuit ([gateX].map Gate.obs) p = .ok (Real.cos (-(Real.pi / 2) + p.getD 0 0)) := by
  rw [psCost, plotEqual_unitary p hp]
  simp only [bind, Except.bind]
  rw [totalCost_gates, totalObs_single, show full 1 gateX.ws gateX.A = matX from full_one_qubit matX, cost_rotX, neg_add_eq_sub, Real.cos_sub_pi_div_two]
  congr 2
  ring

section
variable {eigh : EighFn 1} {rnd : ℕ → Matrix (Fin (2 ^ 1)) (Fin (2 ^ 1)) ℝ} {ret ret' : CircuitRet}
  {gd : ℝ → (List ℝ → Py ℝ) → List ℝ → Py (List ℝ)} {p : List ℝ} {ops : List (NpMat × List ℤ)}
  {argsE : ExactArgs} {argsP : PsArgs} {outE : OptOut (ExactItem 1)} {outP : OptOut (PsItem 1 (List ℝ))}

/-- C91.  The circuit of `plot_equal` with the observable X, any parameters and any step size: the costs agree, and so do the states. -/
theorem C91_plot_equal (he : ValidEigh eigh) (hgd : ValidGdList gd) (hp : 0 < p.length) (hops : plotEqualCircuit p = .ok ops)
    (hN : argsP.nsteps = argsE.nsteps) (hE : argsP.eta = argsE.eta) (hT : argsP.tol = argsE.tol) (hP : argsE.perturbation = .bool false)
    (rp : Bool) (hrp : argsP.returnParams = boolFlag rp)
    (hX : exactLieOptimizer eigh rnd ret ops ([gateX].map Gate.obs) argsE = .ok outE)
    (hS : parameterShiftOptimizer gd ret' plotEqualCircuit p ([gateX].map Gate.obs) argsP = .ok outP) :
    psCosts outP <+: exactCosts outE ∧
      (psCosts outP = exactCosts outE ∨ ((psCosts outP).length = 5 ∧ 5 < (exactCosts outE).length ∧
        ∃ t, IsTol argsE.tol t ∧ Close t.spec ((exactCosts outE).getD 4 0) ((exactCosts outE).getD 3 0))) ∧
      (argsE.returnState = .bool true → argsP.returnState = .bool true →
        ∃ lE lP, exactStates outE = some lE ∧ psStates outP = some lP ∧ lE.length = (exactCosts outE).length ∧ lP.length = (psCosts outP).length ∧ lP <+: lE) := by
  rw [plotEqual_ok p hp] at hops
  obtain rfl := Except.ok.inj hops
  have hunit : ∀ c ∈ [rotGate0 (p.getD 0 0 / 2)], c.Aᴴ * c.A = 1 := by
    intro c hc
    rw [List.mem_singleton.1 hc]
    exact rot_unitary _
  have hf : ∀ p', p'.length = p.length → psCost 1 plotEqualCircuit ([gateX].map Gate.obs) p' = .ok (Real.cos (-(Real.pi / 2) + p'.getD 0 0)) :=
    fun p' h => plotEqual_cost p' (by omega)
  obtain ⟨h1, h2⟩ := C91_costs he hgd hunit matX_herm matX_sq hp (plotEqual_ok p hp) hf hN hE hT hP rp hrp hX hS
  refine ⟨h1, h2, fun hrE hrP => ?_⟩
  obtain ⟨N, e, t, V, m, hN1, he1, ht1, hV0, hmN, hstep, hl, hc, hst, -⟩ := C55_trace _ _ _ _ _ _ _ rp hrp hS
  obtain ⟨N', hN', e', he', W, W', m', hm', h0, hl', hc', hs', hW0, hWV, -, hst', -⟩ := C44_trace eigh rnd _ _ _ argsE outE hX
  obtain ⟨lP, hlP, hlP', hlPk⟩ := hst hrP
  obtain ⟨lE, hlE, hlE', hlEk⟩ := hst' hrE
  obtain rfl : e' = e := by
    rw [hE, he'] at he1
    exact PyVal.float.inj he1
  have hV := C91_parameters hgd hp hf e' V m hV0 hstep
  have hW : ∀ k ≤ m', W k = rot ((flowAngle e' (-(Real.pi / 2) + p.getD 0 0) k + Real.pi / 2) / 2) := by
    intro k
    induction k with
    | zero =>
      intro _
      rw [compile_rot] at h0
      rw [← Except.ok.inj h0, flowAngle]
      congr 1; ring
    | succ k ih =>
      intro hk
      have := hs' k (by omega)
      rw [hWV hP k (by omega), ih (by omega), exactUpdates_single, exactUpdate_rotX he] at this
      rw [← Except.ok.inj this, flowAngle]
      congr 1
      rw [show 2 * ((flowAngle e' (-(Real.pi / 2) + p.getD 0 0) k + Real.pi / 2) / 2) = flowAngle e' (-(Real.pi / 2) + p.getD 0 0) k + Real.pi / 2 by ring,
        Real.cos_add_pi_div_two]
      ring
  refine ⟨lE, lP, hlE, hlP, by omega, by omega, ?_⟩
  have hmm : m ≤ m' := by have := h1.length_le; omega
  rw [List.prefix_iff_eq_take]
  refine List.ext_getElem? fun k => ?_
  by_cases hk : k ≤ m
  · rw [List.getElem?_take_of_lt (by omega), hlEk k (by omega), hW k (by omega)]
    obtain ⟨U, hU, hlU⟩ := hlPk k hk
    rw [hlU]
    rw [plotEqual_unitary _ (by have := (hV k hk).1; omega)] at hU
    rw [← Except.ok.inj hU, ← (hV k hk).2]
    congr 1
    funext i
    rw [show -(Real.pi / 2) + (V k).getD 0 0 + Real.pi / 2 = (V k).getD 0 0 by ring]
    rfl
  · rw [List.getElem?_eq_none (by omega), List.getElem?_eq_none (by simp; omega)]

end

/-- Hypotheses of `C91_costs` and `C91_plot_equal`: the two calls of `plot_equal` succeed (with 100 steps of size `0.1`), and all the other hypotheses hold. -/
example (rnd : ℕ → Matrix (Fin (2 ^ 1)) (Fin (2 ^ 1)) ℝ) : ∃ (eigh : EighFn 1) (gd : ℝ → (List ℝ → Py ℝ) → List ℝ → Py (List ℝ)) (ops : List (NpMat × List ℤ))
    (argsE : ExactArgs) (argsP : PsArgs), ValidEigh eigh ∧ ValidGdList gd ∧ plotEqualCircuit [0.4, 1.2] = .ok ops ∧
      argsP.nsteps = argsE.nsteps ∧ argsP.eta = argsE.eta ∧ argsP.tol = argsE.tol ∧ argsE.perturbation = .bool false ∧ argsP.returnParams = boolFlag true ∧
      argsE.returnState = .bool true ∧ argsP.returnState = .bool true ∧
      (∃ outE, exactLieOptimizer eigh rnd .state ops ([gateX].map Gate.obs) argsE = .ok outE) ∧
      (∃ outP, parameterShiftOptimizer (n := 1) gd .nothing plotEqualCircuit [0.4, 1.2] ([gateX].map Gate.obs) argsP = .ok outP) := by
  obtain ⟨eigh, he⟩ := exists_validEigh 1
  obtain ⟨gd, hgd⟩ := exists_validGdList
  refine ⟨eigh, gd, _, { nsteps := .int (100 : ℕ), returnState := .bool true }, { nsteps := .int (100 : ℕ), returnState := .bool true, returnParams := boolFlag true },
    he, hgd, plotEqual_ok _ (by simp), rfl, rfl, rfl, rfl, rfl, rfl, rfl, ?_, ?_⟩
  · exact (C44_succeeds_iff ..).mpr ⟨rfl, 100, 0.1, .fin 1e-3, true, false, false, false,
      ⟨rfl, by norm_num, rfl, by norm_num, by norm_num, ⟨rfl, by norm_num⟩, rfl, rfl, rfl, by simp, rfl⟩⟩
  · refine ps_succeeds (fun p => p.length = 2) rfl (fun p hp => ⟨_, plotEqual_unitary p (by omega)⟩) (fun e p hp => ?_)
      (N := 100) (e := 0.1) (t := .fin 1e-3) (rs := true) ⟨rfl, by norm_num, rfl, by norm_num, by norm_num, ⟨rfl, by norm_num⟩, rfl⟩ true rfl
    obtain ⟨q, h1, h2, -⟩ := gd_cosine hgd (p := p) (i := 0) (by omega) (fun p' h => plotEqual_cost p' (by omega)) e
    exact ⟨q, h1, h2.trans hp⟩

end Oranssi
