import Verif.Model.PerturbationScript
import Verif.Props.EigenstatePerturbation
import Verif.Props.ApproxExample
import Verif.Props.Scripts

/-! # C130, C131: what experiments_paper/eigenstate_perturbation.py draws -/

namespace Oranssi
open Spec
open scoped Matrix

variable {n : ℕ}

/-! ### C130: the markers -/

/-- Two runs that start alike and whose perturbations agree before step `p` agree on the first `p + 1` steps. -/
theorem run_causal {α : Type*} {R R' : Rules α} {V W V' W' : ℕ → α} {m m' p : ℕ} (h : R.Run V W m) (h' : R'.Run V' W' m') (hN : R.nsteps = R'.nsteps)
    (hF : R.first = R'.first) (hL : R.lag = R'.lag) (hCl : R.close = R'.close) (hC : R.cost = R'.cost)
    (hS : ∀ k a b c, R.step k a b → R'.step k a c → b = c) (hK : R.kick = none ↔ R'.kick = none)
    (hk : ∀ f f', R.kick = some f → R'.kick = some f' → ∀ k < p, f k = f' k) (h0 : V 0 = V' 0) :
    (∀ k ≤ p + 1, k ≤ m → k ≤ m' → V k = V' k) ∧ (m = m' ∨ p + 1 < m ∧ p + 1 < m') := by
  have key : ∀ k, k ≤ p + 1 → k ≤ m → k ≤ m' → (∀ j ≤ k, V j = V' j) ∧ (k ≤ p → W k = W' k) := by
    intro k
    induction k with
    | zero =>
      intro _ _ _
      refine ⟨fun j hj => ?_, fun _ => ?_⟩
      · obtain rfl : j = 0 := by omega
        exact h0
      · rw [h.start, h'.start, h0]
    | succ k ih =>
      intro h1 h2 h3
      obtain ⟨ihV, ihW⟩ := ih (by omega) (by omega) (by omega)
      have hV : V (k + 1) = V' (k + 1) := by
        refine hS k (W k) _ _ (h.advance k (by omega)) ?_
        rw [ihW (by omega)]
        exact h'.advance k (by omega)
      have hVj : ∀ j ≤ k + 1, V j = V' j := fun j hj => by
        rcases Nat.lt_or_ge j (k + 1) with hj' | hj'
        · exact ihV j (by omega)
        · obtain rfl : j = k + 1 := by omega
          exact hV
      refine ⟨hVj, fun hp => ?_⟩
      have hfl : R.Flat V k ↔ R'.Flat V' k := by
        rw [Rules.Flat, Rules.Flat, hF, hL, hCl, hC, hV, hVj _ (Nat.sub_le _ _)]
      by_cases hf : R.Flat V k
      · cases hR : R.kick with
        | none =>
          rw [h.kept k (by omega) (.inr hR), h'.kept k (by omega) (.inr (hK.1 hR)), hV]
        | some f =>
          cases hR' : R'.kick with
          | none => rw [hK.2 hR'] at hR; simp at hR
          | some f' =>
            rw [h.kicked k (by omega) hf f hR, h'.kicked k (by omega) (hfl.1 hf) f' hR', hV, hk f f' hR hR' k (by omega)]
      · rw [h.kept k (by omega) (.inl hf), h'.kept k (by omega) (.inl (fun h => hf (hfl.2 h))), hV]
  refine ⟨fun k hk1 hk2 hk3 => (key k hk1 hk2 hk3).1 k le_rfl, ?_⟩
  have sym : ∀ {a b : ℕ} {R R' : Rules α} {V W V' W' : ℕ → α}, R.Run V W a → R'.Run V' W' b → R.nsteps = R'.nsteps → R.first = R'.first → R.lag = R'.lag →
      R.close = R'.close → R.cost = R'.cost → (R.kick = none ↔ R'.kick = none) → (∀ k ≤ p + 1, k ≤ a → k ≤ b → V k = V' k) → a < b → p + 1 < a := by
    intro a b R R' V W V' W' r r' hN hF hL hCl hC hK hV hab
    by_contra hcon
    rcases r.ended with he | ⟨hn, k, rfl, hfl⟩
    · have := r'.bounded
      omega
    · refine r'.notBefore (hK.1 hn) k hab ?_
      rw [Rules.Flat, hF, hL, hCl, hC, hV (k + 1) (by omega) le_rfl (by omega), hV (k + 1 - R'.lag) (by omega) (by omega) (by omega)] at hfl
      exact hfl
  rcases Nat.lt_trichotomy m m' with hlt | rfl | hlt
  · have := sym h h' hN hF hL hCl hC hK (fun k a b c => (key k a b c).1 k le_rfl) hlt
    exact .inr ⟨this, by omega⟩
  · exact .inl rfl
  · have := sym h' h hN.symm hF.symm hL.symm hCl.symm hC.symm hK.symm (fun k a b c => ((key k a c b).1 k le_rfl).symm) hlt
    exact .inr ⟨by omega, this⟩

/-- C130 (when a perturbation shows).  Two calls of `exact_lie_optimizer` whose random matrices agree before step `p` report the same costs up to and including index `p + 1`: the
perturbation that is reported as `p` does not change the cost with index `p + 1`. -/
theorem C130_causal (eigh : EighFn n) (rnd rnd' : ℕ → Matrix (Fin (2 ^ n)) (Fin (2 ^ n)) ℝ) (ret : CircuitRet) (ops : List (NpMat × List ℤ)) (gs : List (Gate n))
    (args : ExactArgs) (out out' : OptOut (ExactItem n)) (p : ℕ) (hr : ∀ k < p, rnd k = rnd' k)
    (h : exactLieOptimizer eigh rnd ret ops (gs.map Gate.obs) args = .ok out) (h' : exactLieOptimizer eigh rnd' ret ops (gs.map Gate.obs) args = .ok out') :
    (exactCosts out).take (p + 2) = (exactCosts out').take (p + 2) := by
  obtain ⟨-, N, e, t, rs, b, rp, ru, hv, V, W, m, r, h0, hrun, rfl, -, hc, -, -⟩ := exact_outcome eigh rnd ret ops gs args out h
  obtain ⟨-, N', e', t', rs', b', rp', ru', hv', V', W', m', r', h0', hrun', rfl, -, hc', -, -⟩ := exact_outcome eigh rnd' ret ops gs args out' h'
  obtain rfl : N = N' := by have := hv.nsteps.symm.trans hv'.nsteps; simpa using this
  obtain rfl : e = e' := by have := hv.eta.symm.trans hv'.eta; simpa using this
  obtain rfl : b = b' := BoolArg.bool.inj (hv.flagP.symm.trans hv'.flagP)
  obtain rfl : t = t' := by
    have h1 := (validateTol_iff _ _).mpr hv.tol
    rw [(validateTol_iff _ _).mpr hv'.tol] at h1
    exact (Except.ok.inj h1).symm
  obtain ⟨hV, hm⟩ := run_causal (p := p) hrun hrun' rfl rfl rfl rfl rfl (fun k a x y hx hy => Except.ok.inj (hx.symm.trans hy))
    (by cases b <;> simp [exactRules])
    (fun f f' hf hf' k hk => by
      cases b with
      | false => simp [exactRules] at hf
      | true =>
        simp only [exactRules, if_true, Option.some.injEq] at hf hf'
        subst hf; subst hf'
        simp only [hr k hk]) (Except.ok.inj (h0.symm.trans h0'))
  rw [exactOutput_costs, exactOutput_costs, hc, hc', ← List.map_take, ← List.map_take, List.take_range, List.take_range]
  have hmin : min (p + 2) (m + 1) = min (p + 2) (m' + 1) := by omega
  rw [hmin]
  refine List.map_congr_left fun k hk => ?_
  rw [List.mem_range] at hk
  rw [hV k (by omega) (by omega) (by omega)]

theorem asOperand_npQ (A : QMat 2) : asOperand 2 (npQ A) = .ok A := by
  rw [asOperand, dif_pos ⟨rfl, rfl⟩]
  rfl

theorem perturbationMarkers_ok (costs : List ℝ) (ps : List ℕ) (h : ∀ p ∈ ps, p < costs.length) :
    perturbationMarkers costs ps = .ok (ps.map (fun p => (p, costs.getD p 0))) := by
  unfold perturbationMarkers
  induction ps with
  | nil => rfl
  | cons p ps ih =>
    have h1 : pyGetItem costs (p : ℤ) = .ok (costs.getD p 0) := by
      rw [pyGetItem_nat (h p (by simp)), List.getD_eq_getElem _ _ (h p (by simp))]
    rw [List.mapM_cons, ih (fun q hq => h q (by simp [hq])), h1]
    rfl

/-- C130.  The script saves both figures.  The two markers lists are the same: a marker for every perturbed step `p`, at the index `p` of the costs, `4 ≤ p < 100`.  The cost that is
measured last before the perturbation has the index `p + 1`; it exists, and differs from the one the marker is drawn at by no more than the tolerance `10⁻³` and `10⁻⁵` of its size. -/
theorem C130_script (eigh : EighFn 2) (he : ValidEigh eigh) (rnd : ℕ → Matrix (Fin (2 ^ 2)) (Fin (2 ^ 2)) ℝ) (fs : List OutFile) :
    ∃ out out' U U' ps, perturbationRun eigh rnd false = .ok out ∧ perturbationRun eigh rnd true = .ok out' ∧ exactUnitary out = some U ∧
      exactUnitary out' = some U' ∧ exactPerturbations out' = some ps ∧
      perturbationScript eigh rnd fs = (.ok ((Uᴴ * twoQubitH * U).map Complex.re, (U'ᴴ * twoQubitH * U').map Complex.re,
        ps.map (fun p => (p, (exactCosts out').getD p 0)), ps.map (fun p => (p, (exactCosts out').getD p 0))),
        fs ++ [.figure "eigenstate_perturbation", .figure "eigenstate_perturbation_only"]) ∧
      (exactCosts out').length = 101 ∧ ps.Pairwise (· < ·) ∧ ∀ p, p ∈ ps ↔ 4 ≤ p ∧ p < 100 ∧
        |(exactCosts out').getD (p + 1) 0 - (exactCosts out').getD p 0| ≤ 1e-3 + 1e-5 * |(exactCosts out').getD p 0| := by
  obtain ⟨out, h1⟩ := (C96_script he rnd).1 false
  obtain ⟨out', h2⟩ := (C96_script he rnd).1 true
  have g1 := h1
  have g2 := h2
  rw [perturbationRun, epGates_obs] at g1 g2
  obtain ⟨rs, rp, ru, f1, f2, f3, c, st, ps0, U, ho⟩ := C52_exact _ _ _ _ _ _ _ g1
  obtain rfl := BoolArg.bool.inj f1
  obtain rfl := BoolArg.bool.inj f2
  obtain rfl := BoolArg.bool.inj f3
  obtain ⟨rs, rp, ru, f1, f2, f3, c', st', ps, U', ho'⟩ := C52_exact _ _ _ _ _ _ _ g2
  obtain rfl := BoolArg.bool.inj f1
  obtain rfl := BoolArg.bool.inj f2
  obtain rfl := BoolArg.bool.inj f3
  obtain ⟨N, t, hN, ht, hl, hp⟩ := C49_exact _ _ _ _ _ _ _ g2 rfl
  obtain ⟨ps', hps', hpw, hmem⟩ := hp rfl
  obtain rfl : N = 100 := by
    have := NArg.int.inj hN
    omega
  have htt : t = .fin 1e-3 := by
    have h3 := (validateTol_iff _ _).mpr ht
    have h4 : IsTol (PyVal.float 1e-3) (.fin 1e-3) := ⟨rfl, by norm_num⟩
    rw [(validateTol_iff _ _).mpr h4] at h3
    exact (Except.ok.inj h3).symm
  subst htt
  have ho : out = .tuple [.costs c, .unitary U] := ho
  have ho' : out' = .tuple [.costs c', .perturbations ps, .unitary U'] := ho'
  subst ho ho'
  obtain rfl : ps = ps' := Option.some.inj hps'
  have hc' : ∀ p, p ∈ ps ↔ 4 ≤ p ∧ p < 100 ∧ |c'.getD (p + 1) 0 - c'.getD p 0| ≤ 1e-3 + 1e-5 * |c'.getD p 0| := by
    intro p
    rw [hmem p]
    constructor
    · rintro ⟨a, b, d⟩
      exact ⟨a, b, d _ rfl⟩
    · rintro ⟨a, b, d⟩
      refine ⟨a, b, fun s hs => ?_⟩
      obtain rfl : (1e-3 : ℝ) = s := Option.some.inj hs
      exact d
  have hl' : c'.length = 101 := hl
  have hmk := perturbationMarkers_ok c' ps (fun p hp => by have := (hc' p).1 hp; omega)
  refine ⟨_, _, U, U', ps, h1, h2, rfl, rfl, rfl, ?_, hl', hpw, hc'⟩
  obtain ⟨hH, hT⟩ := C96_hamiltonian
  rw [hT] at hH
  rw [perturbationScript, Script.bind_ok (Script.call_ok hH _), Script.bind_ok (Script.call_ok h1 _)]
  refine (Script.bind_ok (Script.call_ok (rfl : unpackUnperturbed _ = .ok (c, U)) _)).trans ?_
  refine (Script.bind_ok (Script.call_ok (asOperand_npQ _) _)).trans ?_
  rw [Script.bind_ok (Script.call_ok h2 _)]
  refine (Script.bind_ok (Script.call_ok (rfl : unpackPerturbed _ = .ok (c', ps, U')) _)).trans ?_
  refine (Script.bind_ok (Script.call_ok hmk _)).trans ?_
  refine (Script.bind_ok (Script.write_ok _ _)).trans ?_
  refine (Script.bind_ok (Script.call_ok hmk _)).trans ?_
  refine (Script.bind_ok (Script.write_ok _ _)).trans ?_
  simp [pure, drawnDiag, exactCosts]

/-! ### C131: the matrix of the unperturbed run -/

/-- The circuits of the unperturbed run: the rotation `exp(-i θ Z)` of the first qubit where the second one is in `|+⟩`, after the circuit of the script. -/
noncomputable def epU (θ : ℝ) : QMat 2 := rotOp 2 θ [.Z, .I] [0, 1] * rotOp 2 θ [.Z, .X] [0, 1] * hadamardPair 2

theorem ep_comm : pairWord .Z .I * pairWord .Z .X = pairWord .Z .X * pairWord .Z .I := by
  ext i j
  refine four_cases (P := fun i j => (pairWord .Z .I * pairWord .Z .X) i j = (pairWord .Z .X * pairWord .Z .I) i j) ?_ i j
  intro i hi j hj
  simp only [Matrix.mul_apply, sum_four]
  fin_cases hi <;> fin_cases hj <;> simp [pairWord_apply, Letter.mat]

theorem ep_rot_comm (a b : ℝ) : rotOp 2 a [.Z, .X] [0, 1] * rotOp 2 b [.Z, .I] [0, 1] = rotOp 2 b [.Z, .I] [0, 1] * rotOp 2 a [.Z, .X] [0, 1] := by
  rw [← rot2_eq, ← rot2_eq]
  have h : Commute (pairWord .Z .X) (pairWord .Z .I) := ep_comm.symm
  exact (((h.smul_left _).smul_right _).exp).eq

theorem rot2_add (a b : ℝ) (l m : Letter) : rotOp 2 a [l, m] [0, 1] * rotOp 2 b [l, m] [0, 1] = rotOp 2 (a + b) [l, m] [0, 1] := by
  rw [← rot2_eq, ← rot2_eq, ← rot2_eq, ← Matrix.exp_add_of_commute]
  · congr 1
    rw [← add_smul]
    congr 1
    push_cast
    ring
  · exact ((Commute.refl _).smul_left _).smul_right _

theorem epU_rot (a θ : ℝ) : NormedSpace.exp ((-Complex.I * ((a / 2 : ℝ) : ℂ)) • (pairWord .Z .I + pairWord .Z .X)) * epU θ = epU (a + θ) := by
  have h : Commute (pairWord .Z .I) (pairWord .Z .X) := ep_comm
  rw [smul_add, Matrix.exp_add_of_commute _ _ ((h.smul_left _).smul_right _), rot2_eq, rot2_eq, epU, epU, ← rot2_add a θ .Z .I, ← rot2_add a θ .Z .X]
  simp only [Matrix.mul_assoc]
  rw [← Matrix.mul_assoc (rotOp 2 a [.Z, .X] [0, 1]), ep_rot_comm]
  simp only [Matrix.mul_assoc]

end Oranssi
