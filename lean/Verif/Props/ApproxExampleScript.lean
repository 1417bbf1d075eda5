import Verif.Model.ApproxExampleScript
import Verif.Props.ApproxExample
import Verif.Props.Scripts
import Verif.Props.Variational
import Verif.Props.Plot
import Verif.Props.CommutatorStepEx
import Verif.Props.Tfim
import Verif.Props.AdaptTfim
import Verif.Props.EigenstatePerturbation

/-! # C134: what experiments_paper/approximate_example.py draws -/

namespace Oranssi
open Spec
open scoped Matrix

namespace Spec

/-- The derivative that `get_all_su_n_directions` reports for the word `w` at the circuit `U`. -/
noncomputable def wordGradient {n : ℕ} (H U : QMat n) (w : Fin n → Letter) : ℝ :=
  (star (fun i => U i 0) ⬝ᵥ ((pauliWord w * H - H * pauliWord w) *ᵥ (fun i => U i 0))).im / 2 ^ n

end Spec

/-- The words with `b` letters `I`, in the order of the dictionaries. -/
def bucketWords (n b : ℕ) : List (Fin n → Letter) := (fnWords (lettersOf true) n).filter (fun w => countI w = b)

theorem individualRows_words {S : Type} {n : ℕ} (Us : List S) (f : S → (Fin n → Letter) → ℝ) (b : ℕ) :
    individualRows (wordDicts Us f) ((fnWords (lettersOf true) n).map wordStr) b = .ok ((bucketWords n b).map (fun w => (wordStr w, Us.map (fun U => f U w)))) := by
  have hf : ((fnWords (lettersOf true) n).map wordStr).filter (fun k => k.toList.count 'I' = b) = (bucketWords n b).map wordStr := by
    rw [List.filter_map, bucketWords]
    congr 1
    apply List.filter_congr
    intro w _
    simp [count_wordStr]
  rw [individualRows, hf]
  generalize bucketWords n b = ws
  induction ws with
  | nil => rfl
  | cons w ws ih =>
    rw [List.map_cons, List.mapM_cons, plotLookups_word, ih]
    rfl

/-- The rows that `plot_su8_directions_individually` draws for two qubits. -/
theorem plotIndividually_rows (Us : List (QMat 2)) (gs : List (Gate 2)) (hne : Us ≠ []) : plotIndividually Us (gs.map Gate.obs) =
    .ok (((bucketWords 2 1 ++ bucketWords 2 0).filter (fun w => !allCloseZero (Us.map (fun U => wordGradient (totalObs gs) U w)))).map
      (fun w => (wordStr w, Us.map (fun U => wordGradient (totalObs gs) U w)))) := by
  have hall : Us.mapM (fun U => getAllSuNDirections U (gs.map Gate.obs)) = .ok (wordDicts Us (wordGradient (totalObs gs))) := directions_all Us gs
  have hx := plotLookups_word Us (wordGradient (totalObs gs)) (fun _ : Fin 2 => Letter.X)
  obtain ⟨U, Us', rfl⟩ := List.exists_cons_of_ne_nil hne
  have hget : pyGetItem (wordDicts (U :: Us') (wordGradient (totalObs gs))) 0 = .ok ((fnWords (lettersOf true) 2).map (fun w => (wordStr w, wordGradient (totalObs gs) U w))) := rfl
  have hk : ((fnWords (lettersOf true) 2).map (fun w => (wordStr w, wordGradient (totalObs gs) U w))).map Prod.fst = (fnWords (lettersOf true) 2).map wordStr := by
    rw [List.map_map]
    rfl
  rw [plotIndividually, hall, ok_bind, show "XX" = wordStr (fun _ : Fin 2 => Letter.X) from rfl, hx, ok_bind, hget, ok_bind, hk, individualRows_words, ok_bind, individualRows_words, ok_bind,
    List.filter_append, List.map_append, List.filter_map, List.filter_map]
  rfl

theorem allCloseZero_iff (l : List ℝ) : allCloseZero l = true ↔ ∀ x ∈ l, |x| ≤ 1e-8 := by
  simp [allCloseZero, isCloseTo]

/-- C134.  `plot_su8_directions_individually` draws, for two qubits, one curve for every Pauli word other than the identity whose derivative exceeds `1e-8` somewhere in the run, with the word as its label. -/
theorem C134_individually (Us : List (QMat 2)) (gs : List (Gate 2)) (hne : Us ≠ []) :
    ∃ rows, plotIndividually Us (gs.map Gate.obs) = .ok rows ∧ (rows.map Prod.fst).Nodup ∧
      ∀ row, row ∈ rows ↔ ∃ w : Fin 2 → Letter, w ≠ (fun _ => .I) ∧ row = (wordStr w, Us.map (fun U => wordGradient (totalObs gs) U w)) ∧
        ∃ U ∈ Us, 1e-8 < |wordGradient (totalObs gs) U w| := by
  refine ⟨_, plotIndividually_rows Us gs hne, ?_, ?_⟩
  · rw [List.map_map]
    have hnd : ((bucketWords 2 1 ++ bucketWords 2 0).map wordStr).Nodup := by decide
    exact hnd.sublist (List.Sublist.map _ List.filter_sublist)
  · intro row
    have hmem : ∀ w : Fin 2 → Letter, w ∈ bucketWords 2 1 ++ bucketWords 2 0 ↔ w ≠ (fun _ => .I) := by decide
    rw [List.mem_map]
    refine exists_congr fun w => ?_
    rw [List.mem_filter, hmem, Bool.not_eq_true', ← Bool.not_eq_true, allCloseZero_iff]
    constructor
    · rintro ⟨⟨h1, h2⟩, rfl⟩
      push Not at h2
      obtain ⟨x, hx, hlt⟩ := h2
      obtain ⟨U, hU, rfl⟩ := List.mem_map.1 hx
      exact ⟨h1, rfl, U, hU, hlt⟩
    · rintro ⟨h1, rfl, U, hU, hlt⟩
      exact ⟨⟨h1, fun h => absurd (h _ (List.mem_map.2 ⟨U, hU, rfl⟩)) (not_le.2 hlt)⟩, rfl⟩

/-- C134.  For every other number of qubits the function ends with a `KeyError`; without circuits with an `IndexError`. -/
theorem C134_other_calls {n : ℕ} (Us : List (QMat n)) (gs : List (Gate n)) : (Us = [] → plotIndividually Us (gs.map Gate.obs) = .error .index) ∧
    (Us ≠ [] → n ≠ 2 → plotIndividually Us (gs.map Gate.obs) = .error .key) := by
  refine ⟨?_, fun hne hn => ?_⟩
  · rintro rfl; rfl
  · have hm : plotLookups (wordDicts Us (wordGradient (totalObs gs))) "XX" = .error .key := by
      have := plotCurves_missing Us (wordGradient (totalObs gs)) hne "XX" (fun h => hn h.symm) []
      rw [plotCurves] at this
      cases hl : plotLookups (wordDicts Us (wordGradient (totalObs gs))) "XX" with
      | error e =>
        rw [hl] at this
        have h2 : e = PyErr.key := by simpa [bind, Except.bind] using this
        rw [h2]
      | ok l =>
        exfalso
        obtain ⟨U, Us', rfl⟩ := List.exists_cons_of_ne_nil hne
        rw [hl] at this
        have hget : pyGetItem (wordDicts (U :: Us') (wordGradient (totalObs gs))) 0 = .ok ((fnWords (lettersOf true) n).map (fun w => (wordStr w, wordGradient (totalObs gs) U w))) := rfl
        rw [ok_bind, hget, ok_bind] at this
        generalize ((fnWords (lettersOf true) n).map (fun w => (wordStr w, wordGradient (totalObs gs) U w))).map Prod.fst = ks at this
        have hfold : ∀ (ks : List String) (c : ℕ → List ℝ), ks.foldlM (fun curves k => ([] : List ℕ).foldlM (plotBucket (wordDicts (U :: Us') (wordGradient (totalObs gs))) k) curves) c = .ok c := by
          intro ks
          induction ks with
          | nil => intro c; rfl
          | cons k ks ih => intro c; rw [List.foldlM_cons]; exact ih c
        rw [hfold] at this
        cases this
    have hall : Us.mapM (fun U => getAllSuNDirections U (gs.map Gate.obs)) = .ok (wordDicts Us (wordGradient (totalObs gs))) := directions_all Us gs
    rw [plotIndividually, hall, ok_bind, hm]
    rfl

/-! ### The smallest eigenvalue -/

theorem minEigenvalue_eq {n : ℕ} {eigh : EighFn n} (he : ValidEigh eigh) {H : QMat n} (hH : Hᴴ = H) {c : ℝ} (hlow : ∀ U : QMat n, Unitary U → c ≤ cost H U)
    {U : QMat n} (hU : Unitary U) (hc : cost H U = c) : minEigenvalue eigh H = c := by
  obtain ⟨hV, hS⟩ := he H hH
  set V := (eigh H).2 with hVd
  set S := (eigh H).1 with hSd
  have h1 : ∀ i, c ≤ S i := by
    intro i
    set W : QMat n := V.submatrix id (Equiv.swap 0 i) with hW
    have hWu : Unitary W := by
      have : Wᴴ * W = (Vᴴ * V).submatrix (Equiv.swap 0 i) (Equiv.swap 0 i) := by
        rw [hW, Matrix.conjTranspose_submatrix]
        exact Matrix.submatrix_mul_equiv Vᴴ V (Equiv.swap 0 i) (Equiv.refl _) (Equiv.swap 0 i)
      change Wᴴ * W = 1
      rw [this, hV, Matrix.submatrix_one_equiv]
    refine (hlow W hWu).trans (le_of_eq ?_)
    have hcol : (fun j => W j 0) = fun j => V j i := by
      funext j
      simp [hW]
    have he' : H *ᵥ (fun j => V j i) = ((S i : ℝ) : ℂ) • (fun j => V j i) := by
      have h : H * V = V * Matrix.diagonal (fun i => ((S i : ℝ) : ℂ)) := by rw [hS, Matrix.mul_assoc, hV, Matrix.mul_one]
      funext j
      have := congrFun (congrFun h j) i
      rw [Matrix.mul_diagonal] at this
      rw [Pi.smul_apply, smul_eq_mul, mul_comm, ← this]
      rfl
    have hn : star (fun j => V j i) ⬝ᵥ (fun j => V j i) = 1 := by
      have := congrFun (congrFun hV i) i
      rwa [Matrix.mul_apply, Matrix.one_apply_eq] at this
    change (star (fun j => W j 0) ⬝ᵥ (H *ᵥ (fun j => W j 0))).re = S i
    rw [hcol, he', dotProduct_smul, hn, smul_eq_mul, mul_one, Complex.ofReal_re]
  have h2 : ∃ i, S i ≤ c := by
    by_contra hno
    push Not at hno
    have hE := energy_eigen hS (fun i => U i 0)
    have hN := norm_eigen hV (fun i => U i 0)
    have hn : star (fun j => U j 0) ⬝ᵥ (fun j => U j 0) = 1 := by
      have := congrFun (congrFun hU 0) 0
      rwa [Matrix.mul_apply, Matrix.one_apply_eq] at this
    rw [hn] at hN
    have hN' : ∑ i, Complex.normSq ((Vᴴ *ᵥ fun i => U i 0) i) = 1 := by exact_mod_cast hN.symm
    have hcost : cost H U = ∑ i, S i * Complex.normSq ((Vᴴ *ᵥ fun i => U i 0) i) := by
      change (star (fun j => U j 0) ⬝ᵥ (H *ᵥ (fun j => U j 0))).re = _
      rw [hE, Complex.ofReal_re]
    rw [hc] at hcost
    have hz : ∑ i, (S i - c) * Complex.normSq ((Vᴴ *ᵥ fun i => U i 0) i) = 0 := by
      simp only [sub_mul, Finset.sum_sub_distrib, ← Finset.mul_sum]
      rw [← hcost, hN']; ring
    rw [Finset.sum_eq_zero_iff_of_nonneg (fun i _ => mul_nonneg (by linarith [hno i]) (Complex.normSq_nonneg _))] at hz
    have : ∑ i, Complex.normSq ((Vᴴ *ᵥ fun i => U i 0) i) = 0 := Finset.sum_eq_zero fun i hi => by
      rcases mul_eq_zero.1 (hz i hi) with h | h
      · linarith [hno i]
      · exact h
    linarith
  obtain ⟨i, hi⟩ := h2
  rw [minEigenvalue]
  exact le_antisymm ((Finset.inf'_le _ (Finset.mem_univ i)).trans hi) (Finset.le_inf' _ _ fun i _ => h1 i)

/-! ### The script -/

theorem npYZ_word : npKron npY npZ = npQ (pauliWord ([Letter.Y, Letter.Z] : List Letter).get) := by
  have hZ : npZ = npQ (tensor (fun _ : Fin 1 => Letter.Z.mat)) := npLetter_eq .Z
  have hY : npY = npQ (tensor (fun _ : Fin 1 => Letter.Y.mat)) := npLetter_eq .Y
  rw [hZ, hY, npKron_npQ, kron_tensor]
  exact tensor_congr_npQ rfl _ _ (fun i => by fin_cases i <;> rfl)

theorem approximateObservables_eq : approximateObservables = exampleObs.map Gate.obs := by
  rw [approximateObservables, npX_word, npYZ_word]
  rfl

theorem approximateCircuit_eq : approximateCircuit = exampleCircuit.map (fun g => (g.obs.matrix, g.obs.wires)) := rfl

theorem wordGradient_eq {n : ℕ} (H U : QMat n) (w : Fin n → Letter) : wordGradient H U w = -(component (riemannGen H U) w).im := by
  have h := omegaC_trace U (pauliWord w) H
  have h' : star (fun i => U i 0) ⬝ᵥ ((pauliWord w * H - H * pauliWord w) *ᵥ (fun i => U i 0)) = -(pauliWord w * riemannGen H U).trace := h
  rw [wordGradient, h', component, show ((2 : ℂ) ^ n) = ((2 ^ n : ℝ) : ℂ) by push_cast; rfl, Complex.div_ofReal_im, Complex.neg_im, neg_div]

/-- The derivatives in the states of the run. -/
theorem example_gradient {U : QMat 2} {x : ℝ} (h : SameState U (zzState (Real.pi / 4 - x))) (w : Fin 2 → Letter) :
    wordGradient (totalObs exampleObs) U w = Real.sqrt 2 / 2 * Real.sin x * ((if w = ([.Y, .Y] : List Letter).get then 1 else 0) - if w = ([.Z, .Z] : List Letter).get then 1 else 0) := by
  rw [wordGradient_eq, riemannGen_sameState _ h, zzState_component, slope_at]
  have e : Complex.I / 2 * ((Real.sqrt 2 * Real.sin x : ℝ) : ℂ) * ((if w = ([.Z, .Z] : List Letter).get then 1 else 0) - if w = ([.Y, .Y] : List Letter).get then 1 else 0) =
      ((Real.sqrt 2 * Real.sin x / 2 * ((if w = ([.Z, .Z] : List Letter).get then 1 else 0) - if w = ([.Y, .Y] : List Letter).get then 1 else 0) : ℝ) : ℂ) * Complex.I := by
    push_cast
    split_ifs <;> (simp; try ring)
  rw [e, Complex.im_ofReal_mul, Complex.I_im]
  ring

/-- The distance `x` of the state to the largest cost after `k` steps of the script: `x₀ = π/4`, `x ↦ x + (√2/5) sin x`. -/
noncomputable def approximateAngle (k : ℕ) : ℝ := flowAngle (2 * 0.1 * Real.sqrt 2) (Real.pi / 4) k

theorem approximateAngle_bounds (k : ℕ) : 0 < approximateAngle k ∧ approximateAngle k < Real.pi := by
  have h : Real.sqrt 2 < 2 := by rw [Real.sqrt_lt' (by norm_num)]; norm_num
  exact flowAngle_bounds _ _ (by positivity) (by linarith) (by linarith [Real.pi_pos]) (by linarith [Real.pi_pos]) k

theorem approximateAngle_strictMono : StrictMono approximateAngle := by
  have h : Real.sqrt 2 < 2 := by rw [Real.sqrt_lt' (by norm_num)]; norm_num
  exact flowAngle_strictMono _ _ (by positivity) (by linarith) (by linarith [Real.pi_pos]) (by linarith [Real.pi_pos])

theorem zzState_unitary {θ : ℝ} : Unitary (zzState θ) := by
  exact Unitary.mul (rotOp_unitary _ _ _) epCircuit_unitary

/-- C134.  approximate_example.py runs to its end.  Of the fifteen Pauli words its figure shows exactly `YY` and `ZZ`, as mirror images of each other; the inset shows the distance of the costs to the
smallest eigenvalue `-√2`, positive and strictly decreasing. -/
theorem C134_script {E : LayerEnv 2} (hs : ValidSvd E.svd) {eigh : EighFn 2} (he : ValidEigh eigh) (rnd : ℕ → Matrix (Fin (2 ^ 2)) (Fin (2 ^ 2)) ℝ) (fs : List OutFile) :
    ∃ N : ℕ, 2 ≤ N ∧ N ≤ 51 ∧ ∃ inset : List ℝ,
      approximateScript E eigh rnd fs = (.ok ([("YY", (List.range N).map (fun k : ℕ => Real.sqrt 2 / 2 * Real.sin (approximateAngle k))),
        ("ZZ", (List.range N).map (fun k : ℕ => -(Real.sqrt 2 / 2 * Real.sin (approximateAngle k))))], inset), fs ++ [.figure "simple_approximate_example"]) ∧
      inset = (List.range N).map (fun k : ℕ => Real.sqrt 2 * (1 + Real.cos (approximateAngle k))) ∧ inset.Pairwise (· > ·) ∧ (∀ e ∈ inset, 0 < e) := by
  have hq : 0 < Real.sqrt 2 := by positivity
  obtain ⟨L, hL, hLe, hLt⟩ := customLayer_default exampleObs ["YY", "ZZ"] (by decide)
  have hv := approxValid_of 50 (by norm_num) (some (.float 1e-6)) (some (.fin 1e-6)) ⟨rfl, by norm_num⟩ ⟨false, false, true, false, false, false, false⟩
  obtain ⟨out, hout⟩ := (C50_total_layers E hs eigh rnd .state exampleCircuit [] exampleObs (fun _ : Fin 1 => .custom L) [0]
      { nsteps := .int (50 : ℕ), tol := some (.float 1e-6), eta := .float 0.1, returnUnitary := .bool true } (by simp)
      (fun _ => .custom exampleObs exampleObs_herm _ {} L hL (.inl ⟨"YY", by simp, by decide⟩)) rfl).mpr ⟨rfl, 50, 0.1, some (.fin 1e-6), _, hv⟩
  obtain ⟨l, hl, h2, h51, hlen, c, z, ho⟩ := run_tuple hout hv
  obtain ⟨hcosts, hun⟩ := zz_run L (2 * L.eta) (fun θ U hU => by
    obtain ⟨V, hV, -, hV2⟩ := C107_call {} L hL E.svd hs θ U hU
    exact ⟨V, hV, by rwa [mul_assoc 2 L.eta]⟩) (fun _ => rfl) rfl (Real.pi / 4) exampleCircuit_compile exampleCircuit_state hout
  obtain ⟨l', hl', -, hstate⟩ := hun rfl
  obtain rfl : l = l' := Option.some.inj (hl.symm.trans hl')
  rw [hLe] at hcosts hstate
  have hc : approxCosts out.1 = c := by rw [ho]; rfl
  rw [← hlen, hc] at hcosts
  set N := l.length with hN
  have hgrad : ∀ w, l.map (fun U => wordGradient (totalObs exampleObs) U w) = (List.range N).map (fun k : ℕ => Real.sqrt 2 / 2 * Real.sin (approximateAngle k) *
      ((if w = ([.Y, .Y] : List Letter).get then 1 else 0) - if w = ([.Z, .Z] : List Letter).get then 1 else 0)) := by
    intro w
    apply List.ext_getElem (by simp [hN])
    intro k h1 h2
    have hk : k < l.length := by simpa using h1
    rw [List.getElem_map, List.getElem_map, List.getElem_range]
    exact example_gradient (hstate k _ (List.getElem?_eq_getElem hk)) w
  have hyz : (([.Z, .Z] : List Letter).get : Fin 2 → Letter) ≠ ([.Y, .Y] : List Letter).get := by decide
  have hfilter : ∀ w, (!allCloseZero (l.map (fun U => wordGradient (totalObs exampleObs) U w))) = decide (w = ([.Y, .Y] : List Letter).get ∨ w = ([.Z, .Z] : List Letter).get) := by
    intro w
    rw [hgrad, Bool.eq_iff_iff, Bool.not_eq_true', ← Bool.not_eq_true, allCloseZero_iff, decide_eq_true_iff]
    have h0 : Real.sqrt 2 / 2 * Real.sin (approximateAngle 0) = 1 / 2 := by
      have : approximateAngle 0 = Real.pi / 4 := rfl
      rw [this, Real.sin_pi_div_four]
      have := Real.mul_self_sqrt (show (0 : ℝ) ≤ 2 by norm_num)
      linarith
    constructor
    · intro h
      by_contra hno
      push Not at hno
      apply h
      intro x hx
      obtain ⟨k, -, rfl⟩ := List.mem_map.1 hx
      rw [if_neg hno.1, if_neg hno.2]
      norm_num
    · intro h hall
      have := hall _ (List.mem_map.2 ⟨0, List.mem_range.2 (by omega), rfl⟩)
      rw [h0] at this
      rcases h with rfl | rfl
      · rw [if_pos rfl, if_neg hyz.symm] at this
        norm_num at this
      · rw [if_neg hyz, if_pos rfl] at this
        norm_num at this
  have hsel : (bucketWords 2 1 ++ bucketWords 2 0).filter (fun w => decide (w = ([.Y, .Y] : List Letter).get ∨ w = ([.Z, .Z] : List Letter).get)) =
      [([.Y, .Y] : List Letter).get, ([.Z, .Z] : List Letter).get] := by decide
  have hsel' := (List.filter_congr (fun w _ => hfilter w)).trans hsel
  have hrows : plotIndividually l (exampleObs.map Gate.obs) = .ok [("YY", (List.range N).map (fun k : ℕ => Real.sqrt 2 / 2 * Real.sin (approximateAngle k))),
        ("ZZ", (List.range N).map (fun k : ℕ => -(Real.sqrt 2 / 2 * Real.sin (approximateAngle k))))] := by
    rw [plotIndividually_rows l exampleObs (List.length_pos_iff.1 (by omega))]
    rw [hsel', List.map_cons, List.map_cons, List.map_nil, hgrad, hgrad]
    have e1 : wordStr ([Letter.Y, .Y] : List Letter).get = "YY" := by decide
    have e2 : wordStr ([Letter.Z, .Z] : List Letter).get = "ZZ" := by decide
    rw [e1, e2]
    simp only [if_true, if_neg hyz, if_neg hyz.symm]
    norm_num
  have hmin : minEigenvalue eigh (totalObs exampleObs) = -Real.sqrt 2 :=
    minEigenvalue_eq he (totalObs_herm _ exampleObs_herm) C107_smallest.1 zzState_unitary C107_smallest.2
  have hinset : c.map (fun c => |c - minEigenvalue eigh (totalObs exampleObs)|) = (List.range N).map (fun k : ℕ => Real.sqrt 2 * (1 + Real.cos (approximateAngle k))) := by
    rw [hmin, hcosts, List.map_map]
    refine List.map_congr_left fun k _ => ?_
    change |Real.sqrt 2 * Real.cos (approximateAngle k) - -Real.sqrt 2| = _
    rw [abs_of_nonneg (by nlinarith [Real.neg_one_le_cos (approximateAngle k)])]
    ring
  refine ⟨N, h2, h51, _, ?_, hinset, ?_, ?_⟩
  · have hH : getHamiltonianMatrix 2 (exampleObs.map Gate.obs) none = .ok (totalObs exampleObs) := C08_hamiltonian_default 2 exampleObs
    have hout' : approximateLieOptimizer E eigh rnd .state (exampleCircuit.map (fun g => (g.obs.matrix, g.obs.wires))) [] (exampleObs.map Gate.obs) (fun _ : Fin 1 => .custom L) [0]
        { nsteps := .int 50, eta := .float 0.1, tol := some (.float 1e-6), returnUnitary := .bool true } = .ok out := hout
    rw [approximateScript]
    simp only [approximateObservables_eq, approximateCircuit_eq]
    rw [Script.bind_ok (Script.call_ok hH _), Script.bind_ok (Script.call_ok hL _), Script.bind_ok (Script.call_ok hout' _)]
    rw [Script.bind_ok (Script.call_ok (show unpackPair out.1 = .ok (.costs c, .unitaries l) by rw [ho]; rfl) _)]
    rw [Script.bind_ok (Script.call_ok (show asUnitaries (ApproxItem.unitaries l) = .ok l from rfl) _), Script.bind_ok (Script.call_ok hrows _),
      Script.bind_ok (Script.call_ok (show asCosts (ApproxItem.costs c : ApproxItem 2) = .ok c from rfl) _), Script.bind_ok (Script.write_ok _ _)]
    rfl
  · rw [hinset, List.pairwise_map]
    exact List.Pairwise.imp (fun hab => mul_lt_mul_of_pos_left (by
      linarith [Real.cos_lt_cos_of_nonneg_of_le_pi (approximateAngle_bounds _).1.le (approximateAngle_bounds _).2.le (approximateAngle_strictMono hab)]) hq) List.pairwise_lt_range
  · rw [hinset]
    intro e hmem
    obtain ⟨k, -, rfl⟩ := List.mem_map.1 hmem
    have := Real.cos_lt_cos_of_nonneg_of_le_pi (approximateAngle_bounds k).1.le le_rfl (approximateAngle_bounds k).2
    rw [Real.cos_pi] at this
    exact mul_pos hq (by linarith)

/-- The hypotheses of `C134_script` can be met, and the first value of the curve `YY` is 1/2. -/
example (rnd : ℕ → Matrix (Fin (2 ^ 2)) (Fin (2 ^ 2)) ℝ) : ∃ (E : LayerEnv 2) (eigh : EighFn 2), ValidSvd E.svd ∧ ValidEigh eigh ∧
    ∃ (y z e : ℝ) (ys zs es : List ℝ) (fs : List OutFile), approximateScript E eigh rnd [] = (.ok ([("YY", y :: ys), ("ZZ", z :: zs)], e :: es), fs) ∧ y = 1 / 2 ∧ z = -(1 / 2) ∧ e = Real.sqrt 2 + 1 := by
  obtain ⟨svd, hsvd⟩ := exists_validSvd 2
  obtain ⟨eigh, heigh⟩ := exists_validEigh 2
  let E : LayerEnv 2 := ⟨svd, ⟨List.reverse, List.reverse_perm⟩, fun _ _ p => .ok p⟩
  refine ⟨E, eigh, hsvd, heigh, ?_⟩
  obtain ⟨N, h2, -, inset, h, hi, -⟩ := C134_script (E := E) hsvd heigh rnd []
  obtain ⟨M, rfl⟩ := Nat.exists_eq_add_of_le h2
  rw [hi, show 2 + M = (M + 1) + 1 by omega, List.range_succ_eq_map] at h
  simp only [List.map_cons] at h
  have h0 : approximateAngle 0 = Real.pi / 4 := rfl
  have hq := Real.mul_self_sqrt (show (0 : ℝ) ≤ 2 by norm_num)
  refine ⟨_, _, _, _, _, _, _, h, ?_, ?_, ?_⟩
  · rw [h0, Real.sin_pi_div_four]; linarith
  · rw [h0, Real.sin_pi_div_four]; linarith
  · rw [h0, Real.cos_pi_div_four]; linarith

/-- `C134_individually` for a single circuit: it can be met. -/
example : ∃ rows, plotIndividually [zzState (Real.pi / 4 - Real.pi / 2)] (exampleObs.map Gate.obs) = .ok rows ∧ ("YY", [Real.sqrt 2 / 2]) ∈ rows := by
  obtain ⟨rows, h, -, hr⟩ := C134_individually [zzState (Real.pi / 4 - Real.pi / 2)] exampleObs (by simp)
  have hg : wordGradient (totalObs exampleObs) (zzState (Real.pi / 4 - Real.pi / 2)) ([.Y, .Y] : List Letter).get = Real.sqrt 2 / 2 := by
    rw [example_gradient (SameState.refl _), if_pos rfl, if_neg (by decide), Real.sin_pi_div_two]; ring
  refine ⟨rows, h, (hr _).2 ⟨([.Y, .Y] : List Letter).get, by decide, ?_, _, List.mem_singleton_self _, ?_⟩⟩
  · have e1 : wordStr ([Letter.Y, .Y] : List Letter).get = "YY" := by decide
    rw [e1, List.map_cons, hg]; rfl
  · rw [hg, abs_of_pos (by positivity)]
    have : (1 : ℝ) < Real.sqrt 2 := by rw [Real.lt_sqrt (by norm_num)]; norm_num
    linarith

end Oranssi
