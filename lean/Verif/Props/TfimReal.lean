import Verif.Props.Reality
import Mathlib.Analysis.Complex.Polynomial.Basic

/-! # C125: the circuits of the Ising scripts are real, and only words with an odd number of `Y` and of `Z` are ever used -/

namespace Oranssi
open Spec
open scoped Matrix

variable {n m : ℕ}

/-- How often a letter occurs in a word. -/
def Spec.countLetter (a : Letter) (v : Fin n → Letter) : ℕ := (Finset.univ.filter (fun q => v q = a)).card

/-- All amplitudes are real, up to a common phase. -/
def Spec.RealState (φ : Fin (2 ^ n) → ℂ) : Prop := ∃ d : ℂ, ‖d‖ = 1 ∧ ∀ i, (d * φ i).im = 0

theorem pauliWord_id : pauliWord (fun _ : Fin n => Letter.I) = 1 := by
  rw [pauliWord]
  exact tensor_one

theorem real_sym {A : QMat n} (h : conjM A = A) : ConjSymmetric (fun _ => Letter.I) A := by
  rw [ConjSymmetric, pauliWord_id, one_mul, mul_one, h]

/-- Unchanged by conjugation up to a phase: real up to a phase. -/
theorem conjInvariant_id (φ : Ket n) : ConjInvariant (fun _ => Letter.I) φ ↔ RealState φ := by
  rw [ConjInvariant, pauliWord_id]
  constructor
  · rintro ⟨c, hc, h⟩
    rw [Matrix.one_mulVec] at h
    obtain ⟨d, hd⟩ := IsAlgClosed.exists_pow_nat_eq c (n := 2) (by norm_num)
    have hd1 : ‖d‖ = 1 := (pow_eq_one_iff_of_nonneg (norm_nonneg _) (by norm_num : (2 : ℕ) ≠ 0)).1 (by rw [← norm_pow, hd, hc])
    have hdd : d * starRingEnd ℂ d = 1 := by rw [Complex.mul_conj, Complex.normSq_eq_norm_sq, hd1]; norm_num
    refine ⟨d, hd1, fun i => ?_⟩
    have h1 : starRingEnd ℂ (φ i) = c * φ i := congrFun h i
    refine Complex.conj_eq_iff_im.1 ?_
    rw [map_mul, h1, ← hd]
    linear_combination d * φ i * hdd
  · rintro ⟨d, hd, h⟩
    have hdd : d * starRingEnd ℂ d = 1 := by rw [Complex.mul_conj, Complex.normSq_eq_norm_sq, hd]; norm_num
    refine ⟨d * d, by rw [norm_mul, hd, mul_one], ?_⟩
    rw [Matrix.one_mulVec]
    funext i
    have h1 := Complex.conj_eq_iff_im.2 (h i)
    rw [map_mul] at h1
    change starRingEnd ℂ (φ i) = d * d * φ i
    linear_combination d * h1 - starRingEnd ℂ (φ i) * hdd

theorem prod_sign (p : Letter → Prop) [DecidablePred p] (v : Fin n → Letter) : (∏ q, if p (v q) then (-1 : ℂ) else 1) = (-1) ^ (Finset.univ.filter (fun q => p (v q))).card := by
  rw [Finset.prod_ite, Finset.prod_const, Finset.prod_const_one, mul_one]

theorem conjM_count (v : Fin n → Letter) : conjM (pauliWord v) = ((-1 : ℂ) ^ countLetter .Y v) • pauliWord v := by
  rw [conjM_pauliWord, countLetter, ← prod_sign (fun a => a = .Y)]
  congr 1
  refine Finset.prod_congr rfl fun q _ => ?_
  cases v q <;> simp [conjSign]

theorem flip_count (v : Fin n → Letter) : pauliWord (flipAll n) * pauliWord v = ((-1 : ℂ) ^ (countLetter .Y v + countLetter .Z v)) • (pauliWord v * pauliWord (flipAll n)) := by
  rw [pauliWord_swap, pow_add, countLetter, countLetter, ← prod_sign (fun a => a = .Y), ← prod_sign (fun a => a = .Z), ← Finset.prod_mul_distrib]
  congr 1
  refine Finset.prod_congr rfl fun q _ => ?_
  rw [flipAll]
  cases v q <;> simp [letterSign]

theorem tfim_real (hn : 2 ≤ n) : ∀ g ∈ tfimGates n hn, ConjSymmetric (fun _ => Letter.I) (full n g.ws g.A) := by
  intro g hg
  refine real_sym ?_
  rw [tfimGates, List.mem_append, List.mem_append, List.mem_map, List.mem_map, List.mem_singleton] at hg
  rcases hg with (⟨i, -, rfl⟩ | ⟨i, -, rfl⟩) | rfl
  · rw [siteObs_full, conjM_x]
  · rw [bondObs_full, conjM_zz]
  · rw [bondObs_full, conjM_zz]

theorem plus_real : ConjInvariant (fun _ => Letter.I) (fun i => hadamardAll n i 0) := by
  refine ⟨1, by simp, ?_⟩
  rw [pauliWord_id, Matrix.one_mulVec, one_smul]
  funext i
  exact congrFun (congrFun (conjM_hadamard (n := n)) i) 0

/-- In a real state that is symmetric under the flip of all qubits only words with an odd number of `Y` and an odd number of `Z` have a gradient. -/
theorem C125_odd (hn : 2 ≤ n) {U : QMat n} {c : ℂ} (hr : RealState (fun i => U i 0)) (hf : InSector (pauliWord (flipAll n)) c (fun i => U i 0)) (v : Fin n → Letter)
    (hg : grad (totalObs (tfimGates n hn)) U (pauliWord v) ≠ 0) : Odd (countLetter .Y v) ∧ Odd (countLetter .Z v) := by
  have h0 : ¬ (pauliWord v = 0) := fun h => hg (by rw [h, grad]; simp)
  have h1 : Odd (countLetter .Y v) := by
    by_contra he
    rw [Nat.not_odd_iff_even] at he
    refine hg (C124_grad (totalObs_conj (tfim_real hn)) ((conjInvariant_id _).2 hr) (real_sym ?_))
    rw [conjM_count, he.neg_one_pow, one_smul]
  refine ⟨h1, ?_⟩
  by_contra he
  rw [Nat.not_odd_iff_even] at he
  refine hg ?_
  have h2 := flip_count v
  rw [(h1.add_even he).neg_one_pow, neg_smul, one_smul] at h2
  have := omegaC_sector (totalObs_commute (tfim_symmetry hn)) hf h2
  rw [omegaC] at this
  rw [grad, this, Complex.zero_im]

/-! ### Steps of the greedy layers -/

/-- The number of qubits on which a word acts. -/
def Spec.weight (v : Fin n → Letter) : ℕ := (Finset.univ.filter (fun q => v q ≠ .I)).card

/-- How many letters the words of a greedy layer may have. -/
def Spec.maxLetters : AnyLayer n → ℕ
  | .squared _ => 2
  | _ => 3

theorem weight_placed {u : List Letter} {qs : List ℕ} (hu : ∀ a ∈ u, a ≠ .I) (hq : qs ∈ combinations (List.range n) u.length) : weight (placed n u qs) ≤ u.length := by
  obtain ⟨hl, -, -⟩ := mem_combinations_range.1 hq
  rw [weight, ← hl, ← Finset.card_image_of_injective _ Fin.val_injective]
  refine (Finset.card_le_card (t := qs.toFinset) ?_).trans (List.toFinset_card_le qs)
  intro x hx
  obtain ⟨q, hq, rfl⟩ := Finset.mem_image.1 hx
  rw [List.mem_toFinset]
  exact (placed_ne hl hu q).1 (Finset.mem_filter.1 hq).2

/-- A squared or SU(8) layer for the observables `gs`. -/
inductive GreedyOnly (gs : List (Gate n)) : AnyLayer n → Prop
  | squared (hn : 1 ≤ n) (la : LayerArgs) (L : SquaredLayer n) (hL : squaredLayer n (gs.map Gate.obs) la = .ok L) (k : Key) : GreedyOnly gs (.squared { L with previousPauli := k })
  | su8 (la : LayerArgs) (L : SU8Layer n) (hL : su8Layer n (gs.map Gate.obs) la = .ok L) : GreedyOnly gs (.su8 L)

/-- A call rotates about a word with at most as many letters as the layer admits, and the word has a gradient if two words have. -/
theorem greedyOnly_call (E : LayerEnv n) {gs : List (Gate n)} {L : AnyLayer n} (h : GreedyOnly gs L) (ps : List (List ℝ)) (U : QMat n) :
    ∃ V L' v η, L.call E ps U = .ok (V, ps, L') ∧ GreedyOnly gs L' ∧ maxLetters L' = maxLetters L ∧ V = NormedSpace.exp ((-Complex.I * ((η : ℝ) : ℂ)) • pauliWord v) * U ∧
      weight v ≤ maxLetters L ∧ (TwoGradients gs U → grad (totalObs gs) U (pauliWord v) ≠ 0) := by
  cases h with
  | squared hn la L hL k =>
    obtain ⟨ho, hf, hd, -⟩ := squaredLayer_inv hL
    obtain ⟨k', P, V, h1, h2, h3, -⟩ := squared_call hn (L := { L with previousPauli := k }) ho hf hd U
    obtain ⟨u, hu, qs, hqs, huq⟩ := mem_stdDict.1 (List.mem_filter.1 h2.mem).1
    obtain ⟨-, hP⟩ := Prod.mk.inj huq
    obtain ⟨hu1, hu2⟩ := mem_allWords.1 hu
    obtain ⟨η, hη⟩ := h3.rotation
    refine ⟨V, .squared { L with previousPauli := k' }, placed n u qs, η, by rw [AnyLayer.call, h1]; rfl, .squared hn la L hL k', rfl, by rw [← hP]; exact hη, ?_, ?_⟩
    · refine (weight_placed ?_ hqs).trans ?_
      · exact hu2
      · rw [maxLetters]
        simp at hu1
        omega
    rintro ⟨v, q, v', q', hv, hv', hq, hq', hne, g1, g2⟩
    rw [← hP]
    by_cases hk : (letterStr v, q) = k
    · have := h2.le ((letterStr v', q'), pauliWord (placed n v' q')) (List.mem_filter.2 ⟨mem_stdDict.2 ⟨v', hv', q', hq', rfl⟩, by simpa using fun h => hne (hk.trans h.symm)⟩)
      exact abs_pos.1 ((abs_pos.2 g2).trans_le this)
    · have := h2.le ((letterStr v, q), pauliWord (placed n v q)) (List.mem_filter.2 ⟨mem_stdDict.2 ⟨v, hv, q, hq, rfl⟩, by simpa using hk⟩)
      exact abs_pos.1 ((abs_pos.2 g1).trans_le this)
  | su8 la L hL =>
    obtain ⟨-, k, P, V, h1, h2, h3⟩ := C36_su8 gs la true true L hL U
    obtain ⟨-, -, -, hd⟩ := su8Layer_inv hL
    obtain ⟨u, hu, qs, hqs, huq⟩ := mem_stdDict.1 (hd ▸ h2.mem)
    obtain ⟨-, hP⟩ := Prod.mk.inj huq
    obtain ⟨hu1, hu2⟩ := mem_allWords.1 hu
    obtain ⟨η, hη⟩ := h3.rotation
    refine ⟨V, .su8 L, placed n u qs, η, by rw [AnyLayer.call, h1]; rfl, .su8 la L hL, rfl, by rw [← hP]; exact hη, ?_, ?_⟩
    · refine (weight_placed ?_ hqs).trans ?_
      · exact hu2
      · change u.length ≤ 3
        simp [lens8] at hu1
        omega
    rintro ⟨v, q, v', q', hv, hv', hq, hq', hne, g1, g2⟩
    rw [← hP]
    have := h2.le ((letterStr v, q), pauliWord (placed n v q)) (by
      rw [hd]
      exact mem_stdDict.2 ⟨v, mem_allWords.2 ⟨by have := (mem_allWords.1 hv).1; simp [lens8] at this ⊢; omega, (mem_allWords.1 hv).2⟩, q, hq, rfl⟩)
    exact abs_pos.1 ((abs_pos.2 g1).trans_le this)

/-- C125: with three or more qubits the call of the optimizer in tfim_su4_linesearch.py and tfim_su8_linesearch.py succeeds.  Every circuit reported, as long as those
before it have two directions with a gradient, prepares a state with real amplitudes (up to a phase); only words with an odd number of `Y` and an odd number of `Z`
have a gradient there; and if two words of one or two letters have one, the next circuit is a rotation about such a word, with at most two letters for the squared
layer and three for the SU(8) layer. -/
theorem C125_run (hn : 3 ≤ n) (E : LayerEnv n) (hs : ValidSvd E.svd) (eigh : EighFn n) (rnd : ℕ → Matrix (Fin (2 ^ n)) (Fin (2 ^ n)) ℝ) (params : List (List ℝ))
    (L : AnyLayer n) (hL : TfimLayer n L) (args : ApproxArgs) (hp : args.perturb = .bool false) (hr : args.returnUnitary = .bool true) (ho : args.returnOmegas = .bool false)
    (hv : ∃ N e t F, ApproxValid args N e t F) :
    ∃ out l, approximateLieOptimizer E eigh rnd .state (tfimCircuit n) params (tfimObservables n) (fun _ : Fin 1 => L) [0] args = .ok out ∧ approxUnitaries out.1 = some l ∧
      l.length = (approxCosts out.1).length ∧ l[0]? = some (hadamardAll n) ∧
      ∀ (K : ℕ) (X : QMat n), l[K]? = some X → (∀ k < K, 1 ≤ k → ∀ Y, l[k]? = some Y → TwoGradients (tfimGates n (by omega)) Y) →
        RealState (fun i => X i 0) ∧ InSector (pauliWord (flipAll n)) 1 (fun i => X i 0) ∧
        (∀ v : Fin n → Letter, grad (totalObs (tfimGates n (by omega))) X (pauliWord v) ≠ 0 → Odd (countLetter .Y v) ∧ Odd (countLetter .Z v)) ∧
        (TwoGradients (tfimGates n (by omega)) X → ∀ X', l[K + 1]? = some X' → ∃ (v : Fin n → Letter) (η : ℝ), Odd (countLetter .Y v) ∧ Odd (countLetter .Z v) ∧
          weight v ≤ maxLetters L ∧ X' = NormedSpace.exp ((-Complex.I * (η : ℂ)) • pauliWord v) * X) := by
  have h2 : 2 ≤ n := by omega
  obtain ⟨out, l, hout, hl, hlen, hl0, htwo, hflip⟩ := C112_run hn E hs eigh rnd params L hL args hp hr ho hv
  have hG : GreedyOnly (tfimGates n h2) L := by
    cases hL with
    | squared la L hL => exact .squared (by omega) la L (by rw [← tfimGates_obs]; exact hL) L.previousPauli
    | su8 la L hL => exact .su8 la L (by rw [← tfimGates_obs]; exact hL)
  have hout' := hout
  rw [tfimGates_obs h2] at hout'
  obtain ⟨-, N, e, t, F, hv, V, W, j, r, h0, hp0, ho0, hrun, hr0, hcost, hst, hun, -⟩ := approx_outcome E eigh rnd .state (tfimCircuit n) params (tfimGates n h2) _ [0] args out hout'
  obtain ⟨r1, r2, -, r4, -⟩ := approxOutput_read r F
  have hF : F.perturb = false := by
    have := hv.flagP
    rw [hp] at this
    exact (BoolArg.bool.inj this).symm
  have hF' : F.returnUnitary = true := by
    have := hv.flagU
    rw [hr] at this
    exact (BoolArg.bool.inj this).symm
  rw [hF] at hrun
  have hV0 : (V 0).U = hadamardAll n := Except.ok.inj (h0.symm.trans (tfim_compile n))
  rw [hF', if_pos rfl] at hun
  have hget : ∀ k ≤ j, r.unitaries[k]? = some (V k).U := fun k hk => by
    rw [hun, List.getElem?_map, List.getElem?_range (by omega)]
    rfl
  have hlr : l = r.unitaries := by
    rw [hr0, r4, hF', if_pos rfl] at hl
    exact (Option.some.inj hl).symm
  subst hlr
  have hle : ∀ {K : ℕ} {X : QMat n}, r.unitaries[K]? = some X → K ≤ j := by
    intro K X hX
    have := (List.getElem?_eq_some_iff.1 hX).1
    rw [hun] at this
    simp at this
    omega
  have hinv : ∀ k ≤ j, (∀ i, GreedyOnly (tfimGates n h2) ((V k).objs i) ∧ maxLetters ((V k).objs i) = maxLetters L) ∧ W k = V k := by
    intro k
    induction k with
    | zero => intro _; exact ⟨fun i => by rw [ho0]; exact ⟨hG, rfl⟩, hrun.start⟩
    | succ k ih =>
      intro hk
      obtain ⟨i, L', hi, hcall, hobj⟩ := hrun.advance k (by omega)
      obtain ⟨i3, i4⟩ := ih (by omega)
      rw [i4] at hcall hobj
      obtain ⟨X, L'', v, η, hX, hX1, hX2, -⟩ := greedyOnly_call E (i3 i).1 (V k).params (V k).U
      rw [hX] at hcall
      obtain ⟨h3, h4⟩ := Prod.mk.inj (Except.ok.inj hcall)
      obtain ⟨h4, h5⟩ := Prod.mk.inj h4
      refine ⟨fun i' => ?_, hrun.kept k (by omega) (.inr rfl)⟩
      rw [hobj, ← h5]
      by_cases hii : i' = i
      · subst hii; rw [Function.update_self]; exact ⟨hX1, hX2.trans (i3 i').2⟩
      · rw [Function.update_of_ne hii]; exact i3 i'
  have hstep : ∀ k, k + 1 ≤ j → ∃ (v : Fin n → Letter) (η : ℝ), (V (k + 1)).U = NormedSpace.exp ((-Complex.I * (η : ℂ)) • pauliWord v) * (V k).U ∧ weight v ≤ maxLetters L ∧
      (TwoGradients (tfimGates n h2) (V k).U → grad (totalObs (tfimGates n h2)) (V k).U (pauliWord v) ≠ 0) := by
    intro k hk
    obtain ⟨i, L', hi, hcall, hobj⟩ := hrun.advance k (by omega)
    obtain ⟨i3, i4⟩ := hinv k (by omega)
    rw [i4] at hcall hobj
    obtain ⟨X, L'', v, η, hX, -, -, hX3, hX4, hX5⟩ := greedyOnly_call E (i3 i).1 (V k).params (V k).U
    rw [hX] at hcall
    obtain ⟨h3, -⟩ := Prod.mk.inj (Except.ok.inj hcall)
    exact ⟨v, η, by rw [← h3]; exact hX3, hX4.trans_eq (i3 i).2, hX5⟩
  refine ⟨out, r.unitaries, hout, hl, hlen, hl0, fun K X hX hK => ?_⟩
  have hreal : ∀ k ≤ K, RealState (fun i => (V k).U i 0) := by
    intro k
    induction k with
    | zero => intro _; rw [hV0]; exact (conjInvariant_id _).1 plus_real
    | succ k ih =>
      intro hk
      have hkj := hle hX
      have h2k : TwoGradients (tfimGates n h2) (V k).U := by
        rcases Nat.eq_zero_or_pos k with rfl | hk0
        · rw [hV0]; exact htwo
        · exact hK k (by omega) hk0 _ (hget k (by omega))
      obtain ⟨v, η, hU, -, hg⟩ := hstep k (by omega)
      have hi := (conjInvariant_id _).2 (ih (by omega))
      rw [hU, mul_column]
      exact (conjInvariant_id _).1 (((grad_odd (totalObs_conj (tfim_real h2)) hi (hg h2k)).imag_smul η).exp.mulVec hi)
  have hXV : X = (V K).U := Option.some.inj (hX.symm.trans (hget K (hle hX)))
  have hf := (hflip K X hX hK).1
  have hR : RealState (fun i => X i 0) := by rw [hXV]; exact hreal K le_rfl
  have hodd := C125_odd h2 hR hf
  refine ⟨hR, hf, hodd, fun htw X' hX' => ?_⟩
  have hXV' : X' = (V (K + 1)).U := Option.some.inj (hX'.symm.trans (hget (K + 1) (hle hX')))
  obtain ⟨v, η, hU, hw, hg⟩ := hstep K (hle hX')
  rw [← hXV] at hU hg
  have := hodd v (hg htw)
  exact ⟨v, η, this.1, this.2, hw, by rw [hXV', hU]⟩

/-- C125 (squared layer): a word on at most two qubits with an odd number of `Y` and an odd number of `Z` is `Y` on one qubit and `Z` on another. -/
theorem C125_bond {v : Fin n → Letter} (hy : Odd (countLetter .Y v)) (hz : Odd (countLetter .Z v)) (hw : weight v ≤ 2) :
    ∃ i j : Fin n, i ≠ j ∧ v = fun q => if q = i then .Y else if q = j then .Z else .I := by
  obtain ⟨i, hi⟩ := Finset.card_pos.1 hy.pos
  obtain ⟨j, hj⟩ := Finset.card_pos.1 hz.pos
  have hi := (Finset.mem_filter.1 hi).2
  have hj := (Finset.mem_filter.1 hj).2
  have hij : i ≠ j := by rintro rfl; rw [hi] at hj; cases hj
  refine ⟨i, j, hij, funext fun q => ?_⟩
  by_cases h1 : q = i
  · rw [if_pos h1, h1, hi]
  by_cases h2 : q = j
  · rw [if_neg h1, if_pos h2, h2, hj]
  rw [if_neg h1, if_neg h2]
  by_contra h3
  have h4 : ({q, i, j} : Finset (Fin n)).card ≤ weight v := by
    refine Finset.card_le_card fun x hx => ?_
    simp only [Finset.mem_insert, Finset.mem_singleton] at hx
    rw [Finset.mem_filter]
    refine ⟨Finset.mem_univ _, ?_⟩
    rcases hx with rfl | rfl | rfl
    · exact h3
    · rw [hi]; decide
    · rw [hj]; decide
  rw [Finset.card_insert_of_notMem (by simp [h1, h2]), Finset.card_insert_of_notMem (by simpa using hij), Finset.card_singleton] at h4
  omega

/-- C125 (figure): for four qubits, as in tfim_su4_linesearch.py, the curve `SU(2)` of the figure drawn by `plot_su16_directions` is zero: words of one letter have no
gradient in any circuit of the run (as long as the circuits have two directions with a gradient, the last one excepted). -/
theorem C125_figure (Us : List (QMat 4)) (hne : Us ≠ [])
    (hU : ∀ U ∈ Us, ∀ v : Fin 4 → Letter, grad (totalObs (tfimGates 4 (by omega))) U (pauliWord v) ≠ 0 → Odd (countLetter .Y v) ∧ Odd (countLetter .Z v)) :
    ∃ curves, plotSu16Directions Us (tfimObservables 4) = .ok curves ∧ curves 3 = Us.map (fun _ => 0) := by
  obtain ⟨⟨curves, h1, h2⟩, -⟩ := C65_locality_curves Us (tfimGates 4 (by omega)) hne
  rw [← tfimGates_obs] at h1
  refine ⟨curves, h1, ?_⟩
  rw [h2 3 (by omega)]
  refine List.map_congr_left fun U hUm => ?_
  rw [localityCurve]
  refine Finset.sum_eq_zero fun v _ => ?_
  by_cases hc : countI v = 3
  · rw [if_pos hc]
    have : grad (totalObs (tfimGates 4 (by omega))) U (pauliWord v) = 0 := by
      by_contra hg
      obtain ⟨hy, hz⟩ := hU U hUm v hg
      have hwt : weight v ≤ 1 := by
        have h5 : countI v + weight v = 4 := by
          have := Finset.card_filter_add_card_filter_not (s := (Finset.univ : Finset (Fin 4))) (fun q => v q = .I)
          rw [Finset.card_univ, Fintype.card_fin] at this
          exact this
        omega
      obtain ⟨i, j, hij, hv⟩ := C125_bond hy hz (by omega)
      have h4 : ({i, j} : Finset (Fin 4)).card ≤ weight v := by
        refine Finset.card_le_card fun x hx => ?_
        simp only [Finset.mem_insert, Finset.mem_singleton] at hx
        rw [Finset.mem_filter]
        refine ⟨Finset.mem_univ _, ?_⟩
        rw [hv]
        rcases hx with rfl | rfl
        · simp
        · simp [hij.symm]
      rw [Finset.card_insert_of_notMem (by simpa using hij), Finset.card_singleton] at h4
      omega
    rw [grad] at this
    rw [this, zero_div, abs_zero]
  · rw [if_neg hc]

/-- C125 (tfim_su4_linesearch.py, 51-54 and 96): the run of four qubits succeeds, and if all circuits but the last have two directions with a gradient then the curve
`SU(2)` of the figure is zero. -/
theorem C125_script (E : LayerEnv 4) (hs : ValidSvd E.svd) (eigh : EighFn 4) (rnd : ℕ → Matrix (Fin (2 ^ 4)) (Fin (2 ^ 4)) ℝ) (params : List (List ℝ))
    (L : AnyLayer 4) (hL : TfimLayer 4 L) (args : ApproxArgs) (hp : args.perturb = .bool false) (hr : args.returnUnitary = .bool true) (ho : args.returnOmegas = .bool false)
    (hv : ∃ N e t F, ApproxValid args N e t F) :
    ∃ out l, approximateLieOptimizer E eigh rnd .state (tfimCircuit 4) params (tfimObservables 4) (fun _ : Fin 1 => L) [0] args = .ok out ∧ approxUnitaries out.1 = some l ∧
      ((∀ k, 1 ≤ k → k + 1 < l.length → ∀ Y, l[k]? = some Y → TwoGradients (tfimGates 4 (by omega)) Y) →
        ∃ curves, plotSu16Directions l (tfimObservables 4) = .ok curves ∧ curves 3 = l.map (fun _ => 0)) := by
  obtain ⟨out, l, h1, h2, -, h4, h5⟩ := C125_run (n := 4) (by omega) E hs eigh rnd params L hL args hp hr ho hv
  refine ⟨out, l, h1, h2, fun hK => C125_figure l (by rintro rfl; simp at h4) fun U hU => ?_⟩
  obtain ⟨K, hK', rfl⟩ := List.getElem_of_mem hU
  exact (h5 K _ (List.getElem?_eq_getElem hK') fun k hk hk1 Y hY => hK k hk1 (by omega) Y hY).2.2.1

/-- The hypotheses of `C125_bond` and `C125_odd`: `Y` and `Z` on the first two of four qubits, in the initial state. -/
example : Odd (countLetter .Y (placed 4 [.Y, .Z] [0, 1])) ∧ Odd (countLetter .Z (placed 4 [.Y, .Z] [0, 1])) ∧ weight (placed 4 [.Y, .Z] [0, 1]) ≤ 2 ∧
    RealState (fun i => hadamardAll 4 i 0) ∧ InSector (pauliWord (flipAll 4)) 1 (fun i => hadamardAll 4 i 0) ∧
    grad (totalObs (tfimGates 4 (by omega))) (hadamardAll 4) (pauliWord (placed 4 [.Y, .Z] [0, 1])) ≠ 0 := by
  refine ⟨by decide, by decide, by decide, (conjInvariant_id _).1 plus_real, plus_flip _ fun q => .inl rfl, ?_⟩
  rw [tfim_grad_word (by omega), plus_grad_self (by omega) (by omega) (by omega)]
  norm_num

/-- The arguments of tfim_su4_linesearch.py (51-54) meet the hypotheses of `C125_run` and `C125_script`. -/
example : ∃ L, TfimLayer 4 L ∧ ∃ N e t F, ApproxValid { nsteps := .int 50, eta := .float 0.1, tol := some (.float 1e-6), returnUnitary := .bool true } N e t F := by
  obtain ⟨L, hL⟩ := squaredLayer_default (tfimGates 4 (by omega))
  rw [← tfimGates_obs] at hL
  exact ⟨_, .squared {} L hL, 50, _, _, _, approxValid_of 50 (by omega) (some (.float 1e-6)) (some (.fin 1e-6)) ⟨rfl, by norm_num⟩ ⟨false, false, true, false, false, false, false⟩⟩

end Oranssi
