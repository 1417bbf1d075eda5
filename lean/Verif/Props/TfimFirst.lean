import Verif.Props.AdaptSymmetry
import Verif.Props.TfimReal
import Verif.Props.Plot
import Mathlib.Data.Finset.Powerset
import Mathlib.Data.Nat.Choose.Sum

/-! # The first points of the figures of directions (C127) -/

namespace Oranssi
open scoped Matrix
open Spec

variable {n : ℕ}

/-- The word has the letter `Y` on `i`, the letter `Z` on `j`, and only the letters `I` and `X` elsewhere. -/
def Spec.BondWord (v : Fin n → Letter) (i j : Fin n) : Prop := v i = .Y ∧ v j = .Z ∧ ∀ q, q ≠ i → q ≠ j → v q = .I ∨ v q = .X

instance (v : Fin n → Letter) (i j : Fin n) : Decidable (BondWord v i j) := by unfold BondWord; infer_instance

/-- A factor of the direction that commutes with the observable and leaves the state alone does not change the gradient. -/
theorem grad_stabiliser {A U Q P : QMat n} (hH : Qᴴ = Q) (hQ : Commute Q A) (hs : InSector Q 1 (fun i => U i 0)) : grad A U (Q * P) = grad A U P := by
  rw [InSector, one_smul] at hs
  have h' : star (fun i => U i 0) ᵥ* Q = star (fun i => U i 0) := by
    conv_rhs => rw [← hs]
    rw [Matrix.star_mulVec, hH]
  have e : Q * P * A - A * (Q * P) = Q * (P * A - A * P) := by
    rw [mul_sub, ← mul_assoc A, ← hQ.eq]; simp only [mul_assoc]
  rw [grad, grad, e, ← Matrix.mulVec_mulVec, Matrix.dotProduct_mulVec, h']

/-- No gradient along a direction that anticommutes with such a factor. -/
theorem grad_anti {A U Q P : QMat n} (hH : Qᴴ = Q) (hQ : Commute Q A) (hs : InSector Q 1 (fun i => U i 0)) (ha : Q * P = -(P * Q)) : grad A U P = 0 := by
  rw [InSector, one_smul] at hs
  have e : Q * (P * A - A * P) = -((P * A - A * P) * Q) := by
    rw [mul_sub, ← mul_assoc, ha, ← mul_assoc, hQ.eq, mul_assoc A, ha]
    simp only [neg_mul, mul_neg, sub_mul, mul_assoc]
    rw [hQ.eq]
    abel
  rw [grad, expect_flip hH hs e, Complex.zero_im]

/-- The gradient of one bond along any word, in the initial state: 2 for the words with `Y` and `Z` on the bond and `I` or `X` elsewhere, 0 for all others. -/
theorem C127_bond (v : Fin n → Letter) (i j : Fin n) (hij : i ≠ j) : grad (pauliWord (placed n [.Z, .Z] [i.val, j.val])) (hadamardAll n) (pauliWord v) =
    (if BondWord v i j then 2 else 0) + (if BondWord v j i then 2 else 0) := by
  have hij' : i.val ≠ j.val := fun h => hij (Fin.ext h)
  by_cases ho : ∀ q, q ≠ i → q ≠ j → v q = .I ∨ v q = .X
  · set x : Fin n → Letter := fun q => if q = i ∨ q = j then .I else v q with hx
    have hxs : InSector (pauliWord x) 1 (fun k => hadamardAll n k 0) := plus_flip _ fun q => by
      simp only [hx]
      split
      · simp
      · rename_i h; push Not at h; exact (ho q h.1 h.2).symm
    have hxZ : Commute (pauliWord x) (pauliWord (placed n [.Z, .Z] [i.val, j.val])) := by
      rw [placed_two i.val j.val i.isLt j.isLt hij']
      refine Commute.mul_right ?_ ?_
      · rw [Commute, SemiconjBy, word_site _ _ _ i.isLt]; simp [hx, letterSign]
      · rw [Commute, SemiconjBy, word_site _ _ _ j.isLt]; simp [hx, letterSign]
    have hv : pauliWord v = pauliWord x * pauliWord (placed n [v i, v j] [i.val, j.val]) := by
      rw [pauliWord, pauliWord, pauliWord, tensor_mul]
      congr 1
      funext q
      by_cases h1 : q = i
      · subst h1; simp [hx, placed, Letter.mat]
      · by_cases h2 : q = j
        · subst h2
          have e0 : (i.val == q.val) = false := by simpa using hij'
          simp [hx, placed, List.idxOf_cons, e0, Letter.mat]
        · rw [placed_none q.isLt (fun h => h1 (Fin.ext h)) (fun h => h2 (Fin.ext h))]
          simp [hx, h1, h2, Letter.mat]
    rw [hv, grad_stabiliser (pauliWord_herm _) hxZ hxs, plus_grad_word _ _ i.isLt j.isLt hij']
    have h1 : BondWord v i j ↔ v i = .Y ∧ v j = .Z := ⟨fun h => ⟨h.1, h.2.1⟩, fun h => ⟨h.1, h.2, ho⟩⟩
    have h2 : BondWord v j i ↔ v j = .Y ∧ v i = .Z := ⟨fun h => ⟨h.1, h.2.1⟩, fun h => ⟨h.1, h.2, fun q a b => ho q b a⟩⟩
    simp only [h1, h2]
    cases v i <;> cases v j <;> simp [bondGrad]
  · have h1 : ¬ BondWord v i j := fun h => ho h.2.2
    have h2 : ¬ BondWord v j i := fun h => ho fun q a b => h.2.2 q b a
    rw [if_neg h1, if_neg h2, add_zero]
    push Not at ho
    obtain ⟨q, hqi, hqj, hI, hX⟩ := ho
    have hs : InSector (pauliWord (placed n [.X] [q.val])) 1 (fun k => hadamardAll n k 0) := plus_flip _ fun r => by rw [placed_one]; split <;> simp
    refine grad_anti (pauliWord_herm _) ?_ hs ?_
    · refine Commute.symm ?_
      rw [Commute, SemiconjBy, word_site _ _ _ q.isLt, placed_none q.isLt (fun h => hqi (Fin.ext h)) (fun h => hqj (Fin.ext h))]
      simp [letterSign]
    · have := word_site v .X q.val q.isLt
      rw [this]
      have e : letterSign (v q) .X = -1 := by
        revert hI hX; cases v q <;> simp [letterSign]
      change _ = -((letterSign (v q) Letter.X) • _)
      rw [e]; simp

/-- The number of words with `Y` on `i` and `Z` on `j`, `I` or `X` elsewhere, and `b` letters `I`. -/
theorem bondWord_card (i j : Fin n) (hij : i ≠ j) (b : ℕ) : (Finset.univ.filter (fun v : Fin n → Letter => countI v = b ∧ BondWord v i j)).card = (n - 2).choose b := by
  have hc : (Finset.univ \ {i, j} : Finset (Fin n)).card = n - 2 := by
    rw [Finset.card_sdiff_of_subset (Finset.subset_univ _), Finset.card_pair hij, Finset.card_univ, Fintype.card_fin]
  rw [← hc, ← Finset.card_powersetCard]
  refine Finset.card_bij (fun v _ => Finset.univ.filter (fun q => v q = .I)) ?_ ?_ ?_
  · intro v hv
    rw [Finset.mem_filter] at hv
    rw [Finset.mem_powersetCard]
    refine ⟨fun q hq => ?_, hv.2.1⟩
    rw [Finset.mem_filter] at hq
    simp only [Finset.mem_sdiff, Finset.mem_univ, true_and, Finset.mem_insert, Finset.mem_singleton]
    rintro (rfl | rfl)
    · rw [hv.2.2.1] at hq; simp at hq
    · rw [hv.2.2.2.1] at hq; simp at hq
  · intro v hv w hw h
    rw [Finset.mem_filter] at hv hw
    funext q
    by_cases h1 : q = i
    · rw [h1, hv.2.2.1, hw.2.2.1]
    · by_cases h2 : q = j
      · rw [h2, hv.2.2.2.1, hw.2.2.2.1]
      · have hq := Finset.ext_iff.1 h q
        simp only [Finset.mem_filter, Finset.mem_univ, true_and] at hq
        rcases hv.2.2.2.2 q h1 h2 with a | a <;> rcases hw.2.2.2.2 q h1 h2 with c | c <;> simp_all
  · intro s hs
    rw [Finset.mem_powersetCard] at hs
    have hi : i ∉ s := fun h => by simpa using hs.1 h
    have hj : j ∉ s := fun h => by simpa using hs.1 h
    have e : (Finset.univ.filter (fun q => (if q = i then Letter.Y else if q = j then .Z else if q ∈ s then .I else .X) = .I)) = s := by
      ext q
      simp only [Finset.mem_filter, Finset.mem_univ, true_and]
      by_cases h1 : q = i
      · subst h1; simp [hi]
      · by_cases h2 : q = j
        · subst h2; simp [hj, h1]
        · by_cases h3 : q ∈ s <;> simp [h1, h2, h3]
    refine ⟨fun q => if q = i then .Y else if q = j then .Z else if q ∈ s then .I else .X, ?_, e⟩
    rw [Finset.mem_filter]
    refine ⟨Finset.mem_univ _, (congrArg Finset.card e).trans hs.2, by simp, by simp [hij.symm], fun q h1 h2 => ?_⟩
    by_cases h3 : q ∈ s <;> simp [h1, h2, h3]

theorem bond_sum (i j : Fin n) (hij : i ≠ j) (b : ℕ) :
    (∑ v : Fin n → Letter, if countI v = b then grad (pauliWord (placed n [.Z, .Z] [i.val, j.val])) (hadamardAll n) (pauliWord v) else 0) = 4 * (n - 2).choose b := by
  have h : ∀ k l : Fin n, k ≠ l → (∑ v : Fin n → Letter, if countI v = b then (if BondWord v k l then (2 : ℝ) else 0) else 0) = 2 * (n - 2).choose b := by
    intro k l hkl
    simp only [← ite_and]
    rw [← Finset.sum_filter, Finset.sum_const, bondWord_card k l hkl]
    simp [mul_comm]
  have e : ∀ v : Fin n → Letter, (if countI v = b then grad (pauliWord (placed n [.Z, .Z] [i.val, j.val])) (hadamardAll n) (pauliWord v) else 0) =
      (if countI v = b then (if BondWord v i j then (2 : ℝ) else 0) else 0) + (if countI v = b then (if BondWord v j i then (2 : ℝ) else 0) else 0) := by
    intro v
    rw [C127_bond v i j hij]
    split <;> simp
  rw [Finset.sum_congr rfl fun v _ => e v, Finset.sum_add_distrib, h i j hij, h j i hij.symm]
  ring

/-- C127.  In the initial state of the Ising scripts the gradient along a word is the number of bonds with `Y` and `Z` on them and only `I` and `X` elsewhere, times two; so it is never negative. -/
theorem C127_word (hn : 2 ≤ n) (v : Fin n → Letter) : grad (totalObs (tfimGates n hn)) (hadamardAll n) (pauliWord v) =
    ∑ i : Fin n, ((if BondWord v i (finRotate n i) then 2 else 0) + if BondWord v (finRotate n i) i then 2 else 0) := by
  obtain ⟨m, rfl⟩ : ∃ m, n = m + 1 := ⟨n - 1, by omega⟩
  rw [tfim_grad_bonds hn, Fin.sum_univ_castSucc]
  congr 1
  · refine Finset.sum_congr rfl fun i _ => ?_
    change Fin m at i
    have e : finRotate (m + 1) i.castSucc = i.succ := by
      ext; rw [coe_finRotate_of_ne_last (Fin.castSucc_lt_last i).ne]; simp
    rw [e, ← C127_bond v i.castSucc i.succ (by simp [Fin.ext_iff])]
    rfl
  · have e : finRotate (m + 1) (Fin.last m) = 0 := finRotate_last
    rw [e, ← C127_bond v (Fin.last m) 0 (by simp [Fin.ext_iff]; omega), placed_swap _ _ (by simp; omega)]
    rfl

/-- C127.  In the initial state of the Ising scripts the curve of the words with `b` letters `I` has the value `4 n (n-2 choose b) / 2^n`. -/
theorem C127_curve (hn : 2 ≤ n) (b : ℕ) : localityCurve (totalObs (tfimGates n hn)) (hadamardAll n) b = 4 * n * (n - 2).choose b / 2 ^ n := by
  have e : ∀ v : Fin n → Letter, (if countI v = b then |grad (totalObs (tfimGates n hn)) (hadamardAll n) (pauliWord v) / 2 ^ n| else 0) =
      (∑ i : Fin (n - 1), (if countI v = b then grad (pauliWord (placed n [.Z, .Z] [i.val, i.val + 1])) (hadamardAll n) (pauliWord v) else 0) +
        if countI v = b then grad (pauliWord (placed n [.Z, .Z] [0, n - 1])) (hadamardAll n) (pauliWord v) else 0) / 2 ^ n := by
    intro v
    have h0 : 0 ≤ grad (totalObs (tfimGates n hn)) (hadamardAll n) (pauliWord v) := by
      rw [C127_word]
      exact Finset.sum_nonneg fun i _ => by split <;> split <;> norm_num
    rw [abs_of_nonneg (by positivity), tfim_grad_bonds hn]
    split <;> simp
  have h1 : ∀ i : Fin (n - 1), (∑ v : Fin n → Letter, if countI v = b then grad (pauliWord (placed n [.Z, .Z] [i.val, i.val + 1])) (hadamardAll n) (pauliWord v) else 0) =
      4 * (n - 2).choose b := fun i => bond_sum ⟨i.val, by omega⟩ ⟨i.val + 1, by omega⟩ (by simp) b
  have h2 : (∑ v : Fin n → Letter, if countI v = b then grad (pauliWord (placed n [.Z, .Z] [0, n - 1])) (hadamardAll n) (pauliWord v) else 0) =
      4 * (n - 2).choose b := bond_sum ⟨0, by omega⟩ ⟨n - 1, by omega⟩ (by simp; omega) b
  refine (Finset.sum_congr rfl fun v _ => e v).trans ?_
  rw [← Finset.sum_div, Finset.sum_add_distrib, Finset.sum_comm, Finset.sum_congr rfl fun i _ => h1 i, h2, Finset.sum_const, Finset.card_univ, Fintype.card_fin, nsmul_eq_mul,
    Nat.cast_sub (by omega)]
  push_cast
  ring

/-- C127.  All curves together begin at the number of qubits. -/
theorem C127_total (hn : 2 ≤ n) : ∑ b ∈ Finset.range n, localityCurve (totalObs (tfimGates n hn)) (hadamardAll n) b = n := by
  obtain ⟨m, rfl⟩ : ∃ m, n = m + 2 := ⟨n - 2, by omega⟩
  simp only [C127_curve hn, Nat.add_sub_cancel]
  have h : ∑ b ∈ Finset.range (m + 2), ((m.choose b : ℕ) : ℝ) = 2 ^ m := by
    rw [Finset.sum_range_succ, Nat.choose_eq_zero_of_lt (Nat.lt_succ_self m), Nat.cast_zero, add_zero]
    exact_mod_cast Nat.sum_range_choose m
  rw [← Finset.sum_div, ← Finset.mul_sum, h, pow_add]
  have : (2 : ℝ) ^ m ≠ 0 := by positivity
  field_simp
  ring

/-- C127.  The figures of the four-qubit scripts: whatever the layers, the curves `SU(2)`, `SU(4)`, `SU(8)`, `SU(16)` (3, 2, 1, 0 letters `I`) begin at 0, 1, 2 and 1. -/
theorem C127_figure {m : ℕ} (E : LayerEnv 4) (eigh : EighFn 4) (rnd : ℕ → Matrix (Fin (2 ^ 4)) (Fin (2 ^ 4)) ℝ) (ret : CircuitRet) (params : List (List ℝ))
    (objs : Fin m → AnyLayer 4) (layers : List (Fin m)) (args : ApproxArgs) (out) (h : approximateLieOptimizer E eigh rnd ret (tfimCircuit 4) params (tfimObservables 4) objs layers args = .ok out)
    (hr : args.returnUnitary = .bool true) : ∃ l curves, approxUnitaries out.1 = some l ∧ plotSu16Directions l (tfimObservables 4) = .ok curves ∧
      (curves 3)[0]? = some 0 ∧ (curves 2)[0]? = some 1 ∧ (curves 1)[0]? = some 2 ∧ (curves 0)[0]? = some 1 := by
  rw [tfimGates_obs (by norm_num)] at h ⊢
  obtain ⟨N, hN, e, he, V, W, j, hj1, hj2, hV0, -, -, -, -, -, -, -, -, -, -, -, hu, -⟩ := C50_trace _ _ _ _ _ _ _ _ _ _ _ h
  obtain ⟨l, hl, hll, hlV⟩ := hu hr
  have h0 : l[0]? = some (hadamardAll 4) := by
    rw [hlV 0 (by omega)]
    rw [tfim_compile] at hV0
    exact congrArg some (Except.ok.inj hV0).symm
  obtain ⟨⟨cv, hcv, hc⟩, -⟩ := C65_locality_curves l (tfimGates 4 (by norm_num)) (by rintro rfl; simp at hll)
  have hb : ∀ b < 4, (cv b)[0]? = some (4 * (4 : ℕ) * (4 - 2).choose b / 2 ^ 4 : ℝ) := by
    intro b hb
    rw [hc b hb, List.getElem?_map, h0, ← C127_curve (n := 4) (by norm_num) b]
    rfl
  refine ⟨l, cv, hl, hcv, ?_, ?_, ?_, ?_⟩
  · rw [hb 3 (by norm_num)]; norm_num [Nat.choose]
  · rw [hb 2 (by norm_num)]; norm_num [Nat.choose]
  · rw [hb 1 (by norm_num)]; norm_num [Nat.choose]
  · rw [hb 0 (by norm_num)]; norm_num [Nat.choose]

/-! ### Examples -/

/-- A word with a gradient that no layer of words of two letters has. -/
example : BondWord ![Letter.Y, .Z, .X, .I] 0 1 ∧ ¬ BondWord ![Letter.Y, .X, .Z, .I] 0 1 := by decide

/-- The hypotheses of `C127_figure` are met by the run of tfim_su4_linesearch.py. -/
example : ∃ (E : LayerEnv 4) (eigh : EighFn 4) (L : SquaredLayer 4) (out : _), approximateLieOptimizer E eigh (fun _ => 0) .state (tfimCircuit 4) [] (tfimObservables 4) (fun _ : Fin 1 => .squared L) [0]
    { nsteps := .int 50, eta := .float 0.1, tol := some (.float 1e-6), returnUnitary := .bool true } = .ok out := by
  obtain ⟨svd, hs⟩ := exists_validSvd 4
  obtain ⟨gd, hgd⟩ := exists_validGd
  obtain ⟨eigh, -⟩ := exists_validEigh 4
  obtain ⟨L, hL⟩ := squaredLayer_default (tfimGates 4 (by omega))
  obtain ⟨out, hout⟩ := (C50_total_layers ⟨svd, ⟨List.reverse, List.reverse_perm⟩, gd⟩ hs eigh (fun _ => 0) .state (tfimOps 4) [] (tfimGates 4 (by omega)) (fun _ : Fin 1 => .squared L) [0]
    { nsteps := .int 50, eta := .float 0.1, tol := some (.float 1e-6), returnUnitary := .bool true } (by simp) (fun _ => .squared (by omega) _ _ _ hL) rfl).2
    ⟨rfl, 50, _, _, _, approxValid_of 50 (by omega) (some (.float 1e-6)) (some (.fin 1e-6)) ⟨rfl, by norm_num⟩ ⟨false, false, true, false, false, false, false⟩⟩
  rw [← tfimOps_eq, ← tfimGates_obs] at hout
  exact ⟨_, eigh, L, out, hout⟩

end Oranssi
