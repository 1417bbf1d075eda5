import Verif.Props.CommutatorStepEx
import Verif.Props.Descent
import Verif.Props.Symmetry
import Verif.Props.SumOnly

/-! # C106: a local or custom layer whose directions commute makes one exact step -/

namespace Oranssi
open Spec
open scoped Matrix

variable {n : ℕ}

theorem foldl_exp_commute : ∀ (l : List (QMat n)), (∀ A ∈ l, ∀ B ∈ l, A * B = B * A) → ∀ U : QMat n,
    (l.map (fun A => NormedSpace.exp A)).foldl (fun V F => F * V) U = NormedSpace.exp l.sum * U
  | [], _, U => by simp
  | A :: l, h, U => by
    have hl : Commute l.sum A := by
      have : ∀ m : List (QMat n), (∀ B ∈ m, A * B = B * A) → Commute m.sum A := by
        intro m
        induction m with
        | nil => intro _; simp
        | cons B m ih =>
          intro hm
          rw [List.sum_cons]
          exact Commute.add_left (hm B List.mem_cons_self).symm (ih fun C hC => hm C (List.mem_cons_of_mem _ hC))
      exact this l fun B hB => h A List.mem_cons_self B (List.mem_cons_of_mem _ hB)
    rw [List.map_cons, List.foldl_cons, foldl_exp_commute l (fun B hB C hC => h B (List.mem_cons_of_mem _ hB) C (List.mem_cons_of_mem _ hC)), List.sum_cons,
      add_comm A, Matrix.exp_add_of_commute _ _ hl, mul_assoc]

theorem groupGens_commute (t : Bool) (φ : Ket n) (o : QMat n) (ps : List (QMat n)) (B : QMat n) (h : ∀ p ∈ ps, Commute p B) : ∀ A ∈ groupGens t φ o ps, Commute A B := by
  intro A hA
  cases t
  · simp only [groupGens, Bool.false_eq_true, if_false, List.mem_singleton] at hA
    subst hA
    refine Commute.smul_left ?_ _
    induction ps with
    | nil => simp
    | cons p ps ih =>
      rw [List.map_cons, List.sum_cons]
      exact Commute.add_left ((h p List.mem_cons_self).smul_left _) (ih fun q hq => h q (List.mem_cons_of_mem _ hq))
  · simp only [groupGens, if_true, List.mem_map] at hA
    obtain ⟨p, hp, rfl⟩ := hA
    exact ((h p hp).smul_left _).smul_left _

theorem omegaC_list (φ : Ket n) (p : QMat n) : ∀ os : List (QMat n), (os.map (fun o => omegaC φ p o)).sum = omegaC φ p os.sum
  | [] => by simp [omegaC]
  | o :: os => by
    rw [List.map_cons, List.sum_cons, omegaC_list φ p os, List.sum_cons, omegaC, omegaC, omegaC, ← dotProduct_add, ← Matrix.add_mulVec, mul_add, add_mul]
    congr 2
    abel

/-- All factors of a call, when the operators of the layer commute. -/
theorem commuting_factors (pss : List (List (QMat n))) (hc : ∀ p ∈ pss.flatten, ∀ q ∈ pss.flatten, Commute p q) (e : ℝ) (t : Bool) (φ : Ket n) (os : List (QMat n))
    (U : QMat n) : (os.flatMap (fun o => pss.flatMap (groupFactors e t φ o))).foldl (fun V F => F * V) U =
      NormedSpace.exp ((-(e / 2 ^ n : ℝ) : ℂ) • (pss.flatten.map (fun p => omegaC φ p os.sum • p)).sum) * U := by
  have h1 : os.flatMap (fun o => pss.flatMap (groupFactors e t φ o)) =
      ((os.flatMap (fun o => pss.flatMap (groupGens t φ o))).map (fun A => (e : ℂ) • A)).map (fun A => NormedSpace.exp A) := by
    rw [List.map_map, List.map_flatMap]
    refine List.flatMap_congr fun o _ => ?_
    rw [List.map_flatMap]
    refine List.flatMap_congr fun ps _ => ?_
    rw [groupFactors_gens]
    rfl
  have h2 : ∀ A ∈ os.flatMap (fun o => pss.flatMap (groupGens t φ o)), ∀ B ∈ os.flatMap (fun o => pss.flatMap (groupGens t φ o)), Commute A B := by
    intro A hA B hB
    obtain ⟨o, -, hA⟩ := List.mem_flatMap.1 hA
    obtain ⟨ps, hps, hA⟩ := List.mem_flatMap.1 hA
    obtain ⟨o', -, hB⟩ := List.mem_flatMap.1 hB
    obtain ⟨qs, hqs, hB⟩ := List.mem_flatMap.1 hB
    refine groupGens_commute t φ o ps B (fun p hp => (groupGens_commute t φ o' qs p (fun q hq => ?_) B hB).symm) A hA
    exact hc q (List.mem_flatten.2 ⟨qs, hqs, hq⟩) p (List.mem_flatten.2 ⟨ps, hps, hp⟩)
  rw [h1, foldl_exp_commute]
  · congr 2
    rw [sum_map_smul, flatMap_sum]
    have h3 : ∀ o, (pss.flatMap (groupGens t φ o)).sum = (-(1 / 2 ^ n : ℝ) : ℂ) • (pss.flatten.map (fun p => omegaC φ p o • p)).sum := by
      clear h1 h2 hc
      intro o
      rw [flatMap_sum]
      simp only [groupGens_sum]
      induction pss with
      | nil => simp
      | cons ps pss ih =>
        rw [List.map_cons, List.sum_cons, List.flatten_cons, List.map_append, List.sum_append, smul_add, ih]
    simp only [h3]
    have h4 : ∀ ps : List (QMat n), (os.map (fun o => (-(1 / 2 ^ n : ℝ) : ℂ) • (ps.map (fun p => omegaC φ p o • p)).sum)).sum =
        (-(1 / 2 ^ n : ℝ) : ℂ) • (ps.map (fun p => omegaC φ p os.sum • p)).sum := by
      intro ps
      have := sum_map_smul (-(1 / 2 ^ n : ℝ) : ℂ) (os.map (fun o => (ps.map (fun p => omegaC φ p o • p)).sum))
      rw [List.map_map] at this
      refine Eq.trans this (congrArg _ ?_)
      induction ps with
      | nil => simp
      | cons p ps ih =>
        simp only [List.map_cons, List.sum_cons]
        rw [List.sum_map_add, ih, ← omegaC_list, List.sum_smul, List.map_map]
        · rfl
        · have := sum_map_smul (-(1 / 2 ^ n : ℝ) : ℂ) (os.map (fun o => (ps.map (fun p => omegaC φ p o • p)).sum))
          rwa [List.map_map] at this
    rw [h4, smul_smul]
    congr 1
    push_cast
    ring
  · intro A hA B hB
    obtain ⟨A, hA', rfl⟩ := List.mem_map.1 hA
    obtain ⟨B, hB', rfl⟩ := List.mem_map.1 hB
    exact ((h2 A hA' B hB').smul_left _).smul_right _

/-- The part of the commutator along a list of different words. -/
theorem words_part (e : ℝ) (U O : QMat n) (vs : List (Fin n → Letter)) :
    (-(e / 2 ^ n : ℝ) : ℂ) • ((vs.map pauliWord).map (fun p => omegaC (stateFromUnitary U) p O • p)).sum =
      (e : ℂ) • (vs.map (fun v => component (riemannGen O U) v • pauliWord v)).sum := by
  have h1 := groupFactors_sum e U O vs
  rw [List.smul_sum, List.smul_sum, List.map_map, List.map_map, List.map_map]
  congr 1
  refine List.map_congr_left fun v _ => ?_
  simp only [Function.comp_apply]
  rw [omegaC_component, smul_smul]

/-- C106 (custom layer).  If the operators with letters among the directions commute with each other, then one call multiplies the circuit by a single exponential: of
`eta` times those components of `[ρ, H]`, where `H` is the sum of all observables.  Splitting the step by observables, and by directions when `trotterize` is on,
changes nothing. -/
theorem C106_custom (gs : List (Gate n)) (hH : ∀ g ∈ gs, g.Aᴴ = g.A) (D : List String) (args : LayerArgs) (L : CustomLayer n)
    (hL : customLayer n (gs.map Gate.obs) (some D) args = .ok L) (hne : (∃ d ∈ D, d.toList.length ≤ n) ∨ L.trotterize = true)
    (hc : ∀ v w : Fin n → Letter, letterStr (lettersIn v) ∈ D → letterStr (lettersIn w) ∈ D → pauliWord v * pauliWord w = pauliWord w * pauliWord v)
    (svd : SvdFn n) (hs : ValidSvd svd) (eta : ℝ) (U : QMat n) :
    ∃ K, IsPart (fun v => letterStr (lettersIn v) ∈ D) (riemannGen (totalObs gs) U) K ∧ (L.setEta eta).call svd U = .ok (NormedSpace.exp ((eta : ℂ) • K) * U) := by
  have h1 := (customLayer_some hL).1
  have hk : (customKept n D).map Prod.snd = (customWords n D).map pauliWord := by rw [customKept_eq, List.map_map]; rfl
  refine ⟨((customWords n D).map (fun v => component (riemannGen (totalObs gs) U) v • pauliWord v)).sum, ?_, ?_⟩
  · have h := isPart_sum (riemannGen (totalObs gs) U) _ (customWords_nodup n D)
    simpa only [mem_customWords h1] using h
  · rw [customLayer_call hH hL hs eta U hne, hk]
    have h2 := commuting_factors [(customWords n D).map pauliWord] ?_ eta L.trotterize (stateFromUnitary U) (gs.map (fun g => full n g.ws g.A)) U
    · simp only [List.flatMap_cons, List.flatMap_nil, List.append_nil, List.flatten_cons, List.flatten_nil] at h2
      rw [h2, words_part]
      rfl
    · intro p hp q hq
      simp only [List.flatten_cons, List.flatten_nil, List.append_nil] at hp hq
      obtain ⟨v, hv, rfl⟩ := List.mem_map.1 hp
      obtain ⟨w, hw, rfl⟩ := List.mem_map.1 hq
      exact hc v w ((mem_customWords h1).1 hv) ((mem_customWords h1).1 hw)

/-- C106 (local layer).  The same for the layer that works qubit by qubit, or pair by pair, with a given list of directions. -/
theorem C106_local {k : ℕ} (gs : List (Gate n)) (hH : ∀ g ∈ gs, g.Aᴴ = g.A) (args : LayerArgs) (stride : Option ℤ) (D : Option (List String)) (L : LocalLayer n)
    (hL : localLayer n (gs.map Gate.obs) k args stride D = .ok L) (hD : D ≠ some [] ∨ L.trotterize = true)
    (hc : ∀ v w : Fin n → Letter, (lettersIn v).length = k → (lettersIn w).length = k → (∀ D', D = some D' → letterStr (lettersIn v) ∈ D') →
      (∀ D', D = some D' → letterStr (lettersIn w) ∈ D') → pauliWord v * pauliWord w = pauliWord w * pauliWord v)
    (svd : SvdFn n) (hs : ValidSvd svd) (eta : ℝ) (U : QMat n) :
    ∃ K, IsPart (fun v => (lettersIn v).length = k ∧ ∀ D', D = some D' → letterStr (lettersIn v) ∈ D') (riemannGen (totalObs gs) U) K ∧
      (L.setEta eta).call svd U = .ok (NormedSpace.exp ((eta : ℂ) • K) * U) := by
  let vss : List (List (Fin n → Letter)) := (combinations (List.range n) k).map (fun q => (keptWords k D).map (placed n · q))
  have hmem : ∀ v, v ∈ vss.flatten ↔ (lettersIn v).length = k ∧ ∀ D', D = some D' → letterStr (lettersIn v) ∈ D' := by
    intro v
    rw [List.mem_flatten]
    constructor
    · rintro ⟨l, hl, hv⟩
      obtain ⟨q, hq, rfl⟩ := List.mem_map.1 hl
      obtain ⟨h1, h2⟩ := ((wordsOn_part (0 : QMat n) D hq).2 v).1 hv
      refine ⟨?_, h2⟩
      have := congrArg List.length h1
      rw [List.length_map, (mem_combinations_range.1 hq).1] at this
      rw [lettersIn, List.length_map, this]
    · rintro ⟨h1, h2⟩
      rw [lettersIn, List.length_map] at h1
      have hq : (actsOn v).map Fin.val ∈ combinations (List.range n) k := by
        rw [mem_combinations_range]
        refine ⟨by rw [List.length_map, h1], ?_, ?_⟩
        · rw [List.pairwise_map]; exact actsOn_sorted v
        · intro x hx
          obtain ⟨i, -, rfl⟩ := List.mem_map.1 hx
          exact i.isLt
      exact ⟨_, List.mem_map.2 ⟨_, hq, rfl⟩, ((wordsOn_part (0 : QMat n) D hq).2 v).2 ⟨rfl, h2⟩⟩
  have hnd : vss.flatten.Nodup := by
    rw [List.nodup_flatten]
    refine ⟨?_, ?_⟩
    · intro l hl
      obtain ⟨q, hq, rfl⟩ := List.mem_map.1 hl
      exact (wordsOn_part (0 : QMat n) D hq).1
    · rw [List.pairwise_map]
      refine List.Pairwise.imp_of_mem ?_ (combinations_nodup List.nodup_range k)
      intro q q' hq hq' hne v hv hv'
      exact hne ((((wordsOn_part (0 : QMat n) D hq).2 v).1 hv).1.symm.trans (((wordsOn_part (0 : QMat n) D hq').2 v).1 hv').1)
  have hcall := (localLayer_call hH hL hs eta U hD).2.2
  refine ⟨(vss.flatten.map (fun v => component (riemannGen (totalObs gs) U) v • pauliWord v)).sum, ?_, ?_⟩
  · have h := isPart_sum (riemannGen (totalObs gs) U) _ hnd
    simpa only [hmem] using h
  · rw [hcall]
    have hok := localLayer_inv gs hL
    obtain ⟨k', e0, b, t, hk, hkk, he, hb, ht', hL'⟩ := localLayer_ok gs hok
    obtain rfl : k' = k := by exact_mod_cast hkk.symm
    rw [hL'] at hL
    have hLe := Except.ok.inj hL
    subst hLe
    have h2 := commuting_factors (vss.map (List.map pauliWord)) ?_ eta t (stateFromUnitary U) (gs.map (fun g => full n g.ws g.A)) U
    · rw [← List.map_flatten, words_part] at h2
      simp only
      refine Eq.trans ?_ (congrArg Except.ok h2)
      simp only [vss, List.map_map, Function.comp_def]
    · intro p hp q hq
      rw [← List.map_flatten] at hp hq
      obtain ⟨v, hv, rfl⟩ := List.mem_map.1 hp
      obtain ⟨w, hw, rfl⟩ := List.mem_map.1 hq
      exact hc v w ((hmem v).1 hv).1 ((hmem w).1 hw).1 ((hmem v).1 hv).2 ((hmem w).1 hw).2

/-- C106.  With commuting directions the call of a custom layer depends only on the sum of the observables: the list of observables, `trotterize` and
`unitary_error_check` make no difference. -/
theorem C106_sum_only (gs gs' : List (Gate n)) (hH : ∀ g ∈ gs, g.Aᴴ = g.A) (hH' : ∀ g ∈ gs', g.Aᴴ = g.A) (hsum : totalObs gs = totalObs gs') (D : List String)
    (args args' : LayerArgs) (L L' : CustomLayer n) (hL : customLayer n (gs.map Gate.obs) (some D) args = .ok L)
    (hL' : customLayer n (gs'.map Gate.obs) (some D) args' = .ok L') (hne : ∃ d ∈ D, d.toList.length ≤ n)
    (hc : ∀ v w : Fin n → Letter, letterStr (lettersIn v) ∈ D → letterStr (lettersIn w) ∈ D → pauliWord v * pauliWord w = pauliWord w * pauliWord v)
    (svd : SvdFn n) (hs : ValidSvd svd) (eta : ℝ) (U : QMat n) : (L.setEta eta).call svd U = (L'.setEta eta).call svd U := by
  obtain ⟨K, hK, h⟩ := C106_custom gs hH D args L hL (.inl hne) hc svd hs eta U
  obtain ⟨K', hK', h'⟩ := C106_custom gs' hH' D args' L' hL' (.inl hne) hc svd hs eta U
  rw [← hsum] at hK'
  rw [h, h', isPart_unique hK hK']

/-! ### When directions commute -/

/-- Words made of one letter only commute. -/
theorem one_letter_comm (a : Letter) (v w : Fin n → Letter) (hv : ∀ b ∈ lettersIn v, b = a) (hw : ∀ b ∈ lettersIn w, b = a) :
    pauliWord v * pauliWord w = pauliWord w * pauliWord v := by
  have key : ∀ u : Fin n → Letter, (∀ b ∈ lettersIn u, b = a) → ∀ i, u i = .I ∨ u i = a := by
    intro u hu i
    by_cases h : u i = .I
    · exact .inl h
    · exact .inr (hu _ (List.mem_map.2 ⟨i, mem_actsOn.2 h, rfl⟩))
  rw [pauliWord, pauliWord, tensor_mul, tensor_mul]
  congr 1
  funext i
  rcases key v hv i with h1 | h1 <;> rcases key w hw i with h2 | h2 <;> rw [h1, h2]
  · exact (Matrix.one_mul _).trans (Matrix.mul_one _).symm
  · exact (Matrix.mul_one _).trans (Matrix.one_mul _).symm

/-- C106.  Directions that use only one letter (such as `['Z', 'ZZ']`) commute, for every number of qubits. -/
theorem C106_one_letter (a : Letter) (D : List String) (hD : ∀ d ∈ D, ∀ c ∈ d.toList, c = a.char) (v w : Fin n → Letter) (hv : letterStr (lettersIn v) ∈ D)
    (hw : letterStr (lettersIn w) ∈ D) : pauliWord v * pauliWord w = pauliWord w * pauliWord v := by
  have key : ∀ u : Fin n → Letter, letterStr (lettersIn u) ∈ D → ∀ b ∈ lettersIn u, b = a := by
    intro u hu b hb
    refine Letter.char_injective (hD _ hu _ ?_)
    rw [letterStr, String.toList_ofList]
    exact List.mem_map.2 ⟨b, hb, rfl⟩
  exact one_letter_comm a v w (key v hv) (key w hw)

/-- Hypotheses of C106: three qubits, the observables `X` on the first and `Z` on the last qubit, the directions `['Z', 'ZZ']`. -/
example : ∃ (gs : List (Gate 3)) (D : List String) (L : CustomLayer 3), gs.length = 2 ∧ (∀ g ∈ gs, g.Aᴴ = g.A) ∧
    customLayer 3 (gs.map Gate.obs) (some D) {} = .ok L ∧ (∃ d ∈ D, d.toList.length ≤ 3) ∧
    (∀ v w : Fin 3 → Letter, letterStr (lettersIn v) ∈ D → letterStr (lettersIn w) ∈ D → pauliWord v * pauliWord w = pauliWord w * pauliWord v) ∧
    ∃ v w : Fin 3 → Letter, v ≠ w ∧ letterStr (lettersIn v) ∈ D ∧ letterStr (lettersIn w) ∈ D := by
  obtain ⟨L, hL, -⟩ := customLayer_default (n := 3) [⟨[0], matX, by simp, by simp, by simp⟩, ⟨[2], matZ, by simp, by simp, by simp⟩] ["Z", "ZZ"] (by decide)
  refine ⟨_, ["Z", "ZZ"], L, rfl, ?_, hL, ⟨"Z", by simp, by decide⟩, C106_one_letter .Z _ (by decide), ![.Z, .I, .I], ![.Z, .I, .Z], by decide, by decide, by decide⟩
  intro g hg
  simp only [List.mem_cons, List.not_mem_nil, or_false] at hg
  rcases hg with rfl | rfl
  · exact matX_herm
  · exact matZ_herm

/-- Hypotheses of C106 for the local layer: four qubits, the observable `X` on the second, the pair direction `ZZ`, trotterized. -/
example : ∃ L, localLayer 4 (([⟨[1], matX, by simp, by simp, by simp⟩] : List (Gate 4)).map Gate.obs) 2 { trotterize := some (.bool true) } none (some ["ZZ"]) = .ok L ∧
    L.trotterize = true ∧ (some ["ZZ"] ≠ some ([] : List String) ∨ L.trotterize = true) ∧
    ∀ v w : Fin 4 → Letter, (lettersIn v).length = 2 → (lettersIn w).length = 2 → (∀ D', some ["ZZ"] = some D' → letterStr (lettersIn v) ∈ D') →
      (∀ D', some ["ZZ"] = some D' → letterStr (lettersIn w) ∈ D') → pauliWord v * pauliWord w = pauliWord w * pauliWord v := by
  have hok : LocalOk 4 2 { trotterize := some (.bool true) } none (some ["ZZ"]) := by
    refine ⟨⟨0.1, defaultEta_ok'⟩, .inr ⟨rfl, rfl, .inl rfl⟩, ?_, ⟨false, rfl⟩, ⟨true, rfl⟩⟩
    intro D' hD'
    cases hD'
    decide
  obtain ⟨k, e, b, t, -, -, -, -, ht, h⟩ := localLayer_ok ([⟨[1], matX, by simp, by simp, by simp⟩] : List (Gate 4)) hok
  refine ⟨_, h, (Except.ok.inj ht).symm, .inl (by simp), ?_⟩
  intro v w _ _ hv hw
  exact C106_one_letter .Z ["ZZ"] (by decide) v w (hv _ rfl) (hw _ rfl)

end Oranssi
