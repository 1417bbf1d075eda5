import Verif.Model.Plot
import Verif.Lemmas.Algebra
import Verif.Props.CircuitTools

/-! # C65, C71: the curves of the direction plots -/

namespace Oranssi
open scoped Matrix

namespace Spec

/-- The number of identity letters of a word. -/
def countI {n : ℕ} (w : Fin n → Letter) : ℕ := (Finset.univ.filter (fun i => w i = Letter.I)).card

/-- The curve of the words with `b` identity letters at the unitary `U`: the sum of the absolute values of their gradients. -/
noncomputable def localityCurve {n : ℕ} (H U : QMat n) (b : ℕ) : ℝ :=
  ∑ w : Fin n → Letter, if countI w = b then |(star (fun i => U i 0) ⬝ᵥ ((pauliWord w * H - H * pauliWord w) *ᵥ (fun i => U i 0))).im / 2 ^ n| else 0

end Spec
open Spec

theorem count_wordStr {n : ℕ} (w : Fin n → Letter) : (wordStr w).toList.count 'I' = countI w := by
  rw [wordStr, String.toList_ofList, countI]
  have h1 : ∀ l : List Letter, (l.map Letter.char).count 'I' = l.count Letter.I := by
    intro l
    induction l with
    | nil => rfl
    | cons a l ih =>
      rw [List.map_cons, List.count_cons, List.count_cons, ih]
      cases a <;> rfl
  rw [h1, Finset.card_filter]
  clear h1
  induction n with
  | zero => simp
  | succ n ih =>
    rw [List.ofFn_succ, List.count_cons, ih, Fin.sum_univ_succ, add_comm]
    congr 1
    by_cases h : w 0 = Letter.I <;> simp [h]

theorem wordStrs_nodup (n : ℕ) : ((fnWords (lettersOf true) n).map wordStr).Nodup := by
  obtain ⟨ops, names, h, hs, -⟩ := C09_pauli_words n true
  rw [getSuNOperators_eq] at h
  simp only [Except.ok.injEq, Prod.mk.injEq] at h
  rw [h.2]
  exact hs.imp (fun {a b} hab hc => by subst hc; exact absurd hab (String.lt_irrefl _))

section
variable {S : Type} {n : ℕ} (Us : List S) (f : S → (Fin n → Letter) → ℝ)

/-- The dictionaries of `f`. -/
noncomputable def wordDicts : List (List (String × ℝ)) := Us.map (fun U => (fnWords (lettersOf true) n).map (fun w => (wordStr w, f U w)))

theorem plotLookups_word (w : Fin n → Letter) : plotLookups (wordDicts Us f) (wordStr w) = .ok (Us.map (fun U => f U w)) := by
  rw [plotLookups, wordDicts]
  induction Us with
  | nil => rfl
  | cons U Us ih =>
    have : dictGet ((fnWords (lettersOf true) n).map (fun w => (wordStr w, f U w))) (wordStr w) = .ok (f U w) := by
      refine dictGet_mem (e := (wordStr w, f U w)) ?_ (List.mem_map.2 ⟨w, (mem_fnWords _ _ _).2 (fun i => by cases w i <;> simp [lettersOf]), rfl⟩)
      rw [List.map_map]
      exact wordStrs_nodup n
    rw [List.map_cons, List.mapM_cons, this, ih]
    rfl

theorem plotBucket_word (w : Fin n → Letter) (g : ℕ → S → ℝ) (b : ℕ) :
    plotBucket (wordDicts Us f) (wordStr w) (fun i => Us.map (g i)) b = .ok (fun i => Us.map (fun U => g i U + if i = b ∧ countI w = i then |f U w| else 0)) := by
  rw [plotBucket, count_wordStr]
  by_cases h : countI w = b
  · rw [if_pos h, plotLookups_word]
    simp only [bind, Except.bind, Except.ok.injEq]
    funext i
    by_cases hi : i = b
    · subst hi
      rw [Function.update_self, List.map_map, List.zipWith_map, List.zipWith_self]
      simp [h]
    · rw [Function.update_of_ne hi]
      simp [hi]
  · rw [if_neg h]
    congr 1
    funext i
    have : ¬ (i = b ∧ countI w = i) := fun hc => h (hc.2.trans hc.1)
    simp [this]

theorem plotBuckets_word (w : Fin n → Letter) : ∀ (bs : List ℕ) (_ : bs.Nodup) (g : ℕ → S → ℝ),
    bs.foldlM (plotBucket (wordDicts Us f) (wordStr w)) (fun i => Us.map (g i)) = .ok (fun i => Us.map (fun U => g i U + if i ∈ bs ∧ countI w = i then |f U w| else 0))
  | [], _, g => by simp [List.foldlM, pure, Except.pure]
  | b :: bs, hb, g => by
    rw [List.foldlM_cons, plotBucket_word]
    simp only [bind, Except.bind]
    rw [plotBuckets_word w bs (List.nodup_cons.mp hb).2]
    congr 1
    funext i
    apply List.map_congr_left
    intro U _
    have h1 := (List.nodup_cons.mp hb).1
    by_cases hc : countI w = i
    · by_cases hi : i = b
      · subst hi; simp [h1, hc]
      · simp [hi, hc]
    · simp [hc]

theorem plotCurves_words (bs : List ℕ) (hb : bs.Nodup) (p : Fin n → Letter) (hne : Us ≠ []) :
    plotCurves (wordStr p) bs (wordDicts Us f) = .ok (fun i => Us.map (fun U => ∑ w : Fin n → Letter, if i ∈ bs ∧ countI w = i then |f U w| else 0)) := by
  have key : ∀ (ws : List (Fin n → Letter)) (g : ℕ → S → ℝ),
      (ws.map wordStr).foldlM (fun curves k => bs.foldlM (plotBucket (wordDicts Us f) k) curves) (fun i => Us.map (g i)) =
        .ok (fun i => Us.map (fun U => g i U + (ws.map (fun w => if i ∈ bs ∧ countI w = i then |f U w| else 0)).sum)) := by
    intro ws
    induction ws with
    | nil => intro g; simp [List.foldlM, pure, Except.pure]
    | cons w ws ih =>
      intro g
      rw [List.map_cons, List.foldlM_cons, plotBuckets_word Us f w bs hb]
      simp only [bind, Except.bind]
      rw [ih]
      simp only [List.map_cons, List.sum_cons, add_assoc]
  have hlook := plotLookups_word Us f p
  obtain ⟨U, Us', rfl⟩ := List.exists_cons_of_ne_nil hne
  rw [plotCurves, hlook]
  have hget : pyGetItem (wordDicts (U :: Us') f) 0 = .ok ((fnWords (lettersOf true) n).map (fun w => (wordStr w, f U w))) := rfl
  rw [hget]
  simp only [bind, Except.bind, List.map_map, List.length_map]
  have h0 : (fun _ : ℕ => List.replicate (U :: Us').length (0 : ℝ)) = (fun i => (U :: Us').map ((fun _ _ => 0 : ℕ → S → ℝ) i)) := by
    funext i
    rw [List.map_const']
  have hk : (Prod.fst ∘ fun w => (wordStr w, f U w)) = (wordStr : (Fin n → Letter) → String) := rfl
  rw [h0, hk, key]
  congr 1
  funext i
  apply List.map_congr_left
  intro V _
  rw [zero_add]
  have hnd : (fnWords (lettersOf true) n).Nodup := (wordStrs_nodup n).of_map _
  have huniv : (fnWords (lettersOf true) n).toFinset = Finset.univ := by
    ext w
    simp only [List.mem_toFinset, Finset.mem_univ, iff_true]
    exact (mem_fnWords _ _ _).2 (fun i => by cases w i <;> simp [lettersOf])
  rw [← huniv, List.sum_toFinset _ hnd]
end

theorem directions_all {n : ℕ} (Us : List (QMat n)) (gs : List (Gate n)) : Us.mapM (fun U => getAllSuNDirections U (gs.map Gate.obs)) =
    .ok (wordDicts Us (fun U w => (star (fun i => U i 0) ⬝ᵥ ((pauliWord w * totalObs gs - totalObs gs * pauliWord w) *ᵥ (fun i => U i 0))).im / 2 ^ n)) := by
  induction Us with
  | nil => rfl
  | cons U Us ih =>
    rw [List.mapM_cons, getAllSuNDirections_eq, ih]
    rfl

/-- With another number of qubits the probe word is not a key. -/
theorem plotCurves_missing {n : ℕ} {S : Type} (Us : List S) (f : S → (Fin n → Letter) → ℝ) (hne : Us ≠ []) (probe : String) (hp : probe.toList.length ≠ n) (bs : List ℕ) :
    plotCurves probe bs (wordDicts Us f) = .error .key := by
  obtain ⟨U, Us', rfl⟩ := List.exists_cons_of_ne_nil hne
  have : dictGet ((fnWords (lettersOf true) n).map (fun w => (wordStr w, f U w))) probe = .error .key := by
    apply dictGet_missing
    rw [List.map_map]
    intro hm
    obtain ⟨w, -, hw⟩ := List.mem_map.mp hm
    apply hp
    rw [← hw]
    simp [wordStr]
  rw [plotCurves, plotLookups, wordDicts, List.map_cons, List.mapM_cons, this]
  rfl

/-- C65.  For four qubits the plot succeeds, the curve `b < 4` is the sum of the absolute gradients of the words with `b` letters `I`, and every word
other than the identity belongs to exactly one of the four curves, the identity to none. -/
theorem C65_locality_curves (Us : List (QMat 4)) (gs : List (Gate 4)) (hne : Us ≠ []) :
    (∃ curves, plotSu16Directions Us (gs.map Gate.obs) = .ok curves ∧ ∀ b < 4, curves b = Us.map (fun U => localityCurve (totalObs gs) U b)) ∧
      (∀ w : Fin 4 → Letter, w ≠ (fun _ => Letter.I) → ∃! b, b < 4 ∧ countI w = b) ∧ ∀ b < 4, countI (fun _ : Fin 4 => Letter.I) ≠ b := by
  have hrun := plotCurves_words Us (fun (U : QMat 4) w => (star (fun i => U i 0) ⬝ᵥ ((pauliWord w * totalObs gs - totalObs gs * pauliWord w) *ᵥ (fun i => U i 0))).im / 2 ^ 4) [3, 2, 1, 0] (by decide) (fun _ => Letter.X) hne
  have hall := directions_all Us gs
  refine ⟨⟨_, by rw [plotSu16Directions, hall]; exact hrun, ?_⟩, ?_, ?_⟩
  · intro b hb
    apply List.map_congr_left
    intro U _
    apply Finset.sum_congr rfl
    intro w _
    have : b ∈ [3, 2, 1, 0] := by simp; omega
    simp [this]
  · intro w hw
    refine ⟨countI w, ⟨?_, rfl⟩, fun b hb => hb.2.symm⟩
    by_contra hc
    apply hw
    have h4 : countI w = 4 := le_antisymm (le_trans (Finset.card_le_univ _) (by simp)) (by omega)
    funext i
    have := (Finset.card_eq_iff_eq_univ _).mp (h4.trans (by simp))
    have hi := this ▸ Finset.mem_univ i
    exact (Finset.mem_filter.mp hi).2
  · intro b hb h
    simp [countI] at h
    omega

/-- C65, other calls: no unitaries is an `IndexError`, another number of qubits a `KeyError`. -/
theorem C65_other_calls {n : ℕ} (Us : List (QMat n)) (gs : List (Gate n)) : (Us = [] → plotSu16Directions Us (gs.map Gate.obs) = .error .index) ∧
    (Us ≠ [] → n ≠ 4 → plotSu16Directions Us (gs.map Gate.obs) = .error .key) := by
  refine ⟨?_, fun hne hn => ?_⟩
  · rintro rfl; rfl
  · rw [plotSu16Directions, directions_all]
    exact plotCurves_missing Us _ hne "XXXX" (fun h => hn h.symm) _

/-- C71 is false: `plot_su8_directions` looks up the word `XX` and so fails for three qubits, the size its name speaks of (and for every size but two). -/
theorem C71_refuted {n : ℕ} (hn : n ≠ 2) (Us : List (QMat n)) (gs : List (Gate n)) (hne : Us ≠ []) : plotSu8Directions Us (gs.map Gate.obs) = .error .key := by
  rw [plotSu8Directions, directions_all]
  exact plotCurves_missing Us _ hne "XX" (fun h => hn h.symm) _

/-- C71 (true part): for two qubits the curves are the locality curves of the words with one and with no letter `I`. -/
theorem C71_two_qubits_partial (Us : List (QMat 2)) (gs : List (Gate 2)) (hne : Us ≠ []) :
    ∃ curves, plotSu8Directions Us (gs.map Gate.obs) = .ok curves ∧ ∀ b < 2, curves b = Us.map (fun U => localityCurve (totalObs gs) U b) := by
  have hrun := plotCurves_words Us (fun (U : QMat 2) w => (star (fun i => U i 0) ⬝ᵥ ((pauliWord w * totalObs gs - totalObs gs * pauliWord w) *ᵥ (fun i => U i 0))).im / 2 ^ 2) [1, 0] (by decide) (fun _ => Letter.X) hne
  have hall := directions_all Us gs
  refine ⟨_, by rw [plotSu8Directions, hall]; exact hrun, ?_⟩
  · intro b hb
    apply List.map_congr_left
    intro U _
    apply Finset.sum_congr rfl
    intro w _
    have : b ∈ [1, 0] := by simp; omega
    simp [this]

/-- The curves count the words by their letters: of the 256 words of four qubits 81, 108, 54 and 12 belong to the four curves. -/
example : (List.range 4).map (fun b => (Finset.univ.filter (fun w : Fin 4 → Letter => countI w = b)).card) = [81, 108, 54, 12] := by decide +kernel

/-- The hypotheses: a run with two unitaries. -/
example : [(1 : QMat 4), (-1 : QMat 4)] ≠ [] ∧ [(1 : QMat 3)] ≠ [] ∧ 3 ≠ 2 := by simp

end Oranssi
