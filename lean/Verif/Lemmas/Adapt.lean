import Verif.Lemmas.Greedy
import Verif.Spec.Adapt
import Verif.Props.Greedy

/-! Lemmas on `AdaptVQELayer`. -/

namespace Oranssi
open scoped Matrix
open Spec

/-- The code's name of a kind of layer. -/
def Spec.LayerKind.toParity : LayerKind → Parity
  | .single => .single
  | .even => .even
  | .odd => .odd

theorem sumLookups_ok (omegas : List (Key × ℝ)) (f : Key → ℝ) : ∀ ks : List Key, (∀ k ∈ ks, dictGet omegas k = .ok (f k)) →
    sumLookups omegas ks = .ok ((ks.map f).sum)
  | [], _ => rfl
  | k :: ks, h => by
    rw [sumLookups, h k (by simp), sumLookups_ok omegas f ks (fun x hx => h x (by simp [hx]))]
    rfl

theorem bondStarts_eq (n start : ℕ) (hs : start = 0 ∨ start = 1) :
    bondStarts n start = (List.range n).filter (fun i => i % 2 = start ∧ i + 1 < n) := by
  cases n with
  | zero => rfl
  | succ m =>
    rw [bondStarts, List.range_succ, List.filter_append, Nat.add_sub_cancel]
    have : List.filter (fun i => decide (i % 2 = start ∧ i + 1 < m + 1)) [m] = [] := by simp
    rw [this, List.append_nil]
    apply List.filter_congr
    intro i hi
    rw [List.mem_range] at hi
    simp only [decide_eq_decide]
    rcases hs with rfl | rfl <;> omega

/-- The gradient dictionary. -/
theorem absOmegas_get {n : ℕ} (U : QMat n) (gs : List (Gate n)) {w : List Letter} {q : List ℕ} (hw : w ∈ allWords [1, 2])
    (hq : q ∈ combinations (List.range n) w.length) :
    dictGet (absOmegas (stateFromUnitary U) (gs.map (fun g => full n g.ws g.A)) (stdDict n (allWords [1, 2]))) (letterStr w, q) =
      .ok |grad (totalObs gs) U (pauliWord (placed n w q))| := by
  have hnd := (stdDict_spec n (lens := [1, 2]) (by simp) (by simp)).nodup
  have hmem : ((letterStr w, q), |grad (totalObs gs) U (pauliWord (placed n w q))|) ∈
      absOmegas (stateFromUnitary U) (gs.map (fun g => full n g.ws g.A)) (stdDict n (allWords [1, 2])) := by
    rw [absOmegas, List.mem_map]
    exact ⟨_, mem_stdDict.2 ⟨w, hw, q, hq, rfl⟩, by simp only [omegaSum_grad]⟩
  exact dictGet_mem (by simpa [absOmegas, List.map_map, Function.comp_def] using hnd) hmem

/-- The layers of a word. -/
def wordLayers (w : List Letter) : List (List Letter × LayerKind) := if w.length = 1 then [(w, .single)] else [(w, .even), (w, .odd)]

theorem candidateLayers_eq : candidateLayers = (allWords [1, 2]).flatMap wordLayers := by decide

theorem single_sites {n : ℕ} {q : List ℕ} (h : q ∈ LayerKind.sites n .single) : q ∈ combinations (List.range n) 1 := by
  obtain ⟨i, hi, rfl⟩ := List.mem_map.1 h
  exact mem_combinations_range.2 ⟨rfl, by simp, by simpa using hi⟩

theorem even_sites {n : ℕ} {q : List ℕ} (h : q ∈ LayerKind.sites n .even) : q ∈ combinations (List.range n) 2 := by
  obtain ⟨i, hi, rfl⟩ := List.mem_map.1 h
  have := (List.mem_filter.1 hi).2
  simp only [decide_eq_true_eq] at this
  exact mem_combinations_range.2 ⟨rfl, by simp, by simp; omega⟩

theorem odd_sites {n : ℕ} (hn : 2 ≤ n) {q : List ℕ} (h : q ∈ LayerKind.sites n .odd) : q ∈ combinations (List.range n) 2 := by
  rcases List.mem_append.1 h with h | h
  · obtain ⟨i, hi, rfl⟩ := List.mem_map.1 h
    have := (List.mem_filter.1 hi).2
    simp only [decide_eq_true_eq] at this
    exact mem_combinations_range.2 ⟨rfl, by simp, by simp; omega⟩
  · rw [List.mem_singleton.1 h]
    exact mem_combinations_range.2 ⟨rfl, by simp; omega, by simp; omega⟩

theorem layerOmegas_eq {n : ℕ} (hn : 2 ≤ n) (U : QMat n) (gs : List (Gate n)) (prev : Option String) : ∀ ws : List (List Letter), (∀ w ∈ ws, w ∈ allWords [1, 2]) →
    layerOmegas n (absOmegas (stateFromUnitary U) (gs.map (fun g => full n g.ws g.A)) (stdDict n (allWords [1, 2]))) prev (ws.map letterStr) =
      .ok (((ws.flatMap wordLayers).filter (fun c => some (letterStr c.1) ≠ prev)).map
        (fun c => ((letterStr c.1, c.2.toParity), layerGrad (totalObs gs) U c.1 c.2)))
  | [], _ => rfl
  | w :: ws, h => by
    have hw := h w (by simp)
    have ih := layerOmegas_eq hn U gs prev ws (fun x hx => h x (by simp [hx]))
    rw [List.map_cons, layerOmegas, ih, List.flatMap_cons, List.filter_append, List.map_append]
    set D := absOmegas (stateFromUnitary U) (gs.map (fun g => full n g.ws g.A)) (stdDict n (allWords [1, 2]))
    by_cases hp : some (letterStr w) ≠ prev
    · rw [if_pos hp, letterStr_length]
      by_cases h1 : w.length = 1
      · rw [if_pos h1]
        have hs : sumLookups D ((List.range n).map (fun i => (letterStr w, [i]))) = .ok (layerGrad (totalObs gs) U w .single) := by
          rw [sumLookups_ok D (fun k => |grad (totalObs gs) U (pauliWord (placed n w k.2))|)]
          · rw [layerGrad, LayerKind.sites, List.map_map, List.map_map]; rfl
          · intro k hk
            obtain ⟨i, hi, rfl⟩ := List.mem_map.1 hk
            exact absOmegas_get U gs hw (by rw [h1]; exact single_sites (List.mem_map_of_mem hi))
        rw [hs]
        simp only [wordLayers, h1, bind, Except.bind, if_true]
        rw [List.filter_cons_of_pos (by simpa using hp)]
        rfl
      · have h2 : w.length = 2 := by
          have := (mem_allWords.1 hw).1
          simp at this
          omega
        rw [if_neg h1]
        have he : sumLookups D ((bondStarts n 0).map (fun i => (letterStr w, [i, i + 1]))) = .ok (layerGrad (totalObs gs) U w .even) := by
          rw [bondStarts_eq n 0 (Or.inl rfl), sumLookups_ok D (fun k => |grad (totalObs gs) U (pauliWord (placed n w k.2))|)]
          · rw [layerGrad, LayerKind.sites, List.map_map, List.map_map]; rfl
          · intro k hk
            obtain ⟨i, hi, rfl⟩ := List.mem_map.1 hk
            exact absOmegas_get U gs hw (by rw [h2]; exact even_sites (List.mem_map_of_mem hi))
        have ho : sumLookups D ((bondStarts n 1).map (fun i => (letterStr w, [i, i + 1]))) =
            .ok ((((List.range n).filter (fun i => i % 2 = 1 ∧ i + 1 < n)).map (fun i => |grad (totalObs gs) U (pauliWord (placed n w [i, i + 1]))|)).sum) := by
          rw [bondStarts_eq n 1 (Or.inr rfl), sumLookups_ok D (fun k => |grad (totalObs gs) U (pauliWord (placed n w k.2))|)]
          · rw [List.map_map]; rfl
          · intro k hk
            obtain ⟨i, hi, rfl⟩ := List.mem_map.1 hk
            exact absOmegas_get U gs hw (by rw [h2]; exact odd_sites hn (List.mem_append_left _ (List.mem_map_of_mem hi)))
        have hwr : dictGet D (letterStr w, [0, n - 1]) = .ok |grad (totalObs gs) U (pauliWord (placed n w [0, n - 1]))| :=
          absOmegas_get U gs hw (by rw [h2]; exact odd_sites hn (List.mem_append_right _ (by simp)))
        rw [he, ho, hwr]
        simp only [wordLayers, h1, bind, Except.bind, if_false]
        rw [List.filter_cons_of_pos (by simpa using hp), List.filter_cons_of_pos (by simpa using hp)]
        simp only [layerGrad, LayerKind.sites, List.map_append, List.sum_append, List.map_map, Function.comp_def, List.map_cons, List.map_nil,
          List.sum_cons, List.sum_nil, add_zero, LayerKind.toParity, List.filter_nil]
    · rw [if_neg hp]
      have : (wordLayers w).filter (fun c => some (letterStr c.1) ≠ prev) = [] := by
        rw [List.filter_eq_nil_iff]
        intro c hc
        have : c.1 = w := by
          unfold wordLayers at hc
          split at hc
          · simp at hc; rw [hc]
          · simp at hc; rcases hc with hc | hc <;> rw [hc]
        rw [this]
        simpa using hp
      rw [this]
      rfl

/-- The attributes of an adapt layer that its calls do not change. -/
structure AdaptOk {n : ℕ} (gs : List (Gate n)) (L : AdaptLayer n) : Prop where
  obs : L.observables = gs.map Gate.obs
  obsFull : L.observablesFull = gs.map (fun g => full n g.ws g.A)
  dict : L.lastate.fullPaulis = stdDict n (allWords [1, 2])
  dirs : L.lastate.directions = (allWords [1, 2]).map letterStr

/-- What the constructor builds. -/
theorem adaptLayer_inv {n : ℕ} {gs : List (Gate n)} {args : LayerArgs} {L : AdaptLayer n} (hL : adaptLayer n (gs.map Gate.obs) args = .ok L) :
    AdaptOk gs L ∧ L.previousDirection = none ∧ L.layers = [] := by
  obtain ⟨a, ha, hf, hdir, -⟩ := algebraSU4_getAll n
  rw [adaptLayer, promoteAll_gates, ha] at hL
  simp only [bind, Except.bind] at hL
  split at hL
  · simp at hL
  split at hL
  · simp at hL
  split at hL
  · simp at hL
  rw [← Except.ok.inj hL]
  exact ⟨⟨rfl, rfl, hf, hdir⟩, rfl, rfl⟩

theorem adapt_select {n : ℕ} (hn : 2 ≤ n) {gs : List (Gate n)} {L : AdaptLayer n} (h : AdaptOk gs L) (U : QMat n) :
    ∃ c, L.select U = .ok (letterStr c.1, c.2.toParity) ∧
      IsFirstMax (fun c => layerGrad (totalObs gs) U c.1 c.2) (candidateLayers.filter (fun c => some (letterStr c.1) ≠ L.previousDirection)) c := by
  have hne : candidateLayers.filter (fun c => some (letterStr c.1) ≠ L.previousDirection) ≠ [] := by
    by_cases hx : some (letterStr [.X]) = L.previousDirection
    · refine List.ne_nil_of_mem (a := ([.Y], .single)) (List.mem_filter.2 ⟨by decide, ?_⟩)
      rw [← hx]
      decide
    · exact List.ne_nil_of_mem (a := ([.X], .single)) (List.mem_filter.2 ⟨by decide, by simpa using hx⟩)
  have hl := layerOmegas_eq hn U gs L.previousDirection (allWords [1, 2]) (fun _ h => h)
  rw [← candidateLayers_eq] at hl
  obtain ⟨e, h1, h2⟩ := pyArgmax_spec _ (by simpa using hne : ((candidateLayers.filter (fun c => some (letterStr c.1) ≠ L.previousDirection)).map
    (fun c => ((letterStr c.1, c.2.toParity), layerGrad (totalObs gs) U c.1 c.2))) ≠ [])
  obtain ⟨c, rfl, h3⟩ := isFirstMax_map _ _ _ _ h2
  refine ⟨c, ?_, h3⟩
  rw [AdaptLayer.select, h.obsFull, h.dict, h.dirs, hl]
  exact h1

theorem adapt_call_inv {n : ℕ} {L L' : AdaptLayer n} {opt : VqeOptimizer} {params last : List (List ℝ)} {U V : QMat n}
    (h : L.call opt params U = .ok (V, last, L')) : ∃ k, L.select U = .ok k ∧ L' = { L with layers := L.layers ++ [k], previousDirection := some k.1 } ∧
      ∃ gates, circuitVqe n (L.layers ++ [k]) last = .ok gates ∧ compileLoop n gates 1 = .ok V := by
  rw [AdaptLayer.call] at h
  simp only [bind, Except.bind] at h
  split at h
  · simp at h
  rename_i k hk
  split at h
  · simp at h
  split at h
  · simp at h
  rename_i last' hlast
  split at h
  · simp at h
  rename_i gates hg
  split at h
  · simp at h
  rename_i V' hV
  obtain ⟨rfl, h2⟩ := Prod.mk.inj (Except.ok.inj h)
  obtain ⟨rfl, rfl⟩ := Prod.mk.inj h2
  exact ⟨k, hk, rfl, gates, hg, hV⟩

theorem adapt_run {n : ℕ} (hn : 2 ≤ n) {gs : List (Gate n)} : ∀ (inputs : List (VqeOptimizer × List (List ℝ) × QMat n)) {L L' : AdaptLayer n}, AdaptOk gs L →
    L.runAll inputs = .ok L' → AdaptOk gs L' ∧ ∃ new, L'.layers = L.layers ++ new ∧ new.length = inputs.length ∧
      ∀ i inp l, inputs[i]? = some inp → new[i]? = some l → ∃ c, l = (letterStr c.1, c.2.toParity) ∧
        IsFirstMax (fun c => layerGrad (totalObs gs) inp.2.2 c.1 c.2)
          (candidateLayers.filter (fun c => some (letterStr c.1) ≠ (if i = 0 then L.previousDirection else (new[i - 1]?).map Prod.fst))) c
  | [], L, L', hok, h => by
    rw [AdaptLayer.runAll] at h
    obtain rfl := Except.ok.inj h
    exact ⟨hok, [], by simp, rfl, by simp⟩
  | inp :: inputs, L, L', hok, h => by
    rw [AdaptLayer.runAll] at h
    simp only [bind, Except.bind] at h
    split at h
    · simp at h
    rename_i r hr
    obtain ⟨V, last, L1⟩ := r
    obtain ⟨k, hk, rfl, -⟩ := adapt_call_inv hr
    obtain ⟨hok', new, h1, h2, h3⟩ := adapt_run hn (gs := gs) inputs (L := { L with layers := L.layers ++ [k], previousDirection := some k.1 })
      ⟨hok.obs, hok.obsFull, hok.dict, hok.dirs⟩ h
    refine ⟨hok', k :: new, by rw [h1]; simp, by simp [h2], ?_⟩
    intro i inp' l hi hl
    cases i with
    | zero =>
      simp only [List.getElem?_cons_zero, Option.some.injEq] at hi hl
      subst hi hl
      obtain ⟨c, hc, hm⟩ := adapt_select hn hok inp.2.2
      rw [hk] at hc
      exact ⟨c, Except.ok.inj hc, hm⟩
    | succ i =>
      simp only [List.getElem?_cons_succ] at hi hl
      obtain ⟨c, hc, hm⟩ := h3 i inp' l hi hl
      refine ⟨c, hc, ?_⟩
      rw [if_neg (by omega)]
      convert hm using 4
      cases i with
      | zero => simp
      | succ i => simp

end Oranssi
