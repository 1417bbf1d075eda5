import Verif.Lemmas.Adapt
import Verif.Props.GreedyMore
import Verif.Lemmas.PauliOp

/-! # C39, C40: `AdaptVQELayer` -/

namespace Oranssi
open scoped Matrix
open Spec

/-- C39: for `n ≥ 2`, in every history of successful calls (with any optimizers, parameters and circuits), each call appends exactly one
layer: the first one (in the order of the candidates) whose summed absolute gradient is the largest among all candidates whose letters
differ from those of the previous layer.  So no direction is selected twice in a row.  In every state reached the selection for any
circuit succeeds (no dictionary key is missing). -/
theorem C39_adapt {n : ℕ} (hn : 2 ≤ n) (gs : List (Gate n)) (args : LayerArgs) (L L' : AdaptLayer n)
    (hL : adaptLayer n (gs.map Gate.obs) args = .ok L) (inputs : List (VqeOptimizer × List (List ℝ) × QMat n)) (h : L.runAll inputs = .ok L') :
    L'.layers.length = inputs.length ∧
    (∀ i inp l, inputs[i]? = some inp → L'.layers[i]? = some l → ∃ c, l = (letterStr c.1, c.2.toParity) ∧
      IsFirstMax (fun c => layerGrad (totalObs gs) inp.2.2 c.1 c.2)
        (candidateLayers.filter (fun c => some (letterStr c.1) ≠ (if i = 0 then none else (L'.layers[i - 1]?).map Prod.fst))) c) ∧
    (∀ i l m, L'.layers[i]? = some l → L'.layers[i + 1]? = some m → l.1 ≠ m.1) ∧
    ∀ U, ∃ k, L'.select U = .ok k := by
  obtain ⟨hok, hp, hl⟩ := adaptLayer_inv hL
  obtain ⟨hok', new, h1, h2, h3⟩ := adapt_run hn inputs hok h
  rw [hl, List.nil_append] at h1
  subst h1
  rw [hp] at h3
  refine ⟨h2, h3, ?_, fun U => ?_⟩
  · intro i l m hi hm e
    have hlt : i + 1 < inputs.length := by
      rw [← h2]
      by_contra hc
      rw [List.getElem?_eq_none (by omega)] at hm
      simp at hm
    obtain ⟨c, hc, hmax⟩ := h3 (i + 1) inputs[i + 1] m (List.getElem?_eq_getElem hlt) hm
    have h5 := (List.mem_filter.1 hmax.mem).2
    rw [if_neg (by omega), Nat.add_sub_cancel, hi] at h5
    simp [e, hc] at h5
  · obtain ⟨c, hc, -⟩ := adapt_select hn hok' U
    exact ⟨_, hc⟩

/-- The bound `n ≥ 2` of C39 is needed: on one qubit every call raises `KeyError`. -/
theorem C39_one_qubit (gs : List (Gate 1)) (args : LayerArgs) (L : AdaptLayer 1) (hL : adaptLayer 1 (gs.map Gate.obs) args = .ok L)
    (opt : VqeOptimizer) (params : List (List ℝ)) (U : QMat 1) : L.call opt params U = .error .key := by
  obtain ⟨hok, hp, hl⟩ := adaptLayer_inv hL
  have hs : L.select U = .error .key := by
    have e1 : allWords [1, 2] = [.X] :: [.Y] :: [.Z] :: [.X, .X] :: (wordsXYZ 2).tail := by decide
    have hget : ∀ a : Letter, a ≠ .I → dictGet (absOmegas (stateFromUnitary U) (gs.map (fun g => full 1 g.ws g.A)) (stdDict 1 (allWords [1, 2]))) (letterStr [a], [0]) =
        .ok |grad (totalObs gs) U (pauliWord (placed 1 [a] [0]))| := fun a ha =>
      absOmegas_get U gs (mem_allWords.2 ⟨by simp, by simpa using ha⟩) (mem_combinations_range.2 ⟨rfl, by simp, by simp⟩)
    have hmiss : dictGet (absOmegas (stateFromUnitary U) (gs.map (fun g => full 1 g.ws g.A)) (stdDict 1 (allWords [1, 2]))) (letterStr [.X, .X], [0, 0]) = .error .key := by
      apply dictGet_missing
      rw [absOmegas, List.map_map]
      intro hc
      have : (letterStr [.X, .X], [0, 0]) ∈ (stdDict 1 (allWords [1, 2])).map Prod.fst := hc
      have := ((stdDict_spec 1 (lens := [1, 2]) (by simp) (by simp)).keys _ _).1 this
      simp at this
    rw [AdaptLayer.select, hok.obsFull, hok.dict, hok.dirs, hp]
    set D := absOmegas (stateFromUnitary U) (gs.map (fun g => full 1 g.ws g.A)) (stdDict 1 (allWords [1, 2]))
    rw [e1]
    simp only [List.map_cons, layerOmegas, letterStr_length, List.length_cons, List.length_nil, bondStarts, List.range_one, List.map_nil, sumLookups,
      hget .X (by decide), hget .Y (by decide), hget .Z (by decide), hmiss, bind, Except.bind, Nat.reduceAdd, Nat.sub_self, List.range_zero, List.filter_nil]
    simp
  rw [AdaptLayer.call, hs]
  rfl

/-! ### C40 -/

theorem pauliRot_zero (w : List Letter) : pauliRot 0 w = 1 := by simp [pauliRot]

theorem hadamard_eq : (hadamard : QMat 1) = tensor (fun _ : Fin 1 => ((1 / Real.sqrt 2 : ℝ) : ℂ) • !![1, 1; 1, -1]) := by
  ext i j
  have : ∀ i : Fin (2 ^ 1), bit 1 i 0 = i := by intro i; have := i.2; simp [bit]; omega
  simp [hadamard, tensor, this]

/-- The gates of the circuit are valid gates. -/
theorem compile_hadamards (n : ℕ) : ∀ (l : List ℕ), (∀ j ∈ l, j < n) → ∀ (rest : List (NpMat × List ℤ)) (U : QMat n),
    compileLoop n (l.map (fun (j : ℕ) => ((⟨2, 2, (hadamard : Matrix (Fin (2 ^ 1)) (Fin (2 ^ 1)) ℂ)⟩ : NpMat), [(j : ℤ)])) ++ rest) U =
      compileLoop n rest (l.foldl (fun U j => full n [j] (hadamard : QMat 1) * U) U)
  | [], _, rest, U => rfl
  | j :: l, h, rest, U => by
    have hj := h j (by simp)
    have := getFullOperator_npQ (n := n) (k := 1) (ws := [j]) rfl (by simp) ⟨by simp, by simpa using hj⟩ hadamard
    rw [List.map_cons, List.cons_append, compileLoop]
    rw [show ((⟨2, 2, (hadamard : Matrix (Fin (2 ^ 1)) (Fin (2 ^ 1)) ℂ)⟩ : NpMat)) = npQ hadamard from rfl, show [(j : ℤ)] = [j].map (Nat.cast : ℕ → ℤ) from rfl, this]
    simp only [bind, Except.bind]
    exact compile_hadamards n l (fun x hx => h x (by simp [hx])) rest _

/-- The Hadamards multiply to the Hadamard on every qubit. -/
theorem hadamards_eq (n : ℕ) : (List.range n).foldl (fun U j => full n [j] (hadamard : QMat 1) * U) 1 = hadamardAll n := by
  have key : ∀ m ≤ n, (List.range m).foldl (fun U j => full n [j] (hadamard : QMat 1) * U) 1 =
      tensor (fun q : Fin n => if q.val < m then ((1 / Real.sqrt 2 : ℝ) : ℂ) • !![1, 1; 1, -1] else 1) := by
    intro m
    induction m with
    | zero => intro _; simp [tensor_one]
    | succ m ih =>
      intro hm
      have hv : ValidWires n [m] := ⟨by simp, by simpa using hm⟩
      rw [List.range_succ, List.foldl_append, ih (by omega), List.foldl_cons, List.foldl_nil, hadamard_eq, full_tensor (k := 1) (ws := [m]) rfl hv, tensor_mul]
      congr 1
      funext q
      by_cases hq : q.val = m
      · have : q = wireFn [m] 1 rfl hv.2 0 := Fin.ext (by simpa [wireFn] using hq)
        have hinj := wireFn_injective (k := 1) (hk := rfl) (hlt := hv.2) hv.1
        rw [if_neg (by omega), if_pos (by omega), this, hinj.extend_apply, mul_one]
      · rw [Function.extend_apply' _ _ _ (by rintro ⟨a, ha⟩; apply hq; rw [← ha]; simp [wireFn]), one_mul]
        by_cases h1 : q.val < m
        · rw [if_pos h1, if_pos (by omega)]
        · rw [if_neg h1, if_neg (by omega)]
  rw [key n le_rfl, hadamardAll]
  congr 1
  funext q
  rw [if_pos q.2]

theorem lettersOfStr_letterStr (w : List Letter) : lettersOfStr (letterStr w) = w := by
  rw [lettersOfStr, letterStr, String.toList_ofList, List.map_map]
  conv_rhs => rw [← List.map_id w]
  apply List.map_congr_left
  intro a _
  cases a <;> rfl

theorem placed_range (w : List Letter) : placed w.length w (List.range w.length) = w.get := by
  funext q
  have h1 := (List.nodup_range (n := w.length)).idxOf_getElem q.val (by simp)
  rw [List.getElem_range] at h1
  rw [placed, h1]
  simp

theorem full_pauliRot {n : ℕ} {w : List Letter} {q : List ℕ} (hl : q.length = w.length) (hv : ValidWires n q) (θ : ℝ) :
    full n q (pauliRot θ w) = rotOp n θ w q := by
  rw [pauliRot, placed_range, rotOp, sub_eq_add_neg, full_add, full_smul, full_one hl hv, ← neg_smul, full_smul, full_placed hl hv, neg_smul, ← sub_eq_add_neg]

theorem rotGate_letterStr (θ : ℝ) (w : List Letter) (q : List ℕ) : rotGate θ (letterStr w) q = (npQ (pauliRot θ w), q.map (Nat.cast : ℕ → ℤ)) := by
  have : ∀ v, v = w → ((⟨2 ^ v.length, 2 ^ v.length, pauliRot θ v⟩ : NpMat), q.map (Nat.cast : ℕ → ℤ)) = (npQ (pauliRot θ w), q.map (Nat.cast : ℕ → ℤ)) := by
    rintro _ rfl; rfl
  exact this _ (lettersOfStr_letterStr w)

theorem compile_rots {n : ℕ} {w : List Letter} (hw : w ≠ []) : ∀ (l : List (ℝ × List ℕ)), (∀ r ∈ l, r.2.length = w.length ∧ ValidWires n r.2) →
    ∀ (rest : List (NpMat × List ℤ)) (U : QMat n),
    compileLoop n (l.map (fun r => rotGate r.1 (letterStr w) r.2) ++ rest) U = compileLoop n rest ((l.map (fun r => rotOp n r.1 w r.2)).foldl (fun U R => R * U) U)
  | [], _, rest, U => rfl
  | r :: l, h, rest, U => by
    obtain ⟨h1, h2⟩ := h r (by simp)
    have hne : r.2 ≠ [] := by intro hc; rw [hc] at h1; exact hw (List.length_eq_zero_iff.1 h1.symm)
    rw [List.map_cons, List.cons_append, rotGate_letterStr, compileLoop, getFullOperator_npQ h1 hne h2, full_pauliRot h1 h2]
    simp only [bind, Except.bind]
    exact compile_rots hw l (fun x hx => h x (by simp [hx])) rest (rotOp n r.1 w r.2 * U)

theorem pyGetItem_nat {α : Type} {l : List α} {i : ℕ} (h : i < l.length) : pyGetItem l (i : ℤ) = .ok l[i] := by
  have : pyIndex l.length (i : ℤ) = some i := by rw [pyIndex, if_pos (by omega), if_pos (by simpa using h)]; simp
  rw [pyGetItem, this]
  simp [List.getElem?_eq_getElem h]

theorem pyGetItem_last {l : List ℝ} (h : l ≠ []) : pyGetItem l (-1) = .ok (l.getLastD 0) := by
  have hl := List.length_pos_iff.2 h
  have : pyIndex l.length (-1) = some (l.length - 1) := by rw [pyIndex, if_neg (by omega), if_pos (by omega)]; congr 1; omega
  rw [pyGetItem, this]
  simp only [Option.bind_some, List.getElem?_eq_getElem (show l.length - 1 < l.length by omega)]
  rw [List.getLastD_eq_getLast?, List.getLast?_eq_getElem?, List.getElem?_eq_getElem (show l.length - 1 < l.length by omega)]
  rfl

theorem bondStarts_length (n start : ℕ) : (bondStarts n start).length ≤ n - 1 := by
  rw [bondStarts]
  exact (List.length_filter_le _ _).trans (by simp)

theorem bonds_gates {n start : ℕ} {ps : List ℝ} {d : String} (hps : ps.length = n) :
    (bondStarts n start).zipIdx.mapM (fun e => do
      let θ ← pyGetItem ps (e.2 : ℤ)
      .ok (rotGate θ d [e.1, e.1 + 1])) =
    (.ok (List.zipWith (fun θ q => rotGate θ d q) ps ((bondStarts n start).map (fun i => [i, i + 1]))) : Py _) := by
  have hb := bondStarts_length n start
  rw [mapM_ok _ (fun e => rotGate (ps.getD e.2 0) d [e.1, e.1 + 1])]
  · congr 1
    apply List.ext_getElem
    · simp; omega
    · intro i h1 h2
      have h3 : i < ps.length := by simp at h1; omega
      simp [List.getD, List.getElem?_eq_getElem h3]
  · intro e he
    have h3 : e.2 < (bondStarts n start).length := by
      have := List.snd_lt_of_mem_zipIdx (x := e) he
      simpa using this
    have h4 : e.2 < ps.length := by omega
    rw [pyGetItem_nat h4]
    simp [List.getD, List.getElem?_eq_getElem h4, bind, Except.bind]

/-- The word of a candidate layer has the length its kind demands. -/
def GoodLayer (c : List Letter × LayerKind) : Prop := c.1.length = (if c.2 = .single then 1 else 2)

theorem candidate_good {c : List Letter × LayerKind} (h : c ∈ candidateLayers) : GoodLayer c := by
  rw [candidateLayers_eq, List.mem_flatMap] at h
  obtain ⟨w, hw, h⟩ := h
  unfold wordLayers at h
  split at h
  · obtain rfl := List.mem_singleton.1 h
    simpa [GoodLayer] using ‹_›
  · have h2 : w.length = 2 := by
      have := (mem_allWords.1 hw).1
      simp at this
      omega
    simp only [List.mem_cons, List.not_mem_nil, or_false] at h
    rcases h with rfl | rfl <;> simpa [GoodLayer] using h2

theorem layerGates_eq {n : ℕ} (hn : 2 ≤ n) {c : List Letter × LayerKind} (hc : GoodLayer c) {ps : List ℝ} (hps : ps.length = n) :
    layerGates n (letterStr c.1, c.2.toParity) ps = .ok (List.zipWith (fun θ q => rotGate θ (letterStr c.1) q) (c.2.angles n ps) (c.2.sites n)) := by
  obtain ⟨w, k⟩ := c
  have hne : ps ≠ [] := by rintro rfl; simp at hps; omega
  rw [layerGates, letterStr_length]
  cases k with
  | single =>
    rw [GoodLayer, if_pos rfl] at hc
    rw [if_pos hc, mapM_ok _ (fun i => rotGate (ps.getD i 0) (letterStr w) [i])]
    · congr 1
      simp only [LayerKind.angles, LayerKind.sites]
      apply List.ext_getElem
      · simp [hps]
      · intro i h1 h2
        have h3 : i < ps.length := by simp at h1; omega
        simp [List.getD, List.getElem?_eq_getElem h3]
    · intro i hi
      have h4 : i < ps.length := by rw [hps]; simpa using hi
      rw [pyGetItem_nat h4]
      simp [List.getD, List.getElem?_eq_getElem h4, bind, Except.bind]
  | even =>
    rw [GoodLayer, if_neg (by simp)] at hc
    have hc' : w.length = 2 := hc
    rw [if_neg (by simp only; omega), if_pos (by simp [LayerKind.toParity]), bonds_gates hps, bondStarts_eq n 0 (Or.inl rfl)]
    rfl
  | odd =>
    rw [GoodLayer, if_neg (by simp)] at hc
    have hc' : w.length = 2 := hc
    rw [if_neg (by simp only; omega), if_neg (by simp [LayerKind.toParity]), bonds_gates hps, pyGetItem_last hne]
    have hb := bondStarts_length n 1
    rw [bondStarts_eq n 1 (Or.inr rfl)] at hb ⊢
    simp only [bind, Except.bind, LayerKind.angles, LayerKind.sites]
    rw [List.length_append, List.length_singleton, Nat.add_sub_cancel, List.length_map, List.zipWith_append (by rw [List.length_take, List.length_map, Nat.min_eq_left (by omega)])]
    congr 2
    apply List.ext_getElem
    · simp; omega
    · intro i h1 h2
      simp

theorem sites_ok {n : ℕ} (hn : 2 ≤ n) {c : List Letter × LayerKind} (hc : GoodLayer c) {q : List ℕ} (hq : q ∈ c.2.sites n) :
    q.length = c.1.length ∧ ValidWires n q := by
  obtain ⟨w, k⟩ := c
  have : q ∈ combinations (List.range n) w.length := by
    cases k with
    | single => rw [GoodLayer, if_pos rfl] at hc; rw [hc]; exact single_sites hq
    | even => rw [GoodLayer, if_neg (by simp)] at hc; rw [hc]; exact even_sites hq
    | odd => rw [GoodLayer, if_neg (by simp)] at hc; rw [hc]; exact odd_sites hn hq
  obtain ⟨h1, h2, h3⟩ := mem_combinations_range.1 this
  exact ⟨h1, h2.nodup, h3⟩

theorem compile_layers {n : ℕ} (hn : 2 ≤ n) : ∀ (cs : List (List Letter × LayerKind)) (last : List (List ℝ)), (∀ c ∈ cs, GoodLayer c) →
    ∀ U : QMat n, compileLoop n (List.zipWith (fun c ps => List.zipWith (fun θ q => rotGate θ (letterStr c.1) q) (c.2.angles n ps) (c.2.sites n)) cs last).flatten U =
      .ok ((List.zipWith (layerRots n) cs last).flatten.foldl (fun U R => R * U) U)
  | [], _, _, U => by simp [compileLoop]
  | c :: cs, [], _, U => by simp [compileLoop]
  | c :: cs, ps :: last, h, U => by
    have hc := h c (by simp)
    have hw : c.1 ≠ [] := by
      intro e
      rw [GoodLayer, e] at hc
      split at hc <;> simp at hc
    have e1 : List.zipWith (fun θ q => rotGate θ (letterStr c.1) q) (c.2.angles n ps) (c.2.sites n) =
        ((c.2.angles n ps).zip (c.2.sites n)).map (fun r => rotGate r.1 (letterStr c.1) r.2) := by
      rw [List.zip, List.map_zipWith]
    have e2 : layerRots n c ps = ((c.2.angles n ps).zip (c.2.sites n)).map (fun r => rotOp n r.1 c.1 r.2) := by
      rw [layerRots, List.zip, List.map_zipWith]
    rw [List.zipWith_cons_cons, List.zipWith_cons_cons, List.flatten_cons, List.flatten_cons, e1, compile_rots hw _ (fun r hr => sites_ok hn hc (List.of_mem_zip hr).2),
      compile_layers hn cs last (fun x hx => h x (by simp [hx])), List.foldl_append, e2]

theorem foldl_left {n : ℕ} : ∀ (l : List (QMat n)) (U : QMat n), l.foldl (fun U R => R * U) U = inOrder l * U
  | [], U => by simp [inOrder]
  | R :: l, U => by
    rw [List.foldl_cons, foldl_left l, ← mul_assoc, ← foldl_left l R, inOrder, List.foldl_cons, mul_one]

theorem inOrder_append {n : ℕ} (l m : List (QMat n)) : inOrder (l ++ m) = inOrder m * inOrder l := by
  rw [inOrder, List.foldl_append, foldl_left]
  rfl

theorem circuitVqe_eq {n : ℕ} (hn : 2 ≤ n) {cs : List (List Letter × LayerKind)} (hcs : ∀ c ∈ cs, GoodLayer c) {last : List (List ℝ)} (hl : last.length = cs.length)
    (hps : ∀ ps ∈ last, ps.length = n) : ∃ gates, circuitVqe n (cs.map (fun c => (letterStr c.1, c.2.toParity))) last = .ok gates ∧
      compileLoop n gates 1 = .ok (inOrder (List.zipWith (layerRots n) cs last).flatten * hadamardAll n) := by
  have e : (cs.map (fun c => (letterStr c.1, c.2.toParity))).zipIdx.mapM (fun l => do
      let ps ← pyGetItem last (l.2 : ℤ)
      layerGates n l.1 ps) =
      .ok (List.zipWith (fun c ps => List.zipWith (fun θ q => rotGate θ (letterStr c.1) q) (c.2.angles n ps) (c.2.sites n)) cs last) := by
    rw [List.zipIdx_map, List.mapM_map, mapM_ok _ (fun l => List.zipWith (fun θ q => rotGate θ (letterStr l.1.1) q) (l.1.2.angles n (last.getD l.2 [])) (l.1.2.sites n))]
    · congr 1
      apply List.ext_getElem
      · simp [hl]
      · intro i h1 h2
        have h3 : i < last.length := by simp at h1; omega
        simp [List.getD, List.getElem?_eq_getElem h3]
    · intro l hmem
      have h3 : l.2 < last.length := by
        rw [hl]
        have := List.snd_lt_of_mem_zipIdx (x := l) hmem
        simpa using this
      have h4 : l.1 ∈ cs := List.fst_mem_of_mem_zipIdx hmem
      simp only [Function.comp_apply, Prod.map, id, pyGetItem_nat h3, bind, Except.bind]
      rw [layerGates_eq hn (hcs _ h4) (hps _ (List.getElem_mem h3))]
      simp [List.getD, List.getElem?_eq_getElem h3]
  refine ⟨_, by rw [circuitVqe, e]; rfl, ?_⟩
  rw [compile_hadamards n _ (by simp), hadamards_eq, compile_layers hn _ _ hcs, foldl_left]

theorem exists_preimages {α β : Type} (P : α → Prop) (f : α → β) : ∀ ls : List β, (∀ l ∈ ls, ∃ c, P c ∧ l = f c) → ∃ cs : List α, (∀ c ∈ cs, P c) ∧ ls = cs.map f
  | [], _ => ⟨[], by simp, rfl⟩
  | l :: ls, h => by
    obtain ⟨c, h1, h2⟩ := h l (by simp)
    obtain ⟨cs, h3, h4⟩ := exists_preimages P f ls (fun x hx => h x (by simp [hx]))
    exact ⟨c :: cs, by simpa using ⟨h1, h3⟩, by rw [h2, h4]; rfl⟩

/-- The layers of every state reached are candidate layers. -/
theorem reached_layers {n : ℕ} (hn : 2 ≤ n) {gs : List (Gate n)} {args : LayerArgs} {L L' : AdaptLayer n}
    (hL : adaptLayer n (gs.map Gate.obs) args = .ok L) {inputs : List (VqeOptimizer × List (List ℝ) × QMat n)} (h : L.runAll inputs = .ok L') :
    AdaptOk gs L' ∧ ∃ cs : List (List Letter × LayerKind), (∀ c ∈ cs, c ∈ candidateLayers) ∧ L'.layers = cs.map (fun c => (letterStr c.1, c.2.toParity)) := by
  obtain ⟨hok, hp, hl⟩ := adaptLayer_inv hL
  obtain ⟨hok', new, h1, h2, h3⟩ := adapt_run hn inputs hok h
  refine ⟨hok', exists_preimages _ _ _ ?_⟩
  rw [hl, List.nil_append] at h1
  rw [h1]
  intro l hmem
  obtain ⟨i, hi, rfl⟩ := List.getElem_of_mem hmem
  obtain ⟨c, hc, hm⟩ := h3 i inputs[i] new[i] (List.getElem?_eq_getElem (by omega)) (List.getElem?_eq_getElem hi)
  exact ⟨c, (List.mem_filter.1 hm.mem).1, hc⟩

/-- C40 (true part): whatever the circuit `U` passed in and whatever the history, a successful call whose optimizer returns one angle per
qubit for every layer returns the rotations of all layers selected so far, with these angles, applied to the Hadamard gate on every qubit.
`U` only enters through the selection of the last layer. -/
theorem C40_circuit_partial {n : ℕ} (hn : 2 ≤ n) (gs : List (Gate n)) (args : LayerArgs) (L L₁ L₂ : AdaptLayer n)
    (hL : adaptLayer n (gs.map Gate.obs) args = .ok L) (inputs : List (VqeOptimizer × List (List ℝ) × QMat n)) (h : L.runAll inputs = .ok L₁)
    (opt : VqeOptimizer) (params last : List (List ℝ)) (U V : QMat n) (hc : L₁.call opt params U = .ok (V, last, L₂))
    (hlen : last.length = L₂.layers.length) (hps : ∀ ps ∈ last, ps.length = n) :
    ∃ (cs : List (List Letter × LayerKind)) (c : List Letter × LayerKind), (∀ x ∈ cs ++ [c], x ∈ candidateLayers) ∧ L₁.layers = cs.map (fun c => (letterStr c.1, c.2.toParity)) ∧
      L₁.select U = .ok (letterStr c.1, c.2.toParity) ∧ L₂.layers = (cs ++ [c]).map (fun c => (letterStr c.1, c.2.toParity)) ∧
      V = inOrder (List.zipWith (layerRots n) (cs ++ [c]) last).flatten * hadamardAll n := by
  obtain ⟨hok, cs, h1, h2⟩ := reached_layers hn hL h
  obtain ⟨k, hk, rfl, gates, hg, hV⟩ := adapt_call_inv hc
  obtain ⟨c, hsel, hm⟩ := adapt_select hn hok U
  rw [hk] at hsel
  obtain rfl := Except.ok.inj hsel
  have hcand : ∀ x ∈ cs ++ [c], x ∈ candidateLayers := by
    intro x hx
    rcases List.mem_append.1 hx with hx | hx
    · exact h1 x hx
    · rw [List.mem_singleton.1 hx]; exact (List.mem_filter.1 hm.mem).1
  have e : L₁.layers ++ [(letterStr c.1, c.2.toParity)] = (cs ++ [c]).map (fun c => (letterStr c.1, c.2.toParity)) := by rw [h2]; simp
  refine ⟨cs, c, hcand, h2, hk, e, ?_⟩
  obtain ⟨gates', h3, h4⟩ := circuitVqe_eq hn (fun x hx => candidate_good (hcand x hx)) (last := last) (by rw [hlen]; simp [h2]) hps
  rw [← e, hg] at h3
  obtain rfl := Except.ok.inj h3
  rw [hV] at h4
  exact Except.ok.inj h4

/-- C40 (true part): if the optimizer leaves the angles of the earlier layers alone, the call multiplies the circuit of the earlier layers
(with these angles) by the rotations of the selected layer.  So the call extends the circuit it is given when that is this circuit. -/
theorem C40_extends_partial {n : ℕ} (hn : 2 ≤ n) (gs : List (Gate n)) (args : LayerArgs) (L L₁ L₂ : AdaptLayer n)
    (hL : adaptLayer n (gs.map Gate.obs) args = .ok L) (inputs : List (VqeOptimizer × List (List ℝ) × QMat n)) (h : L.runAll inputs = .ok L₁)
    (opt : VqeOptimizer) (params : List (List ℝ)) (new : List ℝ) (U V : QMat n) (hc : L₁.call opt params U = .ok (V, params ++ [new], L₂))
    (hlen : params.length = L₁.layers.length) (hps : ∀ ps ∈ params ++ [new], ps.length = n) :
    ∃ gates W c, circuitVqe n L₁.layers params = .ok gates ∧ compileLoop n gates 1 = .ok W ∧
      L₁.select U = .ok (letterStr c.1, c.2.toParity) ∧ V = inOrder (layerRots n c new) * W ∧ (U = W → V = inOrder (layerRots n c new) * U) := by
  have hl2 : L₂.layers.length = L₁.layers.length + 1 := by
    obtain ⟨k, hk, rfl, -⟩ := adapt_call_inv hc
    simp
  obtain ⟨cs, c, h1, h2, h3, h4, h5⟩ := C40_circuit_partial hn gs args L L₁ L₂ hL inputs h opt params _ U V hc (by rw [hl2]; simp [hlen]) hps
  obtain ⟨gates, h6, h7⟩ := circuitVqe_eq hn (cs := cs) (fun x hx => candidate_good (h1 x (by simp [hx]))) (last := params) (by rw [hlen, h2]; simp)
    (fun ps hp => hps ps (by simp [hp]))
  have e : V = inOrder (layerRots n c new) * (inOrder (List.zipWith (layerRots n) cs params).flatten * hadamardAll n) := by
    rw [h5, List.zipWith_append (by rw [hlen, h2]; simp), List.flatten_append, inOrder_append, mul_assoc]
    simp
  exact ⟨gates, _, c, by rw [h2]; exact h6, h7, h3, e, fun hU => by rw [e, hU]⟩

theorem rotOp_zero {n : ℕ} (w : List Letter) (q : List ℕ) : rotOp n 0 w q = 1 := by simp [rotOp]

theorem inOrder_ones {n : ℕ} : ∀ l : List (QMat n), (∀ R ∈ l, R = 1) → inOrder l = 1
  | [], _ => rfl
  | R :: l, h => by
    rw [inOrder, List.foldl_cons, foldl_left, h R (by simp), mul_one, mul_one]
    exact inOrder_ones l (fun x hx => h x (by simp [hx]))

theorem layerRots_zero {n : ℕ} (c : List Letter × LayerKind) : ∀ R ∈ layerRots n c (List.replicate n 0), R = 1 := by
  intro R hR
  rw [layerRots, List.mem_iff_getElem] at hR
  obtain ⟨i, hi, rfl⟩ := hR
  have h0 : ∀ x ∈ c.2.angles n (List.replicate n (0 : ℝ)), x = 0 := by
    intro x hx
    have hrep : ∀ x ∈ List.replicate n (0 : ℝ), x = 0 := fun x hx => List.eq_of_mem_replicate hx
    unfold LayerKind.angles at hx
    split at hx
    · rcases List.mem_append.1 hx with hx | hx
      · exact hrep x (List.mem_of_mem_take hx)
      · rw [List.mem_singleton.1 hx]
        cases n with
        | zero => rfl
        | succ m => rw [List.replicate_succ, List.getLastD_cons, ]; cases m <;> simp [List.replicate_succ', List.getLastD_eq_getLast?]
    · exact hrep x hx
  rw [List.getElem_zipWith, h0 _ (List.getElem_mem _), rotOp_zero]

/-- C40 is false: on every register of at least two qubits and for every observable, the first call of a layer with an optimizer that
returns zero angles (so that the new rotations are the identity) returns the Hadamard gate on every qubit, whatever the circuit `U` it
was given; it is the given circuit followed by the new rotations only if `U` happens to be this gate. -/
theorem C40_ignores_circuit {n : ℕ} (hn : 2 ≤ n) (gs : List (Gate n)) (args : LayerArgs) (L : AdaptLayer n)
    (hL : adaptLayer n (gs.map Gate.obs) args = .ok L) (U : QMat n) :
    ∃ c L', L.call (fun _ ps => .ok [ps.map (fun p => p.map (fun _ => 0))]) [] U = .ok (hadamardAll n, [List.replicate n 0], L') ∧
      L'.layers = [(letterStr c.1, c.2.toParity)] ∧ inOrder (layerRots n c (List.replicate n 0)) = 1 ∧
      (hadamardAll n = inOrder (layerRots n c (List.replicate n 0)) * U ↔ U = hadamardAll n) := by
  obtain ⟨hok, hp, hl⟩ := adaptLayer_inv hL
  obtain ⟨c, hc, hm⟩ := adapt_select hn hok U
  have h1 : inOrder (layerRots n c (List.replicate n 0)) = 1 := inOrder_ones _ (layerRots_zero c)
  obtain ⟨gates, h2, h3⟩ := circuitVqe_eq hn (cs := [c]) (by simpa using candidate_good (List.mem_filter.1 hm.mem).1) (last := [List.replicate n 0]) rfl (by simp)
  refine ⟨c, { L with layers := [(letterStr c.1, c.2.toParity)], previousDirection := some (letterStr c.1) }, ?_, rfl, h1, by rw [h1, one_mul]; exact eq_comm⟩
  have h4 : pyGetItem [[List.replicate n (0 : ℝ)]] (-1) = .ok [List.replicate n 0] := rfl
  rw [AdaptLayer.call, hc, hl]
  simp only [bind, Except.bind, List.nil_append, List.map_cons, List.map_nil, List.map_replicate, h4]
  simp only [List.map_cons, List.map_nil] at h2
  rw [h2]
  simp only [h3]
  simp [h1]

/-- The hypotheses of C39 and C40 are met by a real history: two qubits, one observable, a successful call. -/
example : ∃ L L', adaptLayer 2 ([exObsZ].map Gate.obs) {} = .ok L ∧
    L.runAll [((fun _ ps => .ok [ps.map (fun p => p.map (fun _ => 0))]), [], 1)] = .ok L' ∧ L'.layers.length = 1 := by
  obtain ⟨a, ha, -⟩ := algebraSU4_getAll 2
  have hL : ∃ L, adaptLayer 2 ([exObsZ].map Gate.obs) {} = .ok L := by
    rw [adaptLayer, promoteAll_gates, ha]
    simp only [bind, Except.bind]
    rw [show validateEta (Option.getD ({} : LayerArgs).eta (.float 0.1)) = .ok 0.1 from defaultEta_ok']
    exact ⟨_, rfl⟩
  obtain ⟨L, hL⟩ := hL
  obtain ⟨c, L', h1, h2, -⟩ := C40_ignores_circuit (le_refl 2) [exObsZ] {} L hL 1
  refine ⟨L, L', hL, ?_, by rw [h2]; rfl⟩
  rw [AdaptLayer.runAll, h1]
  rfl

/-- The circuits the counterexample needs exist: the identity is not the Hadamard gate on every qubit. -/
example : hadamardAll 2 ≠ 1 := by
  intro h
  have h0 : (tensor (fun _ : Fin 2 => ((1 / Real.sqrt 2 : ℝ) : ℂ) • !![1, 1; 1, -1])) 0 1 = (1 : QMat 2) 0 1 := by rw [← h]; rfl
  simp [tensor, bit, Fin.prod_univ_two] at h0

end Oranssi
