import Verif.Spec.Commute
import Verif.Props.Greedy
import Verif.Props.Adapt
import Verif.Props.EdgeColoring
import Verif.Props.FullOperator
import Verif.Lemmas.Unitarity

/-! # C74: the squared layer with `commute=True` -/

namespace Oranssi
open scoped Matrix
open Spec

theorem isTerm_iff {n : ℕ} {k : Key} : IsTerm n k ↔ k ∈ (stdDict n (allWords [1, 2])).map Prod.fst := by
  rw [mem_keys_stdDict]
  obtain ⟨d, q⟩ := k
  constructor
  · rintro ⟨w, h1, h2, rfl, h4, h5, h6⟩
    exact ⟨w, mem_allWords.2 ⟨by simpa using h1, h2⟩, q, mem_combinations_range.2 ⟨h4, h5, h6⟩, rfl⟩
  · rintro ⟨w, hw, q', hq, e⟩
    obtain ⟨rfl, rfl⟩ := Prod.mk.inj e
    obtain ⟨h1, h2⟩ := mem_allWords.1 hw
    obtain ⟨h3, h4, h5⟩ := mem_combinations_range.1 hq
    exact ⟨w, by simpa using h1, h2, rfl, h3, h4, h5⟩

theorem stdDict_termOp {n : ℕ} {e : Key × QMat n} (he : e ∈ stdDict n (allWords [1, 2])) : e.2 = termOp n e.1 := by
  obtain ⟨w, -, q, -, rfl⟩ := mem_stdDict.1 he
  simp only [termOp, lettersOfStr_letterStr]

theorem dictGet_term {n : ℕ} {k : Key} (hk : IsTerm n k) : dictGet (stdDict n (allWords [1, 2])) k = .ok (termOp n k) := by
  obtain ⟨e, he, rfl⟩ := List.mem_map.1 (isTerm_iff.1 hk)
  rw [dictGet_mem (stdDict_spec n (lens := [1, 2]) (by simp) (by simp)).nodup he, stdDict_termOp he]

theorem dictGet_isTerm {n : ℕ} {k : Key} {P : QMat n} (h : dictGet (stdDict n (allWords [1, 2])) k = .ok P) : IsTerm n k := by
  by_contra hc
  rw [isTerm_iff] at hc
  rw [dictGet_missing hc] at h
  simp at h

theorem pyMaxValue_spec {K : Type} : ∀ {l : List (K × ℝ)}, l ≠ [] → ∃ e ∈ l, pyMaxValue l = .ok e.2 ∧ ∀ x ∈ l, x.2 ≤ e.2
  | e :: es, _ => by
    rw [pyMaxValue]
    suffices h : ∀ (es : List (K × ℝ)) (b : ℝ), (∀ x ∈ es, x.2 ≤ es.foldl (fun best x => max best x.2) b) ∧ b ≤ es.foldl (fun best x => max best x.2) b ∧
        (es.foldl (fun best x => max best x.2) b = b ∨ ∃ x ∈ es, es.foldl (fun best x => max best x.2) b = x.2) by
      obtain ⟨h1, h2, h3⟩ := h es e.2
      rcases h3 with h3 | ⟨x, hx, h3⟩
      · exact ⟨e, by simp, by rw [h3], by rw [← h3]; exact List.forall_mem_cons.2 ⟨h2, h1⟩⟩
      · exact ⟨x, by simp [hx], by rw [h3], by rw [← h3]; exact List.forall_mem_cons.2 ⟨h2, h1⟩⟩
    intro es
    induction es with
    | nil => intro b; simp
    | cons x es ih =>
      intro b
      obtain ⟨h1, h2, h3⟩ := ih (max b x.2)
      rw [List.foldl_cons]
      refine ⟨?_, (le_max_left _ _).trans h2, ?_⟩
      · intro y hy
        rcases List.mem_cons.1 hy with rfl | hy
        · exact (le_max_right _ _).trans h2
        · exact h1 y hy
      · rcases h3 with h3 | ⟨y, hy, h3⟩
        · rcases max_choice b x.2 with hm | hm
          · exact Or.inl (h3.trans hm)
          · exact Or.inr ⟨x, by simp, h3.trans hm⟩
        · exact Or.inr ⟨y, by simp [hy], h3⟩

/-- The state of a squared layer that its calls rely on. -/
structure SquaredOk {n : ℕ} (gs : List (Gate n)) (L : SquaredLayer n) : Prop where
  full : L.observablesFull = gs.map (fun g => full n g.ws g.A)
  dict : L.lastate.fullPaulis = stdDict n (allWords [1, 2])

/-- The keys `commute=True` picks from. -/
noncomputable def SquaredLayer.nearKeys {n : ℕ} (L : SquaredLayer n) (U : QMat n) (m : ℝ) : List Key :=
  ((L.omegas U).filter (fun e => isCloseTo e.2 m 1e-3)).map Prod.fst

theorem nearKeys_spec {n : ℕ} (hn : 1 ≤ n) {gs : List (Gate n)} {L : SquaredLayer n} (hL : SquaredOk gs L) (U : QMat n) :
    ∃ m, pyMaxValue (L.omegas U) = .ok m ∧ (L.nearKeys U m).Nodup ∧ L.nearKeys U m ≠ [] ∧
      ∀ k, k ∈ L.nearKeys U m ↔ NearBest (totalObs gs) U L.previousPauli k := by
  have hω : L.omegas U = ((stdDict n (allWords [1, 2])).filter (fun e => e.1 ≠ L.previousPauli)).map (fun e => (e.1, |grad (totalObs gs) U (termOp n e.1)|)) := by
    rw [SquaredLayer.omegas, hL.full, hL.dict, absOmegas]
    apply List.map_congr_left
    intro e he
    rw [omegaSum_grad, stdDict_termOp (List.mem_filter.1 he).1]
  have hmem : ∀ (k : Key) (v : ℝ), (k, v) ∈ L.omegas U ↔ (IsTerm n k ∧ k ≠ L.previousPauli) ∧ v = |grad (totalObs gs) U (termOp n k)| := by
    intro k v
    rw [hω, List.mem_map]
    constructor
    · rintro ⟨e, he, h⟩
      obtain ⟨rfl, rfl⟩ := Prod.mk.inj h
      obtain ⟨h1, h2⟩ := List.mem_filter.1 he
      exact ⟨⟨isTerm_iff.2 (List.mem_map_of_mem h1), by simpa using h2⟩, rfl⟩
    · rintro ⟨⟨h1, h2⟩, rfl⟩
      obtain ⟨e, he, rfl⟩ := List.mem_map.1 (isTerm_iff.1 h1)
      exact ⟨e, List.mem_filter.2 ⟨he, by simpa using h2⟩, rfl⟩
  have hne : L.omegas U ≠ [] := by
    rw [hω]
    simpa using filter_ne_nil hn (lens := [1, 2]) (by simp) L.previousPauli
  obtain ⟨⟨b, v⟩, hb, h1, h2⟩ := pyMaxValue_spec hne
  obtain ⟨hb1, rfl⟩ := (hmem b v).1 hb
  have hclose : ∀ x, IsTerm n x → x ≠ L.previousPauli → (isCloseTo |grad (totalObs gs) U (termOp n x)| |grad (totalObs gs) U (termOp n b)| 1e-3 = true ↔
      |grad (totalObs gs) U (termOp n b)| - |grad (totalObs gs) U (termOp n x)| ≤ 1 / 1000 + 1 / 100000 * |grad (totalObs gs) U (termOp n b)|) := by
    intro x hx hx'
    have := h2 (x, _) ((hmem x _).2 ⟨⟨hx, hx'⟩, rfl⟩)
    simp only at this
    rw [isCloseTo, decide_eq_true_iff, abs_sub_comm, abs_of_nonneg (sub_nonneg.2 this), abs_abs]
    norm_num
  have hk : ∀ k, k ∈ L.nearKeys U |grad (totalObs gs) U (termOp n b)| ↔ NearBest (totalObs gs) U L.previousPauli k := by
    intro k
    rw [SquaredLayer.nearKeys, List.mem_map]
    constructor
    · rintro ⟨⟨k', v⟩, he, rfl⟩
      obtain ⟨h3, h4⟩ := List.mem_filter.1 he
      obtain ⟨h5, rfl⟩ := (hmem k' v).1 h3
      exact ⟨h5, b, hb1, fun c hc hc' => h2 (c, _) ((hmem c _).2 ⟨⟨hc, hc'⟩, rfl⟩), (hclose k' h5.1 h5.2).1 h4⟩
    · rintro ⟨h3, b', hb', h4, h5⟩
      have e : |grad (totalObs gs) U (termOp n b')| = |grad (totalObs gs) U (termOp n b)| :=
        le_antisymm (h2 (b', _) ((hmem b' _).2 ⟨hb', rfl⟩)) (h4 b hb1.1 hb1.2)
      rw [e] at h5
      exact ⟨(k, _), List.mem_filter.2 ⟨(hmem k _).2 ⟨h3, rfl⟩, (hclose k h3.1 h3.2).2 h5⟩, rfl⟩
  refine ⟨_, h1, ?_, ?_, hk⟩
  · rw [SquaredLayer.nearKeys]
    have : ((L.omegas U).map Prod.fst).Nodup := by
      rw [hω, List.map_map]
      exact ((stdDict_spec n (lens := [1, 2]) (by simp) (by simp)).nodup.sublist (List.filter_sublist.map _))
    exact this.sublist (List.filter_sublist.map _)
  · have : b ∈ L.nearKeys U |grad (totalObs gs) U (termOp n b)| := by
      rw [hk]
      refine ⟨hb1, b, hb1, fun c hc hc' => h2 (c, _) ((hmem c _).2 ⟨⟨hc, hc'⟩, rfl⟩), ?_⟩
      have := abs_nonneg (grad (totalObs gs) U (termOp n b))
      linarith
    exact List.ne_nil_of_mem this

/-- The bonds of the near-maximal terms with a given direction. -/
def bondsOf (ks : List Key) (d : String) : List (List ℕ) := (ks.filter (fun k => k.1 = d)).map Prod.snd

theorem mem_bondsOf {ks : List Key} {d : String} {e : List ℕ} : e ∈ bondsOf ks d ↔ (d, e) ∈ ks := by
  rw [bondsOf, List.mem_map]
  constructor
  · rintro ⟨⟨d', e'⟩, h, rfl⟩
    obtain ⟨h1, h2⟩ := List.mem_filter.1 h
    simp only [decide_eq_true_eq] at h2
    rwa [← h2]
  · intro h
    exact ⟨(d, e), List.mem_filter.2 ⟨h, by simp⟩, rfl⟩

theorem bondsOf_nodup {ks : List Key} (h : ks.Nodup) (d : String) : (bondsOf ks d).Nodup := by
  rw [bondsOf]
  refine List.Nodup.map_on ?_ (h.filter _)
  rintro ⟨a, b⟩ hx ⟨a', b'⟩ hy e
  have h1 := (List.mem_filter.1 hx).2
  have h2 := (List.mem_filter.1 hy).2
  simp only [decide_eq_true_eq] at h1 h2 e
  rw [h1, h2, e]

/-- What `commute=True` selects: the direction of the first near-maximal term, and bonds chosen by `get_commuting_set`. -/
theorem commuteSelect_eq {n : ℕ} (hn : 1 ≤ n) {gs : List (Gate n)} {L : SquaredLayer n} (hL : SquaredOk gs L) (U : QMat n) :
    ∃ (ks : List Key) (k₀ : Key), ks.Nodup ∧ k₀ ∈ ks ∧ (∀ k, k ∈ ks ↔ NearBest (totalObs gs) U L.previousPauli k) ∧
      ∀ rs fuel, L.commuteSelect rs fuel U = (commutingEdges rs fuel (bondsOf ks k₀.1)).map (fun es => (k₀.1, es)) := by
  obtain ⟨m, h1, h2, h3, h4⟩ := nearKeys_spec hn hL U
  obtain ⟨k₀, ks, hks⟩ := List.exists_cons_of_ne_nil h3
  refine ⟨L.nearKeys U m, k₀, h2, by rw [hks]; simp, h4, ?_⟩
  intro rs fuel
  have h0 : pyGetItem (L.nearKeys U m) 0 = .ok k₀ := by
    have := pyGetItem_nat (l := L.nearKeys U m) (i := 0) (by rw [hks]; simp)
    simp only [hks] at this ⊢
    simpa using this
  have h0' : pyGetItem (((L.omegas U).filter (fun e => isCloseTo e.2 m 1e-3)).map Prod.fst) 0 = .ok k₀ := h0
  rw [SquaredLayer.commuteSelect, h1]
  simp only [bind, Except.bind]
  rw [h0']
  simp only [bondsOf, SquaredLayer.nearKeys]
  cases commutingEdges rs fuel _ <;> rfl

theorem rotOp_exp {n : ℕ} (θ : ℝ) (w : List Letter) (q : List ℕ) :
    NormedSpace.exp ((-Complex.I * ((θ / 2 : ℝ) : ℂ)) • pauliWord (placed n w q)) = rotOp n θ w q := by
  rw [exp_neg_I_smul_involution _ (pauliWord_sq _), rotOp]

/-- The loop that applies the rotations. -/
theorem applyRotations_ok {n : ℕ} (d : String) (ps : List ℝ) : ∀ (es : List (List ℕ)) (i : ℕ) (U : QMat n), (∀ e ∈ es, IsTerm n (d, e)) →
    i + es.length ≤ ps.length → applyRotations (stdDict n (allWords [1, 2])) d ps i es U =
      .ok ((((es.map (fun e => (d, e))).zip (ps.drop i)).map (termRot n)).foldl (fun U R => R * U) U)
  | [], i, U, _, _ => by rw [applyRotations]; rfl
  | e :: es, i, U, h, hl => by
    rw [List.length_cons] at hl
    have hi : i < ps.length := by omega
    rw [applyRotations, pyGetItem_nat hi]
    simp only [bind, Except.bind]
    rw [dictGet_term (h e (by simp))]
    simp only
    rw [applyRotations_ok d ps es (i + 1) _ (fun x hx => h x (by simp [hx])) (by omega), List.drop_eq_getElem_cons hi, List.map_cons, List.zip_cons_cons,
      List.map_cons, List.foldl_cons, termOp, rotOp_exp]
    rfl

theorem pyGetItem_lt {α : Type} {l : List α} {i : ℕ} {v : α} (h : pyGetItem l (i : ℤ) = .ok v) : i < l.length := by
  by_contra hc
  have : pyIndex l.length (i : ℤ) = none := by
    rw [pyIndex, if_pos (by omega), if_neg (by simpa using hc)]
  rw [pyGetItem, this] at h
  simp at h

theorem applyRotations_inv {n : ℕ} (d : String) (ps : List ℝ) : ∀ (es : List (List ℕ)) (i : ℕ) (U V : QMat n),
    applyRotations (stdDict n (allWords [1, 2])) d ps i es U = .ok V → (∀ e ∈ es, IsTerm n (d, e)) ∧ (es ≠ [] → i + es.length ≤ ps.length)
  | [], i, U, V, _ => by simp
  | e :: es, i, U, V, h => by
    rw [applyRotations] at h
    simp only [bind, Except.bind] at h
    split at h
    · simp at h
    rename_i θ hθ
    split at h
    · simp at h
    rename_i P hP
    obtain ⟨h1, h2⟩ := applyRotations_inv d ps es (i + 1) _ V h
    have hi := pyGetItem_lt hθ
    refine ⟨?_, fun _ => ?_⟩
    · intro x hx
      rcases List.mem_cons.1 hx with rfl | hx
      · exact dictGet_isTerm hP
      · exact h1 x hx
    · rw [List.length_cons]
      by_cases hes : es = []
      · subst hes; simp; omega
      · have := h2 hes; omega

theorem thetas_ok {ps : List ℝ} (es : List (List ℕ)) (hl : es.length ≤ ps.length) :
    es.zipIdx.mapM (fun e => pyGetItem ps (e.2 : ℤ)) = .ok (ps.take es.length) := by
  rw [mapM_ok _ (fun e => ps.getD e.2 0)]
  · congr 1
    apply List.ext_getElem
    · simp [hl]
    · intro i h1 h2
      have h3 : i < ps.length := by simp at h1; omega
      simp [List.getD, List.getElem?_eq_getElem h3]
  · intro e he
    have h3 : e.2 < ps.length := by
      have := List.snd_lt_of_mem_zipIdx (x := e) he
      omega
    rw [pyGetItem_nat h3]
    simp [List.getD, List.getElem?_eq_getElem h3]

theorem circuitLie_ok {n : ℕ} (U : QMat n) (d : String) (es : List (List ℕ)) {ps : List ℝ} (hl : es.length ≤ ps.length) :
    circuitLie U d es ps = .ok ((npQ U, (List.range n).map (Nat.cast : ℕ → ℤ)) :: (es.zip ps).map (fun r => rotGate r.2 d r.1)) := by
  have e : es.zipIdx.mapM (fun e => do
      let θ ← pyGetItem ps (e.2 : ℤ)
      .ok (rotGate θ d e.1)) = (.ok ((es.zip ps).map (fun r => rotGate r.2 d r.1)) : Py _) := by
    rw [mapM_ok _ (fun e => rotGate (ps.getD e.2 0) d e.1)]
    · congr 1
      apply List.ext_getElem
      · simp [hl]
      · intro i h1 h2
        have h3 : i < ps.length := by simp at h1; omega
        simp [List.getD, List.getElem?_eq_getElem h3]
    · intro e he
      have h3 : e.2 < ps.length := by
        have := List.snd_lt_of_mem_zipIdx (x := e) he
        omega
      rw [pyGetItem_nat h3]
      simp [List.getD, List.getElem?_eq_getElem h3, bind, Except.bind]
  rw [circuitLie, e]
  rfl

theorem compile_circuitLie {n : ℕ} (hn : 1 ≤ n) (U : QMat n) (d : String) (es : List (List ℕ)) (ps : List ℝ) (ht : ∀ e ∈ es, IsTerm n (d, e)) :
    compileLoop n ((npQ U, (List.range n).map (Nat.cast : ℕ → ℤ)) :: (es.zip ps).map (fun r => rotGate r.2 d r.1)) 1 =
      .ok ((((es.map (fun e => (d, e))).zip ps).map (termRot n)).foldl (fun U R => R * U) U) := by
  rw [compileLoop]
  have h0 : getFullOperator (npQ U) ((List.range n).map (Nat.cast : ℕ → ℤ)) n = .ok U := C04_all_wires_identity n hn U
  rw [h0]
  simp only [bind, Except.bind, mul_one]
  cases es with
  | nil => simp [compileLoop]
  | cons e es =>
    obtain ⟨w, h1, -, rfl, -⟩ := ht e (by simp)
    have hw : w ≠ [] := by rintro rfl; simp at h1
    have h2 : ∀ r ∈ ((e :: es).zip ps).map Prod.swap, r.2.length = w.length ∧ ValidWires n r.2 := by
      intro r hr
      obtain ⟨⟨x, θ⟩, hx, rfl⟩ := List.mem_map.1 hr
      obtain ⟨w', -, -, h3, h4, h5, h6⟩ := ht x (List.of_mem_zip hx).1
      have : w' = w := by
        have := congrArg lettersOfStr h3
        rw [lettersOfStr_letterStr, lettersOfStr_letterStr] at this
        exact this.symm
      subst this
      exact ⟨h4, h5.nodup, h6⟩
    have h3 := compile_rots hw _ h2 [] U
    rw [List.append_nil, List.map_map] at h3
    change compileLoop n (((e :: es).zip ps).map _) U = _ at h3
    rw [show (fun r : List ℕ × ℝ => rotGate r.2 (letterStr w) r.1) = (fun r : ℝ × List ℕ => rotGate r.1 (letterStr w) r.2) ∘ Prod.swap from rfl, h3, compileLoop]
    congr 2
    rw [List.map_map, List.zip_map_left, List.map_map]
    apply List.map_congr_left
    rintro ⟨x, θ⟩ -
    simp [termRot, lettersOfStr_letterStr]

/-- The shape of a successful call. -/
theorem callCommute_inv {n : ℕ} {L : SquaredLayer n} {rs : ℕ → ℕ} {fuel : ℕ} {optimizer : Option LieOptimizer} {U V : QMat n} {l : List (Key × ℝ)}
    (hd : L.lastate.fullPaulis = stdDict n (allWords [1, 2])) (h : L.callCommute rs fuel optimizer U = .ok (V, l)) :
    ∃ (d : String) (es : List (List ℕ)) (f : LieOptimizer) (ps : List (List ℝ)) (last : List ℝ), L.commuteSelect rs fuel U = .ok (d, es) ∧ optimizer = some f ∧
      f (circuitLie U d es) (es.map (fun _ => (0.1 : ℝ))) = .ok ps ∧ (es ≠ [] → ps.getLast? = some last) ∧
      (∀ e ∈ es, IsTerm n (d, e)) ∧ es.length ≤ last.length ∧ l = (es.map (fun e => (d, e))).zip last ∧
      V = inOrder (l.map (termRot n)) * U := by
  rw [SquaredLayer.callCommute] at h
  simp only [bind, Except.bind] at h
  split at h
  · simp at h
  rename_i de hde
  obtain ⟨d, es⟩ := de
  simp only at h
  split at h
  · simp at h
  rename_i ps hps
  cases optimizer with
  | none => simp at hps
  | some f =>
    simp only at hps
    split at h
    · simp at h
    rename_i last hlast
    split at h
    · simp at h
    rename_i V' hV
    split at h
    · simp at h
    rename_i θs hθ
    obtain ⟨rfl, rfl⟩ := Prod.mk.inj (Except.ok.inj h)
    rw [hd] at hV
    obtain ⟨h1, h2⟩ := applyRotations_inv d last es 0 U V' hV
    have hlen : es.length ≤ last.length := by
      by_cases hes : es = []
      · subst hes; simp
      · simpa using h2 hes
    rw [thetas_ok es hlen] at hθ
    obtain rfl := Except.ok.inj hθ
    rw [applyRotations_ok d last es 0 U h1 (by simpa using hlen)] at hV
    obtain rfl := Except.ok.inj hV
    have hz : (es.map (fun e => (d, e))).zip (last.take es.length) = (es.map (fun e => (d, e))).zip last := by
      conv_rhs => rw [List.zip_eq_zip_take_min]
      rw [List.length_map, Nat.min_eq_left hlen, List.take_of_length_le (l := es.map (fun e => (d, e))) (by simp)]
    refine ⟨d, es, f, ps, last, hde, rfl, hps, ?_, h1, hlen, hz, ?_⟩
    · intro hes
      rw [if_neg hes] at hlast
      have hne : ps ≠ [] := by
        rintro rfl
        simp [pyGetItem, pyIndex] at hlast
      have hpos := List.length_pos_iff.2 hne
      have : pyIndex ps.length (-1) = some (ps.length - 1) := by rw [pyIndex, if_neg (by omega), if_pos (by omega)]; congr 1; omega
      rw [pyGetItem, this] at hlast
      simp only [Option.bind_some, List.getElem?_eq_getElem (show ps.length - 1 < ps.length by omega), Except.ok.injEq] at hlast
      rw [List.getLast?_eq_getElem?, List.getElem?_eq_getElem (by omega), hlast]
    · rw [foldl_left, hz, List.drop_zero]

theorem commutingEdges_mem {es r : List (List ℕ)} {rs : ℕ → ℕ} {fuel k : ℕ} (hk : k = 1 ∨ k = 2) (hes : ∀ e ∈ es, e.length = k ∧ e.Pairwise (· < ·))
    (hnd : es.Nodup) (h : commutingEdges rs fuel es = .ok r) : (∀ e ∈ r, e.Pairwise (· < ·) → e ∈ es) ∧ r.Nodup := by
  rw [commutingEdges] at h
  split at h
  · obtain rfl := Except.ok.inj h
    exact ⟨fun e he _ => he, hnd⟩
  rename_i hdup
  rcases hk with rfl | rfl
  · exfalso
    apply hdup
    rw [dedup_length_eq, List.nodup_flatten]
    refine ⟨fun e he => (hes e he).2.nodup, ?_⟩
    refine hnd.imp_of_mem ?_
    intro a b ha hb hab
    obtain ⟨x, rfl⟩ := List.length_eq_one_iff.1 (hes a ha).1
    obtain ⟨y, rfl⟩ := List.length_eq_one_iff.1 (hes b hb).1
    simp only [List.disjoint_singleton, List.mem_singleton]
    rintro rfl
    exact hab rfl
  · simp only [bind, Except.bind] at h
    split at h
    · simp at h
    rename_i r' hr
    obtain rfl := Except.ok.inj h
    have hpair : ∀ e ∈ es, e = [e.getD 0 0, e.getD 1 0] := by
      intro e he
      obtain ⟨x, y, rfl⟩ := List.length_eq_two.1 (hes e he).1
      rfl
    have hlt : ∀ e ∈ es, e.getD 0 0 < e.getD 1 0 := by
      intro e he
      have := (hes e he).2
      rw [hpair e he] at this
      simpa using this
    obtain ⟨h1, h2, -⟩ := C61_subset _ (by
      intro x hx
      obtain ⟨e, he, rfl⟩ := List.mem_map.1 hx
      exact (hlt e he).ne) rs fuel r' hr
    constructor
    · intro e he hp
      obtain ⟨x, hx, rfl⟩ := List.mem_map.1 he
      rcases h1 x hx with hm | hm
      · obtain ⟨e', he', rfl⟩ := List.mem_map.1 hm
        simp only
        rwa [← hpair e' he']
      · exfalso
        obtain ⟨e, he, h3⟩ := List.mem_map.1 hm
        have := hlt e he
        have h4 := (Prod.mk.inj h3).1
        have h5 := (Prod.mk.inj h3).2
        rw [h4, h5] at this
        simp at hp
        omega
    · refine List.Nodup.map ?_ (h2.imp (fun h => h.1))
      rintro ⟨a, b⟩ ⟨c, d⟩ hab
      simpa using hab

theorem near_bonds {n : ℕ} {H U : QMat n} {prev : Key} {ks : List Key} {k₀ : Key} (hk₀ : k₀ ∈ ks) (hks : ∀ k, k ∈ ks ↔ NearBest H U prev k) :
    ∃ k, (k = 1 ∨ k = 2) ∧ k = k₀.2.length ∧ ∀ e ∈ bondsOf ks k₀.1, e.length = k ∧ e.Pairwise (· < ·) := by
  obtain ⟨⟨⟨w, h1, -, h3, h4, -⟩, -⟩, -⟩ := (hks k₀).1 hk₀
  refine ⟨w.length, h1, h4.symm, ?_⟩
  intro e he
  obtain ⟨⟨⟨w', -, -, h5, h6, h7, -⟩, -⟩, -⟩ := (hks _).1 (mem_bondsOf.1 he)
  have : w' = w := by
    have := congrArg lettersOfStr (h5.symm.trans h3)
    rwa [lettersOfStr_letterStr, lettersOfStr_letterStr] at this
  rw [← this]
  exact ⟨h6, h7⟩

/-- C74 (true part): whatever the random numbers, a successful call with `commute=True` applies rotations about different terms of one
common direction, each of them near-maximal, by the first angles of the last parameters the optimizer returns, and it reports exactly
these terms and angles.  The circuit handed to the optimizer, evaluated at these parameters, is the circuit returned. -/
theorem C74_result_partial {n : ℕ} (hn : 1 ≤ n) (gs : List (Gate n)) (L : SquaredLayer n) (hL : SquaredOk gs L) (rs : ℕ → ℕ) (fuel : ℕ)
    (optimizer : Option LieOptimizer) (U V : QMat n) (l : List (Key × ℝ)) (h : L.callCommute rs fuel optimizer U = .ok (V, l)) :
    (∃ d, ∀ e ∈ l, e.1.1 = d) ∧ (∀ e ∈ l, NearBest (totalObs gs) U L.previousPauli e.1) ∧ (l.map Prod.fst).Nodup ∧
    V = inOrder (l.map (termRot n)) * U ∧ (Unitary U → Unitary V) ∧
    ∃ (f : LieOptimizer) (d : String) (es : List (List ℕ)) (ps : List (List ℝ)), optimizer = some f ∧ f (circuitLie U d es) (es.map (fun _ => 0.1)) = .ok ps ∧
      l.map Prod.fst = es.map (fun e => (d, e)) ∧
      (l ≠ [] → ∃ last, ps.getLast? = some last ∧ l.map Prod.snd = last.take l.length ∧
        ∃ gates, circuitLie U d es last = .ok gates ∧ compileLoop n gates 1 = .ok V) := by
  obtain ⟨d, es, f, ps, last, h1, rfl, h2, h3, h4, h5, rfl, rfl⟩ := callCommute_inv hL.dict h
  obtain ⟨ks, k₀, hnd, hk₀, hks, hsel⟩ := commuteSelect_eq hn hL U
  rw [hsel] at h1
  cases hce : commutingEdges rs fuel (bondsOf ks k₀.1) with
  | error e => rw [hce] at h1; simp [Except.map] at h1
  | ok r =>
    rw [hce] at h1
    obtain ⟨rfl, rfl⟩ := Prod.mk.inj (Except.ok.inj h1)
    obtain ⟨k, hk, -, hb⟩ := near_bonds hk₀ hks
    obtain ⟨h6, h7⟩ := commutingEdges_mem hk hb (bondsOf_nodup hnd _) hce
    have hfst : ((r.map (fun e => (k₀.1, e))).zip last).map Prod.fst = r.map (fun e => (k₀.1, e)) := List.map_fst_zip (by simpa using h5)
    have hsnd : ((r.map (fun e => (k₀.1, e))).zip last).map Prod.snd = last.take r.length := by
      rw [List.zip_eq_zip_take_min, List.length_map, Nat.min_eq_left h5, List.map_snd_zip (by simp)]
    have hmem : ∀ e ∈ (r.map (fun e => (k₀.1, e))).zip last, ∃ x ∈ r, e.1 = (k₀.1, x) := by
      intro e he
      have := List.mem_map_of_mem (f := Prod.fst) he
      rw [hfst] at this
      obtain ⟨x, hx, h8⟩ := List.mem_map.1 this
      exact ⟨x, hx, h8.symm⟩
    refine ⟨⟨k₀.1, ?_⟩, ?_, ?_, rfl, ?_, f, k₀.1, r, ps, rfl, h2, hfst, ?_⟩
    · intro e he
      obtain ⟨x, -, h8⟩ := hmem e he
      rw [h8]
    · intro e he
      obtain ⟨x, hx, h8⟩ := hmem e he
      obtain ⟨w, -, -, -, -, h9, -⟩ := h4 x hx
      rw [h8, ← hks]
      exact mem_bondsOf.1 (h6 x hx h9)
    · rw [hfst]
      exact h7.map (fun a b hab => (Prod.mk.inj hab).2)
    · intro hU
      rw [← foldl_left]
      have : ∀ (l : List (Key × ℝ)) (W : QMat n), Unitary W → Unitary ((l.map (termRot n)).foldl (fun U R => R * U) W) := by
        intro l
        induction l with
        | nil => exact fun W hW => hW
        | cons e l ih =>
          intro W hW
          rw [List.map_cons, List.foldl_cons]
          refine ih _ (Unitary.mul ?_ hW)
          rw [termRot, ← rotOp_exp]
          exact exp_herm_unitary (pauliWord_herm _) _
      exact this _ U hU
    · intro hne
      have hr : r ≠ [] := by rintro rfl; simp at hne
      refine ⟨last, h3 hr, ?_, _, circuitLie_ok U _ r h5, ?_⟩
      · rw [hsnd]
        congr 1
        simp [h5]
      · rw [compile_circuitLie hn U _ r last h4, foldl_left]

/-- C74: without an optimizer the call raises. -/
theorem C74_needs_optimizer {n : ℕ} (L : SquaredLayer n) (rs : ℕ → ℕ) (fuel : ℕ) (U : QMat n) :
    ∃ e, L.callCommute rs fuel none U = .error e := by
  rw [SquaredLayer.callCommute]
  simp only [bind, Except.bind]
  split
  · exact ⟨_, rfl⟩
  · exact ⟨_, rfl⟩

theorem squaredOk_new {n : ℕ} {gs : List (Gate n)} {args : LayerArgs} {L : SquaredLayer n} (hL : squaredLayer n (gs.map Gate.obs) args = .ok L) :
    SquaredOk gs L := by
  obtain ⟨-, h2, h3, -⟩ := squaredLayer_inv hL
  exact ⟨h2, h3⟩

theorem squaredOk_call {n : ℕ} {gs : List (Gate n)} {L L' : SquaredLayer n} (hL : SquaredOk gs L) {U V : QMat n} (h : L.call U = .ok (V, L')) :
    SquaredOk gs L' := by
  rw [SquaredLayer.call] at h
  simp only [bind, Except.bind] at h
  repeat' (split at h <;> try (simp at h; done))
  obtain ⟨-, rfl⟩ := Prod.mk.inj (Except.ok.inj h)
  exact ⟨hL.full, hL.dict⟩

theorem disjoint_comm {n : ℕ} {w w' : List Letter} {q q' : List ℕ} (h : q.Disjoint q') (hw : q.length = w.length) (hw' : q'.length = w'.length) (θ θ' : ℝ) :
    Commute (rotOp n θ w q) (rotOp n θ' w' q') := by
  have h1 : Commute (pauliWord (placed n w q)) (pauliWord (placed n w' q')) := by
    rw [Commute, SemiconjBy, pauliWord, pauliWord, tensor_mul, tensor_mul]
    congr 1
    funext x
    by_cases hx : x.val ∈ q
    · have hx' : x.val ∉ q' := fun hc => h hx hc
      have : placed n w' q' x = .I := by
        rw [placed, List.idxOf_eq_length hx', hw']
        simp
      rw [this, Letter.mat, mul_one, one_mul]
    · have : placed n w q x = .I := by
        rw [placed, List.idxOf_eq_length hx, hw]
        simp
      rw [this, Letter.mat, mul_one, one_mul]
  rw [rotOp, rotOp]
  refine Commute.sub_left (Commute.sub_right ?_ ?_) (Commute.sub_right ?_ ?_)
  · exact ((Commute.one_left _).smul_left _).smul_right _
  · exact ((Commute.one_left _).smul_left _).smul_right _
  · exact ((Commute.one_right _).smul_left _).smul_right _
  · exact (h1.smul_left _).smul_right _

theorem inOrder_eq_prod {n : ℕ} (l : List (QMat n)) : inOrder l = l.reverse.prod := by
  induction l with
  | nil => simp [inOrder]
  | cons R l ih =>
    rw [show R :: l = [R] ++ l from rfl, inOrder_append, ih]
    simp [inOrder]

/-- C74 (true part): when the terms act on pairwise different qubits, the order of the rotations does not matter. -/
theorem C74_order_partial {n : ℕ} (hn : 1 ≤ n) (gs : List (Gate n)) (L : SquaredLayer n) (hL : SquaredOk gs L) (rs : ℕ → ℕ) (fuel : ℕ)
    (optimizer : Option LieOptimizer) (U V : QMat n) (l : List (Key × ℝ)) (h : L.callCommute rs fuel optimizer U = .ok (V, l))
    (hd : l.Pairwise (fun a b => a.1.2.Disjoint b.1.2)) (l' : List (Key × ℝ)) (hp : l'.Perm l) : V = inOrder (l'.map (termRot n)) * U := by
  obtain ⟨-, h1, -, rfl, -⟩ := C74_result_partial hn gs L hL rs fuel optimizer U V l h
  congr 1
  rw [inOrder_eq_prod, inOrder_eq_prod]
  refine List.Perm.prod_eq' ((List.reverse_perm _).trans ((hp.symm.map _).trans (List.reverse_perm _).symm)) ?_
  rw [List.pairwise_reverse, List.pairwise_map]
  refine hd.imp_of_mem ?_
  intro a b ha hb hab
  obtain ⟨⟨⟨w, -, -, e, h2, -⟩, -⟩, -⟩ := h1 a ha
  obtain ⟨⟨⟨w', -, -, e', h3, -⟩, -⟩, -⟩ := h1 b hb
  rw [termRot, termRot, e, e', lettersOfStr_letterStr, lettersOfStr_letterStr]
  exact disjoint_comm hab.symm h3 h2 _ _

/-- C74 (true part): when the near-maximal terms of every direction act on pairwise different qubits, the call succeeds with every optimizer
that returns enough angles, and rotates about all near-maximal terms of a direction. -/
theorem C74_succeeds_partial {n : ℕ} (hn : 1 ≤ n) (gs : List (Gate n)) (L : SquaredLayer n) (hL : SquaredOk gs L) (U : QMat n)
    (hd : ∀ k k', NearBest (totalObs gs) U L.previousPauli k → NearBest (totalObs gs) U L.previousPauli k' → k.1 = k'.1 → k ≠ k' → k.2.Disjoint k'.2) :
    ∃ k₀, NearBest (totalObs gs) U L.previousPauli k₀ ∧ ∀ (rs : ℕ → ℕ) (fuel : ℕ) (f : LieOptimizer),
      (∀ c p, ∃ ps last, f c p = .ok ps ∧ ps.getLast? = some last ∧ p.length ≤ last.length) →
      ∃ V l, L.callCommute rs fuel (some f) U = .ok (V, l) ∧
        ∀ k, k ∈ l.map Prod.fst ↔ NearBest (totalObs gs) U L.previousPauli k ∧ k.1 = k₀.1 := by
  obtain ⟨ks, k₀, hnd, hk₀, hks, hsel⟩ := commuteSelect_eq hn hL U
  refine ⟨k₀, (hks _).1 hk₀, ?_⟩
  intro rs fuel f hf
  obtain ⟨k, hk, -, hb⟩ := near_bonds hk₀ hks
  have hce : commutingEdges rs fuel (bondsOf ks k₀.1) = .ok (bondsOf ks k₀.1) := by
    rw [commutingEdges, if_pos]
    rw [dedup_length_eq, List.nodup_flatten]
    refine ⟨fun e he => (hb e he).2.nodup, ?_⟩
    refine (bondsOf_nodup hnd k₀.1).imp_of_mem ?_
    intro a b ha hb' hab
    exact hd (k₀.1, a) (k₀.1, b) ((hks _).1 (mem_bondsOf.1 ha)) ((hks _).1 (mem_bondsOf.1 hb')) rfl (fun hc => hab (Prod.mk.inj hc).2)
  have hterm : ∀ e ∈ bondsOf ks k₀.1, IsTerm n (k₀.1, e) := fun e he => ((hks _).1 (mem_bondsOf.1 he)).1.1
  have hne : bondsOf ks k₀.1 ≠ [] := List.ne_nil_of_mem (mem_bondsOf.2 (show (k₀.1, k₀.2) ∈ ks from hk₀))
  obtain ⟨ps, last, h1, h2, h3⟩ := hf (circuitLie U k₀.1 (bondsOf ks k₀.1)) ((bondsOf ks k₀.1).map (fun _ => (0.1 : ℝ)))
  rw [List.length_map] at h3
  have hg : pyGetItem ps (-1) = .ok last := by
    have hps : ps ≠ [] := by rintro rfl; simp at h2
    have hpos := List.length_pos_iff.2 hps
    have : pyIndex ps.length (-1) = some (ps.length - 1) := by rw [pyIndex, if_neg (by omega), if_pos (by omega)]; congr 1; omega
    rw [List.getLast?_eq_getElem?] at h2
    rw [pyGetItem, this]
    simp only [Option.bind_some, h2]
  have hcall : ∃ V, L.callCommute rs fuel (some f) U = .ok (V, ((bondsOf ks k₀.1).map (fun e => (k₀.1, e))).zip (last.take (bondsOf ks k₀.1).length)) := by
    refine ⟨((((bondsOf ks k₀.1).map (fun e => (k₀.1, e))).zip (last.drop 0)).map (termRot n)).foldl (fun U R => R * U) U, ?_⟩
    rw [SquaredLayer.callCommute, hsel, hce]
    simp only [bind, Except.bind, Except.map]
    rw [h1]
    simp only
    rw [if_neg hne, hg]
    simp only
    rw [hL.dict, applyRotations_ok _ _ _ _ _ hterm (by simpa using h3)]
    simp only
    rw [thetas_ok _ h3]
  obtain ⟨V, hV⟩ := hcall
  refine ⟨V, _, hV, ?_⟩
  · intro k
    rw [List.map_fst_zip (by simp [h3]), ← hks, List.mem_map]
    constructor
    · rintro ⟨e, he, rfl⟩
      exact ⟨mem_bondsOf.1 he, rfl⟩
    · rintro ⟨h4, h5⟩
      exact ⟨k.2, mem_bondsOf.2 (by rw [← h5]; exact h4), by rw [← h5]⟩

/-- C74 (true part): when, for every direction, the near-maximal bonds form no odd cycle and at most two of them meet at a qubit, the
rotations of a successful call act on pairwise different qubits (so that they commute). -/
theorem C74_disjoint_partial {n : ℕ} (hn : 1 ≤ n) (gs : List (Gate n)) (L : SquaredLayer n) (hL : SquaredOk gs L) (U : QMat n)
    (hd : ∀ (d : String) (b : List (ℕ × ℕ)), (∀ x y, (x, y) ∈ b ↔ NearBest (totalObs gs) U L.previousPauli (d, [x, y])) →
      Bipartite b ∧ ∀ x, (neighbours b x).length ≤ 2) :
    ∃ F, ∀ (rs : ℕ → ℕ) (fuel : ℕ), F ≤ fuel → ∀ (optimizer : Option LieOptimizer) (V : QMat n) (l : List (Key × ℝ)),
      L.callCommute rs fuel optimizer U = .ok (V, l) → l.Pairwise (fun a b => a.1.2.Disjoint b.1.2) := by
  obtain ⟨ks, k₀, hnd, hk₀, hks, hsel⟩ := commuteSelect_eq hn hL U
  obtain ⟨k, hk, -, hb⟩ := near_bonds hk₀ hks
  refine ⟨enoughFuelFor ((bondsOf ks k₀.1).map (fun e => (e.getD 0 0, e.getD 1 0))), ?_⟩
  intro rs fuel hfuel optimizer V l h
  obtain ⟨d, es, f, ps, last, h1, rfl, h2, h3, h4, h5, rfl, rfl⟩ := callCommute_inv hL.dict h
  rw [hsel] at h1
  suffices hes : es.Pairwise List.Disjoint by
    have : (((es.map (fun e => (d, e))).zip last).map Prod.fst).Pairwise (fun a b => a.2.Disjoint b.2) := by
      rw [List.map_fst_zip (by simpa using h5), List.pairwise_map]
      exact hes
    rwa [List.pairwise_map] at this
  rw [commutingEdges] at h1
  split at h1
  · rename_i hdup
    obtain ⟨rfl, rfl⟩ := Prod.mk.inj (Except.ok.inj h1)
    exact (List.nodup_flatten.1 (dedup_length_eq.1 hdup)).2
  · rename_i hdup
    rcases hk with rfl | rfl
    · exfalso
      apply hdup
      rw [dedup_length_eq, List.nodup_flatten]
      refine ⟨fun e he => (hb e he).2.nodup, ?_⟩
      refine (bondsOf_nodup hnd k₀.1).imp_of_mem ?_
      intro a b ha hb' hab
      obtain ⟨x, rfl⟩ := List.length_eq_one_iff.1 (hb a ha).1
      obtain ⟨y, rfl⟩ := List.length_eq_one_iff.1 (hb b hb').1
      simp only [List.disjoint_singleton, List.mem_singleton]
      rintro rfl
      exact hab rfl
    · have hmem : ∀ x y, (x, y) ∈ (bondsOf ks k₀.1).map (fun e => (e.getD 0 0, e.getD 1 0)) ↔ NearBest (totalObs gs) U L.previousPauli (k₀.1, [x, y]) := by
        intro x y
        rw [← hks, ← mem_bondsOf, List.mem_map]
        constructor
        · rintro ⟨e, he, h6⟩
          obtain ⟨a, b, rfl⟩ := List.length_eq_two.1 (hb e he).1
          obtain ⟨rfl, rfl⟩ := Prod.mk.inj h6
          exact he
        · intro he
          exact ⟨_, he, rfl⟩
      obtain ⟨hbip, hdeg⟩ := hd k₀.1 _ hmem
      obtain ⟨r, h6, h7, -⟩ := C60_disjoint_partial _ (by
        intro x hx
        obtain ⟨e, he, rfl⟩ := List.mem_map.1 hx
        obtain ⟨a, b, rfl⟩ := List.length_eq_two.1 (hb e he).1
        have := (hb _ he).2
        simp at this
        simpa using this.ne) hbip hdeg rs fuel hfuel
      rw [h6] at h1
      obtain ⟨rfl, rfl⟩ := Prod.mk.inj (Except.ok.inj h1)
      rw [List.pairwise_map]
      refine h7.imp ?_
      rintro ⟨a, b⟩ ⟨c, d⟩ ⟨h8, h9, h10, h11⟩
      simp only at h8 h9 h10 h11
      intro x hx hy
      simp only [List.mem_cons, List.not_mem_nil, or_false] at hx hy
      rcases hx with rfl | rfl <;> rcases hy with rfl | rfl <;> contradiction

end Oranssi
