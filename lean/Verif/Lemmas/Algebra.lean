import Verif.Model.Algebra
import Verif.Spec.Algebra
import Verif.Props.Utils
import Mathlib.Data.List.Sort
import Mathlib.Data.List.Sublists

/-! # The Pauli dictionaries -/

namespace Oranssi
open Spec
open scoped Matrix

/-! ### `combinations` -/

theorem mem_combinations {α : Type} {l : List α} {r : ℕ} {q : List α} : q ∈ combinations l r ↔ q.Sublist l ∧ q.length = r := by
  induction l generalizing r q with
  | nil =>
    cases r with
    | zero => simp [combinations]
    | succ r =>
      simp only [combinations, List.not_mem_nil, List.sublist_nil, false_iff, not_and]
      rintro rfl; simp
  | cons a l ih =>
    cases r with
    | zero =>
      simp only [combinations, List.mem_singleton, List.length_eq_zero_iff]
      constructor
      · rintro rfl; simp
      · exact And.right
    | succ r =>
      simp only [combinations, List.mem_append, List.mem_map, ih]
      constructor
      · rintro (⟨q', ⟨h1, h2⟩, rfl⟩ | ⟨h1, h2⟩)
        · exact ⟨h1.cons_cons a, by simp [h2]⟩
        · exact ⟨h1.cons a, h2⟩
      · rintro ⟨h1, h2⟩
        cases h1 with
        | cons _ h => exact Or.inr ⟨h, h2⟩
        | cons_cons _ h => exact Or.inl ⟨_, ⟨h, by simpa using h2⟩, rfl⟩

theorem combinations_nodup {α : Type} {l : List α} (h : l.Nodup) (r : ℕ) : (combinations l r).Nodup := by
  induction l generalizing r with
  | nil => cases r <;> simp [combinations]
  | cons a l ih =>
    obtain ⟨ha, hl⟩ := List.nodup_cons.1 h
    cases r with
    | zero => simp [combinations]
    | succ r =>
      rw [combinations, List.nodup_append]
      refine ⟨(ih hl r).map (fun x y h => by simpa using h), ih hl _, ?_⟩
      rintro x hx y hy rfl
      obtain ⟨x', -, rfl⟩ := List.mem_map.1 hx
      exact ha ((mem_combinations.1 hy).1.subset (by simp))

theorem combinations_length {α : Type} (l : List α) (r : ℕ) : (combinations l r).length = l.length.choose r := by
  induction l generalizing r with
  | nil => cases r <;> simp [combinations]
  | cons a l ih =>
    cases r with
    | zero => simp [combinations]
    | succ r => simp [combinations, ih, Nat.choose_succ_succ]

theorem combinations_one {α : Type} (l : List α) : combinations l 1 = l.map (fun a => [a]) := by
  induction l with
  | nil => rfl
  | cons a l ih =>
    rw [combinations, ih]
    simp [combinations]

theorem mem_combinations_range {n r : ℕ} {q : List ℕ} :
    q ∈ combinations (List.range n) r ↔ q.length = r ∧ q.Pairwise (· < ·) ∧ ∀ x ∈ q, x < n := by
  rw [mem_combinations]
  constructor
  · rintro ⟨h1, h2⟩
    exact ⟨h2, List.pairwise_lt_range.sublist h1, fun x hx => List.mem_range.1 (h1.subset hx)⟩
  · rintro ⟨h1, h2, h3⟩
    refine ⟨List.sublist_of_subperm_of_pairwise (r := (· ≤ ·)) ?_ (h2.imp le_of_lt) (List.pairwise_lt_range.imp le_of_lt), h1⟩
    refine List.subperm_of_subset (h2.imp (fun h => Nat.ne_of_lt h)) ?_
    intro x hx
    exact List.mem_range.2 (h3 x hx)

/-! ### Dictionaries -/

theorem foldl_dictSet {K V : Type} [DecidableEq K] : ∀ (es d : List (K × V)), ((d ++ es).map Prod.fst).Nodup →
    es.foldl (fun d e => dictSet d e.1 e.2) d = d ++ es := by
  intro es
  induction es with
  | nil => intro d _; simp
  | cons e es ih =>
    intro d h
    rw [List.foldl_cons]
    have hne : e.1 ∉ d.map Prod.fst := by
      intro hc
      rw [List.map_append, List.nodup_append] at h
      exact h.2.2 _ hc _ (by simp) rfl
    rw [dictSet, if_neg hne, ih]
    · simp
    · simpa using h

theorem dictZip_eq {K V : Type} [DecidableEq K] (es : List (K × V)) (h : (es.map Prod.fst).Nodup) :
    dictZip (es.map Prod.fst) (es.map Prod.snd) = es := by
  have : (es.map Prod.fst).zip (es.map Prod.snd) = es := by
    clear h
    induction es with
    | nil => rfl
    | cons e es ih => simp [ih]
  rw [dictZip, this, foldl_dictSet es [] (by simpa using h), List.nil_append]

theorem dictGet_mem {K V : Type} [DecidableEq K] {d : List (K × V)} (h : (d.map Prod.fst).Nodup) {e : K × V} (he : e ∈ d) :
    dictGet d e.1 = .ok e.2 := by
  have : d.find? (fun x => x.1 = e.1) = some e := by
    induction d with
    | nil => simp at he
    | cons x d ih =>
      rw [List.map_cons, List.nodup_cons] at h
      rw [List.find?_cons]
      rcases List.mem_cons.1 he with rfl | he
      · simp
      · have : x.1 ≠ e.1 := fun hc => h.1 (hc ▸ List.mem_map.2 ⟨e, he, rfl⟩)
        simp only [this, decide_false]
        exact ih h.2 he
  rw [dictGet, this]

theorem dictGet_missing {K V : Type} [DecidableEq K] {d : List (K × V)} {k : K} (h : k ∉ d.map Prod.fst) :
    dictGet d k = .error .key := by
  have : d.find? (fun x => x.1 = k) = none := by
    rw [List.find?_eq_none]
    intro e he
    simp only [decide_eq_true_eq]
    rintro rfl
    exact h (List.mem_map.2 ⟨e, he, rfl⟩)
  rw [dictGet, this]

/-! ### Words -/

theorem Letter.char_injective : Function.Injective Letter.char := by
  intro a b h; cases a <;> cases b <;> first | rfl | (exact absurd h (by decide))

theorem letterStr_injective : Function.Injective letterStr := by
  intro a b h
  have := congrArg String.toList h
  simp only [letterStr, String.toList_ofList] at this
  exact List.map_injective_iff.2 Letter.char_injective this

theorem letterStr_length (w : List Letter) : (letterStr w).toList.length = w.length := by simp [letterStr]

/-- The words over X, Y, Z of length `k`, in the order of the tables. -/
def wordsXYZ (k : ℕ) : List (List Letter) := pyProduct [.X, .Y, .Z] k

theorem mem_wordsXYZ {k : ℕ} {w : List Letter} : w ∈ wordsXYZ k ↔ w.length = k ∧ ∀ a ∈ w, a ≠ .I := by
  induction k generalizing w with
  | zero => simp [wordsXYZ, pyProduct, List.length_eq_zero_iff]; rintro rfl; simp
  | succ k ih =>
    simp only [wordsXYZ, pyProduct, List.mem_flatMap, List.mem_map] at ih ⊢
    constructor
    · rintro ⟨a, ha, w', hw', rfl⟩
      obtain ⟨h1, h2⟩ := ih.1 hw'
      refine ⟨by simp [h1], ?_⟩
      intro b hb
      rcases List.mem_cons.1 hb with rfl | hb
      · simp at ha; rcases ha with rfl | rfl | rfl <;> simp
      · exact h2 b hb
    · rintro ⟨h1, h2⟩
      cases w with
      | nil => simp at h1
      | cons a w =>
        refine ⟨a, ?_, w, ih.2 ⟨by simpa using h1, fun b hb => h2 b (List.mem_cons_of_mem _ hb)⟩, rfl⟩
        have := h2 a List.mem_cons_self
        cases a <;> simp_all

theorem wordsXYZ_nodup (k : ℕ) : (wordsXYZ k).Nodup := by
  have h := (fnWords_nodup [Letter.X, .Y, .Z] (by decide) k)
  rw [wordsXYZ, pyProduct_eq_fnWords]
  exact h.map List.ofFn_injective

theorem wordsXYZ_length (k : ℕ) : (wordsXYZ k).length = 3 ^ k := by rw [wordsXYZ, length_pyProduct]; rfl

theorem suN_words (k : ℕ) : getSuNOperators (2 ^ k) false =
    .ok ((wordsXYZ k).map (fun w => npQ (pauliWord w.get)), (wordsXYZ k).map letterStr) := by
  rw [getSuNOperators_eq, wordsXYZ, pyProduct_eq_fnWords, List.map_map, List.map_map]
  congr 2
  apply List.map_congr_left
  intro w _
  exact (pauliWord_ofFn w).symm

theorem su2_words : getSu2Operators false = ((wordsXYZ 1).map (fun w => npQ (pauliWord w.get)), (wordsXYZ 1).map letterStr) := by
  have := (C09_su2_su4_cases false).1
  rw [show (2 : ℕ) = 2 ^ 1 by rfl, suN_words] at this
  exact (Except.ok.inj this).symm

theorem su4_words : getSu4Operators false = ((wordsXYZ 2).map (fun w => npQ (pauliWord w.get)), (wordsXYZ 2).map letterStr) := by
  have := (C09_su2_su4_cases false).2
  rw [show (4 : ℕ) = 2 ^ 2 by rfl, suN_words] at this
  exact (Except.ok.inj this).symm

theorem su8_words : getSuNOperators 8 false =
    .ok ((wordsXYZ 3).map (fun w => npQ (pauliWord w.get)), (wordsXYZ 3).map letterStr) := suN_words 3

/-- A word on some qubits is the tensor product of its letters there and identities elsewhere. -/
theorem full_placed {n : ℕ} {w : List Letter} {qs : List ℕ} (hl : qs.length = w.length) (hv : ValidWires n qs) :
    full n qs (pauliWord w.get) = pauliWord (placed n w qs) := by
  rw [pauliWord, full_tensor hl hv, pauliWord]
  congr 1
  funext q
  have hinj := wireFn_injective (hk := hl) (hlt := hv.2) hv.1
  by_cases hq : ∃ i, wireFn qs w.length hl hv.2 i = q
  · obtain ⟨i, rfl⟩ := hq
    rw [hinj.extend_apply]
    have : qs.idxOf (wireFn qs w.length hl hv.2 i).val = i.val := by
      have e : (wireFn qs w.length hl hv.2 i).val = qs[i.val]'(by omega) := rfl
      rw [e, List.Nodup.idxOf_getElem hv.1]
    rw [placed, this]
    simp
  · rw [Function.extend_apply' _ _ _ hq]
    have hn : q.val ∉ qs := by
      intro hc
      obtain ⟨i, hi, e⟩ := List.getElem_of_mem hc
      exact hq ⟨⟨i, by omega⟩, Fin.ext e⟩
    have : qs.idxOf q.val = qs.length := List.idxOf_eq_length hn
    rw [placed, this, List.getElem?_eq_none (by omega)]
    rfl

/-- The complete dictionary for a list of words. -/
noncomputable def stdDict (n : ℕ) (L : List (List Letter)) : List (Key × QMat n) :=
  L.flatMap (fun w => (combinations (List.range n) w.length).map (fun q => ((letterStr w, q), pauliWord (placed n w q))))

/-! ### The loops -/

theorem addLoop_eq {n : ℕ} (ps : List (String × NpMat)) (d : String) : ∀ (qs : List (List ℕ)) (fp : List (Key × QMat n)),
    addLoop ps d qs fp = addLoop8 ps d (qs.filter (fun q => q.length = d.toList.length)) fp := by
  intro qs
  induction qs with
  | nil => intro fp; rfl
  | cons q qs ih =>
    intro fp
    rw [addLoop]
    by_cases h : q.length = d.toList.length
    · rw [if_pos h, List.filter_cons_of_pos (by simpa using h), addLoop8]
      simp only [ih]
    · rw [if_neg h, List.filter_cons_of_neg (by simpa using h)]
      simp only [bind, Except.bind]
      exact ih fp

/-- Adding a word on new tuples of qubits appends the entries. -/
theorem addLoop8_fresh {n : ℕ} {ps : List (String × NpMat)} {w : List Letter}
    (hp : dictGet ps (letterStr w) = .ok (npQ (pauliWord w.get))) (hw : w ≠ []) : ∀ (qs : List (List ℕ)) (fp : List (Key × QMat n)),
    (∀ q ∈ qs, q.length = w.length ∧ ValidWires n q) → qs.Nodup → (∀ q ∈ qs, (letterStr w, q) ∉ fp.map Prod.fst) →
    addLoop8 ps (letterStr w) qs fp = .ok (fp ++ qs.map (fun q => ((letterStr w, q), pauliWord (placed n w q)))) := by
  intro qs
  induction qs with
  | nil => intro fp _ _ _; simp [addLoop8]
  | cons q qs ih =>
    intro fp hv hnd hfr
    obtain ⟨hl, hv1⟩ := hv q List.mem_cons_self
    have hfull : getFullOperator (npQ (pauliWord w.get)) (q.map (Nat.cast : ℕ → ℤ)) n = .ok (pauliWord (placed n w q)) := by
      rw [getFullOperator_npQ hl (by intro hc; apply hw; rw [hc] at hl; exact List.length_eq_zero_iff.1 hl.symm) hv1,
        full_placed hl hv1]
    have hfr1 := hfr q List.mem_cons_self
    rw [addLoop8, addPauli, if_neg hfr1, hp]
    simp only [bind, Except.bind, hfull]
    rw [dictSet, if_neg hfr1, ih _ (fun q' hq' => hv q' (List.mem_cons_of_mem _ hq')) (List.nodup_cons.1 hnd).2]
    · simp
    · intro q' hq'
      rw [List.map_append, List.mem_append]
      rintro (hc | hc)
      · exact hfr q' (List.mem_cons_of_mem _ hq') hc
      · simp at hc
        subst hc
        exact (List.nodup_cons.1 hnd).1 hq'

/-- Adding a word on tuples that are there already changes nothing. -/
theorem addLoop8_present {n : ℕ} {ps : List (String × NpMat)} {d : String} : ∀ (qs : List (List ℕ)) (fp : List (Key × QMat n)),
    (∀ q ∈ qs, (d, q) ∈ fp.map Prod.fst) → addLoop8 ps d qs fp = .ok fp := by
  intro qs
  induction qs with
  | nil => intro fp _; rfl
  | cons q qs ih =>
    intro fp h
    rw [addLoop8, addPauli, if_pos (h q List.mem_cons_self)]
    simp only [bind, Except.bind]
    exact ih fp (fun q' hq' => h q' (List.mem_cons_of_mem _ hq'))

theorem mem_stdDict {n : ℕ} {L : List (List Letter)} {e : Key × QMat n} : e ∈ stdDict n L ↔
    ∃ w ∈ L, ∃ q ∈ combinations (List.range n) w.length, e = ((letterStr w, q), pauliWord (placed n w q)) := by
  simp only [stdDict, List.mem_flatMap, List.mem_map, eq_comm]

theorem mem_keys_stdDict {n : ℕ} {L : List (List Letter)} {k : Key} : k ∈ (stdDict n L).map Prod.fst ↔
    ∃ w ∈ L, ∃ q ∈ combinations (List.range n) w.length, k = (letterStr w, q) := by
  rw [List.mem_map]
  constructor
  · rintro ⟨e, he, rfl⟩
    obtain ⟨w, hw, q, hq, rfl⟩ := mem_stdDict.1 he
    exact ⟨w, hw, q, hq, rfl⟩
  · rintro ⟨w, hw, q, hq, rfl⟩
    exact ⟨_, mem_stdDict.2 ⟨w, hw, q, hq, rfl⟩, rfl⟩

theorem stdDict_cons (n : ℕ) (w : List Letter) (L : List (List Letter)) : stdDict n (w :: L) =
    (combinations (List.range n) w.length).map (fun q => ((letterStr w, q), pauliWord (placed n w q))) ++ stdDict n L := by
  simp [stdDict]

theorem stdDict_append (n : ℕ) (L L' : List (List Letter)) : stdDict n (L ++ L') = stdDict n L ++ stdDict n L' := by
  simp [stdDict]

theorem combos_valid {n k : ℕ} {q : List ℕ} (h : q ∈ combinations (List.range n) k) : q.length = k ∧ ValidWires n q := by
  obtain ⟨h1, h2, h3⟩ := mem_combinations_range.1 h
  exact ⟨h1, h2.imp (fun h => Nat.ne_of_lt h), h3⟩

/-- The common shape of both outer loops. -/
theorem outer_loop {n : ℕ} {ps : List (String × NpMat)} (loop : List String → List (Key × QMat n) → Py (List (Key × QMat n)))
    (hnil : ∀ fp, loop [] fp = .ok fp) (L0 : List (List Letter))
    (hcons : ∀ w ∈ L0, ∀ ds fp, loop (letterStr w :: ds) fp =
      (addLoop8 ps (letterStr w) (combinations (List.range n) w.length) fp).bind (loop ds))
    (hp : ∀ w ∈ L0, dictGet ps (letterStr w) = .ok (npQ (pauliWord w.get))) (hne : ∀ w ∈ L0, w ≠ []) :
    ∀ (L : List (List Letter)) (D : List (List Letter)), (∀ w ∈ L, w ∈ L0) → (D ++ L).Nodup →
      loop (L.map letterStr) (stdDict n D) = .ok (stdDict n (D ++ L)) := by
  intro L
  induction L with
  | nil => intro D _ _; simp [hnil]
  | cons w L ih =>
    intro D hL hnd
    have hw := hL w List.mem_cons_self
    rw [List.map_cons, hcons w hw, addLoop8_fresh (hp w hw) (hne w hw)]
    · simp only [Except.bind]
      have e : stdDict n D ++ (combinations (List.range n) w.length).map
          (fun q => ((letterStr w, q), pauliWord (placed n w q))) = stdDict n (D ++ [w]) := by
        rw [stdDict_append, stdDict_cons]; simp [stdDict]
      rw [e, ih (D ++ [w]) (fun x hx => hL x (List.mem_cons_of_mem _ hx)) (by simpa using hnd)]
      simp
    · exact fun q hq => combos_valid hq
    · exact combinations_nodup List.nodup_range _
    · intro q _ hc
      obtain ⟨w', hw', q', -, e⟩ := mem_keys_stdDict.1 hc
      have : w = w' := letterStr_injective (Prod.ext_iff.1 e).1
      subst this
      rw [List.nodup_append] at hnd
      exact hnd.2.2 w hw' w (by simp) rfl

/-- Running the outer loop again. -/
theorem outer_loop_again {n : ℕ} {ps : List (String × NpMat)} (loop : List String → List (Key × QMat n) → Py (List (Key × QMat n)))
    (hnil : ∀ fp, loop [] fp = .ok fp) (L0 : List (List Letter))
    (hcons : ∀ w ∈ L0, ∀ ds fp, loop (letterStr w :: ds) fp =
      (addLoop8 ps (letterStr w) (combinations (List.range n) w.length) fp).bind (loop ds)) :
    ∀ (L : List (List Letter)), (∀ w ∈ L, w ∈ L0) → loop (L.map letterStr) (stdDict n L0) = .ok (stdDict n L0) := by
  intro L
  induction L with
  | nil => intro _; simp [hnil]
  | cons w L ih =>
    intro hL
    have hw := hL w List.mem_cons_self
    rw [List.map_cons, hcons w hw, addLoop8_present _ _ (fun q hq => mem_keys_stdDict.2 ⟨w, hw, q, hq, rfl⟩)]
    exact ih (fun x hx => hL x (List.mem_cons_of_mem _ hx))

/-- The table of local matrices. -/
noncomputable def tableOf (L : List (List Letter)) : List (String × NpMat) :=
  dictZip (L.map letterStr) (L.map (fun w => npQ (pauliWord w.get)))

theorem tableOf_get {L : List (List Letter)} (h : L.Nodup) {w : List Letter} (hw : w ∈ L) :
    dictGet (tableOf L) (letterStr w) = .ok (npQ (pauliWord w.get)) := by
  let es : List (String × NpMat) := L.map (fun w => (letterStr w, npQ (pauliWord w.get)))
  have h1 : es.map Prod.fst = L.map letterStr := by simp [es]
  have h2 : es.map Prod.snd = L.map (fun w => npQ (pauliWord w.get)) := by simp [es]
  have hnd : (es.map Prod.fst).Nodup := by rw [h1]; exact h.map letterStr_injective
  rw [tableOf, ← h1, ← h2, dictZip_eq es hnd]
  exact dictGet_mem hnd (e := (letterStr w, npQ (pauliWord w.get))) (List.mem_map.2 ⟨w, hw, rfl⟩)

theorem freeQubits_zero (n : ℕ) : freeQubits (List.replicate n 0) = List.range n := by
  have : (List.replicate n 0).zipIdx.filter (fun e => e.1 = 0) = (List.replicate n 0).zipIdx := by
    rw [List.filter_eq_self]
    intro e he
    have := List.fst_mem_of_mem_zipIdx he
    simp at this
    simp [this.2]
  rw [freeQubits, this, List.range_eq_range']
  simp [List.zipIdx_map_snd]

/-- The tuples the SU(2) and SU(4) classes look at. -/
theorem filter_tuples (n k : ℕ) (hk : k = 1 ∨ k = 2) :
    ((if (List.range n).length > 1 then (List.range n).map (fun q => [q]) ++ combinations (List.range n) 2
      else (List.range n).map (fun q => [q])).filter (fun q => q.length = k)) = combinations (List.range n) k := by
  have h1 : ∀ j, ((List.range n).map (fun q => [q])).filter (fun q => decide (q.length = j)) =
      if j = 1 then combinations (List.range n) 1 else [] := by
    intro j
    rw [← combinations_one]
    split
    · subst j
      rw [List.filter_eq_self]
      intro q hq; simpa using (mem_combinations.1 hq).2
    · rename_i hj
      rw [List.filter_eq_nil_iff]
      intro q hq; rw [(mem_combinations.1 hq).2]; simpa using Ne.symm hj
  have h2 : ∀ j, (combinations (List.range n) 2).filter (fun q => decide (q.length = j)) =
      if j = 2 then combinations (List.range n) 2 else [] := by
    intro j
    split
    · subst j
      rw [List.filter_eq_self]
      intro q hq; simpa using (mem_combinations.1 hq).2
    · rename_i hj
      rw [List.filter_eq_nil_iff]
      intro q hq; rw [(mem_combinations.1 hq).2]; simpa using Ne.symm hj
  split
  · rw [List.filter_append, h1, h2]
    rcases hk with rfl | rfl <;> simp
  · rename_i hn
    rw [h1]
    rcases hk with rfl | rfl
    · simp
    · have : (combinations (List.range n) 2).length = 0 := by
        rw [combinations_length, List.length_range]
        apply Nat.choose_eq_zero_of_lt
        simp at hn; omega
      simp [List.length_eq_zero_iff.1 this]

/-- SU(2) and SU(4): the call fills the dictionary completely, and a second call changes nothing. -/
theorem getAll_std {n : ℕ} {L : List (List Letter)} (hnd : L.Nodup) (hlen : ∀ w ∈ L, w.length = 1 ∨ w.length = 2) (a : Algebra n)
    (hd : a.directions = L.map letterStr) (hp : a.paulis = tableOf L) (hq : a.qubitsLeft = List.replicate n 0)
    (D : List (List Letter)) (hD : D = [] ∨ D = L) (hf : a.fullPaulis = stdDict n D) :
    a.getAll = .ok { a with fullPaulis := stdDict n L } := by
  have hcons : ∀ w ∈ L, ∀ ds fp, addAllLoop (n := n) a.paulis (if (List.range n).length > 1 then (List.range n).map (fun q => [q]) ++ combinations (List.range n) 2
      else (List.range n).map (fun q => [q])) (letterStr w :: ds) fp =
      (addLoop8 a.paulis (letterStr w) (combinations (List.range n) w.length) fp).bind (addAllLoop a.paulis (if (List.range n).length > 1 then (List.range n).map (fun q => [q]) ++ combinations (List.range n) 2
      else (List.range n).map (fun q => [q])) ds) := by
    intro w hw ds fp
    rw [addAllLoop, addLoop_eq, letterStr_length, filter_tuples n w.length (hlen w hw)]
    rfl
  have key : addAllLoop (n := n) a.paulis (if (List.range n).length > 1 then (List.range n).map (fun q => [q]) ++ combinations (List.range n) 2
      else (List.range n).map (fun q => [q])) (L.map letterStr) (stdDict n D) = .ok (stdDict n L) := by
    rcases hD with rfl | rfl
    · have := outer_loop (n := n) (ps := a.paulis) (addAllLoop a.paulis _) (fun _ => rfl) L hcons
        (fun w hw => by rw [hp]; exact tableOf_get hnd hw)
        (fun w hw hc => by have := hlen w hw; simp [hc] at this) L [] (fun _ h => h) (by simpa using hnd)
      simpa using this
    · exact outer_loop_again (n := n) (ps := a.paulis) (addAllLoop a.paulis _) (fun _ => rfl) D hcons D (fun _ h => h)
  rw [Algebra.getAll, hq]
  simp only [ite_self, freeQubits_zero]
  cases a
  simp only at *
  subst hd hp hq hf
  simp only [key, bind, Except.bind]

theorem getAll8_std {n : ℕ} {L : List (List Letter)} (hnd : L.Nodup) (hne : ∀ w ∈ L, w ≠ []) (a : Algebra8 n)
    (hd : a.directions = L.map letterStr) (hp : a.paulis = tableOf L)
    (hq : ∀ w ∈ L, dictGet a.qubits w.length = .ok (combinations (List.range n) w.length))
    (D : List (List Letter)) (hD : D = [] ∨ D = L) (hf : a.fullPaulis = stdDict n D) :
    a.getAll = .ok { a with fullPaulis := stdDict n L } := by
  have hcons : ∀ w ∈ L, ∀ ds fp, addAllLoop8 (n := n) a.paulis a.qubits (letterStr w :: ds) fp =
      (addLoop8 a.paulis (letterStr w) (combinations (List.range n) w.length) fp).bind (addAllLoop8 a.paulis a.qubits ds) := by
    intro w hw ds fp
    rw [addAllLoop8, letterStr_length, hq w hw]
    rfl
  have key : addAllLoop8 (n := n) a.paulis a.qubits (L.map letterStr) (stdDict n D) = .ok (stdDict n L) := by
    rcases hD with rfl | rfl
    · have := outer_loop (n := n) (ps := a.paulis) (addAllLoop8 a.paulis a.qubits) (fun _ => rfl) L hcons
        (fun w hw => by rw [hp]; exact tableOf_get hnd hw) hne L [] (fun _ h => h) (by simpa using hnd)
      simpa using this
    · exact outer_loop_again (n := n) (ps := a.paulis) (addAllLoop8 a.paulis a.qubits) (fun _ => rfl) D hcons D (fun _ h => h)
  rw [Algebra8.getAll]
  simp only [hd, hf, key, bind, Except.bind]

/-! ### The complete dictionary meets the specification -/

/-- All words over X, Y, Z of the given lengths. -/
def allWords (lens : List ℕ) : List (List Letter) := lens.flatMap wordsXYZ

theorem mem_allWords {lens : List ℕ} {w : List Letter} : w ∈ allWords lens ↔ w.length ∈ lens ∧ ∀ a ∈ w, a ≠ .I := by
  simp only [allWords, List.mem_flatMap, mem_wordsXYZ]
  constructor
  · rintro ⟨k, hk, rfl, h⟩; exact ⟨hk, h⟩
  · rintro ⟨h1, h2⟩; exact ⟨_, h1, rfl, h2⟩

theorem allWords_nodup {lens : List ℕ} (h : lens.Nodup) : (allWords lens).Nodup := by
  rw [allWords, List.nodup_flatMap]
  refine ⟨fun k _ => wordsXYZ_nodup k, ?_⟩
  refine h.imp ?_
  intro a b hab w ha hb
  exact hab ((mem_wordsXYZ.1 ha).1.symm.trans (mem_wordsXYZ.1 hb).1)

theorem stdDict_nodup {n : ℕ} {L : List (List Letter)} (h : L.Nodup) : ((stdDict n L).map Prod.fst).Nodup := by
  rw [stdDict, List.map_flatMap, List.nodup_flatMap]
  constructor
  · intro w _
    rw [List.map_map]
    exact (combinations_nodup List.nodup_range _).map (fun a b hab => (Prod.ext_iff.1 hab).2)
  · refine h.imp ?_
    intro a b hab k ha hb
    simp only [List.map_map, List.mem_map, Function.comp] at ha hb
    obtain ⟨q, -, rfl⟩ := ha
    obtain ⟨q', -, e⟩ := hb
    exact hab (letterStr_injective (Prod.ext_iff.1 e).1).symm

theorem stdDict_length (n : ℕ) (lens : List ℕ) :
    (stdDict n (allWords lens)).length = (lens.map (fun k => 3 ^ k * n.choose k)).sum := by
  induction lens with
  | nil => rfl
  | cons k lens ih =>
    have : allWords (k :: lens) = wordsXYZ k ++ allWords lens := by simp [allWords]
    rw [this, stdDict_append, List.length_append, ih, List.map_cons, List.sum_cons]
    congr 1
    rw [stdDict, List.length_flatMap]
    have : (wordsXYZ k).map (fun w => ((combinations (List.range n) w.length).map
        (fun q => (((letterStr w, q), pauliWord (placed n w q)) : Key × QMat n))).length) = (wordsXYZ k).map (fun _ => n.choose k) := by
      apply List.map_congr_left
      intro w hw
      rw [List.length_map, combinations_length, List.length_range, (mem_wordsXYZ.1 hw).1]
    rw [this, List.map_const', List.sum_replicate, wordsXYZ_length, smul_eq_mul]

theorem stdDict_spec (n : ℕ) {lens : List ℕ} (hnd : lens.Nodup) (h0 : 0 ∉ lens) : IsPauliDict n lens (stdDict n (allWords lens)) where
  nodup := stdDict_nodup (allWords_nodup hnd)
  keys := by
    intro s qs
    rw [mem_keys_stdDict]
    constructor
    · rintro ⟨w, hw, q, hq, e⟩
      obtain ⟨rfl, rfl⟩ := Prod.mk.inj e
      obtain ⟨h1, h2⟩ := mem_allWords.1 hw
      obtain ⟨h3, h4, h5⟩ := mem_combinations_range.1 hq
      rw [letterStr_length]
      refine ⟨h1, ?_, h3, h4, h5⟩
      intro c hc
      simp only [letterStr, String.toList_ofList, List.mem_map] at hc
      obtain ⟨a, ha, rfl⟩ := hc
      have := h2 a ha
      cases a <;> simp_all [Letter.char]
    · rintro ⟨h1, h2, h3, h4, h5⟩
      have : ∃ w : List Letter, letterStr w = s ∧ ∀ a ∈ w, a ≠ .I := by
        let f : Char → Letter := fun c => if c = 'X' then .X else if c = 'Y' then .Y else .Z
        refine ⟨s.toList.map f, ?_, ?_⟩
        · apply String.toList_injective
          rw [letterStr, String.toList_ofList, List.map_map]
          conv_rhs => rw [← List.map_id s.toList]
          apply List.map_congr_left
          intro c hc
          have := h2 c hc
          simp at this
          rcases this with rfl | rfl | rfl <;> rfl
        · intro a ha
          obtain ⟨c, -, rfl⟩ := List.mem_map.1 ha
          dsimp only [f]
          split
          · simp
          · split <;> simp
      obtain ⟨w, rfl, hw⟩ := this
      rw [letterStr_length] at h1 h3
      exact ⟨w, mem_allWords.2 ⟨h1, hw⟩, qs, mem_combinations_range.2 ⟨h3, h4, h5⟩, rfl⟩
  count := stdDict_length n lens
  value := by
    intro w qs M h
    obtain ⟨w', -, q', -, e⟩ := mem_stdDict.1 h
    obtain ⟨e1, rfl⟩ := Prod.mk.inj e
    obtain ⟨e2, rfl⟩ := Prod.mk.inj e1
    rw [letterStr_injective e2]
  herm := by
    intro e he
    obtain ⟨w, -, q, -, rfl⟩ := mem_stdDict.1 he
    exact pauliWord_herm _
  unitary := by
    intro e he
    obtain ⟨w, -, q, -, rfl⟩ := mem_stdDict.1 he
    exact pauliWord_sq _
  traceless := by
    intro e he
    obtain ⟨w, hw, q, hq, rfl⟩ := mem_stdDict.1 he
    obtain ⟨h1, h2⟩ := mem_allWords.1 hw
    obtain ⟨h3, h4⟩ := combos_valid hq
    rw [pauliWord_trace, if_neg]
    cases w with
    | nil => simp at h1; exact absurd h1 h0
    | cons a w =>
      cases q with
      | nil => simp at h3
      | cons x q =>
        intro hc
        have := hc ⟨x, h4.2 x List.mem_cons_self⟩
        rw [placed] at this
        simp at this
        exact h2 a List.mem_cons_self this

end Oranssi
