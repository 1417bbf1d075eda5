import Verif.Lemmas.Zassenhaus
import Verif.Spec.Zassenhaus

/-! Lemmas on the candidates of `ZassenhausLayer`. -/

namespace Oranssi
open scoped Matrix
open Spec

/-! ### Dictionaries -/

theorem dictGet_cons {K V : Type} [DecidableEq K] (e : K × V) (d : List (K × V)) (k : K) :
    dictGet (e :: d) k = if e.1 = k then .ok e.2 else dictGet d k := by
  simp only [dictGet, List.find?_cons]
  by_cases h : e.1 = k <;> simp [h]

theorem dictGet_nil {K V : Type} [DecidableEq K] (k : K) : dictGet ([] : List (K × V)) k = .error .key := rfl

theorem dictGet_append {K V : Type} [DecidableEq K] (k k' : K) (v : V) : ∀ d : List (K × V),
    dictGet (d ++ [(k, v)]) k' = if k' ∈ d.map Prod.fst then dictGet d k' else if k = k' then .ok v else .error .key
  | [] => by simp [dictGet_cons, dictGet_nil]
  | e :: d => by
    rw [List.cons_append, dictGet_cons, dictGet_append k k' v d, dictGet_cons]
    by_cases h : e.1 = k'
    · simp [h]
    · have : k' ≠ e.1 := fun h' => h h'.symm
      rw [if_neg h, if_neg h]
      by_cases h2 : k' ∈ d.map Prod.fst
      · rw [if_pos h2, if_pos (by simp [h2])]
      · have h3 : k' ∉ (e :: d).map Prod.fst := by rw [List.map_cons, List.mem_cons]; exact fun hc => hc.elim this h2
        rw [if_neg h2, if_neg h3]

theorem dictGet_map {K V : Type} [DecidableEq K] (k k' : K) (v : V) : ∀ d : List (K × V),
    dictGet (d.map (fun e => if e.1 = k then (k, v) else e)) k' = if k = k' ∧ k ∈ d.map Prod.fst then .ok v else dictGet d k'
  | [] => by simp
  | e :: d => by
    rw [List.map_cons, dictGet_cons, dictGet_map k k' v d, dictGet_cons]
    by_cases h1 : e.1 = k
    · by_cases h2 : k = k'
      · subst h2; simp [h1]
      · simp [h1, h2]
    · have h1' : k ≠ e.1 := fun h => h1 h.symm
      by_cases h2 : k = k'
      · subst h2
        rw [if_neg h1, if_neg h1]
        by_cases h3 : k ∈ d.map Prod.fst
        · rw [if_pos ⟨rfl, h3⟩, if_pos ⟨rfl, by simp [h3]⟩]
        · have h4 : ¬ (k = k ∧ k ∈ (e :: d).map Prod.fst) := by rw [List.map_cons, List.mem_cons]; exact fun hc => hc.2.elim h1' h3
          rw [if_neg (fun hc => h3 hc.2), if_neg h4, if_neg h1]
      · simp [h1, h2]

/-- Reading a dictionary after an assignment. -/
theorem dictGet_dictSet {K V : Type} [DecidableEq K] (d : List (K × V)) (k k' : K) (v : V) :
    dictGet (dictSet d k v) k' = if k = k' then .ok v else dictGet d k' := by
  rw [dictSet]
  split
  · rename_i h
    rw [dictGet_map]
    simp [h]
  · rename_i h
    rw [dictGet_append]
    by_cases h2 : k = k'
    · subst h2; rw [if_neg h, if_pos rfl, if_pos rfl]
    · simp only [if_neg h2]
      split
      · rfl
      · rename_i h3; rw [dictGet_missing h3]

theorem mem_dictSet {K V : Type} [DecidableEq K] {d : List (K × V)} {k : K} {v : V} {e : K × V} (h : e ∈ dictSet d k v) :
    e = (k, v) ∨ (e ∈ d ∧ e.1 ≠ k) := by
  rw [dictSet] at h
  split at h
  · obtain ⟨x, hx, rfl⟩ := List.mem_map.1 h
    by_cases h2 : x.1 = k
    · left; simp [h2]
    · right; simp [h2, hx]
  · rename_i h2
    rcases List.mem_append.1 h with h | h
    · right
      refine ⟨h, fun h3 => h2 ?_⟩
      rw [← h3]; exact List.mem_map_of_mem h
    · left; simpa using h

theorem key_mem_dictSet {K V : Type} [DecidableEq K] {d : List (K × V)} {k k' : K} {v : V} (h : k' = k ∨ k' ∈ d.map Prod.fst) :
    k' ∈ (dictSet d k v).map Prod.fst := by
  rw [dictSet]
  split
  · rename_i h2
    have h3 : k' ∈ d.map Prod.fst := by
      rcases h with rfl | h
      · exact h2
      · exact h
    rw [List.map_map]
    obtain ⟨e, he, rfl⟩ := List.mem_map.1 h3
    refine List.mem_map.2 ⟨e, he, ?_⟩
    by_cases h4 : e.1 = k <;> simp [h4]
  · rw [List.map_append]
    rcases h with rfl | h
    · simp
    · exact List.mem_append_left _ h

/-! ### Directions -/

theorem pauliWord_ne_zero {n : ℕ} (f : Fin n → Letter) : pauliWord f ≠ 0 := by
  intro h
  have := pauliWord_sq f
  rw [h, zero_mul] at this
  have h2 := congrFun (congrFun this 0) 0
  simp at h2

/-- Pauli words that are proportional are equal. -/
theorem word_eq_of_smul {n : ℕ} {f g : Fin n → Letter} {c d : ℂ} (hc : c ≠ 0) (h : c • pauliWord f = d • pauliWord g) : f = g := by
  by_contra hne
  have h2 := congrArg (fun M => (pauliWord f * M).trace) h
  simp only [Matrix.mul_smul, Matrix.trace_smul, pauliWord_trace_mul, if_true, if_neg hne, smul_eq_mul, mul_zero] at h2
  exact (mul_ne_zero hc (pow_ne_zero _ two_ne_zero)) h2

theorem Spec.IsDirection.mem_iff {n k : ℕ} {w : List Letter} {q : List ℕ} (h : IsDirection n k w q) (i : Fin n) :
    i.val ∈ q ↔ placed n w q i ≠ .I := by
  have hl : q.length = w.length := h.qubits.trans h.letters.symm
  rw [placed]
  constructor
  · intro hi
    have h2 : q.idxOf i.val < w.length := by rw [← hl]; exact List.idxOf_lt_length_iff.2 hi
    rw [List.getElem?_eq_getElem h2]
    intro hc
    exact h.noI (hc ▸ List.getElem_mem h2)
  · intro hi
    by_contra hc
    have h2 : ¬ q.idxOf i.val < q.length := fun h3 => hc (List.idxOf_lt_length_iff.1 h3)
    rw [List.getElem?_eq_none (by omega)] at hi
    exact hi rfl

/-- A direction is determined by its operator. -/
theorem Spec.IsDirection.ext {n k k' : ℕ} {w w' : List Letter} {q q' : List ℕ} (h : IsDirection n k w q) (h' : IsDirection n k' w' q')
    (e : placed n w q = placed n w' q') : w = w' ∧ q = q' := by
  have hq : q = q' := by
    refine List.Perm.eq_of_pairwise (le := (· < ·)) (fun a b _ _ h1 h2 => absurd h1 (not_lt.2 h2.le)) h.increasing h'.increasing ?_
    refine (List.perm_ext_iff_of_nodup (h.increasing.imp (fun h => Nat.ne_of_lt h)) (h'.increasing.imp (fun h => Nat.ne_of_lt h))).2 ?_
    intro i
    constructor
    · intro hi
      have := (h.mem_iff ⟨i, h.valid i hi⟩).1 hi
      rw [e] at this
      exact (h'.mem_iff ⟨i, h.valid i hi⟩).2 this
    · intro hi
      have := (h'.mem_iff ⟨i, h'.valid i hi⟩).1 hi
      rw [← e] at this
      exact (h.mem_iff ⟨i, h'.valid i hi⟩).2 this
  subst hq
  refine ⟨?_, rfl⟩
  have hl : q.length = w.length := h.qubits.trans h.letters.symm
  have hl' : q.length = w'.length := h'.qubits.trans h'.letters.symm
  have hnd : q.Nodup := h.increasing.imp (fun h => Nat.ne_of_lt h)
  refine List.ext_getElem (by omega) ?_
  intro i h1 h2
  have h3 : i < q.length := by omega
  have := congrFun e ⟨q[i], h.valid _ (List.getElem_mem h3)⟩
  simp only [placed, hnd.idxOf_getElem i h3] at this
  rw [List.getElem?_eq_getElem h1, List.getElem?_eq_getElem h2] at this
  exact this

theorem Spec.IsDirection.mem {n k : ℕ} {w : List Letter} {q : List ℕ} (h : IsDirection n k w q) :
    w ∈ allWords [k] ∧ q ∈ combinations (List.range n) k := by
  refine ⟨mem_allWords.2 ⟨by simp [h.letters], fun a ha hc => h.noI (hc ▸ ha)⟩, mem_combinations_range.2 ⟨h.qubits, h.increasing, h.valid⟩⟩

theorem isDirection_of_mem {n k : ℕ} {w : List Letter} {q : List ℕ} (hw : w ∈ allWords [k]) (hq : q ∈ combinations (List.range n) k) :
    IsDirection n k w q := by
  obtain ⟨h1, h2⟩ := mem_allWords.1 hw
  obtain ⟨h3, h4, h5⟩ := mem_combinations_range.1 hq
  exact ⟨by simpa using h1, h3, fun hc => h2 _ hc rfl, h4, h5⟩

/-- Products of Pauli words are words up to a factor. -/
theorem pauliWord_mul' {n : ℕ} (f g : Fin n → Letter) : ∃ h : Fin n → Letter, ∃ c d : ℂ, c ≠ 0 ∧ pauliWord f * pauliWord g = c • pauliWord h ∧
    pauliWord g * pauliWord f = d • pauliWord h := by
  have ef : f = fun q => letterOf (gOf (f q)) := by funext q; rw [letterOf_gOf]
  have eg : g = fun q => letterOf (gOf (g q)) := by funext q; rw [letterOf_gOf]
  have hcomm : ∀ a b : Fin 4, gammaProd a b = gammaProd b a := by decide
  have h1 := pauliWord_mul (fun q => gOf (f q)) (fun q => gOf (g q))
  have h2 := pauliWord_mul (fun q => gOf (g q)) (fun q => gOf (f q))
  rw [← ef, ← eg] at h1 h2
  refine ⟨fun q => letterOf (gammaProd (gOf (f q)) (gOf (g q))), _, ∏ q, phase (gOf (g q)) (gOf (f q)), ?_, h1, ?_⟩
  · intro hc
    rw [hc, zero_smul] at h1
    have h3 : pauliWord f * (pauliWord f * pauliWord g) = pauliWord g := by rw [← Matrix.mul_assoc, pauliWord_sq, Matrix.one_mul]
    rw [h1, Matrix.mul_zero] at h3
    exact pauliWord_ne_zero g h3.symm
  · rw [h2]
    congr 2
    funext q
    rw [hcomm]

/-- The product of the two directions of a candidate. -/
theorem Spec.IsCandidate.mul {n : ℕ} {wa wb w : List Letter} {qa qb q : List ℕ} {σ : ℝ} (h : IsCandidate n wa qa wb qb w q σ) :
    ∃ c : ℂ, c ≠ 0 ∧ pauliWord (placed n wa qa) * pauliWord (placed n wb qb) = c • pauliWord (placed n w q) := by
  obtain ⟨f, c, d, hc, h1, h2⟩ := pauliWord_mul' (placed n wa qa) (placed n wb qb)
  have h3 := h.comm
  rw [h1, h2, ← sub_smul] at h3
  have hσ : Complex.I * (σ : ℂ) ≠ 0 := by
    rcases h.sign with rfl | rfl <;> simp
  have := word_eq_of_smul hσ h3.symm
  exact ⟨c, hc, by rw [this, h1]⟩

/-- The commutator determines the partner. -/
theorem Spec.IsCandidate.unique {n : ℕ} {wa wb wb' w : List Letter} {qa qb qb' q : List ℕ} {σ σ' : ℝ} (h : IsCandidate n wa qa wb qb w q σ)
    (h' : IsCandidate n wa qa wb' qb' w q σ') : wb = wb' ∧ qb = qb' := by
  obtain ⟨c, hc, h1⟩ := h.mul
  obtain ⟨c', hc', h1'⟩ := h'.mul
  refine h.pair.ext h'.pair (word_eq_of_smul (c := c') (d := c) hc' ?_)
  have e : ∀ M : QMat n, pauliWord (placed n wa qa) * (pauliWord (placed n wa qa) * M) = M := fun M => by
    rw [← Matrix.mul_assoc, pauliWord_sq, Matrix.one_mul]
  rw [← e (pauliWord (placed n wb qb)), ← e (pauliWord (placed n wb' qb')), h1, h1', Matrix.mul_smul, Matrix.mul_smul, smul_smul, smul_smul, mul_comm]

/-- The pair determines the commutator. -/
theorem Spec.IsCandidate.determined {n : ℕ} {wa wb w w' : List Letter} {qa qb q q' : List ℕ} {σ σ' : ℝ} (h : IsCandidate n wa qa wb qb w q σ)
    (h' : IsCandidate n wa qa wb qb w' q' σ') : w = w' ∧ q = q' := by
  obtain ⟨c, hc, h1⟩ := h.mul
  obtain ⟨c', hc', h1'⟩ := h'.mul
  exact h.triple.ext h'.triple (word_eq_of_smul hc (h1.symm.trans h1'))

theorem char_I_mem {w : List Letter} : 'I' ∈ (letterStr w).toList ↔ .I ∈ w := by
  rw [letterStr, String.toList_ofList, List.mem_map]
  constructor
  · rintro ⟨a, ha, he⟩
    cases a <;> simp [Letter.char] at he
    exact ha
  · intro h; exact ⟨_, h, rfl⟩

/-- What the loop computes from the key of a pair that shares one qubit with the current pair. -/
theorem commutator_candidate (ord : SetOrder ℕ) {n : ℕ} {wa wb : List Letter} {qa qb : List ℕ} (ha : IsDirection n 2 wa qa) (hb : IsDirection n 2 wb qb)
    (hs : (qb.filter (fun x => x ∈ qa)).length = 1) :
    ∃ a b ab, monoOfKey (letterStr wa, qa) = .ok a ∧ monoOfKey (letterStr wb, qb) = .ok b ∧ a.commutator ord b = .ok ab ∧
      (('I' ∈ ab.keyWithI.1.toList ∧ Commute (pauliWord (placed n wa qa)) (pauliWord (placed n wb qb))) ∨
       ('I' ∉ ab.keyWithI.1.toList ∧ ∃ w q σ, IsCandidate n wa qa wb qb w q σ ∧ ab.keyWithI = (letterStr w, q) ∧ ab.coeff = Complex.I * (σ : ℂ))) := by
  obtain ⟨hwa, hqa⟩ := ha.mem
  obtain ⟨hwb, hqb⟩ := hb.mem
  obtain ⟨ab, h1, h2, w, q, h3, h4, h5, h6, h7⟩ := commutator_pair ord hwa hwb hqa hqb hs
  refine ⟨_, _, ab, monoOfKey_letterStr (ha.qubits.trans ha.letters.symm) ha.increasing,
    monoOfKey_letterStr (hb.qubits.trans hb.letters.symm) hb.increasing, h1, ?_⟩
  have hden : ab.den n = ab.coeff • pauliWord (placed n w q) := by rw [← h4]; rfl
  rw [h3]
  rcases h7 with ⟨hI, hc⟩ | ⟨hI, hc⟩
  · left
    refine ⟨char_I_mem.2 hI, ?_⟩
    rw [hden, hc, zero_smul] at h2
    exact (sub_eq_zero.1 h2.symm)
  · right
    obtain ⟨k1, k2, k3⟩ := mem_combinations_range.1 h5
    have hd : IsDirection n 3 w q := ⟨h6, k1, hI, k2, k3⟩
    refine ⟨fun hc => hI (char_I_mem.1 hc), ?_⟩
    rcases hc with hc | hc
    · refine ⟨w, q, 2, ⟨hb, hd, hs, Or.inl rfl, ?_⟩, rfl, ?_⟩
      · rw [← h2, hden, hc]; push_cast; rw [mul_comm]
      · rw [hc]; push_cast; ring
    · refine ⟨w, q, -2, ⟨hb, hd, hs, Or.inr rfl, ?_⟩, rfl, ?_⟩
      · rw [← h2, hden, hc]; push_cast; congr 1; ring
      · rw [hc]; push_cast; ring

/-- The dictionary entry of a direction. -/
theorem stdDict_lookup (n : ℕ) (lens : List ℕ) (hl : lens.Nodup) (k : ℕ) (hk : k ∈ lens) :
    ∀ w q, IsDirection n k w q → dictGet (stdDict n (allWords lens)) (letterStr w, q) = .ok (pauliWord (placed n w q)) := by
  intro w q h
  refine dictGet_mem (stdDict_nodup (allWords_nodup hl)) (e := ((letterStr w, q), pauliWord (placed n w q))) ?_
  refine mem_stdDict.2 ⟨w, mem_allWords.2 ⟨by rw [h.letters]; exact hk, fun a ha hc => h.noI (hc ▸ ha)⟩, q, ?_, rfl⟩
  rw [h.letters]
  exact h.mem.2

/-! ### The loop -/

/-- What the dictionaries of the loop hold: every entry is a candidate with its gradients, and every candidate among the keys `ks` is there. -/
structure CandInv {n : ℕ} (wa : List Letter) (qa : List ℕ) (G : QMat n → ℝ) (ks : List Key) (s : ZassCands) : Prop where
  sound : ∀ e ∈ s.su8, ∃ wb qb w q σ, IsCandidate n wa qa wb qb w q σ ∧ e = ((letterStr w, q), |G (pauliWord (placed n w q))|) ∧
    dictGet s.su8k e.1 = .ok (letterStr wb, qb) ∧ dictGet s.signs e.1 = .ok σ ∧ dictGet s.su4 (letterStr wb, qb) = .ok (G (pauliWord (placed n wb qb)))
  complete : ∀ wb qb w q σ, IsCandidate n wa qa wb qb w q σ → (letterStr wb, qb) ∈ ks → (letterStr w, q) ∈ s.su8.map Prod.fst

theorem candidate_of_key (ord : SetOrder ℕ) {n : ℕ} {wa wb : List Letter} {qa qb : List ℕ} {w : List Letter} {q : List ℕ} {σ : ℝ}
    (ha : IsDirection n 2 wa qa) (h : IsCandidate n wa qa wb qb w q σ) :
    ∃ a b ab, monoOfKey (letterStr wa, qa) = .ok a ∧ monoOfKey (letterStr wb, qb) = .ok b ∧ a.commutator ord b = .ok ab ∧
      'I' ∉ ab.keyWithI.1.toList ∧ ab.keyWithI = (letterStr w, q) ∧ ab.coeff = Complex.I * (σ : ℂ) := by
  obtain ⟨a, b, ab, h1, h2, h3, h4⟩ := commutator_candidate ord ha h.pair h.shared
  rcases h4 with ⟨-, hc⟩ | ⟨hI, w', q', σ', hc, h5, h6⟩
  · have := h.comm
    rw [hc.eq, sub_self] at this
    have hσ : Complex.I * (σ : ℂ) ≠ 0 := by
      rcases h.sign with rfl | rfl <;> simp
    exact absurd (smul_eq_zero.1 this.symm) (not_or.2 ⟨hσ, pauliWord_ne_zero _⟩)
  · obtain ⟨rfl, rfl⟩ := h.determined hc
    have e := h.comm.symm.trans hc.comm
    have : Complex.I * (σ : ℂ) = Complex.I * (σ' : ℂ) := by
      by_contra hne
      have e2 := sub_eq_zero.2 e
      rw [← sub_smul] at e2
      exact absurd (smul_eq_zero.1 e2) (not_or.2 ⟨sub_ne_zero.2 hne, pauliWord_ne_zero _⟩)
    exact ⟨a, b, ab, h1, h2, h3, hI, h5, h6.trans this.symm⟩

theorem zassStep_inv (ord : SetOrder ℕ) {n : ℕ} {φ : Ket n} {os : List (QMat n)} {d4 d8 : List (Key × QMat n)} {wa : List Letter} {qa : List ℕ}
    (ha : IsDirection n 2 wa qa) (h4 : ∀ w q, IsDirection n 2 w q → dictGet d4 (letterStr w, q) = .ok (pauliWord (placed n w q)))
    (h8 : ∀ w q, IsDirection n 3 w q → dictGet d8 (letterStr w, q) = .ok (pauliWord (placed n w q)))
    {ks : List Key} {s : ZassCands} (hinv : CandInv wa qa (omegaSum φ os) ks s) {wb : List Letter} {qb : List ℕ} (hb : IsDirection n 2 wb qb) :
    ∃ s', zassStep ord φ os d4 d8 (letterStr wa, qa) (letterStr wb, qb) s = .ok s' ∧
      CandInv wa qa (omegaSum φ os) (ks ++ [(letterStr wb, qb)]) s' := by
  have hinj : ∀ {w w' : List Letter} {q q' : List ℕ}, ((letterStr w, q) : Key) = (letterStr w', q') → w = w' ∧ q = q' := by
    intro w w' q q' h
    obtain ⟨h1, h2⟩ := Prod.mk.inj h
    exact ⟨letterStr_injective h1, h2⟩
  rw [zassStep]
  split
  · rename_i hs
    have hs' : (qb.filter (fun x => x ∈ qa)).length = 1 := hs
    obtain ⟨a, b, ab, e1, e2, e3, hcase⟩ := commutator_candidate ord ha hb hs'
    simp only [e1, e2, e3, bind, Except.bind]
    rcases hcase with ⟨hI, hc⟩ | ⟨hI, w, q, σ, hc, h5, h6⟩
    · rw [if_pos hI]
      refine ⟨s, rfl, hinv.sound, ?_⟩
      intro wb' qb' w' q' σ' hc' hk
      rcases List.mem_append.1 hk with hk | hk
      · exact hinv.complete _ _ _ _ _ hc' hk
      · obtain ⟨rfl, rfl⟩ := hinj (List.mem_singleton.1 hk)
        obtain ⟨a', b', ab', f1, f2, f3, f4, -⟩ := candidate_of_key ord ha hc'
        obtain rfl := Except.ok.inj (e1.symm.trans f1)
        obtain rfl := Except.ok.inj (e2.symm.trans f2)
        obtain rfl := Except.ok.inj (e3.symm.trans f3)
        exact absurd hI f4
    · rw [if_neg hI, h5, h8 _ _ hc.triple, h4 _ _ hb, h6]
      refine ⟨_, rfl, ?_, ?_⟩
      · intro e he
        rcases mem_dictSet he with rfl | ⟨he, hne⟩
        · refine ⟨wb, qb, w, q, σ, hc, rfl, ?_, ?_, ?_⟩
          · simp only [dictGet_dictSet, if_true]
          · simp only [dictGet_dictSet, if_true]; simp
          · simp only [dictGet_dictSet, if_true]
        · obtain ⟨wb', qb', w', q', σ', hc', rfl, g1, g2, g3⟩ := hinv.sound e he
          have hne' : (letterStr w, q) ≠ ((letterStr w', q') : Key) := fun h => hne h.symm
          refine ⟨wb', qb', w', q', σ', hc', rfl, ?_, ?_, ?_⟩
          · simp only [dictGet_dictSet]; rw [if_neg hne']; exact g1
          · simp only [dictGet_dictSet]; rw [if_neg hne']; exact g2
          · simp only [dictGet_dictSet]
            split
            · rename_i h
              obtain ⟨rfl, rfl⟩ := hinj h
              rfl
            · exact g3
      · intro wb' qb' w' q' σ' hc' hk
        apply key_mem_dictSet
        rcases List.mem_append.1 hk with hk | hk
        · exact Or.inr (hinv.complete _ _ _ _ _ hc' hk)
        · obtain ⟨rfl, rfl⟩ := hinj (List.mem_singleton.1 hk)
          obtain ⟨rfl, rfl⟩ := hc.determined hc'
          exact Or.inl rfl
  · rename_i hs
    refine ⟨s, rfl, hinv.sound, ?_⟩
    intro wb' qb' w' q' σ' hc' hk
    rcases List.mem_append.1 hk with hk | hk
    · exact hinv.complete _ _ _ _ _ hc' hk
    · obtain ⟨rfl, rfl⟩ := hinj (List.mem_singleton.1 hk)
      exact absurd hc'.shared hs

theorem zassLoop_inv (ord : SetOrder ℕ) {n : ℕ} {φ : Ket n} {os : List (QMat n)} {d4 d8 : List (Key × QMat n)} {wa : List Letter} {qa : List ℕ}
    (ha : IsDirection n 2 wa qa) (h4 : ∀ w q, IsDirection n 2 w q → dictGet d4 (letterStr w, q) = .ok (pauliWord (placed n w q)))
    (h8 : ∀ w q, IsDirection n 3 w q → dictGet d8 (letterStr w, q) = .ok (pauliWord (placed n w q))) :
    ∀ (ks : List Key) (ks₀ : List Key) (s : ZassCands), CandInv wa qa (omegaSum φ os) ks₀ s →
      (∀ k ∈ ks, ∃ wb qb, IsDirection n 2 wb qb ∧ k = (letterStr wb, qb)) →
      ∃ s', zassLoop ord φ os d4 d8 (letterStr wa, qa) ks s = .ok s' ∧ CandInv wa qa (omegaSum φ os) (ks₀ ++ ks) s'
  | [], ks₀, s, hinv, _ => ⟨s, rfl, by simpa using hinv⟩
  | k :: ks, ks₀, s, hinv, hk => by
    obtain ⟨wb, qb, hb, rfl⟩ := hk k (by simp)
    obtain ⟨s₁, h1, hinv₁⟩ := zassStep_inv ord ha h4 h8 hinv hb
    obtain ⟨s₂, h2, hinv₂⟩ := zassLoop_inv ord ha h4 h8 ks _ s₁ hinv₁ (fun k hk' => hk k (List.mem_cons_of_mem _ hk'))
    refine ⟨s₂, ?_, by simpa using hinv₂⟩
    rw [zassLoop, h1]
    exact h2

/-- The first candidate. -/
theorem zassPick_spec {n : ℕ} {wa : List Letter} {qa : List ℕ} {G : QMat n → ℝ} {ks : List Key} {s : ZassCands} (hinv : CandInv wa qa G ks s) :
    ∀ es : List (Key × ℝ), (∀ e ∈ es, e ∈ s.su8) →
    (∃ wb qb w q σ, IsCandidate n wa qa wb qb w q σ ∧ |G (pauliWord (placed n w q))| > 1e-3 ∧ G (pauliWord (placed n wb qb)) ≠ 0 ∧
      zassPick s es = .ok (some ((letterStr wb, qb), (letterStr w, q))) ∧ dictGet s.signs (letterStr w, q) = .ok σ) ∨
    (zassPick s es = .ok none ∧ ∀ wb qb w q σ, IsCandidate n wa qa wb qb w q σ → (letterStr w, q) ∈ es.map Prod.fst →
      ¬ (|G (pauliWord (placed n w q))| > 1e-3 ∧ G (pauliWord (placed n wb qb)) ≠ 0))
  | [], _ => Or.inr ⟨rfl, by simp⟩
  | e :: es, hes => by
    obtain ⟨wb, qb, w, q, σ, hc, rfl, g1, g2, g3⟩ := hinv.sound e (hes e (by simp))
    by_cases h : |G (pauliWord (placed n w q))| > 1e-3 ∧ G (pauliWord (placed n wb qb)) ≠ 0
    · left
      refine ⟨wb, qb, w, q, σ, hc, h.1, h.2, ?_, g2⟩
      rw [zassPick, if_pos (by rw [abs_abs]; exact h.1), g1]
      simp only [bind, Except.bind, g3]
      rw [if_pos (abs_pos.2 h.2)]
    · have hz : zassPick s (((letterStr w, q), |G (pauliWord (placed n w q))|) :: es) = zassPick s es := by
        rw [zassPick]
        by_cases h1 : |G (pauliWord (placed n w q))| > 1e-3
        · have h2 : G (pauliWord (placed n wb qb)) = 0 := not_not.1 (fun h2 => h ⟨h1, h2⟩)
          rw [if_pos (by rw [abs_abs]; exact h1), g1]
          simp only [bind, Except.bind, g3]
          rw [if_neg (by rw [h2]; simp)]
        · rw [if_neg (by rw [abs_abs]; exact h1)]
      rw [hz]
      refine (zassPick_spec hinv es (fun e he => hes e (List.mem_cons_of_mem _ he))).imp id (fun ih => ⟨ih.1, ?_⟩)
      intro wb' qb' w' q' σ' hc' hk
      rw [List.map_cons, List.mem_cons] at hk
      rcases hk with hk | hk
      · obtain ⟨k1, rfl⟩ := Prod.mk.inj hk
        obtain rfl := letterStr_injective k1
        obtain ⟨rfl, rfl⟩ := hc.unique hc'
        exact h
      · exact ih.2 _ _ _ _ _ hc' hk

end Oranssi
