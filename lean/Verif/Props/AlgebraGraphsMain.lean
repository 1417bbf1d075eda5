import Verif.Props.AlgebraGraphs
import Verif.Props.Algebra

/-! # C88: the generators and the graph of `main` in algebra_graphs.py -/

namespace Oranssi
open Spec
open scoped Matrix

/-- A `mapM` all of whose calls succeed. -/
theorem mapM_forall₂ {α β : Type} (F : α → Py β) (P : α → β → Prop) : ∀ l : List α, (∀ a ∈ l, ∃ b, F a = .ok b ∧ P a b) →
    ∃ bs, l.mapM F = .ok bs ∧ List.Forall₂ P l bs
  | [], _ => ⟨[], rfl, .nil⟩
  | a :: l, h => by
    obtain ⟨b, hb, hp⟩ := h a List.mem_cons_self
    obtain ⟨bs, hbs, hf⟩ := mapM_forall₂ F P l (fun a ha => h a (List.mem_cons_of_mem _ ha))
    exact ⟨b :: bs, by rw [List.mapM_cons, hb]; simp only [bind, Except.bind]; rw [hbs]; rfl, .cons hp hf⟩

/-- A generator with the same operator. -/
def Padded (p m : Mono) : Prop := Generator m ∧ m.den 3 = p.den 3

theorem pad_ok (ord : SetOrder ℕ) {w : List Letter} {q : List ℕ} (hl : q.length = w.length) (hs : q.Pairwise (· < ·)) (hq : ∀ x ∈ q, x < 3) :
    ∃ m, (keyMono w q).mul ord idMono = .ok m ∧ Padded (keyMono w q) m := by
  have wk := keyMono_wf hl hs
  have fk : (keyMono w q).Fits 3 := by rw [Mono.Fits, keyMono_locations hl]; exact hq
  have wi := wf_of_sites (m := idMono) rfl
  have fi := fits_of_sites (m := idMono) rfl
  have ci : idMono.Consistent := by simp [Mono.Consistent, idMono]
  obtain ⟨m, hm, sm, lm, cm, -, dm⟩ := C15_monomial_mul ord 3 _ _ wk wi fk fi
  refine ⟨m, hm, ⟨?_, cm, ?_⟩, ?_⟩
  · refine sorted_ext sm (by decide) (fun i => ?_)
    rw [lm, keyMono_locations hl]
    have : i ∈ idMono.locations ↔ i = 0 ∨ i = 1 ∨ i = 2 := by simp [Mono.locations, idMono]
    rw [this]
    constructor
    · rintro (h | h)
      · have := hq i h
        simp; omega
      · simp; omega
    · intro h
      right; simpa using h
  · rw [mul_coeff ord wk wi fk fi (keyMono_consistent w q) ci hm]
    have h1 : ∀ x : Fin 3, gAt idMono x = 0 := by
      intro x; fin_cases x <;> simp [gAt, idMono, Mono.locations, siteOf]
    have h2 : (keyMono w q).coeff = 1 := rfl
    have h3 : idMono.coeff = 1 := rfl
    simp only [h1, phase_zero_right, h2, h3]
    simp
  · rw [dm (keyMono_consistent w q) ci, idMono_den, Matrix.mul_one]

/-- The words and qubits of the dictionary on three qubits. -/
def wordsQubits : List (List Letter × List ℕ) :=
  (allWords [2]).flatMap (fun w => (combinations (List.range 3) w.length).map (fun q => (w, q)))

/-- The nine pairs of non-identity letters, in the order of `itertools.product`. -/
def Spec.letterPairs : List (Letter × Letter) :=
  [.X, .Y, .Z].flatMap (fun a => [.X, .Y, .Z].map (fun b => (a, b)))

theorem wordsQubits_ok : ∀ e ∈ wordsQubits, e.2.length = e.1.length ∧ e.2.Pairwise (· < ·) ∧ ∀ x ∈ e.2, x < 3 := by decide

theorem filter_AB : (wordsQubits.filter (fun e => e.2.all (· ∈ [0, 1]))).map (fun e => placed 3 e.1 e.2) =
      letterPairs.map (fun ab => ![ab.1, ab.2, .I]) ∧
    (wordsQubits.filter (fun e => e.2.all (· ∈ [1, 2]))).map (fun e => placed 3 e.1 e.2) =
      letterPairs.map (fun ab => ![.I, ab.1, ab.2]) := by decide

theorem forall₂_map_den {l l' : List Mono} (h : List.Forall₂ Padded l l') :
    l'.map (·.den 3) = l.map (·.den 3) ∧ ∀ m ∈ l', Generator m := by
  induction h with
  | nil => simp
  | cons hp _ ih => exact ⟨by simp [hp.2, ih.1], by simpa [hp.1] using ih.2⟩

/-- C88.  `SU4_to_SU8_algebra` returns two lists of nine generators: the words `A₀ B₁` and the words `A₁ B₂` with `A`, `B`
among X, Y, Z, in the order of `itertools.product`. -/
theorem C88_generators (ord : SetOrder ℕ) : ∃ A B, su4ToSu8Algebra ord = .ok (A, B) ∧
    (∀ m ∈ A, Generator m) ∧ (∀ m ∈ B, Generator m) ∧
    A.map (·.den 3) = letterPairs.map (fun ab => pauliWord ![ab.1, ab.2, .I]) ∧
    B.map (·.den 3) = letterPairs.map (fun ab => pauliWord ![.I, ab.1, ab.2]) := by
  obtain ⟨h1, h2, h3, h4⟩ := algebraSU4_attrs 3 false
  have hga := getAll_std (allWords_nodup (by simp)) (fun w hw => by
    have := (mem_allWords.1 hw).1; simp at this; exact Or.inr this) _ h1 h2 h3 [] (Or.inl rfl) h4
  have hk : (stdDict 3 (allWords (if false then [1, 2] else [2]))).map (·.1) = wordsQubits.map (fun e => (letterStr e.1, e.2)) := by
    simp only [stdDict, wordsQubits, List.map_flatMap, List.map_map, Bool.false_eq_true, if_false, Function.comp_def]
  have hm : (wordsQubits.map (fun e => (letterStr e.1, e.2))).mapM monoOfKey = .ok (wordsQubits.map (fun e => keyMono e.1 e.2)) := by
    rw [List.mapM_map]
    refine mapM_ok _ _ _ (fun e he => ?_)
    obtain ⟨g1, g2, -⟩ := wordsQubits_ok e he
    exact monoOfKey_letterStr g1 g2
  have hf : ∀ P : List ℕ → Bool, (wordsQubits.map (fun e => keyMono e.1 e.2)).filter (fun p => P p.locations) =
      (wordsQubits.filter (fun e => P e.2)).map (fun e => keyMono e.1 e.2) := by
    intro P
    rw [List.filter_map]
    refine congrArg _ (List.filter_congr (fun e he => ?_))
    rw [Function.comp_apply, keyMono_locations (wordsQubits_ok e he).1]
  have hpad : ∀ P : List ℕ → Bool, ∃ l, ((wordsQubits.filter (fun e => P e.2)).map (fun e => keyMono e.1 e.2)).mapM
      (fun p => p.mul ord idMono) = .ok l ∧ List.Forall₂ Padded ((wordsQubits.filter (fun e => P e.2)).map (fun e => keyMono e.1 e.2)) l := by
    intro P
    apply mapM_forall₂
    intro p hp
    obtain ⟨e, he, rfl⟩ := List.mem_map.1 hp
    obtain ⟨g1, g2, g3⟩ := wordsQubits_ok e (List.mem_of_mem_filter he)
    exact pad_ok ord g1 g2 g3
  have hden : ∀ P : List ℕ → Bool, ((wordsQubits.filter (fun e => P e.2)).map (fun e => keyMono e.1 e.2)).map (·.den 3) =
      ((wordsQubits.filter (fun e => P e.2)).map (fun e => placed 3 e.1 e.2)).map pauliWord := by
    intro P
    rw [List.map_map, List.map_map]
    apply List.map_congr_left
    intro e he
    obtain ⟨g1, g2, g3⟩ := wordsQubits_ok e (List.mem_of_mem_filter he)
    exact keyMono_den g1 g2 g3
  obtain ⟨A, hA, fA⟩ := hpad (fun q => q.all (· ∈ [0, 1]))
  obtain ⟨B, hB, fB⟩ := hpad (fun q => q.all (· ∈ [1, 2]))
  refine ⟨A, B, ?_, (forall₂_map_den fA).2, (forall₂_map_den fB).2, ?_, ?_⟩
  · simp only [su4ToSu8Algebra, hga, bind, Except.bind]
    rw [hk, hm]
    simp only [threeIdentity_eq]
    have e1 := hf (fun q => q.all (· ∈ [0, 1]))
    have e2 := hf (fun q => q.all (· ∈ [1, 2]))
    rw [e1, hA]
    simp only
    rw [e2, hB]
  · rw [(forall₂_map_den fA).1, hden (fun q => q.all (· ∈ [0, 1])), filter_AB.1, List.map_map]; rfl
  · rw [(forall₂_map_den fB).1, hden (fun q => q.all (· ∈ [1, 2])), filter_AB.2, List.map_map]; rfl

theorem pauliWord_inj {n : ℕ} {u v : Fin n → Letter} {c : ℂ} (h : pauliWord u = c • pauliWord v) : u = v := by
  by_contra hne
  have h1 := pauliWord_trace_mul u u
  rw [if_pos rfl] at h1
  conv_lhs at h1 => rw [h, Matrix.smul_mul, Matrix.trace_smul, ← h]
  rw [Matrix.trace_mul_comm, pauliWord_trace_mul, if_neg hne] at h1
  rw [smul_zero] at h1
  exact pow_ne_zero n two_ne_zero h1.symm

theorem letter_anti {k l : Letter} (hk : k ≠ .I) (hl : l ≠ .I) (hne : k ≠ l) : l.mat * k.mat = (-1 : ℂ) • (k.mat * l.mat) := by
  cases k <;> cases l <;> first | exact absurd rfl hk | exact absurd rfl hl | exact absurd rfl hne | skip
  all_goals
    ext i j
    fin_cases i <;> fin_cases j <;> simp [Letter.mat]

/-- Words on the sites 0, 1 and 1, 2 commute exactly when they agree on site 1. -/
theorem words_commute {a b c d : Letter} (hb : b ≠ .I) (hc : c ≠ .I) :
    pauliWord ![a, b, .I] * pauliWord ![.I, c, d] = pauliWord ![.I, c, d] * pauliWord ![a, b, .I] ↔ b = c := by
  have e1 : pauliWord ![a, b, .I] * pauliWord ![.I, c, d] = tensor ![a.mat, b.mat * c.mat, d.mat] := by
    rw [pauliWord, pauliWord, tensor_mul]
    congr 1; funext q; fin_cases q <;> simp [Letter.mat]
  have e2 : pauliWord ![.I, c, d] * pauliWord ![a, b, .I] = tensor ![a.mat, c.mat * b.mat, d.mat] := by
    rw [pauliWord, pauliWord, tensor_mul]
    congr 1; funext q; fin_cases q <;> simp [Letter.mat]
  constructor
  · intro h
    by_contra hne
    have e3 : tensor ![a.mat, c.mat * b.mat, d.mat] = (-1 : ℂ) • tensor ![a.mat, b.mat * c.mat, d.mat] := by
      have := tensor_smul (n := 3) ![a.mat, b.mat * c.mat, d.mat] ![1, -1, 1]
      rw [Fin.prod_univ_three] at this
      simp only [Matrix.cons_val_zero, Matrix.cons_val_one, Matrix.cons_val_two, Matrix.head_cons, Matrix.tail_cons, one_mul, mul_one] at this
      rw [← show _ = (-1 : ℂ) • tensor ![a.mat, b.mat * c.mat, d.mat] from this]
      congr 1; funext q
      fin_cases q
      · simp
      · exact letter_anti hb hc hne
      · simp
    rw [e1, e2, e3] at h
    have h0 : pauliWord ![a, b, .I] * pauliWord ![.I, c, d] = 0 := by
      rw [e1]
      have h2 : (2 : ℂ) • tensor ![a.mat, b.mat * c.mat, d.mat] = 0 := by
        rw [neg_smul, one_smul] at h
        rw [two_smul]
        nth_rewrite 1 [h]
        exact neg_add_cancel _
      exact (smul_eq_zero.1 h2).resolve_left two_ne_zero
    have h1 : pauliWord ![.I, c, d] = 0 := by
      rw [← Matrix.one_mul (pauliWord ![.I, c, d]), ← pauliWord_sq ![a, b, .I], Matrix.mul_assoc, h0, Matrix.mul_zero]
    have h2 := pauliWord_sq ![.I, c, d]
    rw [h1, Matrix.mul_zero] at h2
    exact zero_ne_one h2
  · rintro rfl
    rw [e1, e2]

theorem letterPairs_ne : ∀ ab ∈ letterPairs, ab.1 ≠ .I ∧ ab.2 ≠ .I := by decide

/-- C88.  `main` of algebra_graphs.py builds its graph without an exception for all outcomes of its two random draws (the
second index is drawn below the length of the first list); the graph has two nodes if the two drawn words have the same
letter on site 1, and three otherwise. -/
theorem C88_main (ord : SetOrder ℕ) (i j : Fin letterPairs.length) : ∃ G, (∀ fuel, 129 ≤ fuel → algebraGraphsMain ord fuel i j = .ok G) ∧
    G.nodes.length = if (letterPairs[i]).2 = (letterPairs[j]).1 then 2 else 3 := by
  obtain ⟨A, B, hAB, gA, gB, dA, dB⟩ := C88_generators ord
  have lA : A.length = letterPairs.length := by have := congrArg List.length dA; simpa using this
  have lB : B.length = letterPairs.length := by have := congrArg List.length dB; simpa using this
  have hi : (i : ℕ) < A.length := by rw [lA]; exact i.2
  have hj : (j : ℕ) < B.length := by rw [lB]; exact j.2
  have ea : A[(i : ℕ)].den 3 = pauliWord ![(letterPairs[i]).1, (letterPairs[i]).2, .I] := by
    have := List.getElem_of_eq dA (i := i) (by simpa using hi)
    simpa using this
  have eb : B[(j : ℕ)].den 3 = pauliWord ![.I, (letterPairs[j]).1, (letterPairs[j]).2] := by
    have := List.getElem_of_eq dB (i := j) (by simpa using hj)
    simpa using this
  have ni := letterPairs_ne _ (List.getElem_mem i.2)
  have nj := letterPairs_ne _ (List.getElem_mem j.2)
  have ga := gA _ (List.getElem_mem hi)
  have gb := gB _ (List.getElem_mem hj)
  obtain ⟨G, hG, -, h2, h3⟩ := C87_two_generators ord _ _ ga gb
  refine ⟨G, ?_, ?_⟩
  · intro fuel hf
    have g1 : pyGetItem A (i : ℕ) = .ok A[(i : ℕ)] := by
      simp [pyGetItem, pyIndex, hi]
    have g2 : pyGetItem B (j : ℕ) = .ok B[(j : ℕ)] := by
      simp [pyGetItem, pyIndex, hj]
    simp only [algebraGraphsMain, hAB, bind, Except.bind, g1, g2]
    exact hG fuel hf
  · have hs : A[(i : ℕ)].same B[(j : ℕ)] = false := by
      by_contra h
      have hz : ∃ z : ℂ, pauliWord ![(letterPairs[i]).1, (letterPairs[i]).2, .I] =
          z • pauliWord ![.I, (letterPairs[j]).1, (letterPairs[j]).2] := by
        rcases (same_den ga.node gb.node).1 (by simpa using h) with e | e
        · exact ⟨1, by rw [one_smul, ← ea, ← eb, e]⟩
        · exact ⟨-1, by rw [neg_smul, one_smul, ← ea, ← eb, e]⟩
      obtain ⟨z, hz⟩ := hz
      exact ni.1 (congrFun (pauliWord_inj hz) 0)
    rw [ea, eb] at h2 h3
    have hc := words_commute (a := (letterPairs[i]).1) (d := (letterPairs[j]).2) ni.2 nj.1
    split
    · next h => exact h2 hs (hc.2 h)
    · next h => exact h3 (fun h' => h (hc.1 h'))

/-- Both sizes occur: `X₀X₁` with `X₁X₂`, and `X₀X₁` with `Y₁X₂`. -/
example (ord : SetOrder ℕ) : (∃ G, algebraGraphsMain ord 200 0 0 = .ok G ∧ G.nodes.length = 2) ∧
    (∃ G, algebraGraphsMain ord 200 0 3 = .ok G ∧ G.nodes.length = 3) := by
  obtain ⟨G, h1, h2⟩ := C88_main ord ⟨0, by decide⟩ ⟨0, by decide⟩
  obtain ⟨G', h1', h2'⟩ := C88_main ord ⟨0, by decide⟩ ⟨3, by decide⟩
  exact ⟨⟨G, h1 200 (by norm_num), h2⟩, ⟨G', h1' 200 (by norm_num), h2'⟩⟩

end Oranssi
