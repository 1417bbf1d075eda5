import Mathlib.Analysis.Matrix.Normed
import Verif.Lemmas.PauliWords

/-! # C09 – C11: Pauli operator tables and the operator norm -/

namespace Oranssi
open Spec
open scoped Matrix

theorem npKron_one_left (M : NpMat) : npKron ⟨1, 1, 1⟩ M = M := by
  refine NpMat.ext' (by simp [npKron]) (by simp [npKron]) ?_
  intro i j h1 h2
  simp only [npKron, Nat.one_mul] at h1 h2
  simp only [npKron]
  have h5 : ∀ x y : Fin 1, (1 : Matrix (Fin 1) (Fin 1) ℂ) x y = 1 := by
    intro x y; rw [Subsingleton.elim x y, Matrix.one_apply_eq]
  rw [h5, one_mul]
  congr 1 <;> apply Fin.ext <;> simp [Nat.mod_eq_of_lt h1, Nat.mod_eq_of_lt h2]

/-- C09.  `get_su_n_operators(2^N, identity)` lists exactly the words of length `N` over the alphabet, each once, in
lexicographic order, each with the tensor product of its letters. -/
theorem C09_pauli_words (N : ℕ) (identity : Bool) :
    ∃ (ops : List NpMat) (names : List String), getSuNOperators (2 ^ N) identity = .ok (ops, names) ∧
      names.Pairwise (· < ·) ∧
      (∀ s : String, s ∈ names ↔
        s.toList.length = N ∧ ∀ ch ∈ s.toList, ch ∈ (if identity then ['I', 'X', 'Y', 'Z'] else ['X', 'Y', 'Z'])) ∧
      names.length = (if identity then 4 else 3) ^ N ∧ ops.length = names.length ∧
      ∀ i (h1 : i < ops.length) (h2 : i < names.length), ∃ w : Fin N → Letter,
        names[i].toList = List.ofFn (fun q => (w q).char) ∧ ops[i] = ⟨2 ^ N, 2 ^ N, pauliWord w⟩ := by
  refine ⟨_, _, getSuNOperators_eq N identity, ?_, ?_, ?_, by simp, ?_⟩
  · have h : (fnWords (lettersOf identity) N).map wordStr =
        (pyProduct ((lettersOf identity).map Letter.char) N).map String.ofList := by
      rw [← pyProduct_map, pyProduct_eq_fnWords, List.map_map, List.map_map]; rfl
    rw [h, List.pairwise_map]
    have hs : ((lettersOf identity).map Letter.char).Pairwise (· < ·) := by cases identity <;> decide
    refine (pyProduct_pairwise _ _ hs N).imp ?_
    intro a b hab
    show (String.ofList a).toList < (String.ofList b).toList
    rw [String.toList_ofList, String.toList_ofList]
    exact hab
  · intro s
    have hch : ∀ ch, ch ∈ (if identity then ['I', 'X', 'Y', 'Z'] else ['X', 'Y', 'Z']) ↔
        ∃ a ∈ lettersOf identity, a.char = ch := by
      intro ch; cases identity <;> simp [lettersOf, Letter.char, eq_comm]
    simp only [List.mem_map, hch]
    constructor
    · rintro ⟨w, hw, rfl⟩
      have hw := (mem_fnWords _ _ _).1 hw
      simp only [wordStr, String.toList_ofList, List.length_map, List.length_ofFn, true_and]
      intro ch hch
      obtain ⟨a, ha, rfl⟩ := List.mem_map.1 hch
      obtain ⟨q, rfl⟩ := (List.mem_ofFn' _ _).1 ha
      exact ⟨_, hw q, rfl⟩
    · rintro ⟨hlen, hall⟩
      have : ∀ q : Fin N, ∃ a ∈ lettersOf identity, a.char = s.toList[q]'(by omega) :=
        fun q => hall _ (List.getElem_mem _)
      choose w hw1 hw2 using this
      refine ⟨w, (mem_fnWords _ _ _).2 hw1, ?_⟩
      rw [wordStr, ← String.ofList_toList (s := s)]
      congr 1
      rw [List.map_ofFn]
      apply List.ext_getElem (by simp [hlen])
      intro i h1 h2
      simp [hw2]
  · have := length_pyProduct (lettersOf identity) N
    rw [pyProduct_eq_fnWords, List.length_map] at this
    rw [List.length_map, this]
    cases identity <;> rfl
  · intro i h1 h2
    refine ⟨(fnWords (lettersOf identity) N)[i]'(by simpa using h1), ?_, ?_⟩
    · simp only [List.getElem_map, wordStr, String.toList_ofList, List.map_ofFn]; rfl
    · simp [npQ]

/-- Instance of C09 with N = 1: four names, the third one is "Y". -/
example : ∃ ops names, getSuNOperators (2 ^ 1) true = .ok (ops, names) ∧ names.length = 4 ∧ "Y" ∈ names ∧ "YY" ∉ names := by
  obtain ⟨ops, names, h, _, hm, hl, _⟩ := C09_pauli_words 1 true
  exact ⟨ops, names, h, by simpa using hl, (hm _).2 (by decide), fun hc => absurd ((hm _).1 hc).1 (by decide)⟩

/-- C09, special cases: `get_su_2_operators` and `get_su_4_operators` agree with `get_su_n_operators`. -/
theorem C09_su2_su4_cases (identity : Bool) :
    getSuNOperators 2 identity = .ok (getSu2Operators identity) ∧
      getSuNOperators 4 identity = .ok (getSu4Operators identity) := by
  constructor
  · cases identity <;>
    simp [getSuNOperators, intLog2, getSu2Operators, pauliList, pyProduct, npKron_one_left, bind, Except.bind,
      List.range_succ, pauliIntToStr, show Nat.log 2 2 = 1 by decide]
  · cases identity <;>
    simp [getSuNOperators, intLog2, getSu4Operators, pauliList, pyProduct, npKron_one_left, bind, Except.bind,
      List.range_succ, pauliIntToStr, show Nat.log 2 4 = 2 by decide]

/-- C10.  The operators returned with `identity=True` are Hermitian, square to one, are pairwise trace-orthogonal,
all but the first are traceless, and every matrix is `Σ_P tr(P M)/2^N P`. -/
theorem C10_pauli_basis (N : ℕ) :
    ∃ (Ps : List (QMat N)) (names : List String),
      getSuNOperators (2 ^ N) true = .ok (Ps.map (fun P => ⟨2 ^ N, 2 ^ N, P⟩), names) ∧
      (∀ P ∈ Ps, Pᴴ = P ∧ P * P = 1) ∧
      Ps.Pairwise (fun P Q => (P * Q).trace = 0) ∧
      (∀ P ∈ Ps, P ≠ 1 → P.trace = 0) ∧ 1 ∈ Ps ∧
      ∀ M : QMat N, (Ps.map (fun P => ((P * M).trace / 2 ^ N) • P)).sum = M := by
  have hnd : (fnWords (lettersOf true) N).Nodup := fnWords_nodup _ (by decide) N
  have hmem : ∀ w, w ∈ fnWords (lettersOf true) N := by
    intro w; rw [mem_fnWords]; intro q; cases w q <;> simp [lettersOf]
  refine ⟨(fnWords (lettersOf true) N).map pauliWord, (fnWords (lettersOf true) N).map wordStr, ?_, ?_, ?_, ?_, ?_, ?_⟩
  · rw [getSuNOperators_eq, List.map_map]; rfl
  · intro P hP
    obtain ⟨w, _, rfl⟩ := List.mem_map.1 hP
    exact ⟨pauliWord_herm w, pauliWord_sq w⟩
  · rw [List.pairwise_map]
    refine hnd.imp ?_
    intro a b hab
    rw [pauliWord_trace_mul, if_neg hab]
  · intro P hP hne
    obtain ⟨w, _, rfl⟩ := List.mem_map.1 hP
    rw [pauliWord_trace, if_neg]
    intro h
    apply hne
    simp only [pauliWord, h, Letter.mat, tensor_one]
  · exact List.mem_map.2 ⟨fun _ => .I, hmem _, by simp only [pauliWord, Letter.mat, tensor_one]⟩
  · intro M
    rw [List.map_map]
    conv_rhs => rw [← pauliWord_expand M]
    have := List.sum_toFinset (fun w : Fin N → Letter => ((pauliWord w * M).trace / 2 ^ N) • pauliWord w) hnd
    rw [Function.comp_def, ← this]
    apply Finset.sum_congr _ (fun _ _ => rfl)
    ext w; simp [hmem]

/-- C10, `identity=False`: same conclusions except completeness. -/
theorem C10_pauli_basis_no_identity (N : ℕ) :
    ∃ (Ps : List (QMat N)) (names : List String),
      getSuNOperators (2 ^ N) false = .ok (Ps.map (fun P => ⟨2 ^ N, 2 ^ N, P⟩), names) ∧
      (∀ P ∈ Ps, Pᴴ = P ∧ P * P = 1) ∧ Ps.Pairwise (fun P Q => (P * Q).trace = 0) ∧
      (0 < N → ∀ P ∈ Ps, P.trace = 0) := by
  have hnd : (fnWords (lettersOf false) N).Nodup := fnWords_nodup _ (by decide) N
  refine ⟨(fnWords (lettersOf false) N).map pauliWord, (fnWords (lettersOf false) N).map wordStr, ?_, ?_, ?_, ?_⟩
  · rw [getSuNOperators_eq, List.map_map]; rfl
  · intro P hP
    obtain ⟨w, _, rfl⟩ := List.mem_map.1 hP
    exact ⟨pauliWord_herm w, pauliWord_sq w⟩
  · rw [List.pairwise_map]
    refine hnd.imp ?_
    intro a b hab
    rw [pauliWord_trace_mul, if_neg hab]
  · intro hN P hP
    obtain ⟨w, hw, rfl⟩ := List.mem_map.1 hP
    rw [pauliWord_trace, if_neg]
    intro h
    have := (mem_fnWords _ _ _).1 hw ⟨0, hN⟩
    rw [h] at this
    simp [lettersOf] at this

/-! ### C11 -/

theorem trace_gram {m n : ℕ} (R : Matrix (Fin m) (Fin n) ℂ) :
    (Rᴴ * R).trace = ((∑ i, ∑ j, ‖R i j‖ ^ 2 : ℝ) : ℂ) := by
  simp only [Matrix.trace, Matrix.diag, Matrix.mul_apply, Matrix.conjTranspose_apply]
  rw [Finset.sum_comm]
  push_cast
  refine Finset.sum_congr rfl (fun i _ => Finset.sum_congr rfl (fun j _ => ?_))
  rw [← Complex.conj_mul']; rfl

theorem operator2Norm_eq {m n : ℕ} (R : Matrix (Fin m) (Fin n) ℂ) :
    operator2Norm R = Real.sqrt (∑ i, ∑ j, ‖R i j‖ ^ 2) := by
  have h0 : 0 ≤ ∑ i, ∑ j, ‖R i j‖ ^ 2 := Finset.sum_nonneg fun _ _ => Finset.sum_nonneg fun _ _ => by positivity
  rw [operator2Norm, trace_gram, show (1 / 2 : ℂ) = ((1 / 2 : ℝ) : ℂ) by push_cast; ring, ← Complex.ofReal_cpow h0,
    Complex.ofReal_re, Real.sqrt_eq_rpow]

attribute [local instance] Matrix.frobeniusNormedAddCommGroup Matrix.frobeniusNormedSpace in
theorem operator2Norm_eq_norm {m n : ℕ} (R : Matrix (Fin m) (Fin n) ℂ) : operator2Norm R = ‖R‖ := by
  rw [operator2Norm_eq, Matrix.frobenius_norm_def, Real.sqrt_eq_rpow]
  congr 1
  refine Finset.sum_congr rfl (fun i _ => Finset.sum_congr rfl (fun j _ => ?_))
  simp

/-- C11.  `operator_2_norm` is the unitarily invariant Frobenius norm. -/
theorem C11_operator_2_norm (m n : ℕ) (R S : Matrix (Fin m) (Fin n) ℂ) (z : ℂ) (U : Matrix (Fin m) (Fin m) ℂ)
    (V : Matrix (Fin n) (Fin n) ℂ) (hU : Uᴴ * U = 1) (hV : V * Vᴴ = 1) :
    operator2Norm R = Real.sqrt (∑ i, ∑ j, ‖R i j‖ ^ 2) ∧ 0 ≤ operator2Norm R ∧ (operator2Norm R = 0 ↔ R = 0) ∧
      operator2Norm (z • R) = ‖z‖ * operator2Norm R ∧
      operator2Norm (R + S) ≤ operator2Norm R + operator2Norm S ∧
      operator2Norm (U * R) = operator2Norm R ∧ operator2Norm (R * V) = operator2Norm R := by
  refine ⟨operator2Norm_eq R, ?_, ?_, ?_, ?_, ?_, ?_⟩
  · rw [operator2Norm_eq]; exact Real.sqrt_nonneg _
  · let _ := Matrix.frobeniusNormedAddCommGroup (m := Fin m) (n := Fin n) (α := ℂ)
    rw [operator2Norm_eq_norm, norm_eq_zero]
  · let _ := Matrix.frobeniusNormedAddCommGroup (m := Fin m) (n := Fin n) (α := ℂ)
    let _ := Matrix.frobeniusNormedSpace (R := ℂ) (m := Fin m) (n := Fin n) (α := ℂ)
    rw [operator2Norm_eq_norm, operator2Norm_eq_norm, norm_smul]
  · let _ := Matrix.frobeniusNormedAddCommGroup (m := Fin m) (n := Fin n) (α := ℂ)
    rw [operator2Norm_eq_norm, operator2Norm_eq_norm, operator2Norm_eq_norm]
    exact norm_add_le R S
  · simp only [operator2Norm]
    rw [Matrix.conjTranspose_mul, Matrix.mul_assoc, ← Matrix.mul_assoc Uᴴ, hU, Matrix.one_mul]
  · simp only [operator2Norm]
    rw [Matrix.conjTranspose_mul, Matrix.mul_assoc, Matrix.trace_mul_comm, Matrix.mul_assoc, Matrix.mul_assoc, hV,
      Matrix.mul_one]

/-- The hypotheses of C11 are met by a non-trivial unitary: the Pauli matrix Y. -/
example : (Letter.Y.mat)ᴴ * Letter.Y.mat = 1 ∧ Letter.Y.mat * (Letter.Y.mat)ᴴ = 1 := by
  rw [Letter.mat_herm]; exact ⟨Letter.mat_sq _, Letter.mat_sq _⟩

/-- Concrete value: the norm of the 1-qubit identity is √2. -/
example : operator2Norm (1 : Matrix (Fin 2) (Fin 2) ℂ) = Real.sqrt 2 := by
  rw [operator2Norm_eq]; congr 1; simp [Fin.sum_univ_two, Matrix.one_apply]; norm_num

end Oranssi
