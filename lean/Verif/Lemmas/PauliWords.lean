import Mathlib.Data.Fin.Tuple.Basic
import Mathlib.Algebra.BigOperators.Fin
import Mathlib.LinearAlgebra.Matrix.Hermitian
import Mathlib.Tactic.NormNum
import Mathlib.Tactic.IntervalCases
import Mathlib.Tactic.LinearCombination
import Verif.Model.Utils
import Verif.Lemmas.TensorProd

namespace Oranssi
open Spec
open scoped Matrix

/-! ### Single letters -/

theorem Letter.mat_herm (a : Letter) : a.matᴴ = a.mat := by
  cases a <;> ext i j <;> fin_cases i <;> fin_cases j <;> simp [Letter.mat, Matrix.conjTranspose_apply]

theorem Letter.mat_sq (a : Letter) : a.mat * a.mat = 1 := by
  cases a <;> ext i j <;> fin_cases i <;> fin_cases j <;> simp [Letter.mat, Matrix.mul_apply, Fin.sum_univ_two]

theorem Letter.mat_trace (a : Letter) : a.mat.trace = if a = .I then 2 else 0 := by
  cases a <;> simp [Letter.mat, Matrix.trace, Fin.sum_univ_two]

theorem Letter.mat_trace_mul (a b : Letter) : (a.mat * b.mat).trace = if a = b then 2 else 0 := by
  cases a <;> cases b <;> simp [Letter.mat, Matrix.trace, Fin.sum_univ_two] <;> norm_num

theorem Letter.mat_complete (i j k l : Fin 2) :
    ∑ a : Letter, a.mat i j * a.mat k l = if i = l ∧ j = k then 2 else 0 := by
  have : (Finset.univ : Finset Letter) = {.I, .X, .Y, .Z} := rfl
  rw [this]
  rw [Finset.sum_insert (by decide), Finset.sum_insert (by decide), Finset.sum_insert (by decide), Finset.sum_singleton]
  fin_cases i <;> fin_cases j <;> fin_cases k <;> fin_cases l <;> simp [Letter.mat] <;> norm_num

/-! ### Pauli words -/

theorem pauliWord_herm {n : ℕ} (w : Fin n → Letter) : (pauliWord w)ᴴ = pauliWord w := by
  simp only [pauliWord, tensor_conjTranspose, Letter.mat_herm]

theorem pauliWord_sq {n : ℕ} (w : Fin n → Letter) : pauliWord w * pauliWord w = 1 := by
  simp only [pauliWord, tensor_mul, Letter.mat_sq, tensor_one]

theorem pauliWord_trace {n : ℕ} (w : Fin n → Letter) :
    (pauliWord w).trace = if ∀ q, w q = .I then 2 ^ n else 0 := by
  simp only [pauliWord, tensor_trace, Letter.mat_trace]
  split
  · next h => simp [h]
  · next h =>
    push Not at h
    obtain ⟨q, hq⟩ := h
    exact Finset.prod_eq_zero (Finset.mem_univ q) (if_neg hq)

theorem pauliWord_trace_mul {n : ℕ} (w v : Fin n → Letter) :
    (pauliWord w * pauliWord v).trace = if w = v then 2 ^ n else 0 := by
  simp only [pauliWord, tensor_mul, tensor_trace, Letter.mat_trace_mul]
  split
  · next h => subst h; simp
  · next h =>
    obtain ⟨q, hq⟩ := Function.ne_iff.1 h
    exact Finset.prod_eq_zero (Finset.mem_univ q) (if_neg hq)

theorem tprod_complete {n : ℕ} (i j k l : Fin n → Fin 2) :
    ∑ w : Fin n → Letter, tprod (fun q => (w q).mat) i j * tprod (fun q => (w q).mat) k l =
      if i = l ∧ j = k then 2 ^ n else 0 := by
  simp only [tprod, ← Finset.prod_mul_distrib]
  have h := Finset.prod_univ_sum (fun _ : Fin n => (Finset.univ : Finset Letter))
    (fun q a => a.mat (i q) (j q) * a.mat (k q) (l q))
  simp only [Fintype.piFinset_univ] at h
  rw [← h]
  simp only [Letter.mat_complete]
  split
  · next h => obtain ⟨rfl, rfl⟩ := h; simp
  · next h =>
    have : ∃ q, ¬ (i q = l q ∧ j q = k q) := by
      by_contra hc
      push Not at hc
      exact h ⟨funext fun q => (hc q).1, funext fun q => (hc q).2⟩
    obtain ⟨q, hq⟩ := this
    exact Finset.prod_eq_zero (Finset.mem_univ q) (if_neg hq)

theorem tprod_expand {n : ℕ} (M : TMat n) :
    ∑ w : Fin n → Letter, (tprod (fun q => (w q).mat) * M).trace • tprod (fun q => (w q).mat) = (2 : ℂ) ^ n • M := by
  ext i j
  simp only [Matrix.sum_apply, Matrix.smul_apply, smul_eq_mul, Matrix.trace, Matrix.diag, Matrix.mul_apply,
    Finset.sum_mul]
  rw [Finset.sum_comm]
  have : ∀ k, ∑ w : Fin n → Letter, ∑ l, tprod (fun q => (w q).mat) k l * M l k * tprod (fun q => (w q).mat) i j =
      ∑ l, M l k * (if i = l ∧ j = k then 2 ^ n else 0) := by
    intro k
    rw [Finset.sum_comm]
    apply Finset.sum_congr rfl
    intro l _
    rw [← tprod_complete i j k l, Finset.mul_sum]
    apply Finset.sum_congr rfl
    intro w _
    ring
  simp only [this]
  rw [Finset.sum_eq_single j, Finset.sum_eq_single i]
  · simp [mul_comm]
  · intro l _ hl; simp [Ne.symm hl]
  · intro h; exact absurd (Finset.mem_univ _) h
  · intro k _ hk; simp [Ne.symm hk]
  · intro h; exact absurd (Finset.mem_univ _) h

theorem toT_pauliWord {n : ℕ} (w : Fin n → Letter) : toT n (pauliWord w) = tprod (fun q => (w q).mat) := toT_tensor _

theorem pauliWord_expand {n : ℕ} (M : QMat n) :
    ∑ w : Fin n → Letter, ((pauliWord w * M).trace / 2 ^ n) • pauliWord w = M := by
  apply (toT n).injective
  rw [map_sum]
  have h := tprod_expand (toT n M)
  have h2 : ∀ w : Fin n → Letter, toT n (((pauliWord w * M).trace / 2 ^ n) • pauliWord w) =
      ((2 : ℂ) ^ n)⁻¹ • ((tprod (fun q => (w q).mat) * toT n M).trace • tprod (fun q => (w q).mat)) := by
    intro w
    rw [map_smul, toT_pauliWord, ← toT_trace, map_mul, toT_pauliWord, smul_smul, div_eq_inv_mul]
  simp only [h2]
  rw [← Finset.smul_sum, h, smul_smul, inv_mul_cancel₀ (pow_ne_zero _ two_ne_zero), one_smul]

/-- A matrix orthogonal to every Pauli word vanishes. -/
theorem eq_zero_of_pauli_trace {n : ℕ} {M : QMat n} (h : ∀ w : Fin n → Letter, (pauliWord w * M).trace = 0) : M = 0 := by
  rw [← pauliWord_expand M]; simp [h]

/-! ### Enumeration -/

/-- All functions `Fin k → α` with values in `l`, first coordinate slowest. -/
def fnWords {α : Type} (l : List α) : (k : ℕ) → List (Fin k → α)
  | 0 => [Fin.elim0]
  | k + 1 => l.flatMap (fun a => (fnWords l k).map (fun w => (Fin.cons a w : Fin (k + 1) → α)))

theorem pyProduct_eq_fnWords {α : Type} (l : List α) (k : ℕ) : pyProduct l k = (fnWords l k).map List.ofFn := by
  induction k with
  | zero => simp [pyProduct, fnWords]
  | succ k ih =>
    simp only [pyProduct, fnWords, ih, List.map_flatMap, List.map_map]
    congr 1
    funext a
    apply List.map_congr_left
    intro w _
    simp [List.ofFn_succ]

theorem mem_fnWords {α : Type} (l : List α) (k : ℕ) (w : Fin k → α) : w ∈ fnWords l k ↔ ∀ q, w q ∈ l := by
  induction k with
  | zero => simp [fnWords, Subsingleton.elim w Fin.elim0]
  | succ k ih =>
    simp only [fnWords, List.mem_flatMap, List.mem_map]
    constructor
    · rintro ⟨a, ha, v, hv, rfl⟩ q
      refine Fin.cases ?_ (fun q => ?_) q
      · simpa using ha
      · simpa using (ih v).1 hv q
    · intro h
      exact ⟨w 0, h 0, Fin.tail w, (ih _).2 (fun q => h q.succ), Fin.cons_self_tail w⟩

theorem pyProduct_pairwise {α : Type} (R : α → α → Prop) (l : List α) (hl : l.Pairwise R) (k : ℕ) :
    (pyProduct l k).Pairwise (List.Lex R) := by
  induction k with
  | zero => simp [pyProduct]
  | succ k ih =>
    rw [pyProduct, List.pairwise_flatMap]
    constructor
    · intro a _
      rw [List.pairwise_map]
      exact ih.imp (fun h => List.Lex.cons h)
    · refine hl.imp ?_
      intro a b hab x hx y hy
      obtain ⟨v, _, rfl⟩ := List.mem_map.1 hx
      obtain ⟨u, _, rfl⟩ := List.mem_map.1 hy
      exact List.Lex.rel hab

theorem fnWords_nodup {α : Type} (l : List α) (hl : l.Nodup) (k : ℕ) : (fnWords l k).Nodup := by
  induction k with
  | zero => simp [fnWords]
  | succ k ih =>
    rw [fnWords, List.nodup_flatMap]
    refine ⟨fun a _ => ih.map (Fin.cons_right_injective (α := fun _ => α) a), ?_⟩
    refine hl.imp ?_
    intro a b hab x hx hy
    obtain ⟨v, _, rfl⟩ := List.mem_map.1 hx
    obtain ⟨u, _, h⟩ := List.mem_map.1 hy
    exact hab (congrFun h 0).symm

theorem length_pyProduct {α : Type} (l : List α) (k : ℕ) : (pyProduct l k).length = l.length ^ k := by
  induction k with
  | zero => simp [pyProduct]
  | succ k ih => simp [pyProduct, ih, pow_succ']

theorem pyProduct_map {α β : Type} (f : α → β) (l : List α) (k : ℕ) :
    (pyProduct l k).map (List.map f) = pyProduct (l.map f) k := by
  induction k with
  | zero => simp [pyProduct]
  | succ k ih =>
    simp only [pyProduct, ← ih, List.map_flatMap, List.map_map, List.flatMap_map]
    rfl

/-! ### The code's operators -/

/-- Letters used by the code for the two values of the flag `identity`. -/
def lettersOf (identity : Bool) : List Letter := if identity then [.I, .X, .Y, .Z] else [.X, .Y, .Z]

/-- single-qubit matrix of a letter as numpy array -/
def npLetter (a : Letter) : NpMat := ⟨2, 2, a.mat⟩

theorem tensor_congr_npQ {a b : ℕ} (hab : a = b) (L : Fin a → Mat2) (M : Fin b → Mat2)
    (h : ∀ i, L i = M (Fin.cast hab i)) : npQ (tensor L) = npQ (tensor M) := by
  subst hab
  congr; funext i; exact h i

theorem npLetter_eq (a : Letter) : npLetter a = npQ (tensor (fun _ : Fin 1 => a.mat)) := by
  refine NpMat.ext' (by rfl) (by rfl) ?_
  intro i j h1 h2
  simp only [npLetter] at h1 h2
  simp only [npLetter, npQ, tensor, Finset.univ_unique, Fin.default_eq_zero, Finset.prod_singleton, bit]
  congr 1
  · apply Fin.ext; simp; omega
  · apply Fin.ext; simp; omega

theorem foldl_npKron (ms : List Letter) : ∀ l0 : List Letter,
    ms.foldl (fun op a => npKron op (npLetter a)) (npQ (pauliWord l0.get)) = npQ (pauliWord (l0 ++ ms).get) := by
  induction ms with
  | nil =>
    intro l0
    simp only [List.foldl_nil]
    exact tensor_congr_npQ (by simp) _ _ (fun i => by simp)
  | cons m ms ih =>
    intro l0
    have h : npKron (npQ (pauliWord l0.get)) (npLetter m) = npQ (pauliWord (l0 ++ [m]).get) := by
      rw [npLetter_eq, npKron_npQ, pauliWord, kron_tensor, pauliWord]
      apply tensor_congr_npQ (by simp)
      intro i
      refine Fin.addCases (fun i => ?_) (fun j => ?_) i
      · simp
      · simp
    rw [List.foldl_cons, h, ih, List.append_assoc]
    rfl

theorem foldl_npKron_nil (ms : List Letter) :
    ms.foldl (fun op a => npKron op (npLetter a)) ⟨1, 1, 1⟩ = npQ (pauliWord ms.get) := by
  have h0 : (⟨1, 1, 1⟩ : NpMat) = npQ (pauliWord ([] : List Letter).get) := by
    refine NpMat.ext' (by rfl) (by rfl) ?_
    intro i j h1 h2
    simp only at h1 h2
    have hi : i = 0 := by omega
    have hj : j = 0 := by omega
    subst hi hj
    simp [npQ, pauliWord, tensor]
  rw [h0, foldl_npKron]
  rfl

theorem pauliWord_ofFn {n : ℕ} (w : Fin n → Letter) : npQ (pauliWord (List.ofFn w).get) = npQ (pauliWord w) := by
  apply tensor_congr_npQ (by simp)
  intro i; simp; rfl

theorem letters_index (id : Bool) (i : ℕ) (hi : i < (pauliList id).length) :
    (pauliList id).getD i npI = npLetter ((lettersOf id).getD i .I) ∧
      pauliIntToStr id i = ((lettersOf id).getD i .I).char := by
  cases id
  · simp [pauliList] at hi
    interval_cases i <;> exact ⟨rfl, rfl⟩
  · simp [pauliList] at hi
    interval_cases i <;> exact ⟨rfl, rfl⟩

theorem range_letters (id : Bool) :
    (List.range (pauliList id).length).map (fun i => (lettersOf id).getD i .I) = lettersOf id := by
  cases id <;> rfl

theorem combs_eq (id : Bool) (k : ℕ) :
    (pyProduct (List.range (pauliList id).length) k).map (List.map (fun i => (lettersOf id).getD i .I)) =
      (fnWords (lettersOf id) k).map List.ofFn := by
  rw [pyProduct_map, range_letters, pyProduct_eq_fnWords]

theorem mem_pyProduct {α : Type} {l : List α} {k : ℕ} {c : List α} (h : c ∈ pyProduct l k) : ∀ a ∈ c, a ∈ l := by
  induction k generalizing c with
  | zero => simp [pyProduct] at h; subst h; simp
  | succ k ih =>
    simp only [pyProduct, List.mem_flatMap, List.mem_map] at h
    obtain ⟨a, ha, v, hv, rfl⟩ := h
    intro b hb
    rcases List.mem_cons.1 hb with rfl | hb
    · exact ha
    · exact ih hv b hb

theorem map_combs {β : Type} (id : Bool) (k : ℕ) (F : List ℕ → β) (G : List Letter → β)
    (h : ∀ c ∈ pyProduct (List.range (pauliList id).length) k,
      F c = G (c.map (fun i => (lettersOf id).getD i .I))) :
    (pyProduct (List.range (pauliList id).length) k).map F = (fnWords (lettersOf id) k).map (fun w => G (List.ofFn w)) := by
  have : (fnWords (lettersOf id) k).map (fun w => G (List.ofFn w)) =
      ((fnWords (lettersOf id) k).map List.ofFn).map G := by rw [List.map_map]; rfl
  rw [this, ← combs_eq, List.map_map]
  apply List.map_congr_left
  intro c hc
  exact h c hc

theorem getSuNOperators_eq (N : ℕ) (id : Bool) :
    getSuNOperators (2 ^ N) id = .ok ((fnWords (lettersOf id) N).map (fun w => npQ (pauliWord w)),
      (fnWords (lettersOf id) N).map wordStr) := by
  have hN : (2 : ℕ) ^ N ≠ 0 := by positivity
  simp only [getSuNOperators, intLog2, hN, if_false, Nat.log_pow (by decide : 1 < 2), bind, Except.bind]
  congr 2
  · rw [map_combs id N _ (fun ls => npQ (pauliWord ls.get))]
    · simp only [pauliWord_ofFn]
    · intro c hc
      rw [← foldl_npKron_nil, List.foldl_map]
      have : ∀ i ∈ c, (pauliList id).getD i npI = npLetter ((lettersOf id).getD i .I) :=
        fun i hi => (letters_index id i (List.mem_range.1 (mem_pyProduct hc i hi))).1
      exact List.foldl_ext _ _ _ (fun op i hi => by rw [this i hi])
  · rw [map_combs id N _ (fun ls => String.ofList (ls.map Letter.char))]
    · rfl
    · intro c hc
      simp only [List.map_map]
      congr 1
      apply List.map_congr_left
      intro i hi
      exact (letters_index id i (List.mem_range.1 (mem_pyProduct hc i hi))).2

end Oranssi
