import Verif.Spec.Parts
import Verif.Lemmas.LieLayers

/-! # Words and their letters, parts of operators -/

namespace Oranssi
open Spec
open scoped Matrix

theorem mem_actsOn {n : ℕ} {v : Fin n → Letter} {i : Fin n} : i ∈ actsOn v ↔ v i ≠ .I := by simp [actsOn]

theorem actsOn_sorted {n : ℕ} (v : Fin n → Letter) : (actsOn v).Pairwise (· < ·) :=
  (List.pairwise_lt_finRange n).sublist List.filter_sublist

/-- Two increasing lists with the same members are equal. -/
theorem increasing_ext {α : Type*} [LinearOrder α] {l l' : List α} (h : l.Pairwise (· < ·)) (h' : l'.Pairwise (· < ·)) (hm : ∀ x, x ∈ l ↔ x ∈ l') : l = l' := by
  refine List.Perm.eq_of_pairwise (le := (· ≤ ·)) (fun a b _ _ h1 h2 => le_antisymm h1 h2) (h.imp le_of_lt) (h'.imp le_of_lt) ?_
  exact (List.perm_ext_iff_of_nodup (h.imp ne_of_lt) (h'.imp ne_of_lt)).2 hm

theorem placed_ne {n : ℕ} {w : List Letter} {q : List ℕ} (hl : q.length = w.length) (hw : ∀ a ∈ w, a ≠ .I) (i : Fin n) :
    placed n w q i ≠ .I ↔ i.val ∈ q := by
  rw [placed]
  constructor
  · intro h
    by_contra hc
    rw [← List.idxOf_eq_length_iff] at hc
    rw [hc, hl] at h
    simp at h
  · intro h
    have h1 := List.idxOf_lt_length_iff.2 h
    rw [List.getElem?_eq_getElem (by omega)]
    exact hw _ (List.getElem_mem _)

/-- The qubits of a word placed on increasing qubits. -/
theorem actsOn_placed {n : ℕ} {w : List Letter} {q : List ℕ} (hl : q.length = w.length) (hw : ∀ a ∈ w, a ≠ .I) (hq : q.Pairwise (· < ·))
    (hn : ∀ x ∈ q, x < n) : (actsOn (placed n w q)).map Fin.val = q := by
  refine increasing_ext ?_ hq ?_
  · rw [List.pairwise_map]
    exact actsOn_sorted _
  · intro x
    rw [List.mem_map]
    constructor
    · rintro ⟨i, hi, rfl⟩
      exact (placed_ne hl hw i).1 (mem_actsOn.1 hi)
    · intro hx
      exact ⟨⟨x, hn x hx⟩, mem_actsOn.2 ((placed_ne hl hw _).2 hx), rfl⟩

/-- The letters of a word placed on increasing qubits. -/
theorem lettersIn_placed {n : ℕ} {w : List Letter} {q : List ℕ} (hl : q.length = w.length) (hw : ∀ a ∈ w, a ≠ .I) (hq : q.Pairwise (· < ·))
    (hn : ∀ x ∈ q, x < n) : lettersIn (placed n w q) = w := by
  have h1 : lettersIn (placed n w q) = ((actsOn (placed n w q)).map Fin.val).map (fun x => (w[q.idxOf x]?).getD .I) := by
    rw [lettersIn, List.map_map]; rfl
  rw [h1, actsOn_placed hl hw hq hn]
  apply List.ext_getElem
  · simp [hl]
  · intro i h2 h3
    have hnd : q.Nodup := hq.imp ne_of_lt
    rw [List.getElem_map, hnd.idxOf_getElem, List.getElem?_eq_getElem h3, Option.getD_some]

/-- Every word is its letters placed on its qubits. -/
theorem placed_letters {n : ℕ} (v : Fin n → Letter) : placed n (lettersIn v) ((actsOn v).map Fin.val) = v := by
  funext i
  rw [placed]
  by_cases h : v i = .I
  · have : (i.val : ℕ) ∉ (actsOn v).map Fin.val := by
      rintro hc
      obtain ⟨j, hj, hji⟩ := List.mem_map.1 hc
      rw [Fin.val_injective hji] at hj
      exact mem_actsOn.1 hj h
    rw [List.idxOf_eq_length_iff.2 this, h]
    simp [lettersIn]
  · have hm : i ∈ actsOn v := mem_actsOn.2 h
    have hm' : i.val ∈ (actsOn v).map Fin.val := List.mem_map.2 ⟨i, hm, rfl⟩
    have h1 := List.getElem?_idxOf hm'
    rw [List.getElem?_map, Option.map_eq_some_iff] at h1
    obtain ⟨j, hj, hji⟩ := h1
    rw [lettersIn, List.getElem?_map, hj, Fin.val_injective hji]
    rfl

theorem component_eq_sum {n : ℕ} (M : QMat n) : ∑ v, component M v • pauliWord v = M := pauliWord_expand M

/-- A part is determined by the words and the operator. -/
theorem isPart_unique {n : ℕ} {S : (Fin n → Letter) → Prop} {M K K' : QMat n} (h : IsPart S M K) (h' : IsPart S M K') : K = K' := by
  rw [← component_eq_sum K, ← component_eq_sum K']
  refine Finset.sum_congr rfl fun v _ => ?_
  by_cases hv : S v
  · rw [h.1 v hv, h'.1 v hv]
  · rw [h.2 v hv, h'.2 v hv]

theorem component_zero {n : ℕ} (v : Fin n → Letter) : component (0 : QMat n) v = 0 := by simp [component]

theorem component_add {n : ℕ} (A B : QMat n) (v : Fin n → Letter) : component (A + B) v = component A v + component B v := by
  simp [component, mul_add, add_div]

theorem component_smul {n : ℕ} (c : ℂ) (A : QMat n) (v : Fin n → Letter) : component (c • A) v = c * component A v := by
  simp [component, mul_div_assoc]

theorem component_word {n : ℕ} (v w : Fin n → Letter) : component (pauliWord w) v = if v = w then 1 else 0 := by
  rw [component, pauliWord_trace_mul]
  split
  · exact div_self (pow_ne_zero _ two_ne_zero)
  · simp

/-- The sum of the components of an operator along different words. -/
theorem isPart_sum {n : ℕ} (M : QMat n) (vs : List (Fin n → Letter)) (hnd : vs.Nodup) :
    IsPart (· ∈ vs) M (vs.map (fun v => component M v • pauliWord v)).sum := by
  induction vs with
  | nil => exact ⟨fun v hv => absurd hv (by simp), fun v _ => component_zero v⟩
  | cons w vs ih =>
    obtain ⟨hw, hnd⟩ := List.nodup_cons.1 hnd
    obtain ⟨h1, h2⟩ := ih hnd
    rw [List.map_cons, List.sum_cons]
    refine ⟨?_, ?_⟩
    · intro v hv
      rw [component_add, component_smul, component_word]
      by_cases hvw : v = w
      · subst hvw
        rw [if_pos rfl, h2 _ hw, mul_one, add_zero]
      · rw [if_neg hvw, mul_zero, zero_add, h1 v (List.mem_of_ne_of_mem hvw hv)]
    · intro v hv
      replace hv : ¬ v ∈ w :: vs := hv
      rw [List.mem_cons, not_or] at hv
      rw [component_add, component_smul, component_word, if_neg hv.1, mul_zero, zero_add, h2 v hv.2]

/-- A part along all words but those along which the operator vanishes is the operator. -/
theorem isPart_all {n : ℕ} {S : (Fin n → Letter) → Prop} {M K : QMat n} (h : IsPart S M K) (hS : ∀ v, ¬ S v → component M v = 0) : K = M := by
  rw [← component_eq_sum K, ← component_eq_sum M]
  refine Finset.sum_congr rfl fun v _ => ?_
  by_cases hv : S v
  · rw [h.1 v hv]
  · rw [h.2 v hv, hS v hv]

end Oranssi
