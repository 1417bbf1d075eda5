import Verif.Lemmas.Algebra

/-! # Property C27: the Pauli dictionaries -/

namespace Oranssi
open Spec
open scoped Matrix

/-- Attributes of a table built from the words of the given lengths. -/
theorem algebraSU2_attrs (n : ℕ) : (algebraSU2 n).directions = (allWords [1]).map letterStr ∧ (algebraSU2 n).paulis = tableOf (allWords [1]) := by
  have e : allWords [1] = wordsXYZ 1 := by simp [allWords]
  rw [e, tableOf]
  simp only [algebraSU2, su2_words]
  exact ⟨trivial, trivial⟩

theorem algebraSU4_attrs (n : ℕ) (b : Bool) : (algebraSU4 n b).directions = (allWords (if b then [1, 2] else [2])).map letterStr ∧
    (algebraSU4 n b).paulis = tableOf (allWords (if b then [1, 2] else [2])) ∧ (algebraSU4 n b).qubitsLeft = List.replicate n 0 ∧
    (algebraSU4 n b).fullPaulis = [] := by
  have e1 : allWords [1, 2] = wordsXYZ 1 ++ wordsXYZ 2 := by simp [allWords]
  have e2 : allWords [2] = wordsXYZ 2 := by simp [allWords]
  cases b
  · simp only [algebraSU4, su4_words, Bool.false_eq_true, if_false, e2, tableOf]
    exact ⟨trivial, trivial, trivial, trivial⟩
  · simp only [algebraSU4, su2_words, su4_words, if_true, e1, tableOf, List.map_append]
    exact ⟨trivial, trivial, trivial, trivial⟩

/-- The lengths in the `AlgebraSU8` table. -/
def lens8 (b1 b2 : Bool) : List ℕ := (if b1 then [1] else []) ++ (if b2 then [2] else []) ++ [3]

theorem algebraSU8_attrs (n : ℕ) (b1 b2 : Bool) : ∃ a, algebraSU8 n b1 b2 = .ok a ∧ a.directions = (allWords (lens8 b1 b2)).map letterStr ∧
    a.paulis = tableOf (allWords (lens8 b1 b2)) ∧ a.fullPaulis = [] ∧
    ∀ w ∈ allWords (lens8 b1 b2), dictGet a.qubits w.length = .ok (combinations (List.range n) w.length) := by
  have hq : ∀ w ∈ allWords (lens8 b1 b2), w.length ∈ lens8 b1 b2 := fun w hw => (mem_allWords.1 hw).1
  refine ⟨_, by simp only [algebraSU8, su8_words, su2_words, su4_words, bind, Except.bind]; rfl, ?_, ?_, rfl, ?_⟩
  · cases b1 <;> cases b2 <;> simp [lens8, allWords]
  · cases b1 <;> cases b2 <;> simp [lens8, allWords, tableOf]
  · intro w hw
    have h := hq w hw
    revert h
    generalize w.length = k
    intro h
    have c1 := combinations_one (List.range n)
    cases b1 <;> cases b2 <;> simp [lens8] at h <;> (try rcases h with h | h) <;> (try rcases h with h | h) <;>
      (try subst h) <;> simp [dictSet, dictGet, c1]

/-- C27 (SU(2)): the class's table has exactly one key per direction and qubit, with the right operator. -/
theorem C27_su2 (n : ℕ) : ∃ a, (algebraSU2 n).getAll = .ok a ∧ IsPauliDict n [1] a.fullPaulis ∧ a.getAll = .ok a := by
  obtain ⟨h1, h2⟩ := algebraSU2_attrs n
  have hl : ∀ w ∈ allWords [1], w.length = 1 ∨ w.length = 2 := fun w hw => by have := (mem_allWords.1 hw).1; simp at this; exact Or.inl this
  have hnd : (allWords [1]).Nodup := allWords_nodup (by simp)
  refine ⟨_, getAll_std hnd hl _ h1 h2 rfl [] (Or.inl rfl) rfl, stdDict_spec n (by simp) (by simp), ?_⟩
  exact getAll_std hnd hl _ h1 h2 rfl _ (Or.inr rfl) rfl

/-- C27 (SU(4), with or without SU(2)). -/
theorem C27_su4 (n : ℕ) (addSu2 : Bool) : ∃ a, (algebraSU4 n addSu2).getAll = .ok a ∧
    IsPauliDict n (if addSu2 then [1, 2] else [2]) a.fullPaulis ∧ a.getAll = .ok a := by
  obtain ⟨h1, h2, h3, h4⟩ := algebraSU4_attrs n addSu2
  have hl : ∀ w ∈ allWords (if addSu2 then [1, 2] else [2]), w.length = 1 ∨ w.length = 2 := fun w hw => by
    have := (mem_allWords.1 hw).1; cases addSu2 <;> simp at this <;> simp [this]
  have hl2 : (if addSu2 then [1, 2] else [2] : List ℕ).Nodup := by cases addSu2 <;> simp
  have hnd : (allWords (if addSu2 then [1, 2] else [2])).Nodup := allWords_nodup hl2
  refine ⟨_, getAll_std hnd hl _ h1 h2 h3 [] (Or.inl rfl) h4, stdDict_spec n hl2 (by cases addSu2 <;> simp), ?_⟩
  exact getAll_std hnd hl _ h1 h2 h3 _ (Or.inr rfl) rfl

/-- C27 (SU(8), with or without SU(2) and SU(4)). -/
theorem C27_su8 (n : ℕ) (addSu2 addSu4 : Bool) : ∃ a0 a, algebraSU8 n addSu2 addSu4 = .ok a0 ∧ a0.getAll = .ok a ∧
    IsPauliDict n ((if addSu2 then [1] else []) ++ (if addSu4 then [2] else []) ++ [3]) a.fullPaulis ∧ a.getAll = .ok a := by
  obtain ⟨a0, h0, h1, h2, h3, h4⟩ := algebraSU8_attrs n addSu2 addSu4
  have hl2 : (lens8 addSu2 addSu4).Nodup := by cases addSu2 <;> cases addSu4 <;> simp [lens8]
  have h02 : 0 ∉ lens8 addSu2 addSu4 := by cases addSu2 <;> cases addSu4 <;> simp [lens8]
  have hnd := allWords_nodup hl2
  have hne : ∀ w ∈ allWords (lens8 addSu2 addSu4), w ≠ [] := fun w hw hc => h02 (by simpa [hc] using (mem_allWords.1 hw).1)
  refine ⟨a0, _, h0, getAll8_std hnd hne _ h1 h2 h4 [] (Or.inl rfl) h3, stdDict_spec n hl2 h02, ?_⟩
  exact getAll8_std hnd hne _ h1 h2 h4 _ (Or.inr rfl) rfl

/-- A concrete case: four qubits, SU(4) with SU(2): 12 + 54 entries, among them Z on 1 and Y on 3, called "ZY". -/
example : ∃ a : Algebra 4, (algebraSU4 4 true).getAll = .ok a ∧ a.fullPaulis.length = 66 ∧
    (("ZY", [1, 3]), pauliWord ![.I, .Z, .I, .Y]) ∈ a.fullPaulis := by
  obtain ⟨a, h1, h2, -⟩ := C27_su4 4 true
  refine ⟨a, h1, by rw [h2.count]; decide, ?_⟩
  have : ("ZY", [1, 3]) ∈ a.fullPaulis.map Prod.fst := (h2.keys _ _).2 (by decide)
  obtain ⟨e, he, e1⟩ := List.mem_map.1 this
  obtain ⟨k, M⟩ := e
  have e2 := h2.value [.Z, .Y] [1, 3] M (by
    have : k = (letterStr [.Z, .Y], [1, 3]) := by rw [← show _ = k from e1.symm]; rfl
    rw [← this]; exact he)
  have e3 : placed 4 [.Z, .Y] [1, 3] = ![.I, .Z, .I, .Y] := by decide
  rw [← e3, ← e2, ← e1]
  exact he

end Oranssi
