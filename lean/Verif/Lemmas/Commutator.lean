import Verif.Lemmas.MonoMul
import Verif.Lemmas.Algebra
import Verif.Props.Pauli
import Verif.Model.Zassenhaus

/-! Commutators of Pauli words given by dictionary keys. -/

namespace Oranssi
open scoped Matrix
open Spec

/-- The index of a letter. -/
def gOf : Letter → Fin 4
  | .I => 0
  | .X => 1
  | .Y => 2
  | .Z => 3

theorem letterOf_gOf (l : Letter) : letterOf (gOf l) = l := by cases l <;> rfl

theorem letterOf_char (g : Fin 4) : (letterOf g).char = pauliInt2Str g := by revert g; decide

theorem letterOf_eq_I (g : Fin 4) : letterOf g = .I ↔ g = 0 := by revert g; decide

/-- The phase of a product of Pauli matrices. -/
noncomputable def phase (g h : Fin 4) : ℂ := (Pauli.mulCore ⟨0, g, 1⟩ ⟨0, h, 1⟩).coeff

theorem mat_mul (g h : Fin 4) : (letterOf g).mat * (letterOf h).mat = phase g h • (letterOf (gammaProd g h)).mat := by
  have := (Pauli.mul_ok ⟨0, g, 1⟩ ⟨0, h, 1⟩ rfl).2.2
  rw [one_smul, one_smul] at this
  exact this.symm

theorem phase_zero_left (g : Fin 4) : phase 0 g = 1 := by
  fin_cases g <;> simp [phase, Pauli.mulCore, Pauli.mul, pyAssert, bind, Except.bind]

theorem phase_zero_right (g : Fin 4) : phase g 0 = 1 := by
  fin_cases g <;> simp [phase, Pauli.mulCore, Pauli.mul, pyAssert, bind, Except.bind]

theorem phase_self (g : Fin 4) : phase g g = 1 := by
  fin_cases g <;> simp [phase, Pauli.mulCore, Pauli.mul, pyAssert, bind, Except.bind]

theorem gammaProd_eq_zero (g h : Fin 4) : gammaProd g h = 0 ↔ g = h := by
  fin_cases g <;> fin_cases h <;>
    simp [gammaProd, Pauli.mulCore, Pauli.mul, pyAssert, bind, Except.bind, pyGetItem, pyIndex]

/-- Different non-identity Pauli matrices anticommute and multiply to `±i` times a Pauli matrix. -/
theorem phase_ne {g h : Fin 4} (hg : g ≠ 0) (hh : h ≠ 0) (hne : g ≠ h) :
    (phase g h = Complex.I ∧ phase h g = -Complex.I) ∨ (phase g h = -Complex.I ∧ phase h g = Complex.I) := by
  fin_cases g <;> fin_cases h <;>
    simp [phase, Pauli.mulCore, Pauli.mul, pyAssert, bind, Except.bind, pyGetItem, pyIndex, leviCivita] at hg hh hne ⊢ <;> norm_num

/-- The product of two words. -/
theorem pauliWord_mul {n : ℕ} (u v : Fin n → Fin 4) : pauliWord (fun q => letterOf (u q)) * pauliWord (fun q => letterOf (v q)) =
    (∏ q, phase (u q) (v q)) • pauliWord (fun q => letterOf (gammaProd (u q) (v q))) := by
  rw [pauliWord, pauliWord, tensor_mul, pauliWord, ← tensor_smul]
  congr 1
  funext q
  exact mat_mul _ _

/-- The coefficient of a product of monomials. -/
theorem mul_coeff (ord : SetOrder ℕ) {n : ℕ} {a b c : Mono} (ha : a.WF) (hb : b.WF) (fa : a.Fits n) (fb : b.Fits n)
    (ca : a.Consistent) (cb : b.Consistent) (hc : a.mul ord b = .ok c) :
    c.coeff = a.coeff * b.coeff * ∏ q : Fin n, phase (gAt a q) (gAt b q) := by
  obtain ⟨c', hc', wc, fc, cc, oc⟩ := mul_den ord ha hb fa fb
  rw [hc] at hc'
  obtain rfl := Except.ok.inj hc'
  obtain ⟨c', hc', -, -, -, -, gc⟩ := mul_spec ord ha hb
  rw [hc] at hc'
  obtain rfl := Except.ok.inj hc'
  rw [op_eq_den fa ca, op_eq_den fb cb, op_eq_den fc cc, Mono.den, Mono.den, Mono.den, smul_mul_smul_comm, wordOp_pauliWord ha fa,
    wordOp_pauliWord hb fb, pauliWord_mul (fun q : Fin n => gAt a q) (fun q : Fin n => gAt b q), smul_smul] at oc
  have e : c.wordOp n = pauliWord (fun q : Fin n => letterOf (gammaProd (gAt a q) (gAt b q))) := by
    rw [wordOp_pauliWord wc fc]
    simp only [gc]
  rw [← e] at oc
  exact smul_left_injective ℂ (wordOp_ne_zero wc fc) oc

/-- The monomial of a dictionary key. -/
noncomputable def keyMono (w : List Letter) (q : List ℕ) : Mono := ⟨(q.zip w).map (fun p => ⟨p.1, gOf p.2, 1⟩), 1⟩

theorem monoOfKey_letterStr {w : List Letter} {q : List ℕ} (hl : q.length = w.length) (hs : q.Pairwise (· < ·)) :
    monoOfKey (letterStr w, q) = .ok (keyMono w q) := by
  have e1 : (q.zip (w.map gOf)).map (·.1) = q := by rw [List.map_fst_zip (by simp [hl])]
  have e2 : (q.zip (w.map gOf)).map (fun p => pauliInt2Str p.2) = w.map Letter.char := by
    have : (q.zip (w.map gOf)).map (fun p => pauliInt2Str p.2) = ((q.zip (w.map gOf)).map (·.2)).map pauliInt2Str := by rw [List.map_map]; rfl
    rw [this, List.map_snd_zip (by simp [hl]), List.map_map]
    apply List.map_congr_left
    intro l _
    rw [Function.comp_apply, ← letterOf_char, letterOf_gOf]
  have := monoOfKey_eq (q.zip (w.map gOf)) (by rw [e1]; exact hs)
  rw [e1, e2] at this
  rw [letterStr, this, keyMono, List.zip_map_right, List.map_map]
  rfl

theorem keyMono_locations {w : List Letter} {q : List ℕ} (hl : q.length = w.length) : (keyMono w q).locations = q := by
  rw [Mono.locations, keyMono, List.map_map]
  exact List.map_fst_zip (by omega)

theorem keyMono_wf {w : List Letter} {q : List ℕ} (hl : q.length = w.length) (hs : q.Pairwise (· < ·)) : (keyMono w q).WF :=
  ⟨by rw [keyMono_locations hl]; exact hs⟩

theorem keyMono_consistent (w : List Letter) (q : List ℕ) : (keyMono w q).Consistent := by
  simp [Mono.Consistent, keyMono, Function.comp_def]

theorem gAt_keyMono {w : List Letter} {q : List ℕ} (hl : q.length = w.length) (hs : q.Pairwise (· < ·)) (i : ℕ) :
    gAt (keyMono w q) i = gOf ((w[q.idxOf i]?).getD .I) := by
  have hwf := keyMono_wf hl hs
  by_cases hi : i ∈ q
  · have h1 : q.idxOf i < q.length := List.idxOf_lt_length_iff.2 hi
    have h2 : q.idxOf i < w.length := by omega
    have hmem : (⟨i, gOf w[q.idxOf i], 1⟩ : Pauli) ∈ (keyMono w q).monomial := by
      rw [keyMono]
      refine List.mem_map.2 ⟨(q[q.idxOf i], w[q.idxOf i]), ?_, by rw [List.getElem_idxOf]⟩
      rw [← List.getElem_zip (h := by simp; omega)]
      exact List.getElem_mem _
    rw [List.getElem?_eq_getElem h2]
    exact gAt_mem hwf.nodup hmem
  · rw [gAt, if_neg (by rw [keyMono_locations hl]; exact hi), List.idxOf_eq_length_iff.2 hi, hl]
    simp [gOf]

theorem keyMono_den {n : ℕ} {w : List Letter} {q : List ℕ} (hl : q.length = w.length) (hs : q.Pairwise (· < ·)) (hq : ∀ x ∈ q, x < n) :
    (keyMono w q).den n = pauliWord (placed n w q) := by
  rw [Mono.den, wordOp_pauliWord (keyMono_wf hl hs) (by rw [Mono.Fits, keyMono_locations hl]; exact hq)]
  simp only [gAt_keyMono hl hs, letterOf_gOf]
  exact one_smul _ _

/-- The name of a monomial, and the word it stands for. -/
theorem keyWithI_eq {m : Mono} (hm : m.WF) : m.keyWithI = (letterStr (m.locations.map (fun i => letterOf (gAt m i))), m.locations) := by
  rw [Mono.keyWithI, letterStr, List.map_map]
  have h := congrArg (List.map (fun p : ℕ × Fin 4 => pauliInt2Str p.2)) (word_eq hm)
  rw [Mono.word, List.map_map, List.map_map] at h
  refine Prod.ext ?_ rfl
  simp only
  congr 1
  refine h.trans ?_
  apply List.map_congr_left
  intro i _
  exact (letterOf_char _).symm

theorem wordOp_placed {n : ℕ} {m : Mono} (hm : m.WF) (hf : m.Fits n) :
    m.wordOp n = pauliWord (placed n (m.locations.map (fun i => letterOf (gAt m i))) m.locations) := by
  rw [wordOp_pauliWord hm hf]
  congr 1
  funext q
  rw [placed, List.getElem?_map]
  by_cases hq : q.val ∈ m.locations
  · rw [List.getElem?_eq_getElem (List.idxOf_lt_length_iff.2 hq), List.getElem_idxOf]
    rfl
  · rw [List.idxOf_eq_length_iff.2 hq, gAt, if_neg hq]
    simp [letterOf]

end Oranssi
