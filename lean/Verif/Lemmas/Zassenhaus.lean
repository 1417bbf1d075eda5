import Verif.Lemmas.Commutator
import Verif.Lemmas.Greedy
import Verif.Props.Greedy

/-! Lemmas on `ZassenhausLayer`. -/

namespace Oranssi
open scoped Matrix
open Spec

theorem union_length {l a b : List ℕ} (hl : l.Nodup) (ha : a.Nodup) (hb : b.Nodup) (h : ∀ i, i ∈ l ↔ i ∈ a ∨ i ∈ b) :
    l.length + (b.filter (fun x => x ∈ a)).length = a.length + b.length := by
  have h1 : l.toFinset = a.toFinset ∪ b.toFinset := by ext i; simp [h]
  have h2 : (b.filter (fun x => x ∈ a)).toFinset = a.toFinset ∩ b.toFinset := by ext i; simp [and_comm]
  rw [← List.toFinset_card_of_nodup hl, ← List.toFinset_card_of_nodup ha, ← List.toFinset_card_of_nodup hb,
    ← List.toFinset_card_of_nodup (hb.filter _), h1, h2, Finset.card_union_add_card_inter]

/-- The commutator of two pair words that share exactly one qubit. -/
theorem commutator_pair (ord : SetOrder ℕ) {n : ℕ} {wa wb : List Letter} {qa qb : List ℕ} (hwa : wa ∈ allWords [2]) (hwb : wb ∈ allWords [2])
    (hqa : qa ∈ combinations (List.range n) 2) (hqb : qb ∈ combinations (List.range n) 2) (hs : (qb.filter (fun x => x ∈ qa)).length = 1) :
    ∃ ab : Mono, (keyMono wa qa).commutator ord (keyMono wb qb) = .ok ab ∧
      ab.den n = pauliWord (placed n wa qa) * pauliWord (placed n wb qb) - pauliWord (placed n wb qb) * pauliWord (placed n wa qa) ∧
      ∃ w q, ab.keyWithI = (letterStr w, q) ∧ ab.wordOp n = pauliWord (placed n w q) ∧ q ∈ combinations (List.range n) 3 ∧ w.length = 3 ∧
        ((.I ∈ w ∧ ab.coeff = 0) ∨ (.I ∉ w ∧ (ab.coeff = 2 * Complex.I ∨ ab.coeff = -(2 * Complex.I)))) := by
  obtain ⟨la, ia⟩ := mem_allWords.1 hwa
  obtain ⟨lb, ib⟩ := mem_allWords.1 hwb
  obtain ⟨a1, a2, a3⟩ := mem_combinations_range.1 hqa
  obtain ⟨b1, b2, b3⟩ := mem_combinations_range.1 hqb
  have la' : qa.length = wa.length := by simp at la; omega
  have lb' : qb.length = wb.length := by simp at lb; omega
  have Wa := keyMono_wf la' a2
  have Wb := keyMono_wf lb' b2
  have Fa : (keyMono wa qa).Fits n := by rw [Mono.Fits, keyMono_locations la']; exact a3
  have Fb : (keyMono wb qb).Fits n := by rw [Mono.Fits, keyMono_locations lb']; exact b3
  have Ca := keyMono_consistent wa qa
  have Cb := keyMono_consistent wb qb
  obtain ⟨c, hc, wc, lc, cc, -, gc⟩ := mul_spec ord Wa Wb
  obtain ⟨d, hd, wd, ld, cd, -, gd⟩ := mul_spec ord Wb Wa
  have fc : c.Fits n := fun i hi => ((lc i).1 hi).elim (Fa i) (Fb i)
  rw [keyMono_locations la', keyMono_locations lb'] at lc
  obtain ⟨ab, hab, hden⟩ := C17_commutator ord n _ _ Wa Wb Fa Fb Ca Cb
  rw [keyMono_den la' a2 a3, keyMono_den lb' b2 b3] at hden
  have hab' : ab = { c with coeff := c.coeff - d.coeff } := by
    simp only [Mono.commutator, hc, hd, bind, Except.bind] at hab
    exact (Except.ok.inj hab).symm
  have wab : ab.WF := by rw [hab']; exact ⟨wc.sorted⟩
  have fab : ab.Fits n := by rw [hab']; exact fc
  have eloc : ab.locations = c.locations := by rw [hab']; rfl
  have egat : ∀ i, gAt ab i = gammaProd (gAt (keyMono wa qa) i) (gAt (keyMono wb qb) i) := by
    intro i; rw [← gc]; rw [hab']; rfl
  have hlen : c.locations.length = 3 := by
    have := union_length wc.nodup (a2.imp (fun h => Nat.ne_of_lt h)) (b2.imp (fun h => Nat.ne_of_lt h)) lc
    omega
  -- letters
  have zero_out : ∀ {w : List Letter} {q : List ℕ}, q.length = w.length → q.Pairwise (· < ·) → ∀ i, i ∉ q → gAt (keyMono w q) i = 0 := by
    intro w q h1 h2 i hi
    rw [gAt, if_neg (by rw [keyMono_locations h1]; exact hi)]
  have nonzero_in : ∀ {w : List Letter} {q : List ℕ}, q.length = w.length → q.Pairwise (· < ·) → (∀ a ∈ w, a ≠ .I) → ∀ i, i ∈ q → gAt (keyMono w q) i ≠ 0 := by
    intro w q h1 h2 h3 i hi
    have h4 : q.idxOf i < w.length := by rw [← h1]; exact List.idxOf_lt_length_iff.2 hi
    rw [gAt_keyMono h1 h2, List.getElem?_eq_getElem h4]
    have := h3 _ (List.getElem_mem h4)
    intro hc
    apply this
    rw [← letterOf_gOf w[q.idxOf i]]
    exact (letterOf_eq_I _).2 hc
  obtain ⟨s, hsf⟩ := List.length_eq_one_iff.1 hs
  have hshare : ∀ i, (i ∈ qa ∧ i ∈ qb) ↔ i = s := by
    intro i
    have : i ∈ qb.filter (fun x => x ∈ qa) ↔ i ∈ [s] := by rw [hsf]
    simpa [and_comm] using this
  have hsa := ((hshare s).2 rfl).1
  have hsb := ((hshare s).2 rfl).2
  have hoff : ∀ i, i ≠ s → gAt (keyMono wa qa) i = 0 ∨ gAt (keyMono wb qb) i = 0 := by
    intro i hi
    by_cases h1 : i ∈ qa
    · exact Or.inr (zero_out lb' b2 i (fun h2 => hi ((hshare i).1 ⟨h1, h2⟩)))
    · exact Or.inl (zero_out la' a2 i h1)
  have hsn : s < n := a3 s hsa
  have hprod : ∀ f g : ℕ → Fin 4, (∀ i, i ≠ s → f i = 0 ∨ g i = 0) → ∏ q : Fin n, phase (f q) (g q) = phase (f s) (g s) := by
    intro f g h
    rw [Finset.prod_eq_single (⟨s, hsn⟩ : Fin n)]
    · intro q _ hq
      have hq' : q.val ≠ s := fun e => hq (Fin.ext e)
      rcases h q hq' with h | h <;> rw [h]
      · exact phase_zero_left _
      · exact phase_zero_right _
    · intro h; exact absurd (Finset.mem_univ _) h
  have ecoeff : ab.coeff = phase (gAt (keyMono wa qa) s) (gAt (keyMono wb qb) s) - phase (gAt (keyMono wb qb) s) (gAt (keyMono wa qa) s) := by
    rw [hab', mul_coeff ord Wa Wb Fa Fb Ca Cb hc, mul_coeff ord Wb Wa Fb Fa Cb Ca hd, hprod _ _ hoff, hprod _ _ (fun i hi => (hoff i hi).symm)]
    simp [keyMono]
  refine ⟨ab, hab, hden, ab.locations.map (fun i => letterOf (gAt ab i)), ab.locations, keyWithI_eq wab, wordOp_placed wab fab, ?_, ?_, ?_⟩
  · rw [eloc]
    exact mem_combinations_range.2 ⟨hlen, wc.sorted, fc⟩
  · rw [List.length_map, eloc, hlen]
  · by_cases he : gAt (keyMono wa qa) s = gAt (keyMono wb qb) s
    · left
      refine ⟨List.mem_map.2 ⟨s, by rw [eloc, lc]; exact Or.inl hsa, ?_⟩, by rw [ecoeff, he, sub_self]⟩
      rw [letterOf_eq_I, egat, gammaProd_eq_zero, he]
    · right
      constructor
      · intro hmem
        obtain ⟨i, hi, hI⟩ := List.mem_map.1 hmem
        rw [letterOf_eq_I, egat, gammaProd_eq_zero] at hI
        by_cases his : i = s
        · rw [his] at hI; exact he hI
        · rw [eloc, lc] at hi
          rcases hoff i his with h0 | h0
          · rcases hi with hi | hi
            · exact nonzero_in la' a2 ia i hi h0
            · exact nonzero_in lb' b2 ib i hi (by rw [← hI, h0])
          · rcases hi with hi | hi
            · exact nonzero_in la' a2 ia i hi (by rw [hI, h0])
            · exact nonzero_in lb' b2 ib i hi h0
      · rw [ecoeff]
        rcases phase_ne (nonzero_in la' a2 ia s hsa) (nonzero_in lb' b2 ib s hsb) he with ⟨h1, h2⟩ | ⟨h1, h2⟩
        · left; rw [h1, h2]; ring
        · right; rw [h1, h2]; ring

end Oranssi
