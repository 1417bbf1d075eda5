import Verif.Model.Tex
import Verif.Spec.MonoDen
import Verif.Props.Printing

/-! # C147: the TeX labels of Pauli operators -/

namespace Oranssi
open Spec

/-- Python's formatting of the numbers that occur as coefficients (`S`, the floating-point numbers): different numbers give different texts, without
spaces. -/
structure Spec.FaithfulFmt (fmt : ℂ → List Char) (S : Set ℂ) : Prop where
  inj : Set.InjOn fmt S
  space : ∀ z ∈ S, ' ' ∉ fmt z

theorem digits_injective : Function.Injective (Nat.toDigits 10) := by
  intro a b h
  have := congrArg (fun l => Nat.ofDigitChars 10 l 0) h
  simpa [Nat.ofDigitChars_toDigits] using this

theorem digits_no {c : Char} (hc : c.isDigit = false) (k : ℕ) : c ∉ Nat.toDigits 10 k := fun h => by
  rw [Nat.isDigit_of_mem_toDigits (by omega) (by omega) h] at hc
  exact absurd hc (by decide)

theorem int2Str_injective : Function.Injective pauliInt2Str := by decide

/-- Digits followed by a character that is not one. -/
theorem digits_append {a b : ℕ} {x y : List Char} (h : Nat.toDigits 10 a ++ '}' :: x = Nat.toDigits 10 b ++ '}' :: y) : a = b ∧ x = y := by
  have ha := List.splitOn_append_cons_self_of_not_mem (digits_no (c := '}') (by decide) a) x
  have hb := List.splitOn_append_cons_self_of_not_mem (digits_no (c := '}') (by decide) b) y
  have e : a = b := digits_injective (by
    rw [h, hb] at ha
    exact (List.cons.inj ha).1.symm)
  subst e
  exact ⟨rfl, (List.cons.inj (List.append_cancel_left h)).2⟩

theorem texBare_spec {p q : Pauli} (h : p.texBare = q.texBare) : p.alpha = q.alpha ∧ p.gamma = q.gamma := by
  rw [Pauli.texBare, Pauli.texBare] at h
  split at h <;> split at h
  · next hp hq =>
    have := List.append_cancel_left h
    exact ⟨(digits_append (x := []) (y := []) this).1, hp.trans hq.symm⟩
  · exact absurd (congrArg List.head? h) (by simp)
  · exact absurd (congrArg List.head? h) (by simp)
  · have := digits_append (x := "^{".toList ++ [pauliInt2Str p.gamma, '}']) (y := "^{".toList ++ [pauliInt2Str q.gamma, '}']) (List.append_cancel_left h)
    refine ⟨this.1, int2Str_injective ?_⟩
    have h2 := List.append_cancel_left this.2
    exact (List.cons.inj h2).1

theorem texBare_space (p : Pauli) : ' ' ∉ p.texBare := by
  have hd := digits_no (c := ' ') (by decide) p.alpha
  have hg : ' ' ≠ pauliInt2Str p.gamma := by
    generalize p.gamma = g
    revert g; decide
  rw [Pauli.texBare]
  split
  · simp [hd]
  · simp [hd, hg]

theorem texBare_ne (p : Pauli) : p.texBare ≠ [] := by
  rw [Pauli.texBare]; split <;> simp

theorem mono_texBare_split (m : Mono) (h : m.monomial ≠ []) : m.texBare.splitOn ' ' = m.monomial.map Pauli.texBare := by
  refine List.splitOn_intercalate ' ' (fun l hl => ?_) (by simpa using h)
  obtain ⟨p, -, rfl⟩ := List.mem_map.1 hl
  exact texBare_space p

theorem mono_texBare_injective {m m' : Mono} (h : m.texBare = m'.texBare) : m.word = m'.word := by
  have key : ∀ l l' : List Pauli, l.map Pauli.texBare = l'.map Pauli.texBare → l.map (fun p => (p.alpha, p.gamma)) = l'.map (fun p => (p.alpha, p.gamma)) := by
    intro l
    induction l with
    | nil => intro l' h; cases l' with
      | nil => rfl
      | cons => simp at h
    | cons p l ih => intro l' h; cases l' with
      | nil => simp at h
      | cons q l' =>
        simp only [List.map_cons, List.cons.injEq] at h ⊢
        have := texBare_spec h.1
        exact ⟨Prod.ext this.1 this.2, ih l' h.2⟩
  have nil : ∀ m m' : Mono, m.monomial = [] → m.texBare = m'.texBare → m'.monomial = [] := by
    intro m m' hm h
    by_contra hc
    have e := mono_texBare_split m' hc
    rw [← h, Mono.texBare, hm] at e
    have : ([] : List Char) ∈ m'.monomial.map Pauli.texBare := by rw [← e]; simp
    obtain ⟨p, -, hp⟩ := List.mem_map.1 this
    exact texBare_ne p hp
  by_cases hm : m.monomial = []
  · rw [Mono.word, Mono.word, hm, nil m m' hm h]
  · have hm' : m'.monomial ≠ [] := fun hc => hm (nil m' m hc h.symm)
    refine key _ _ ?_
    rw [← mono_texBare_split m hm, ← mono_texBare_split m' hm', h]

/-- C147: the label of a node of the graph tells its coefficient and its word, site by site, so that nodes with equal labels denote the same operator. -/
theorem C147_label {fmt : ℂ → List Char} {S : Set ℂ} (hf : FaithfulFmt fmt S) (m m' : Mono) (hm : m.coeff ∈ S) (hm' : m'.coeff ∈ S) :
    (nodeLabel fmt m = nodeLabel fmt m' ↔ m.coeff = m'.coeff ∧ m.word = m'.word) ∧
    (nodeLabel fmt m = nodeLabel fmt m' → ∀ n, m.den n = m'.den n) := by
  have key : nodeLabel fmt m = nodeLabel fmt m' → m.coeff = m'.coeff ∧ m.word = m'.word := by
    intro h
    have h1 : m.tex fmt = m'.tex fmt := List.append_cancel_right (List.cons.inj h).2
    rw [Mono.tex, Mono.tex] at h1
    have a := List.splitOn_append_cons_self_of_not_mem (hf.space _ hm) m.texBare
    rw [h1, List.splitOn_append_cons_self_of_not_mem (hf.space _ hm') m'.texBare] at a
    have e : fmt m.coeff = fmt m'.coeff := (List.cons.inj a).1.symm
    refine ⟨hf.inj hm hm' e, mono_texBare_injective ?_⟩
    rw [e] at h1
    exact (List.cons.inj (List.append_cancel_left h1)).2
  refine ⟨⟨key, fun h => ?_⟩, fun h n => ?_⟩
  · have e : m.monomial.map Pauli.texBare = m'.monomial.map Pauli.texBare := by
      have : ∀ l l' : List Pauli, l.map (fun p => (p.alpha, p.gamma)) = l'.map (fun p => (p.alpha, p.gamma)) → l.map Pauli.texBare = l'.map Pauli.texBare := by
        intro l
        induction l with
        | nil => intro l' h; cases l' with
          | nil => rfl
          | cons => simp at h
        | cons p l ih => intro l' h; cases l' with
          | nil => simp at h
          | cons q l' =>
            simp only [List.map_cons, List.cons.injEq, Prod.mk.injEq] at h ⊢
            exact ⟨by rw [Pauli.texBare, Pauli.texBare, h.1.1, h.1.2], ih l' h.2⟩
      exact this _ _ h.2
    rw [nodeLabel, nodeLabel, Mono.tex, Mono.tex, Mono.texBare, Mono.texBare, h.1, e]
  · obtain ⟨h1, h2⟩ := key h
    rw [Mono.den, Mono.den, Mono.wordOp, Mono.wordOp, h1, h2]

/-- C147: the label of a single Pauli operator does not show the site of an identity; otherwise it shows everything. -/
theorem C147_pauli {fmt : ℂ → List Char} {S : Set ℂ} (hf : FaithfulFmt fmt S) (p q : Pauli) (hp : p.coeff ∈ S) (hq : q.coeff ∈ S) :
    p.tex fmt = q.tex fmt ↔ p.coeff = q.coeff ∧ p.gamma = q.gamma ∧ (p.gamma ≠ 0 → p.alpha = q.alpha) := by
  have form : ∀ p : Pauli, p.tex fmt = fmt p.coeff ++ ' ' :: (if p.gamma = 0 then ['I'] else p.texBare) := by
    intro p
    rw [Pauli.tex, Pauli.texBare]
    split <;> rfl
  constructor
  · intro h
    rw [form, form] at h
    have a := List.splitOn_append_cons_self_of_not_mem (hf.space _ hp) (if p.gamma = 0 then ['I'] else p.texBare)
    rw [h, List.splitOn_append_cons_self_of_not_mem (hf.space _ hq)] at a
    have e : fmt p.coeff = fmt q.coeff := (List.cons.inj a).1.symm
    refine ⟨hf.inj hp hq e, ?_⟩
    rw [e] at h
    have h2 := (List.cons.inj (List.append_cancel_left h)).2
    split at h2 <;> split at h2
    · next hp hq => exact ⟨hp.trans hq.symm, fun hc => absurd hp hc⟩
    · next hp hq => rw [Pauli.texBare, if_neg hq] at h2; simp at h2
    · next hp hq => rw [Pauli.texBare, if_neg hp] at h2; simp at h2
    · have := texBare_spec h2
      exact ⟨this.2, fun _ => this.1⟩
  · rintro ⟨h1, h2, h3⟩
    rw [Pauli.tex, Pauli.tex, h1, h2]
    split
    · rfl
    · next hq => rw [h3 (by rw [h2]; exact hq)]

/-- C147: the identities on two sites, for example, have the same label. -/
theorem C147_identity (fmt : ℂ → List Char) (a b : ℕ) (c : ℂ) : (Pauli.mk a 0 c).tex fmt = (Pauli.mk b 0 c).tex fmt := rfl

/-- A formatting of the coefficients that products of Pauli operators have. -/
noncomputable def unitFmt (z : ℂ) : List Char :=
  open Classical in if z = 1 then "1".toList else if z = -1 then "-1".toList else if z = Complex.I then "1j".toList else "-1j".toList

theorem unitFmt_faithful : FaithfulFmt unitFmt {1, -1, Complex.I, -Complex.I} := by
  have h1 : unitFmt 1 = "1".toList := by simp [unitFmt]
  have h2 : unitFmt (-1) = "-1".toList := by
    have : (-1 : ℂ) ≠ 1 := by norm_num
    simp [unitFmt, this]
  have h3 : unitFmt Complex.I = "1j".toList := by
    have a : Complex.I ≠ 1 := fun h => by simpa using congrArg Complex.re h
    have b : Complex.I ≠ -1 := fun h => by simpa using congrArg Complex.re h
    simp [unitFmt, a, b]
  have h4 : unitFmt (-Complex.I) = "-1j".toList := by
    have a : -Complex.I ≠ 1 := fun h => by simpa using congrArg Complex.re h
    have b : Complex.I ≠ 1 := fun h => by simpa using congrArg Complex.re h
    have c : -Complex.I ≠ Complex.I := fun h => by have := congrArg Complex.im h; norm_num at this
    simp [unitFmt, a, b, c]
  constructor
  · intro a ha b hb h
    rcases ha with rfl | rfl | rfl | rfl <;> rcases hb with rfl | rfl | rfl | rfl <;> first
      | rfl
      | (simp only [h1, h2, h3, h4] at h; exact absurd h (by decide))
  · rintro z (rfl | rfl | rfl | rfl)
    · rw [h1]; decide
    · rw [h2]; decide
    · rw [h3]; decide
    · rw [h4]; decide

/-- Two nodes that differ in the site of one letter have different labels. -/
example : nodeLabel unitFmt ⟨[⟨0, 1, 1⟩, ⟨1, 3, 1⟩], Complex.I⟩ ≠ nodeLabel unitFmt ⟨[⟨0, 1, 1⟩, ⟨2, 3, 1⟩], Complex.I⟩ := by
  intro h
  have := ((C147_label unitFmt_faithful _ _ (by simp) (by simp)).1.1 h).2
  simp [Mono.word] at this

end Oranssi
