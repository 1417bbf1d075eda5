import Verif.Props.Pauli
import Mathlib.Data.List.Basic

/-! # Lemmas about `PauliSum.simplify` -/

namespace Oranssi
open Spec
open scoped Matrix

/-- The operator denoted by a `PauliSum` (list of addresses) in a heap. -/
noncomputable def sumDen (n : ℕ) (h : Heap) (ps : List ℕ) : QMat n := (ps.map (fun a => (h.get a).den n)).sum

theorem eqCore_symm (a b : Mono) : a.eqCore b = b.eqCore a := by
  have h : ∀ l m : List Pauli, (l.zip m).all (fun pq => pq.1.eqv pq.2) = (m.zip l).all (fun pq => pq.1.eqv pq.2) := by
    intro l
    induction l with
    | nil => intro m; cases m <;> rfl
    | cons p l ih =>
      intro m
      cases m with
      | nil => rfl
      | cons q m =>
        simp only [List.zip_cons_cons, List.all_cons, ih m]
        congr 1
        simp only [Pauli.eqv, eq_comm]
  unfold Mono.eqCore
  rw [h]
  cases isReal a.coeff <;> cases isReal b.coeff <;> rfl

theorem eqCore_refl (a : Mono) : a.eqCore a = true := (eqCore_iff rfl).2 ⟨rfl, rfl⟩

theorem heap_eqv_symm (h : Heap) (a b : ℕ) : h.eqv a b = h.eqv b a := eqCore_symm _ _

/-! ### Index bookkeeping -/

theorem filter_zipIdx (p : ℕ → Bool) (l : List ℕ) (k : ℕ) :
    ((l.zipIdx k).filter (fun aj => aj.2 ∉ ((l.zipIdx k).filter (fun aj => p aj.1)).map (·.2))).map (·.1) =
      l.filter (fun a => !p a) := by
  have h1 : (l.zipIdx k).filter (fun aj => aj.2 ∉ ((l.zipIdx k).filter (fun aj => p aj.1)).map (·.2)) =
      (l.zipIdx k).filter (fun aj => !p aj.1) := by
    apply List.filter_congr
    rintro ⟨a, j⟩ haj
    have haj' := haj
    rw [List.mem_zipIdx_iff_le_and_getElem?_sub] at haj'
    cases hp : p a
    · simp only [Bool.not_false, decide_eq_true_eq, List.mem_map, List.mem_filter, not_exists, not_and]
      rintro ⟨b, j'⟩ ⟨hb, hpb⟩ hjj
      simp only at hjj hpb
      subst hjj
      rw [List.mem_zipIdx_iff_le_and_getElem?_sub] at hb
      simp only at haj' hb
      rw [haj'.2] at hb
      rw [← Option.some.inj hb.2, hp] at hpb
      cases hpb
    · simp only [Bool.not_true, decide_eq_false_iff_not, not_not, List.mem_map, List.mem_filter]
      exact ⟨(a, j), ⟨haj, hp⟩, rfl⟩
  have h2 : (fun aj : ℕ × ℕ => !p aj.1) = (fun a => !p a) ∘ Prod.fst := rfl
  rw [h1, h2, ← List.filter_map, List.zipIdx_map_fst]

theorem exists_first {p : ℕ → Bool} {ps : List ℕ} (h : ∃ a ∈ ps, p a = true) :
    ∃ l1 a0 l2, ps = l1 ++ a0 :: l2 ∧ (∀ x ∈ l1, p x = false) ∧ p a0 = true := by
  induction ps with
  | nil => simp at h
  | cons b ps ih =>
    cases hb : p b
    · obtain ⟨a, ha, hpa⟩ := h
      rcases List.mem_cons.1 ha with rfl | ha
      · rw [hb] at hpa; cases hpa
      · obtain ⟨l1, a0, l2, rfl, h1, h2⟩ := ih ⟨a, ha, hpa⟩
        refine ⟨b :: l1, a0, l2, rfl, ?_, h2⟩
        intro x hx
        rcases List.mem_cons.1 hx with rfl | hx
        · exact hb
        · exact h1 x hx
    · exact ⟨[], b, ps, rfl, by simp, hb⟩

/-- One pass of the loop: the first matching object receives the sum, the other matching positions are removed. -/
theorem simplifyStep_eq (h : Heap) (l1 l2 : List ℕ) (a0 dup : ℕ) (h1 : ∀ x ∈ l1, h.eqv x dup = false)
    (h2 : h.eqv a0 dup = true) :
    simplifyStep h (l1 ++ a0 :: l2) dup =
      .ok (h.setCoeff a0 (((a0 :: l2.filter (fun a => h.eqv a dup)).map (fun a => (h.get a).coeff)).sum),
        l1 ++ a0 :: l2.filter (fun a => !h.eqv a dup)) := by
  have hf1 : l1.filter (fun a => h.eqv a dup) = [] := by
    rw [List.filter_eq_nil_iff]; intro x hx; rw [h1 x hx]; simp
  have hz1 : (l1.zipIdx).filter (fun aj => h.eqv aj.1 dup) = [] := by
    rw [List.filter_eq_nil_iff]
    rintro ⟨x, j⟩ hx
    rw [h1 x (List.fst_mem_of_mem_zipIdx hx)]; simp
  have hfilt : (l1 ++ a0 :: l2).filter (fun a => h.eqv a dup) = a0 :: l2.filter (fun a => h.eqv a dup) := by
    rw [List.filter_append, hf1, List.nil_append, List.filter_cons, if_pos h2]
  have hidx : (((l1 ++ a0 :: l2).zipIdx).filter (fun aj => h.eqv aj.1 dup)).map (·.2) =
      l1.length :: ((l2.zipIdx (l1.length + 1)).filter (fun aj => h.eqv aj.1 dup)).map (·.2) := by
    rw [List.zipIdx_append, List.filter_append, hz1, List.nil_append, List.zipIdx_cons, List.filter_cons, if_pos h2]
    simp
  have hps : (if (l1.length :: ((l2.zipIdx (l1.length + 1)).filter (fun aj => h.eqv aj.1 dup)).map (·.2)).length > 1 then
        (((l1 ++ a0 :: l2).zipIdx).filter (fun aj => aj.2 ∉
          ((l2.zipIdx (l1.length + 1)).filter (fun aj => h.eqv aj.1 dup)).map (·.2))).map (·.1)
      else l1 ++ a0 :: l2) = l1 ++ a0 :: l2.filter (fun a => !h.eqv a dup) := by
    have htail : ∀ j ∈ ((l2.zipIdx (l1.length + 1)).filter (fun aj => h.eqv aj.1 dup)).map (·.2), l1.length + 1 ≤ j := by
      intro j hj
      obtain ⟨⟨a, j'⟩, haj, rfl⟩ := List.mem_map.1 hj
      have := List.mem_of_mem_filter haj
      rw [List.mem_zipIdx_iff_le_and_getElem?_sub] at this
      exact this.1
    split
    · rw [List.zipIdx_append, List.filter_append, List.zipIdx_cons, List.filter_cons, if_pos, List.map_append]
      · have : (l1.zipIdx).filter (fun aj => aj.2 ∉
            ((l2.zipIdx (l1.length + 1)).filter (fun aj => h.eqv aj.1 dup)).map (·.2)) = l1.zipIdx := by
          rw [List.filter_eq_self]
          rintro ⟨x, j⟩ hx
          rw [List.mem_zipIdx_iff_le_and_getElem?_sub] at hx
          have hj : j < l1.length := by
            have := (List.getElem?_eq_some_iff.1 hx.2).1
            omega
          rw [decide_eq_true_eq]
          intro hc
          have := htail j hc
          omega
        rw [this, List.zipIdx_map_fst, List.map_cons, Nat.zero_add, filter_zipIdx (fun a => h.eqv a dup)]
      · rw [decide_eq_true_eq]
        intro hc
        have := htail _ hc
        omega
    · rename_i hlen
      simp only [List.length_cons, List.length_map, gt_iff_lt] at hlen
      have h0 : ((l2.zipIdx (l1.length + 1)).filter (fun aj => h.eqv aj.1 dup)) = [] :=
        List.eq_nil_of_length_eq_zero (by omega)
      have := filter_zipIdx (fun a => h.eqv a dup) l2 (l1.length + 1)
      simp only [h0, List.map_nil, List.not_mem_nil, not_false_eq_true, decide_true, List.filter_true, List.zipIdx_map_fst] at this
      rw [← this]
  simp only [simplifyStep, hidx, hfilt, List.tail_cons, hps]
  have g1 : ∀ (x : ℕ) (l : List ℕ), pyGetItem (x :: l) 0 = .ok x := by
    intro x l; simp [pyGetItem, pyIndex]
  have g2 : pyGetItem (l1 ++ a0 :: l2.filter (fun a => !h.eqv a dup)) (l1.length : ℤ) = .ok a0 := by
    simp [pyGetItem, pyIndex]
  simp only [g1, g2, bind, Except.bind]

/-- All listed monomials have length `L`. -/
def UL (h : Heap) (ps : List ℕ) (L : ℕ) : Prop := ∀ a ∈ ps, (h.get a).monomial.length = L

theorem setCoeff_self (h : Heap) (a : ℕ) (c : ℂ) : (h.setCoeff a c).get a = { h.get a with coeff := c } := by
  simp [Heap.setCoeff]

theorem setCoeff_other (h : Heap) {a b : ℕ} (c : ℂ) (hb : b ≠ a) : (h.setCoeff a c).get b = h.get b := by
  simp [Heap.setCoeff, hb]

theorem setCoeff_monomial (h : Heap) (a b : ℕ) (c : ℂ) : ((h.setCoeff a c).get b).monomial = (h.get b).monomial := by
  by_cases hb : b = a
  · subst hb; rw [setCoeff_self]
  · rw [setCoeff_other h c hb]

theorem eqv_den {h : Heap} {L a b : ℕ} (ha : (h.get a).monomial.length = L) (hb : (h.get b).monomial.length = L)
    (n : ℕ) (he : h.eqv a b = true) : (h.get a).wordOp n = (h.get b).wordOp n :=
  den_of_word ((eqCore_iff (ha.trans hb.symm)).1 he).2

theorem sum_filter_split (n : ℕ) (f : ℕ → QMat n) (p : ℕ → Bool) (l : List ℕ) :
    (l.map f).sum = ((l.filter p).map f).sum + ((l.filter (fun a => !p a)).map f).sum := by
  induction l with
  | nil => simp
  | cons a l ih =>
    cases hp : p a <;> simp [hp, ih] <;> abel

/-- The value is unchanged by one pass. -/
theorem step_value (n L : ℕ) (h : Heap) (l1 l2 : List ℕ) (a0 dup : ℕ) (hd : (h.get dup).monomial.length = L)
    (hul : UL h (l1 ++ a0 :: l2) L) (h1 : ∀ x ∈ l1, h.eqv x dup = false) (h2 : h.eqv a0 dup = true) :
    sumDen n (h.setCoeff a0 (((a0 :: l2.filter (fun a => h.eqv a dup)).map (fun a => (h.get a).coeff)).sum))
        (l1 ++ a0 :: l2.filter (fun a => !h.eqv a dup)) = sumDen n h (l1 ++ a0 :: l2) := by
  simp only [sumDen, List.map_append, List.sum_append, List.map_cons, List.sum_cons, setCoeff_self]
  have e1 : ∀ l : List ℕ, (∀ x ∈ l, h.eqv x dup = false) → ∀ c : ℂ,
      l.map (fun a => ((h.setCoeff a0 c).get a).den n) = l.map (fun a => (h.get a).den n) := by
    intro l hl c
    apply List.map_congr_left
    intro x hx
    rw [setCoeff_other]
    rintro rfl
    rw [hl x hx] at h2; cases h2
  rw [e1 l1 h1, e1 _ (by intro x hx; simpa using (List.mem_filter.1 hx).2),
    sum_filter_split n (fun a => (h.get a).den n) (fun a => h.eqv a dup) l2]
  have e2 : ∀ l : List ℕ, (∀ x ∈ l, h.eqv x dup = true ∧ (h.get x).monomial.length = L) →
      (l.map (fun a => (h.get a).den n)).sum = (l.map (fun a => (h.get a).coeff)).sum • (h.get dup).wordOp n := by
    intro l hl
    induction l with
    | nil => simp
    | cons x l ih =>
      have hx := hl x List.mem_cons_self
      rw [List.map_cons, List.sum_cons, ih (fun y hy => hl y (List.mem_cons_of_mem _ hy)), List.map_cons, List.sum_cons,
        add_smul, Mono.den, eqv_den hx.2 hd n hx.1]
  have ha0 : (h.get a0).monomial.length = L := hul a0 (by simp)
  rw [e2 (l2.filter (fun a => h.eqv a dup))]
  · have : Mono.den n { h.get a0 with
        coeff := (h.get a0).coeff + (List.map (fun a => (h.get a).coeff) (List.filter (fun a => h.eqv a dup) l2)).sum } =
        (h.get a0).den n + (List.map (fun a => (h.get a).coeff) (List.filter (fun a => h.eqv a dup) l2)).sum • (h.get dup).wordOp n := by
      rw [← eqv_den ha0 hd n h2, Mono.den, Mono.den, ← add_smul]
      rfl
    rw [this]
    abel
  · intro x hx
    have hx := List.mem_filter.1 hx
    exact ⟨hx.2, hul x (by simp [hx.1])⟩

/-- The whole loop. -/
theorem loop_value (n L : ℕ) : ∀ (ds : List ℕ) (h : Heap) (ps : List ℕ), UL h ps L → (∀ d ∈ ds, d ∈ ps) →
    ds.Pairwise (fun a b => h.eqv a b = false) →
    ∃ h' ps', simplifyLoop ds h ps = .ok (h', ps') ∧ sumDen n h' ps' = sumDen n h ps ∧
      (∀ a, (h'.get a).monomial = (h.get a).monomial) ∧ (∀ a, a ∉ ps → h'.get a = h.get a) ∧ ps'.Sublist ps ∧
      h'.next = h.next := by
  intro ds
  induction ds with
  | nil => intro h ps _ _ _; exact ⟨h, ps, rfl, rfl, fun _ => rfl, fun _ _ => rfl, List.Sublist.refl _, rfl⟩
  | cons d ds ih =>
    intro h ps hul hmem hpw
    have hd : d ∈ ps := hmem d List.mem_cons_self
    obtain ⟨l1, a0, l2, rfl, h1, h2⟩ := exists_first (p := fun a => h.eqv a d) ⟨d, hd, eqCore_refl _⟩
    have hstep := simplifyStep_eq h l1 l2 a0 d h1 h2
    have hval := step_value n L h l1 l2 a0 d (hul d hd) hul h1 h2
    set c := (((a0 :: l2.filter (fun a => h.eqv a d)).map (fun a => (h.get a).coeff)).sum) with hc
    have hsub : (l1 ++ a0 :: l2.filter (fun a => !h.eqv a d)).Sublist (l1 ++ a0 :: l2) :=
      (List.Sublist.refl _).append (List.filter_sublist.cons_cons _)
    rw [List.pairwise_cons] at hpw
    have hne : ∀ x ∈ ds, x ≠ a0 := by
      rintro x hx rfl
      have := hpw.1 x hx
      rw [heap_eqv_symm, h2] at this; cases this
    have g1 : UL (h.setCoeff a0 c) (l1 ++ a0 :: l2.filter (fun a => !h.eqv a d)) L := by
      intro a ha
      rw [setCoeff_monomial]
      exact hul a (hsub.subset ha)
    have g2 : ∀ x ∈ ds, x ∈ l1 ++ a0 :: l2.filter (fun a => !h.eqv a d) := by
      intro x hx
      have hx' := hmem x (List.mem_cons_of_mem _ hx)
      have hxd := hpw.1 x hx
      rw [heap_eqv_symm] at hxd
      simp only [List.mem_append, List.mem_cons, List.mem_filter] at hx' ⊢
      rcases hx' with hx' | hx' | hx'
      · exact Or.inl hx'
      · exact Or.inr (Or.inl hx')
      · exact Or.inr (Or.inr ⟨hx', by simp [hxd]⟩)
    have g3 : ds.Pairwise (fun a b => (h.setCoeff a0 c).eqv a b = false) := by
      refine List.Pairwise.imp_of_mem ?_ hpw.2
      intro x y hx hy hxy
      rw [Heap.eqv, setCoeff_other h c (hne x hx), setCoeff_other h c (hne y hy)]
      exact hxy
    obtain ⟨h', ps', e, v, m, fr, sub, nx⟩ := ih (h.setCoeff a0 c) _ g1 g2 g3
    refine ⟨h', ps', ?_, v.trans hval, ?_, ?_, sub.trans hsub, nx⟩
    · simp only [simplifyLoop, hstep, bind, Except.bind]
      exact e
    · intro a; rw [m, setCoeff_monomial]
    · intro a ha
      rw [fr a (fun hc => ha (hsub.subset hc)), setCoeff_other]
      rintro rfl
      exact ha (by simp)

/-! ### The set of duplicates -/

theorem pySetOf_spec {α : Type} (eq : α → α → Bool) (hr : ∀ a, eq a a = true) (l : List α) :
    (pySetOf eq l).Pairwise (fun a b => eq a b = false) ∧ (∀ a ∈ pySetOf eq l, a ∈ l) ∧
      ∀ a ∈ l, ∃ b ∈ pySetOf eq l, eq b a = true := by
  have key : ∀ (l acc : List α), acc.Pairwise (fun a b => eq a b = false) →
      let r := l.foldl (fun acc a => if acc.any (fun b => eq b a) then acc else acc ++ [a]) acc
      r.Pairwise (fun a b => eq a b = false) ∧ (∀ a ∈ r, a ∈ acc ∨ a ∈ l) ∧ (∀ a ∈ acc, a ∈ r) ∧
        ∀ a ∈ l, ∃ b ∈ r, eq b a = true := by
    intro l
    induction l with
    | nil => intro acc h; exact ⟨h, fun a ha => Or.inl ha, fun a ha => ha, by simp⟩
    | cons x l ih =>
      intro acc hacc
      simp only [List.foldl_cons]
      by_cases hx : acc.any (fun b => eq b x) = true
      · rw [if_pos hx]
        obtain ⟨p1, p2, p3, p4⟩ := ih acc hacc
        refine ⟨p1, fun a ha => (p2 a ha).imp id (List.mem_cons_of_mem _), p3, ?_⟩
        intro a ha
        rcases List.mem_cons.1 ha with rfl | ha
        · obtain ⟨b, hb, hb2⟩ := List.any_eq_true.1 hx
          exact ⟨b, p3 b hb, hb2⟩
        · exact p4 a ha
      · rw [if_neg hx]
        have hacc' : (acc ++ [x]).Pairwise (fun a b => eq a b = false) := by
          rw [List.pairwise_append]
          refine ⟨hacc, by simp, ?_⟩
          intro a ha b hb
          rw [List.mem_singleton.1 hb]
          by_contra hc
          exact hx (List.any_eq_true.2 ⟨a, ha, by simpa using hc⟩)
        obtain ⟨p1, p2, p3, p4⟩ := ih (acc ++ [x]) hacc'
        refine ⟨p1, ?_, fun a ha => p3 a (by simp [ha]), ?_⟩
        · intro a ha
          rcases p2 a ha with h | h
          · rcases List.mem_append.1 h with h | h
            · exact Or.inl h
            · rw [List.mem_singleton.1 h]; exact Or.inr List.mem_cons_self
          · exact Or.inr (List.mem_cons_of_mem _ h)
        · intro a ha
          rcases List.mem_cons.1 ha with rfl | ha
          · exact ⟨a, p3 a (by simp), hr a⟩
          · exact p4 a ha
  obtain ⟨p1, p2, -, p4⟩ := key l [] List.Pairwise.nil
  exact ⟨p1, fun a ha => (p2 a ha).resolve_left (by simp), p4⟩

theorem duplicates_spec (h : Heap) (ps : List ℕ) (ord : SetOrder ℕ) :
    (∀ d ∈ ord.run (duplicates h ps), d ∈ ps) ∧
      (ord.run (duplicates h ps)).Pairwise (fun a b => h.eqv a b = false) ∧
      ∀ a ∈ ps, ps.countP (fun b => h.eqv b a) > 1 → ∃ d ∈ ord.run (duplicates h ps), h.eqv d a = true := by
  obtain ⟨p1, p2, p3⟩ := pySetOf_spec h.eqv (fun a => eqCore_refl _) (ps.filter (fun i => ps.countP (fun b => h.eqv b i) > 1))
  have hp := ord.perm (duplicates h ps)
  refine ⟨?_, ?_, ?_⟩
  · intro d hd
    exact List.mem_of_mem_filter (p2 d (hp.mem_iff.1 hd))
  · refine (hp.pairwise_iff ?_).2 p1
    intro a b hab
    rw [heap_eqv_symm]; exact hab
  · intro a ha hc
    obtain ⟨d, hd, e⟩ := p3 a (List.mem_filter.2 ⟨ha, by simpa using hc⟩)
    exact ⟨d, hp.mem_iff.2 hd, e⟩

/-- What `simplify` does in general. -/
theorem simplify_value (ord : SetOrder ℕ) (n L : ℕ) (h : Heap) (ps : List ℕ) (hul : UL h ps L) :
    ∃ h' ps' kept, simplify ord h ps = .ok (h', ps') ∧
      sumDen n h' kept = sumDen n h ps ∧ kept.Sublist ps ∧
      (ps' = kept ∨ ps' = kept.filter (fun a => keepCoeff (h'.get a).coeff)) ∧
      (∀ a, (h'.get a).monomial = (h.get a).monomial) ∧ (∀ a, a ∉ ps → h'.get a = h.get a) ∧ h'.next = h.next := by
  obtain ⟨d1, d2, d3⟩ := duplicates_spec h ps ord
  by_cases hd : (duplicates h ps).length = 0
  · exact ⟨h, ps, ps, by simp [simplify, hd], rfl, List.Sublist.refl _, Or.inl rfl, fun _ => rfl, fun _ _ => rfl, rfl⟩
  · obtain ⟨h', ps', e, v, m, fr, sub, nx⟩ := loop_value n L _ h ps hul d1 d2
    refine ⟨h', _, ps', ?_, v, sub, Or.inr rfl, m, fr, nx⟩
    simp [simplify, hd, e, bind, Except.bind]

end Oranssi
