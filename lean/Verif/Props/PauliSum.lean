import Verif.Lemmas.PauliSum

/-! # C21 – C24: sums of Pauli monomials -/

namespace Oranssi
open Spec
open scoped Matrix

theorem new_eq_simplify (ord : SetOrder ℕ) {L : ℕ} {h : Heap} {ps : List ℕ} (hul : UL h ps L) :
    PauliSum.new ord h ps = simplify ord h ps := by
  have hp : ∀ a ∈ ps, (h.get a).monomial.length = (h.get (ps.headD 0)).monomial.length := by
    intro a ha
    rw [hul a ha]
    cases ps with
    | nil => simp at ha
    | cons b ps => rw [List.headD_cons, hul b List.mem_cons_self]
  simp only [PauliSum.new, pyAssert, if_pos hp, bind, Except.bind]

/-- C24, the value: building a `PauliSum` from monomials of one length never fails, and what the result denotes differs from
the sum of the monomials exactly by the dropped terms, whose coefficients are at most 1e-8 in modulus.  Objects outside the
list are untouched and no object changes its Pauli word. -/
theorem C24_simplify_value (ord : SetOrder ℕ) (n L : ℕ) (h : Heap) (ps : List ℕ)
    (hul : ∀ a ∈ ps, (h.get a).monomial.length = L) :
    ∃ h' ps' dropped, PauliSum.new ord h ps = .ok (h', ps') ∧
      sumDen n h' ps' + sumDen n h' dropped = sumDen n h ps ∧ (∀ a ∈ dropped, ‖(h'.get a).coeff‖ ≤ 1 / 10 ^ 8) ∧
      ps'.length + dropped.length ≤ ps.length ∧ (∀ a ∈ ps', a ∈ ps) ∧
      (∀ a, (h'.get a).monomial = (h.get a).monomial) ∧ (∀ a, a ∉ ps → h'.get a = h.get a) := by
  obtain ⟨h', ps', kept, e, v, sub, hk, m, fr, nx⟩ := simplify_value ord n L h ps hul
  rw [new_eq_simplify ord hul]
  rcases hk with rfl | rfl
  · exact ⟨h', _, [], e, by simpa [sumDen] using v, by simp, by simpa using sub.length_le, fun a ha => sub.subset ha, m, fr⟩
  · refine ⟨h', _, kept.filter (fun a => !keepCoeff (h'.get a).coeff), e, ?_, ?_, ?_, ?_, m, fr⟩
    · rw [← v, sumDen, sumDen, sumDen, sum_filter_split n _ (fun a => keepCoeff (h'.get a).coeff) kept]
    · intro a ha
      have := (List.mem_filter.1 ha).2
      simpa [keepCoeff] using this
    · have := sub.length_le
      have h2 : (kept.filter (fun a => keepCoeff (h'.get a).coeff)).length +
          (kept.filter (fun a => !keepCoeff (h'.get a).coeff)).length = kept.length := by
        rw [← List.countP_eq_length_filter, ← List.countP_eq_length_filter]
        exact (List.length_eq_countP_add_countP _).symm.trans rfl |>.symm ▸ by
          congr 1
          apply List.countP_congr
          simp
      omega
    · intro a ha
      exact sub.subset (List.mem_of_mem_filter ha)

/-- Words of the listed monomials. -/
def words (h : Heap) (ps : List ℕ) : List (List (ℕ × Fin 4)) := ps.map (fun a => (h.get a).word)

theorem word_of_monomial {a b : Mono} (h : a.monomial = b.monomial) : a.word = b.word := by rw [Mono.word, Mono.word, h]

theorem eqv_real {h : Heap} {L a b : ℕ} (ha : (h.get a).monomial.length = L) (hb : (h.get b).monomial.length = L)
    (ra : (h.get a).coeff.im = 0) (rb : (h.get b).coeff.im = 0) :
    h.eqv a b = decide ((h.get a).word = (h.get b).word) := by
  have := eqCore_iff (ha.trans hb.symm)
  rw [Bool.eq_iff_iff, decide_eq_true_iff]
  rw [Heap.eqv, this]
  simp [isReal, ra, rb]

theorem sum_real (l : List ℂ) (h : ∀ c ∈ l, c.im = 0) : l.sum.im = 0 := by
  induction l with
  | nil => simp
  | cons c l ih =>
    rw [List.sum_cons, Complex.add_im, h c List.mem_cons_self, ih (fun d hd => h d (List.mem_cons_of_mem _ hd)), add_zero]

theorem loop_real (L : ℕ) : ∀ (ds : List ℕ) (h : Heap) (ps : List ℕ), UL h ps L → (∀ d ∈ ds, d ∈ ps) →
    ds.Pairwise (fun a b => h.eqv a b = false) → (∀ a ∈ ps, (h.get a).coeff.im = 0) →
    ∃ h' ps', simplifyLoop ds h ps = .ok (h', ps') ∧
      ∀ w, (words h' ps').count w ≤ if w ∈ ds.map (fun d => (h.get d).word) then 1 else (words h ps).count w := by
  intro ds
  induction ds with
  | nil => intro h ps _ _ _ _; exact ⟨h, ps, rfl, by simp⟩
  | cons d ds ih =>
    intro h ps hul hmem hpw hre
    have hd : d ∈ ps := hmem d List.mem_cons_self
    obtain ⟨l1, a0, l2, rfl, h1, h2⟩ := exists_first (p := fun a => h.eqv a d) ⟨d, hd, eqCore_refl _⟩
    have hstep := simplifyStep_eq h l1 l2 a0 d h1 h2
    set c := (((a0 :: l2.filter (fun a => h.eqv a d)).map (fun a => (h.get a).coeff)).sum) with hc
    have hcre : c.im = 0 := by
      apply sum_real
      intro z hz
      obtain ⟨a, ha, rfl⟩ := List.mem_map.1 hz
      apply hre
      simp only [List.mem_cons, List.mem_filter] at ha
      simp only [List.mem_append, List.mem_cons]
      tauto
    have hsub : (l1 ++ a0 :: l2.filter (fun a => !h.eqv a d)).Sublist (l1 ++ a0 :: l2) :=
      (List.Sublist.refl _).append (List.filter_sublist.cons_cons _)
    rw [List.pairwise_cons] at hpw
    have hne : ∀ x ∈ ds, x ≠ a0 := by
      rintro x hx rfl
      have := hpw.1 x hx
      rw [heap_eqv_symm, h2] at this; cases this
    have g1 : UL (h.setCoeff a0 c) (l1 ++ a0 :: l2.filter (fun a => !h.eqv a d)) L := by
      intro a ha
      rw [setCoeff_monomial]
      exact hul a (hsub.subset ha)
    have g2 : ∀ x ∈ ds, x ∈ l1 ++ a0 :: l2.filter (fun a => !h.eqv a d) := by
      intro x hx
      have hx' := hmem x (List.mem_cons_of_mem _ hx)
      have hxd := hpw.1 x hx
      rw [heap_eqv_symm] at hxd
      simp only [List.mem_append, List.mem_cons, List.mem_filter] at hx' ⊢
      rcases hx' with hx' | hx' | hx'
      · exact Or.inl hx'
      · exact Or.inr (Or.inl hx')
      · exact Or.inr (Or.inr ⟨hx', by simp [hxd]⟩)
    have g3 : ds.Pairwise (fun a b => (h.setCoeff a0 c).eqv a b = false) := by
      refine List.Pairwise.imp_of_mem ?_ hpw.2
      intro x y hx hy hxy
      rw [Heap.eqv, setCoeff_other h c (hne x hx), setCoeff_other h c (hne y hy)]
      exact hxy
    have g4 : ∀ a ∈ l1 ++ a0 :: l2.filter (fun a => !h.eqv a d), ((h.setCoeff a0 c).get a).coeff.im = 0 := by
      intro a ha
      by_cases haa : a = a0
      · subst haa; rw [setCoeff_self]; exact hcre
      · rw [setCoeff_other h c haa]; exact hre a (hsub.subset ha)
    obtain ⟨h', ps', e, cnt⟩ := ih (h.setCoeff a0 c) _ g1 g2 g3 g4
    refine ⟨h', ps', ?_, ?_⟩
    · simp only [simplifyLoop, hstep, bind, Except.bind]
      exact e
    · intro w
      have hw : ∀ b, ((h.setCoeff a0 c).get b).word = (h.get b).word := fun b => word_of_monomial (setCoeff_monomial h a0 b c)
      have cnt := cnt w
      simp only [words, hw] at cnt ⊢
      have heq : ∀ x ∈ l1 ++ a0 :: l2, h.eqv x d = decide ((h.get x).word = (h.get d).word) :=
        fun x hx => eqv_real (hul x hx) (hul d hd) (hre x hx) (hre d hd)
      have hw0 : (h.get a0).word = (h.get d).word := by
        have := heq a0 (by simp); rw [h2] at this; simpa using this.symm
      have hstepcount : List.count w ((l1 ++ a0 :: l2.filter (fun a => !h.eqv a d)).map (fun a => (h.get a).word)) =
          if w = (h.get d).word then 1 else List.count w ((l1 ++ a0 :: l2).map (fun a => (h.get a).word)) := by
        simp only [List.map_append, List.map_cons, List.count_append, List.count_cons, hw0]
        by_cases hwd : w = (h.get d).word
        · subst hwd
          have c1 : List.count (h.get d).word (l1.map (fun a => (h.get a).word)) = 0 := by
            rw [List.count_eq_zero]
            intro hm
            obtain ⟨x, hx, hxe⟩ := List.mem_map.1 hm
            have := heq x (by simp [hx])
            rw [h1 x hx] at this
            simp [hxe] at this
          have c2 : List.count (h.get d).word ((l2.filter (fun a => !h.eqv a d)).map (fun a => (h.get a).word)) = 0 := by
            rw [List.count_eq_zero]
            intro hm
            obtain ⟨x, hx, hxe⟩ := List.mem_map.1 hm
            have hx := List.mem_filter.1 hx
            have := heq x (by simp [hx.1])
            rw [hxe] at this
            simp [this] at hx
          simp [c1, c2]
        · rw [if_neg hwd]
          congr 2
          have : ∀ l : List ℕ, (∀ x ∈ l, x ∈ l1 ++ a0 :: l2) →
              List.count w ((l.filter (fun a => !h.eqv a d)).map (fun a => (h.get a).word)) =
              List.count w (l.map (fun a => (h.get a).word)) := by
            intro l hl
            induction l with
            | nil => rfl
            | cons x l ih2 =>
              have ih2 := ih2 (fun y hy => hl y (List.mem_cons_of_mem _ hy))
              have hx := heq x (hl x List.mem_cons_self)
              rw [List.filter_cons]
              by_cases hxd : (h.get x).word = (h.get d).word
              · rw [hx]
                simp only [hxd, decide_true, Bool.not_true, Bool.false_eq_true, if_false, List.map_cons, List.count_cons, ih2]
                simp [Ne.symm hwd]
              · rw [hx]
                simp only [hxd, decide_false, Bool.not_false, if_true, List.map_cons, List.count_cons, ih2]
          exact this l2 (fun x hx => by simp [hx])
      rw [hstepcount] at cnt
      refine cnt.trans ?_
      simp only [List.map_cons, List.mem_cons]
      by_cases hwd : w = (h.get d).word
      · simp only [hwd, true_or, if_true]; split <;> omega
      · simp [hwd]

/-- C24, normal form: when all coefficients are real, the result has at most one term per Pauli word.  Missing: sums that mix
real and complex coefficients, where it is false (`C24_complex_leaves_duplicates`). -/
theorem C24_simplify_unique_words_partial (ord : SetOrder ℕ) (L : ℕ) (h : Heap) (ps : List ℕ)
    (hul : ∀ a ∈ ps, (h.get a).monomial.length = L) (hre : ∀ a ∈ ps, (h.get a).coeff.im = 0) :
    ∃ h' ps', PauliSum.new ord h ps = .ok (h', ps') ∧ (ps'.map (fun a => (h'.get a).word)).Nodup := by
  rw [new_eq_simplify ord hul]
  obtain ⟨d1, d2, d3⟩ := duplicates_spec h ps ord
  have hcount : ∀ a ∈ ps, ps.countP (fun b => h.eqv b a) = (words h ps).count (h.get a).word := by
    intro a ha
    rw [words, List.count, List.countP_map]
    apply List.countP_congr
    intro b hb
    rw [eqv_real (hul b hb) (hul a ha) (hre b hb) (hre a ha)]
    simp
  have hbig : ∀ w, 1 < (words h ps).count w → ∃ d ∈ ord.run (duplicates h ps), (h.get d).word = w := by
    intro w hw
    have : w ∈ words h ps := List.count_pos_iff.1 (by omega)
    obtain ⟨a, ha, rfl⟩ := List.mem_map.1 this
    obtain ⟨d, hd, e⟩ := d3 a ha (by rw [hcount a ha]; exact hw)
    refine ⟨d, hd, ?_⟩
    rw [eqv_real (hul d (d1 d hd)) (hul a ha) (hre d (d1 d hd)) (hre a ha)] at e
    simpa using e
  by_cases hd : (duplicates h ps).length = 0
  · refine ⟨h, ps, by simp [simplify, hd], ?_⟩
    rw [List.nodup_iff_count_le_one]
    intro w
    by_contra hc
    obtain ⟨d, hd', -⟩ := hbig w (by simpa [words] using hc)
    have := (ord.perm _).mem_iff.1 hd'
    rw [List.eq_nil_of_length_eq_zero hd] at this
    simp at this
  · obtain ⟨h', ps', e, cnt⟩ := loop_real L _ h ps hul d1 d2 hre
    refine ⟨h', ps'.filter (fun a => keepCoeff (h'.get a).coeff), ?_, ?_⟩
    · simp [simplify, hd, e, bind, Except.bind]
    · have hn : (words h' ps').Nodup := by
        rw [List.nodup_iff_count_le_one]
        intro w
        refine (cnt w).trans ?_
        split
        · exact le_rfl
        · rename_i hw
          by_contra hc
          obtain ⟨d, hd', hdw⟩ := hbig w (by omega)
          exact hw (List.mem_map.2 ⟨d, hd', hdw⟩)
      exact hn.sublist (List.Sublist.map _ List.filter_sublist)

/-- A heap with the given monomials at addresses 0, 1, …. -/
noncomputable def heapOf (l : List Mono) : Heap := ⟨fun a => l.getD a ⟨[], 0⟩, l.length⟩

/-- `c X` on site 0. -/
noncomputable def xMono (c : ℂ) : Mono := ⟨[⟨0, 1, c⟩], c⟩

/-- Instance of C24: `X + 2X + Z` satisfies the hypotheses. -/
example : (∀ a ∈ [0, 1, 2], ((heapOf [xMono 1, xMono 2, ⟨[⟨0, 3, 1⟩], 1⟩]).get a).monomial.length = 1) ∧
    ∀ a ∈ [0, 1, 2], ((heapOf [xMono 1, xMono 2, ⟨[⟨0, 3, 1⟩], 1⟩]).get a).coeff.im = 0 := by
  simp [heapOf, xMono]

theorem run_singleton (ord : SetOrder ℕ) (a : ℕ) : ord.run [a] = [a] := List.perm_singleton.1 (ord.perm [a])

/-- C24 (negative).  With complex coefficients the result is no normal form: `X + iX + (1-i)X` becomes two terms `X + X` that
compare equal. -/
theorem C24_complex_leaves_duplicates (ord : SetOrder ℕ) :
    ∃ h', PauliSum.new ord (heapOf [xMono 1, xMono Complex.I, xMono (1 - Complex.I)]) [0, 1, 2] = .ok (h', [0, 1]) ∧
      (h'.get 0).coeff = 1 ∧ (h'.get 1).coeff = 1 ∧ (h'.get 0).eq (h'.get 1) = .ok true := by
  set h := heapOf [xMono 1, xMono Complex.I, xMono (1 - Complex.I)] with hh
  have e : ∀ a b : ℕ, a < 3 → b < 3 → h.eqv a b = decide ((a = 0) ↔ (b = 0)) := by
    intro a b ha hb
    interval_cases a <;> interval_cases b <;>
      simp [hh, heapOf, xMono, Heap.eqv, Mono.eqCore, isReal, Pauli.eqv]
  have e00 : h.eqv 0 0 = true := by rw [e] <;> simp
  have e01 : h.eqv 0 1 = false := by rw [e] <;> simp
  have e02 : h.eqv 0 2 = false := by rw [e] <;> simp
  have e10 : h.eqv 1 0 = false := by rw [e] <;> simp
  have e11 : h.eqv 1 1 = true := by rw [e] <;> simp
  have e12 : h.eqv 1 2 = true := by rw [e] <;> simp
  have e20 : h.eqv 2 0 = false := by rw [e] <;> simp
  have e21 : h.eqv 2 1 = true := by rw [e] <;> simp
  have e22 : h.eqv 2 2 = true := by rw [e] <;> simp
  have hd : duplicates h [0, 1, 2] = [1] := by
    simp [duplicates, pySetOf, e00, e01, e02, e10, e11, e12, e20, e21, e22, List.filter_cons, List.countP_cons]
  have hs := simplifyStep_eq h [0] [2] 1 1 (by simp [e01]) e11
  have hf : [2].filter (fun a => h.eqv a 1) = [2] := by simp [e21]
  have hf' : [2].filter (fun a => !h.eqv a 1) = [] := by simp [e21]
  rw [hf, hf', show ([1, 2].map (fun a => (h.get a).coeff)).sum = 1 by simp [hh, heapOf, xMono]] at hs
  have hk : keepCoeff 1 = true := by
    simp [keepCoeff]; norm_num
  refine ⟨h.setCoeff 1 1, ?_, ?_, ?_, ?_⟩
  · rw [new_eq_simplify (L := 1) ord (by intro a ha; simp at ha; rcases ha with rfl | rfl | rfl <;> simp [hh, heapOf, xMono])]
    simp only [simplify, hd, run_singleton, simplifyLoop, List.cons_append, List.nil_append] at hs ⊢
    rw [hs]
    simp [bind, Except.bind, hh, heapOf, xMono, Heap.setCoeff, hk]
  · simp [hh, heapOf, xMono, Heap.setCoeff]
  · simp [Heap.setCoeff]
  · simp [hh, heapOf, xMono, Heap.setCoeff, Mono.eq, Mono.eqCore, isReal, Pauli.eqv]

/-! ### C21 -/

theorem sumDen_append (n : ℕ) (h : Heap) (a b : List ℕ) : sumDen n h (a ++ b) = sumDen n h a + sumDen n h b := by
  simp [sumDen]

/-- C21, the value: `a + b` denotes the sum up to dropped terms of modulus at most 1e-8; objects that occur in neither list
are untouched. -/
theorem C21_add_value_partial (ord : SetOrder ℕ) (n L : ℕ) (h : Heap) (a b : List ℕ)
    (ha : ∀ x ∈ a, (h.get x).monomial.length = L) (hb : ∀ x ∈ b, (h.get x).monomial.length = L) :
    ∃ h' c dropped, PauliSum.add ord h a b = .ok (h', c) ∧
      sumDen n h' c + sumDen n h' dropped = sumDen n h a + sumDen n h b ∧
      (∀ x ∈ dropped, ‖(h'.get x).coeff‖ ≤ 1 / 10 ^ 8) ∧ (∀ x, x ∉ a → x ∉ b → h'.get x = h.get x) := by
  obtain ⟨h', c, dr, e, v, hd, -, -, -, fr⟩ := C24_simplify_value ord n L h (a ++ b)
    (by intro x hx; rcases List.mem_append.1 hx with hx | hx; exacts [ha x hx, hb x hx])
  refine ⟨h', c, dr, e, ?_, hd, ?_⟩
  · rw [v, sumDen_append]
  · intro x h1 h2; exact fr x (by simp [h1, h2])

/-- C21, operands: when no two of the monomials compare equal, nothing is changed at all. -/
theorem C21_add_no_duplicates (ord : SetOrder ℕ) (L : ℕ) (h : Heap) (a b : List ℕ)
    (hul : ∀ x ∈ a ++ b, (h.get x).monomial.length = L)
    (hd : (a ++ b).Pairwise (fun x y => (h.get x).word ≠ (h.get y).word)) :
    PauliSum.add ord h a b = .ok (h, a ++ b) := by
  rw [PauliSum.add, new_eq_simplify ord hul]
  have : duplicates h (a ++ b) = [] := by
    have hz : (a ++ b).filter (fun i => (a ++ b).countP (fun x => h.eqv x i) > 1) = [] := by
      rw [List.filter_eq_nil_iff]
      intro x hx
      rw [decide_eq_true_eq, gt_iff_lt, not_lt]
      have h1 : (a ++ b).countP (fun y => h.eqv y x) ≤ ((a ++ b).map (fun y => (h.get y).word)).count (h.get x).word := by
        rw [List.count, List.countP_map]
        apply List.countP_mono_left
        intro y hy he
        have := (eqCore_iff ((hul y hy).trans (hul x hx).symm)).1 he
        simp [this.2]
      refine h1.trans ?_
      apply List.nodup_iff_count_le_one.1
      exact List.pairwise_map.2 hd
    rw [duplicates, hz]; rfl
  simp [simplify, this]

/-- C21 (negative).  `a + b` changes `a`: with `a = X` and `b = X` (two objects), afterwards `a` denotes `2X`. -/
theorem C21_add_mutates_operand (ord : SetOrder ℕ) :
    ∃ h' c, PauliSum.add ord (heapOf [xMono 1, xMono 1]) [0] [1] = .ok (h', c) ∧
      sumDen 1 h' [0] = (2 : ℂ) • sumDen 1 (heapOf [xMono 1, xMono 1]) [0] ∧
      sumDen 1 h' [0] ≠ sumDen 1 (heapOf [xMono 1, xMono 1]) [0] := by
  set h := heapOf [xMono 1, xMono 1] with hh
  have e : ∀ a b : ℕ, a < 2 → b < 2 → h.eqv a b = true := by
    intro a b ha hb
    interval_cases a <;> interval_cases b <;>
      simp [hh, heapOf, xMono, Heap.eqv, Mono.eqCore, isReal, Pauli.eqv]
  have e00 : h.eqv 0 0 = true := by rw [e] <;> simp
  have e01 : h.eqv 0 1 = true := by rw [e] <;> simp
  have e10 : h.eqv 1 0 = true := by rw [e] <;> simp
  have e11 : h.eqv 1 1 = true := by rw [e] <;> simp
  have hd : duplicates h [0, 1] = [0] := by
    simp [duplicates, pySetOf, e00, e01, e10, e11, List.filter_cons, List.countP_cons]
  have hs := simplifyStep_eq h [] [1] 0 0 (by simp) e00
  have hf : [1].filter (fun a => h.eqv a 0) = [1] := by simp [e10]
  have hf' : [1].filter (fun a => !h.eqv a 0) = [] := by simp [e10]
  rw [hf, hf', show ([0, 1].map (fun a => (h.get a).coeff)).sum = 2 by simp [hh, heapOf, xMono]; norm_num] at hs
  have hk : keepCoeff 2 = true := by
    simp [keepCoeff]; norm_num
  have hw : (h.get 0).wordOp 1 ≠ 0 :=
    wordOp_ne_zero ⟨by simp [hh, heapOf, xMono, Mono.locations]⟩ (by simp [hh, heapOf, xMono, Mono.locations, Mono.Fits])
  have h2 : sumDen 1 (h.setCoeff 0 2) [0] = (2 : ℂ) • sumDen 1 h [0] := by
    simp [sumDen, Mono.den, Heap.setCoeff, hh, heapOf, xMono, Mono.wordOp, Mono.word]
  refine ⟨h.setCoeff 0 2, [0], ?_, h2, ?_⟩
  · rw [PauliSum.add, new_eq_simplify (L := 1) ord (by intro a ha; simp at ha; rcases ha with rfl | rfl <;> simp [hh, heapOf, xMono])]
    simp only [simplify, hd, run_singleton, simplifyLoop, List.cons_append, List.nil_append] at hs ⊢
    rw [hs]
    simp [bind, Except.bind, hh, heapOf, xMono, Heap.setCoeff, hk]
  · rw [h2]
    have : sumDen 1 h [0] = (h.get 0).wordOp 1 := by simp [sumDen, Mono.den, hh, heapOf, xMono]
    rw [this]
    intro hc
    have h3 : (2 : ℂ) • (h.get 0).wordOp 1 = (1 : ℂ) • (h.get 0).wordOp 1 := by rw [one_smul]; exact hc
    have := smul_left_injective ℂ hw h3
    norm_num at this

/-- Instance of C21: `X0` plus `Z0`. -/
example : (∀ x ∈ [0] ++ [1], ((heapOf [xMono 1, ⟨[⟨0, 3, 1⟩], 1⟩]).get x).monomial.length = 1) ∧
    ([0] ++ [1]).Pairwise (fun x y => ((heapOf [xMono 1, ⟨[⟨0, 3, 1⟩], 1⟩]).get x).word ≠
      ((heapOf [xMono 1, ⟨[⟨0, 3, 1⟩], 1⟩]).get y).word) := by
  simp [heapOf, xMono, Mono.word]

/-! ### C22 -/

theorem scalarMul_get (s : ℂ) : ∀ (b : List ℕ) (h : Heap), b.Nodup → ∀ x, (PauliSum.scalarMul h b s).get x =
    if x ∈ b then { h.get x with coeff := (h.get x).coeff * s } else h.get x := by
  intro b
  induction b with
  | nil => intro h _ x; simp [PauliSum.scalarMul]
  | cons a b ih =>
    intro h hn x
    obtain ⟨ha, hb⟩ := List.nodup_cons.1 hn
    have := ih (h.setCoeff a ((h.get a).coeff * s)) hb x
    rw [PauliSum.scalarMul, List.foldl_cons]
    rw [PauliSum.scalarMul] at this
    rw [this]
    by_cases hxa : x = a
    · subst hxa
      simp [ha, setCoeff_self]
    · simp [hxa, setCoeff_other]

theorem scalarMul_den (n : ℕ) (s : ℂ) (b : List ℕ) (h : Heap) (hn : b.Nodup) (x : ℕ) :
    ((PauliSum.scalarMul h b s).get x).den n = if x ∈ b then s • (h.get x).den n else (h.get x).den n := by
  rw [scalarMul_get s b h hn x]
  split
  · simp only [Mono.den, Mono.wordOp, Mono.word, smul_smul, mul_comm]
  · rfl

theorem scalarMul_monomial (s : ℂ) (b : List ℕ) (h : Heap) (x : ℕ) :
    ((PauliSum.scalarMul h b s).get x).monomial = (h.get x).monomial := by
  induction b generalizing h with
  | nil => rfl
  | cons a b ih =>
    have := ih (h.setCoeff a ((h.get a).coeff * s))
    rw [PauliSum.scalarMul, List.foldl_cons]
    rw [PauliSum.scalarMul] at this
    rw [this, setCoeff_monomial]

theorem scalarMul_sumDen (n : ℕ) (s : ℂ) (b : List ℕ) (h : Heap) (hn : b.Nodup) :
    sumDen n (PauliSum.scalarMul h b s) b = s • sumDen n h b := by
  have : b.map (fun a => ((PauliSum.scalarMul h b s).get a).den n) = b.map (fun a => s • (h.get a).den n) := by
    apply List.map_congr_left
    intro x hx
    rw [scalarMul_den n s b h hn x, if_pos hx]
  rw [sumDen, sumDen, this]
  have : ∀ l : List ℕ, (l.map (fun a => s • (h.get a).den n)).sum = s • (l.map (fun a => (h.get a).den n)).sum := by
    intro l
    induction l with
    | nil => simp
    | cons x l ih => rw [List.map_cons, List.sum_cons, List.map_cons, List.sum_cons, smul_add, ih]
  exact this b

theorem scalarMul_sumDen_disjoint (n : ℕ) (s : ℂ) (a b : List ℕ) (h : Heap) (hn : b.Nodup) (hd : ∀ x ∈ a, x ∉ b) :
    sumDen n (PauliSum.scalarMul h b s) a = sumDen n h a := by
  rw [sumDen, sumDen]
  congr 1
  apply List.map_congr_left
  intro x hx
  rw [scalarMul_den n s b h hn x, if_neg (hd x hx)]

/-- C22, the part that holds: when the operands share no object, `a - b` denotes the difference up to dropped terms of modulus
at most 1e-8.  Missing: operands that share objects (see `C22_sub_self`), and leaving `b` unchanged (see
`C22_sub_negates_operand`). -/
theorem C22_sub_value_partial (ord : SetOrder ℕ) (n L : ℕ) (h : Heap) (a b : List ℕ)
    (ha : ∀ x ∈ a, (h.get x).monomial.length = L) (hb : ∀ x ∈ b, (h.get x).monomial.length = L)
    (hn : b.Nodup) (hd : ∀ x ∈ a, x ∉ b) :
    ∃ h' c dropped, PauliSum.sub ord h a b = .ok (h', c) ∧
      sumDen n h' c + sumDen n h' dropped = sumDen n h a - sumDen n h b ∧
      (∀ x ∈ dropped, ‖(h'.get x).coeff‖ ≤ 1 / 10 ^ 8) ∧ (∀ x, x ∉ a → x ∉ b → h'.get x = h.get x) := by
  obtain ⟨h', c, dr, e, v, hdr, -, -, -, fr⟩ := C24_simplify_value ord n L (PauliSum.scalarMul h b (-1)) (a ++ b)
    (by
      intro x hx
      rw [scalarMul_monomial]
      rcases List.mem_append.1 hx with hx | hx
      exacts [ha x hx, hb x hx])
  refine ⟨h', c, dr, e, ?_, hdr, ?_⟩
  · rw [v, sumDen_append, scalarMul_sumDen n _ b h hn, scalarMul_sumDen_disjoint n _ a b h hn hd, neg_one_smul, sub_eq_add_neg]
  · intro x h1 h2
    rw [fr x (by simp [h1, h2]), scalarMul_get _ b h hn, if_neg h2]

/-- C22 (negative), for every pair of operands without a common Pauli word: after `a - b` the right operand denotes `-b`. -/
theorem C22_sub_negates_operand (ord : SetOrder ℕ) (n L : ℕ) (h : Heap) (a b : List ℕ)
    (hul : ∀ x ∈ a ++ b, (h.get x).monomial.length = L)
    (hw : (a ++ b).Pairwise (fun x y => (h.get x).word ≠ (h.get y).word)) :
    ∃ h', PauliSum.sub ord h a b = .ok (h', a ++ b) ∧ sumDen n h' b = - sumDen n h b := by
  have hn : b.Nodup := by
    have := (List.pairwise_append.1 hw).2.1
    exact this.imp (fun {x y} hxy e => hxy (by rw [e]))
  refine ⟨PauliSum.scalarMul h b (-1), ?_, ?_⟩
  · have := C21_add_no_duplicates ord L (PauliSum.scalarMul h b (-1)) a b
      (by intro x hx; rw [scalarMul_monomial]; exact hul x hx)
      (by
        refine hw.imp ?_
        intro x y hxy
        rw [word_of_monomial (scalarMul_monomial _ _ _ x), word_of_monomial (scalarMul_monomial _ _ _ y)]
        exact hxy)
    exact this
  · rw [scalarMul_sumDen n _ b h hn, neg_one_smul]

/-- C22 (negative): `a - a` denotes `-2a` instead of zero (up to dropped terms). -/
theorem C22_sub_self (ord : SetOrder ℕ) (n L : ℕ) (h : Heap) (a : List ℕ)
    (ha : ∀ x ∈ a, (h.get x).monomial.length = L) (hn : a.Nodup) :
    ∃ h' c dropped, PauliSum.sub ord h a a = .ok (h', c) ∧
      sumDen n h' c + sumDen n h' dropped = (-2 : ℂ) • sumDen n h a ∧
      (∀ x ∈ dropped, ‖(h'.get x).coeff‖ ≤ 1 / 10 ^ 8) := by
  obtain ⟨h', c, dr, e, v, hdr, -, -, -, -⟩ := C24_simplify_value ord n L (PauliSum.scalarMul h a (-1)) (a ++ a)
    (by
      intro x hx
      rw [scalarMul_monomial]
      rcases List.mem_append.1 hx with hx | hx
      exacts [ha x hx, ha x hx])
  refine ⟨h', c, dr, e, ?_, hdr⟩
  rw [v, sumDen_append, scalarMul_sumDen n _ a h hn, ← add_smul]
  norm_num

/-- Instance of C22: `X0` and `Z0` in two objects. -/
example : [1].Nodup ∧ (∀ x ∈ [0], x ∉ [1]) ∧
    (∀ x ∈ [0], ((heapOf [xMono 1, ⟨[⟨0, 3, 1⟩], 1⟩]).get x).monomial.length = 1) ∧
    (∀ x ∈ [1], ((heapOf [xMono 1, ⟨[⟨0, 3, 1⟩], 1⟩]).get x).monomial.length = 1) := by
  simp [heapOf, xMono]

/-! ### C23 -/

/-- Number of sites on which at least one of two monomials acts. -/
def unionSize (p q : Mono) : ℕ := (p.locations.toFinset ∪ q.locations.toFinset).card

theorem mulLoop_value (ord : SetOrder ℕ) (n : ℕ) (ab : List ℕ) : ∀ (ij : List (ℕ × ℕ)) (h : Heap) (acc : List ℕ),
    (∀ x ∈ ab, x < h.next ∧ (h.get x).WF ∧ (h.get x).Fits n) → (∀ p ∈ ij, p.1 ∈ ab ∧ p.2 ∈ ab) → (∀ x ∈ acc, x < h.next) →
    ∃ h' ps, mulLoop ord ij h acc = .ok (h', acc ++ ps) ∧ h.next ≤ h'.next ∧ (∀ x, x < h.next → h'.get x = h.get x) ∧
      (∀ x ∈ ps, h.next ≤ x ∧ x < h'.next) ∧
      sumDen n h' ps = (ij.map (fun p => (h.get p.1).op n * (h.get p.2).op n)).sum ∧
      ps.map (fun x => (h'.get x).monomial.length) = ij.map (fun p => unionSize (h.get p.1) (h.get p.2)) := by
  intro ij
  induction ij with
  | nil => intro h acc _ _ _; exact ⟨h, [], by simp [mulLoop], le_rfl, fun _ _ => rfl, by simp, by simp [sumDen], by simp⟩
  | cons p ij ih =>
    intro h acc hab hij hacc
    obtain ⟨i, j⟩ := p
    obtain ⟨hi, hj⟩ := hij (i, j) List.mem_cons_self
    obtain ⟨li, wi, fi⟩ := hab i hi
    obtain ⟨lj, wj, fj⟩ := hab j hj
    obtain ⟨m, hm, wm, fm, cm, om⟩ := mul_den ord wi wj fi fj
    obtain ⟨m', hm', -, lm, -⟩ := mul_spec ord wi wj
    obtain rfl : m = m' := by rw [hm] at hm'; exact Except.ok.inj hm'
    rw [op_eq_den fm cm] at om
    have old : ∀ x, x < h.next → (h.alloc m).1.get x = h.get x := by
      intro x hx
      simp [Heap.alloc, Nat.ne_of_lt hx]
    have g1 : ∀ x ∈ ab, x < (h.alloc m).1.next ∧ ((h.alloc m).1.get x).WF ∧ ((h.alloc m).1.get x).Fits n := by
      intro x hx
      rw [old x (hab x hx).1]
      exact ⟨Nat.lt_succ_of_lt (hab x hx).1, (hab x hx).2⟩
    have g3 : ∀ x ∈ acc ++ [h.next], x < (h.alloc m).1.next := by
      intro x hx
      rcases List.mem_append.1 hx with hx | hx
      · exact Nat.lt_succ_of_lt (hacc x hx)
      · rw [List.mem_singleton.1 hx]; exact Nat.lt_succ_self _
    obtain ⟨h', ps, e, nx, fr, gd, v, ln⟩ := ih (h.alloc m).1 (acc ++ [h.next]) g1
      (fun q hq => hij q (List.mem_cons_of_mem _ hq)) g3
    have hnx : (h.alloc m).1.next = h.next + 1 := rfl
    have hnew : h'.get h.next = m := by
      rw [fr _ (by omega)]; simp [Heap.alloc]
    refine ⟨h', h.next :: ps, ?_, by omega, ?_, ?_, ?_, ?_⟩
    · simp only [mulLoop, hm, bind, Except.bind]
      rw [show (h.alloc m).2 = h.next from rfl, e, List.append_assoc, List.singleton_append]
    · intro x hx; rw [fr x (by omega), old x hx]
    · intro x hx
      rcases List.mem_cons.1 hx with rfl | hx
      · exact ⟨le_rfl, by omega⟩
      · obtain ⟨q1, q2⟩ := gd x hx
        exact ⟨by omega, q2⟩
    · have e2 : ij.map (fun p => ((h.alloc m).1.get p.1).op n * ((h.alloc m).1.get p.2).op n) =
          ij.map (fun p => (h.get p.1).op n * (h.get p.2).op n) := by
        apply List.map_congr_left
        intro p hp
        obtain ⟨p1, p2⟩ := hij p (List.mem_cons_of_mem _ hp)
        rw [old _ (hab _ p1).1, old _ (hab _ p2).1]
      rw [List.map_cons, List.sum_cons, ← e2, ← v, sumDen, List.map_cons, List.sum_cons, hnew, om, sumDen]
    · have e2 : ij.map (fun p => unionSize ((h.alloc m).1.get p.1) ((h.alloc m).1.get p.2)) =
          ij.map (fun p => unionSize (h.get p.1) (h.get p.2)) := by
        apply List.map_congr_left
        intro p hp
        obtain ⟨p1, p2⟩ := hij p (List.mem_cons_of_mem _ hp)
        rw [old _ (hab _ p1).1, old _ (hab _ p2).1]
      rw [List.map_cons, List.map_cons, ln, e2, hnew]
      congr 1
      have : m.locations.toFinset = (h.get i).locations.toFinset ∪ (h.get j).locations.toFinset := by
        ext x; simp [lm x]
      rw [unionSize, ← this, List.toFinset_card_of_nodup wm.nodup, Mono.locations, List.length_map]

theorem sum_products (n : ℕ) (f g : ℕ → QMat n) (a b : List ℕ) :
    ((a.flatMap (fun i => b.map (fun j => (i, j)))).map (fun p => f p.1 * g p.2)).sum = (a.map f).sum * (b.map g).sum := by
  induction a with
  | nil => simp
  | cons x a ih =>
    have : ∀ l : List ℕ, ((l.map (fun j => (x, j))).map (fun p => f p.1 * g p.2)).sum = f x * (l.map g).sum := by
      intro l
      induction l with
      | nil => simp
      | cons y l ih2 => rw [List.map_cons, List.map_cons, List.sum_cons, ih2, List.map_cons, List.sum_cons, mul_add]
    rw [List.flatMap_cons, List.map_append, List.sum_append, ih, this, List.map_cons, List.sum_cons, add_mul]

/-- C23 in terms of the coefficients stored in the single Paulis: when all products have the same number of sites the product
is built, leaves every existing object alone, and denotes the product of the sums in which each monomial counts with the
product of its Paulis' own coefficients. -/
theorem C23_mul_ops (ord : SetOrder ℕ) (n L : ℕ) (h : Heap) (a b : List ℕ)
    (hab : ∀ x ∈ a ++ b, x < h.next ∧ (h.get x).WF ∧ (h.get x).Fits n)
    (hL : ∀ i ∈ a, ∀ j ∈ b, unionSize (h.get i) (h.get j) = L) :
    ∃ h' c dropped, PauliSum.mul ord h a b = .ok (h', c) ∧
      sumDen n h' c + sumDen n h' dropped = (a.map (fun i => (h.get i).op n)).sum * (b.map (fun j => (h.get j).op n)).sum ∧
      (∀ x ∈ dropped, ‖(h'.get x).coeff‖ ≤ 1 / 10 ^ 8) ∧ (∀ x, x < h.next → h'.get x = h.get x) := by
  have hij : ∀ p ∈ a.flatMap (fun i => b.map (fun j => (i, j))), p.1 ∈ a ∧ p.2 ∈ b := by
    rintro ⟨i, j⟩ hp
    simpa using hp
  obtain ⟨h1, ps, e, nx, fr, ad, v, ln⟩ := mulLoop_value ord n (a ++ b) (a.flatMap (fun i => b.map (fun j => (i, j)))) h []
    hab (fun p hp => ⟨List.mem_append_left _ (hij p hp).1, List.mem_append_right _ (hij p hp).2⟩) (by simp)
  have hul : ∀ x ∈ ps, (h1.get x).monomial.length = L := by
    intro x hx
    have : (h1.get x).monomial.length ∈ ps.map (fun x => (h1.get x).monomial.length) := List.mem_map.2 ⟨x, hx, rfl⟩
    rw [ln] at this
    obtain ⟨p, hp, e⟩ := List.mem_map.1 this
    rw [← e]
    exact hL _ (hij p hp).1 _ (hij p hp).2
  obtain ⟨h', c, dr, e2, v2, hdr, -, -, -, fr2⟩ := C24_simplify_value ord n L h1 ps hul
  refine ⟨h', c, dr, ?_, ?_, hdr, ?_⟩
  · simp only [PauliSum.mul, e, bind, Except.bind, List.nil_append]
    exact e2
  · rw [v2, v, sum_products n (fun i => (h.get i).op n) (fun j => (h.get j).op n)]
  · intro x hx
    rw [fr2 x (fun hc => by have := (ad x hc).1; omega), fr x hx]

/-- C23, the part that holds: freshly constructed monomials (attribute `coeff` still the product of the Paulis' coefficients)
whose products all act on equally many sites.  Missing: sums whose `coeff` attributes were edited
(`C23_mul_ignores_scalar`) and sums whose products differ in length (`C23_mul_rejects`). -/
theorem C23_mul_value_partial (ord : SetOrder ℕ) (n L : ℕ) (h : Heap) (a b : List ℕ)
    (hab : ∀ x ∈ a ++ b, x < h.next ∧ (h.get x).WF ∧ (h.get x).Fits n) (hc : ∀ x ∈ a ++ b, (h.get x).Consistent)
    (hL : ∀ i ∈ a, ∀ j ∈ b, unionSize (h.get i) (h.get j) = L) :
    ∃ h' c dropped, PauliSum.mul ord h a b = .ok (h', c) ∧
      sumDen n h' c + sumDen n h' dropped = sumDen n h a * sumDen n h b ∧
      (∀ x ∈ dropped, ‖(h'.get x).coeff‖ ≤ 1 / 10 ^ 8) ∧ (∀ x, x < h.next → h'.get x = h.get x) := by
  obtain ⟨h', c, dr, e, v, r⟩ := C23_mul_ops ord n L h a b hab hL
  refine ⟨h', c, dr, e, ?_, r⟩
  rw [v, sumDen, sumDen]
  congr 2
  · exact List.map_congr_left (fun x hx => op_eq_den (hab x (List.mem_append_left _ hx)).2.2 (hc x (List.mem_append_left _ hx)))
  · exact List.map_congr_left (fun x hx => op_eq_den (hab x (List.mem_append_right _ hx)).2.2 (hc x (List.mem_append_right _ hx)))

/-- C23 (negative): scaling the left operand first (`a.scalar_mul(s)`) does not change the product at all: it still denotes
`a * b` for the `a` before scaling. -/
theorem C23_mul_ignores_scalar (ord : SetOrder ℕ) (n L : ℕ) (s : ℂ) (h : Heap) (a b : List ℕ)
    (hab : ∀ x ∈ a ++ b, x < h.next ∧ (h.get x).WF ∧ (h.get x).Fits n) (hc : ∀ x ∈ a ++ b, (h.get x).Consistent)
    (hL : ∀ i ∈ a, ∀ j ∈ b, unionSize (h.get i) (h.get j) = L) :
    ∃ h' c dropped, PauliSum.mul ord (PauliSum.scalarMul h a s) a b = .ok (h', c) ∧
      sumDen n h' c + sumDen n h' dropped = sumDen n h a * sumDen n h b ∧
      (∀ x ∈ dropped, ‖(h'.get x).coeff‖ ≤ 1 / 10 ^ 8) := by
  have hm := scalarMul_monomial s a h
  have hnx : ∀ (l : List ℕ) (k : Heap), (PauliSum.scalarMul k l s).next = k.next := by
    intro l
    induction l with
    | nil => intro k; rfl
    | cons x l ih => intro k; exact ih _
  have hop : ∀ x, ((PauliSum.scalarMul h a s).get x).op n = (h.get x).op n := fun x => by rw [Mono.op, hm, Mono.op]
  have hlo : ∀ x, ((PauliSum.scalarMul h a s).get x).locations = (h.get x).locations :=
    fun x => by rw [Mono.locations, hm, Mono.locations]
  obtain ⟨h', c, dr, e, v, r, -⟩ := C23_mul_ops ord n L (PauliSum.scalarMul h a s) a b
    (by
      intro x hx
      obtain ⟨q1, q2, q3⟩ := hab x hx
      exact ⟨by rw [hnx]; exact q1, ⟨by rw [hlo]; exact q2.sorted⟩, by rw [Mono.Fits, hlo]; exact q3⟩)
    (by intro i hi j hj; rw [unionSize, hlo, hlo]; exact hL i hi j hj)
  refine ⟨h', c, dr, e, ?_, r⟩
  rw [v, sumDen, sumDen]
  simp only [hop]
  congr 2
  · exact List.map_congr_left (fun x hx => op_eq_den (hab x (List.mem_append_left _ hx)).2.2 (hc x (List.mem_append_left _ hx)))
  · exact List.map_congr_left (fun x hx => op_eq_den (hab x (List.mem_append_right _ hx)).2.2 (hc x (List.mem_append_right _ hx)))

/-- C23 (negative): when two of the products act on different numbers of sites, the product raises `AssertionError`, although
it is well defined. -/
theorem C23_mul_rejects (ord : SetOrder ℕ) (n : ℕ) (h : Heap) (a b : List ℕ)
    (hab : ∀ x ∈ a ++ b, x < h.next ∧ (h.get x).WF ∧ (h.get x).Fits n) (i i' j j' : ℕ) (hi : i ∈ a) (hi' : i' ∈ a)
    (hj : j ∈ b) (hj' : j' ∈ b) (hne : unionSize (h.get i) (h.get j) ≠ unionSize (h.get i') (h.get j')) :
    PauliSum.mul ord h a b = .error .assertion := by
  have hij : ∀ p ∈ a.flatMap (fun i => b.map (fun j => (i, j))), p.1 ∈ a ∧ p.2 ∈ b := by
    rintro ⟨i, j⟩ hp
    simpa using hp
  obtain ⟨h1, ps, e, nx, fr, ad, v, ln⟩ := mulLoop_value ord n (a ++ b) (a.flatMap (fun i => b.map (fun j => (i, j)))) h []
    hab (fun p hp => ⟨List.mem_append_left _ (hij p hp).1, List.mem_append_right _ (hij p hp).2⟩) (by simp)
  have hmem : ∀ i ∈ a, ∀ j ∈ b, ∃ x ∈ ps, (h1.get x).monomial.length = unionSize (h.get i) (h.get j) := by
    intro i hi j hj
    have : unionSize (h.get i) (h.get j) ∈ (a.flatMap (fun i => b.map (fun j => (i, j)))).map
        (fun p => unionSize (h.get p.1) (h.get p.2)) := List.mem_map.2 ⟨(i, j), by simp [hi, hj], rfl⟩
    rw [← ln] at this
    exact List.mem_map.1 this
  obtain ⟨x, hx, ex⟩ := hmem i hi j hj
  obtain ⟨x', hx', ex'⟩ := hmem i' hi' j' hj'
  simp only [PauliSum.mul, e, bind, Except.bind, List.nil_append, PauliSum.new, pyAssert]
  rw [if_neg]
  intro hall
  exact hne (by rw [← ex, ← ex', hall x hx, hall x' hx'])

/-- Instance of the hypotheses of C23: `X0` times `2 X0`. -/
example : (∀ x ∈ [0] ++ [1], x < (heapOf [xMono 1, xMono 2]).next ∧ ((heapOf [xMono 1, xMono 2]).get x).WF ∧
      ((heapOf [xMono 1, xMono 2]).get x).Fits 1) ∧
    (∀ x ∈ [0] ++ [1], ((heapOf [xMono 1, xMono 2]).get x).Consistent) ∧
    ∀ i ∈ [0], ∀ j ∈ [1], unionSize ((heapOf [xMono 1, xMono 2]).get i) ((heapOf [xMono 1, xMono 2]).get j) = 1 := by
  refine ⟨?_, ?_, ?_⟩
  · intro x hx
    simp only [List.cons_append, List.nil_append, List.mem_cons, List.not_mem_nil, or_false] at hx
    rcases hx with rfl | rfl <;>
      exact ⟨by simp [heapOf], ⟨by simp [heapOf, xMono, Mono.locations]⟩, by simp [heapOf, xMono, Mono.locations, Mono.Fits]⟩
  · simp [heapOf, xMono, Mono.Consistent]
  · simp [heapOf, xMono, unionSize, Mono.locations]

/-- Instance of `C23_mul_rejects`: `(X0 + X1) * X0`. -/
example : unionSize ((heapOf [xMono 1, ⟨[⟨1, 1, 1⟩], 1⟩]).get 0) ((heapOf [xMono 1, ⟨[⟨1, 1, 1⟩], 1⟩]).get 0) ≠
    unionSize ((heapOf [xMono 1, ⟨[⟨1, 1, 1⟩], 1⟩]).get 1) ((heapOf [xMono 1, ⟨[⟨1, 1, 1⟩], 1⟩]).get 0) := by
  simp [heapOf, xMono, unionSize, Mono.locations]

end Oranssi
