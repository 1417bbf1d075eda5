import Verif.Model.BchScript
import Verif.Spec.BchScript
import Verif.Props.Pauli
import Verif.Props.Symmetry

/-! # The terms of BCH.py (C105) -/

namespace Oranssi
open Spec

variable {n : ℕ}

/-- Well-formed monomials on the register. -/
structure Mono.On (n : ℕ) (m : Mono) : Prop where
  wf : m.WF
  fits : m.Fits n

/-- The operators of two monomials, with the coefficients of the Paulis, commute or anticommute. -/
theorem op_comm_or {a b : Mono} (ha : a.On n) (hb : b.On n) : a.op n * b.op n = b.op n * a.op n ∨ a.op n * b.op n = -(b.op n * a.op n) := by
  have e : ∀ {m : Mono}, m.On n → ∃ (c : ℂ) (w : Fin n → Letter), m.op n = c • pauliWord w := by
    intro m hm
    refine ⟨(m.monomial.map (·.coeff)).prod, fun q => letterOf (gAt m q), ?_⟩
    rw [← wordOp_pauliWord hm.wf hm.fits, Mono.op, op_eq_smul n _ (fun p hp => hm.fits _ (List.mem_map.2 ⟨p, hp, rfl⟩)), Mono.wordOp, Mono.word, List.map_map]
    rfl
  obtain ⟨c, w, hc⟩ := e ha
  obtain ⟨d, v, hd⟩ := e hb
  rw [hc, hd, smul_mul_smul_comm, smul_mul_smul_comm, mul_comm d c]
  rcases pauliWord_comm_or w v with h | h
  · left; rw [h]
  · right; rw [h, smul_neg]

/-- What a commutator object carries: its coefficient is that of the commutator, its Paulis are those of the plain product. -/
theorem commutator_op (ord : SetOrder ℕ) {a b : Mono} (ha : a.On n) (hb : b.On n) : ∃ c, a.commutator ord b = .ok c ∧ c.On n ∧ c.op n = a.op n * b.op n ∧
    c.den n = qcomm (a.op n) (b.op n) ∧ (c.coeff = 0 ↔ qcomm (a.op n) (b.op n) = 0) := by
  obtain ⟨c, h1, w1, f1, c1, o1⟩ := mul_den ord ha.wf hb.wf ha.fits hb.fits
  obtain ⟨d, h2, w2, f2, c2, o2⟩ := mul_den ord hb.wf ha.wf hb.fits ha.fits
  have e : (c.coeff - d.coeff) • c.wordOp n = qcomm (a.op n) (b.op n) := by
    rw [qcomm, ← o1, ← o2, op_eq_den f1 c1, op_eq_den f2 c2, Mono.den, Mono.den, ← den_of_word (word_comm ord ha.wf hb.wf h1 h2), ← sub_smul]
  refine ⟨⟨c.monomial, c.coeff - d.coeff⟩, by simp only [Mono.commutator, h1, h2, bind, Except.bind], ⟨⟨w1.sorted⟩, f1⟩, o1, e, ?_⟩
  rw [← e]
  constructor
  · intro h
    change c.coeff - d.coeff = 0 at h
    rw [h, zero_smul]
  · intro h
    rcases smul_eq_zero.1 h with h | h
    · exact h
    · exact absurd h (wordOp_ne_zero w1 f1)

/-- The operators of a list, with the coefficients of the Paulis. -/
noncomputable def opSum (n : ℕ) (l : List Mono) : QMat n := (l.map (fun m => m.op n)).sum

/-- What a list of monomials denotes. -/
noncomputable def denSum (n : ℕ) (l : List Mono) : QMat n := (l.map (fun m => m.den n)).sum

/-- One append: the list denotes `1/d` times the commutator more, and its Paulis carry half the commutator more. -/
theorem bchAppend_spec (ord : SetOrder ℕ) {a b c : Mono} (ha : a.On n) (hb : b.On n) (h : a.commutator ord b = .ok c) (d : ℂ) (acc : List Mono) :
    ∃ l, bchAppend c d acc = acc ++ l ∧ (∀ m ∈ l, m.On n ∧ qcomm (a.op n) (b.op n) ≠ 0 ∧ m.op n = (1 / 2 : ℂ) • qcomm (a.op n) (b.op n) ∧ m.den n = (1 / d) • qcomm (a.op n) (b.op n)) ∧
      denSum n l = (1 / d) • qcomm (a.op n) (b.op n) ∧ opSum n l = (1 / 2 : ℂ) • qcomm (a.op n) (b.op n) := by
  obtain ⟨c', h', on, op, den, z⟩ := commutator_op ord ha hb
  obtain rfl : c = c' := Except.ok.inj (h.symm.trans h')
  by_cases h0 : c.coeff = 0
  · refine ⟨[], by simp [bchAppend, h0], by simp, ?_, ?_⟩
    · simp [denSum, z.1 h0]
    · simp [opSum, z.1 h0]
  · have hd : (⟨c.monomial, c.coeff / d⟩ : Mono).den n = (1 / d) • qcomm (a.op n) (b.op n) := by
      rw [← den, Mono.den, Mono.den, smul_smul]
      congr 1
      ring
    have e : (⟨c.monomial, c.coeff / d⟩ : Mono).op n = (1 / 2 : ℂ) • qcomm (a.op n) (b.op n) := by
      have e : (⟨c.monomial, c.coeff / d⟩ : Mono).op n = a.op n * b.op n := op
      rw [e]
      rcases op_comm_or ha hb with h | h
      · exact absurd (z.2 (by rw [qcomm, h, sub_self])) h0
      · rw [qcomm, ← neg_eq_iff_eq_neg.2 h, sub_neg_eq_add, ← two_smul ℂ, smul_smul]
        norm_num
    refine ⟨[⟨c.monomial, c.coeff / d⟩], by rw [bchAppend, if_neg h0], ?_, ?_, ?_⟩
    · intro m hm
      rw [List.mem_singleton.1 hm]
      exact ⟨⟨⟨on.wf.sorted⟩, on.fits⟩, fun h => h0 (z.2 h), e, hd⟩
    · simp only [denSum, List.map_cons, List.map_nil, List.sum_cons, List.sum_nil, add_zero]
      exact hd
    · simp only [opSum, List.map_cons, List.map_nil, List.sum_cons, List.sum_nil, add_zero]
      exact e

/-- One order: the sums of the new terms in terms of the sum of the operators of the order before. -/
theorem bchLevel_spec (ord : SetOrder ℕ) {X Y : Mono} (hX : X.On n) (hY : Y.On n) (k : ℕ) : ∀ (ts : List Mono), (∀ t ∈ ts, t.On n) → ∀ acc : List Mono,
    ∃ l, bchLevel ord X Y k ts acc = .ok (acc ++ l) ∧
      (∀ m ∈ l, m.On n ∧ ∃ t ∈ ts,
        (qcomm (X.op n) (t.op n) ≠ 0 ∧ m.op n = (1 / 2 : ℂ) • qcomm (X.op n) (t.op n) ∧ m.den n = (1 / (k.factorial : ℂ)) • qcomm (X.op n) (t.op n)) ∨
        (qcomm (Y.op n) (t.op n) ≠ 0 ∧ m.op n = (1 / 2 : ℂ) • qcomm (Y.op n) (t.op n) ∧ m.den n = -((1 / (k.factorial : ℂ)) • qcomm (Y.op n) (t.op n)))) ∧
      denSum n l = (1 / (k.factorial : ℂ)) • qcomm (X.op n - Y.op n) (opSum n ts) ∧ opSum n l = (1 / 2 : ℂ) • qcomm (X.op n + Y.op n) (opSum n ts)
  | [], _, acc => ⟨[], by simp [bchLevel], by simp, by simp [denSum, opSum, qcomm], by simp [opSum, qcomm]⟩
  | t :: ts, h, acc => by
    have ht := h t (by simp)
    obtain ⟨c, hc, -⟩ := commutator_op ord hX ht
    obtain ⟨c', hc', -⟩ := commutator_op ord hY ht
    obtain ⟨l1, e1, m1, d1, o1⟩ := bchAppend_spec ord hX ht hc (k.factorial : ℂ) acc
    obtain ⟨l2, e2, m2, d2, o2⟩ := bchAppend_spec ord hY ht hc' (-1 * (k.factorial : ℂ)) (acc ++ l1)
    obtain ⟨l, e, m3, d, o⟩ := bchLevel_spec ord hX hY k ts (fun t ht => h t (by simp [ht])) (acc ++ l1 ++ l2)
    have en : ∀ M : QMat n, (1 / (-1 * (k.factorial : ℂ))) • M = -((1 / (k.factorial : ℂ)) • M) := fun M => by
      rw [← neg_smul]
      congr 1
      rw [neg_one_mul, one_div, one_div, inv_neg]
    refine ⟨l1 ++ l2 ++ l, ?_, ?_, ?_, ?_⟩
    · rw [bchLevel]
      simp only [hc, hc', bind, Except.bind]
      rw [e1, e2, e]
      simp
    · intro m hm
      rcases List.mem_append.1 hm with hm | hm
      · rcases List.mem_append.1 hm with hm | hm
        · exact ⟨(m1 m hm).1, t, by simp, .inl (m1 m hm).2⟩
        · refine ⟨(m2 m hm).1, t, by simp, .inr ⟨(m2 m hm).2.1, (m2 m hm).2.2.1, ?_⟩⟩
          rw [(m2 m hm).2.2.2, en]
      · obtain ⟨a, t', ht', b⟩ := m3 m hm
        exact ⟨a, t', by simp [ht'], b⟩
    · have es : denSum n (l1 ++ l2 ++ l) = denSum n l1 + denSum n l2 + denSum n l := by simp [denSum, add_assoc]
      have et : opSum n (t :: ts) = t.op n + opSum n ts := by simp [opSum]
      rw [es, d1, d2, d, et, en, ← smul_neg, ← smul_add, ← smul_add]
      congr 1
      simp only [qcomm, Matrix.sub_mul, Matrix.mul_sub, Matrix.mul_add, Matrix.add_mul]
      abel
    · have es : opSum n (l1 ++ l2 ++ l) = opSum n l1 + opSum n l2 + opSum n l := by simp [opSum, add_assoc]
      have et : opSum n (t :: ts) = t.op n + opSum n ts := by simp [opSum]
      rw [es, o1, o2, o, et, ← smul_add, ← smul_add]
      congr 1
      simp only [qcomm, Matrix.mul_add, Matrix.add_mul]
      abel

theorem qcomm_zero (A : QMat n) : qcomm A 0 = 0 := by simp [qcomm]
theorem qcomm_self (A : QMat n) : qcomm A A = 0 := by simp [qcomm]
theorem qcomm_swap (A B : QMat n) : qcomm B A = -qcomm A B := by simp [qcomm]
theorem qcomm_smul (A B : QMat n) (c : ℂ) : qcomm A (c • B) = c • qcomm A B := by simp [qcomm, smul_sub]

/-- The sum that the terms of one order have: of order 1 both monomials, of order 2 their commutator, nothing of higher orders. -/
noncomputable def levelSum (A B : QMat n) : ℕ → QMat n
  | 0 => A + B
  | 1 => qcomm A B
  | _ => 0

theorem bchTerms_spec (ord : SetOrder ℕ) {X Y : Mono} (hX : X.On n) (hY : Y.On n) (cX : X.Consistent) (cY : Y.Consistent) : ∀ r : ℕ,
    ∃ L, bchTerms ord X Y r = .ok L ∧ L.length = r + 1 ∧ ∀ (k : ℕ) (l : List Mono), L[k]? = some l → (∀ m ∈ l, m.On n) ∧
      opSum n l = (if k = 0 then X.den n + Y.den n else 0) ∧ denSum n l = levelSum (X.den n) (Y.den n) k
  | 0 => by
    refine ⟨[[X, Y]], rfl, rfl, ?_⟩
    intro k l hk
    obtain ⟨hk', rfl⟩ := List.getElem?_eq_some_iff.1 hk
    obtain rfl : k = 0 := by simpa using hk'
    refine ⟨?_, ?_, ?_⟩
    · intro m hm
      simp only [List.getElem_cons_zero, List.mem_cons, List.not_mem_nil, or_false] at hm
      rcases hm with rfl | rfl
      · exact hX
      · exact hY
    · simp [opSum, op_eq_den hX.fits cX, op_eq_den hY.fits cY]
    · simp [denSum, levelSum]
  | r + 1 => by
    obtain ⟨L, hL, hlen, hs⟩ := bchTerms_spec ord hX hY cX cY r
    have hlast : L.getLast? = some (L[r]'(by omega)) := by
      rw [List.getLast?_eq_getElem?, show L.length - 1 = r by omega]
      exact List.getElem?_eq_getElem (by omega)
    obtain ⟨on, os, -⟩ := hs r _ (List.getElem?_eq_getElem (by omega))
    obtain ⟨l, hl, ml, dl, ol⟩ := bchLevel_spec ord hX hY (L.length + 1) _ on []
    refine ⟨L ++ [l], ?_, by simp [hlen], ?_⟩
    · rw [bchTerms, hL]
      simp only [bind, Except.bind]
      rw [bchRecursion, hlast]
      simp only [bind, Except.bind]
      rw [hl]
      rfl
    · intro k l' hk
      rcases Nat.lt_or_ge k L.length with h | h
      · rw [List.getElem?_append_left h] at hk
        exact hs k l' hk
      · have hk' : k < (L ++ [l]).length := (List.getElem?_eq_some_iff.1 hk).1
        rw [List.length_append, List.length_singleton] at hk'
        obtain rfl : k = L.length := by omega
        rw [List.getElem?_append_right le_rfl, Nat.sub_self, List.getElem?_cons_zero] at hk
        obtain rfl := Option.some.inj hk
        refine ⟨fun m hm => (ml m hm).1, ?_, ?_⟩
        · rw [ol, os, op_eq_den hX.fits cX, op_eq_den hY.fits cY, if_neg (show L.length ≠ 0 by omega)]
          split
          · rw [qcomm_self, smul_zero]
          · rw [qcomm_zero, smul_zero]
        · rw [dl, os, op_eq_den hX.fits cX, op_eq_den hY.fits cY, hlen]
          by_cases h0 : r = 0
          · subst h0
            rw [if_pos rfl, levelSum]
            have e : qcomm (X.den n - Y.den n) (X.den n + Y.den n) = (2 : ℂ) • qcomm (X.den n) (Y.den n) := by
              simp only [qcomm, Matrix.sub_mul, Matrix.mul_sub, Matrix.mul_add, Matrix.add_mul, two_smul]
              abel
            rw [e, smul_smul]
            norm_num [Nat.factorial]
          · rw [if_neg h0, qcomm_zero, smul_zero]
            obtain ⟨q, rfl⟩ := Nat.exists_eq_succ_of_ne_zero h0
            rfl

/-- C105 (the sums): every call succeeds.  The terms of order 2 sum to the whole commutator `[X, Y]`, and the terms of every order above 2 sum to 0. -/
theorem C105_sums (ord : SetOrder ℕ) {X Y : Mono} (hX : X.WF) (hY : Y.WF) (fX : X.Fits n) (fY : Y.Fits n) (cX : X.Consistent) (cY : Y.Consistent) (r : ℕ) :
    ∃ L, bchTerms ord X Y r = .ok L ∧ L.length = r + 1 ∧ ∀ (k : ℕ) (l : List Mono), L[k]? = some l →
      (k = 0 → (l.map (fun m => m.den n)).sum = X.den n + Y.den n) ∧
      (k = 1 → (l.map (fun m => m.den n)).sum = X.den n * Y.den n - Y.den n * X.den n) ∧
      (2 ≤ k → (l.map (fun m => m.den n)).sum = 0) := by
  obtain ⟨L, hL, hlen, hs⟩ := bchTerms_spec (n := n) ord ⟨hX, fX⟩ ⟨hY, fY⟩ cX cY r
  refine ⟨L, hL, hlen, fun k l hk => ?_⟩
  obtain ⟨-, -, h⟩ := hs k l hk
  refine ⟨fun h0 => ?_, fun h1 => ?_, fun h2 => ?_⟩
  · subst h0; exact h
  · subst h1; exact h
  · obtain ⟨q, rfl⟩ := Nat.exists_eq_add_of_le' h2
    exact h

theorem den_sq {m : Mono} (h : m.WF) (hf : m.Fits n) : m.den n * m.den n = (m.coeff * m.coeff) • 1 := by
  rw [Mono.den, smul_mul_smul_comm, wordOp_pauliWord h hf, pauliWord_sq]

/-- C105 (refuted): for two monomials that do not commute neither the order 2 nor the order 3 of the Baker-Campbell-Hausdorff series is what the terms sum to. -/
theorem C105_refuted (ord : SetOrder ℕ) {X Y : Mono} (hX : X.WF) (hY : Y.WF) (fX : X.Fits n) (fY : Y.Fits n) (cX : X.Consistent) (cY : Y.Consistent)
    (hne : X.den n * Y.den n ≠ Y.den n * X.den n) : ∃ l₁ l₂ l₃ l₄, bchTerms ord X Y 3 = .ok [l₁, l₂, l₃, l₄] ∧
      (l₁.map (fun m => m.den n)).sum = bchOrder (X.den n) (Y.den n) 1 ∧
      (l₂.map (fun m => m.den n)).sum = (2 : ℂ) • bchOrder (X.den n) (Y.den n) 2 ∧ (l₂.map (fun m => m.den n)).sum ≠ bchOrder (X.den n) (Y.den n) 2 ∧
      (l₃.map (fun m => m.den n)).sum = 0 ∧ bchOrder (X.den n) (Y.den n) 3 ≠ 0 := by
  obtain ⟨L, hL, hlen, hs⟩ := C105_sums (n := n) ord hX hY fX fY cX cY 3
  match L, hlen with
  | [l₁, l₂, l₃, l₄], _ =>
    have h2 := (hs 1 l₂ rfl).2.1 rfl
    refine ⟨l₁, l₂, l₃, l₄, hL, (hs 0 l₁ rfl).1 rfl, ?_, ?_, (hs 2 l₃ rfl).2.2 le_rfl, ?_⟩
    · rw [h2, bchOrder, smul_smul, qcomm]
      norm_num
    · rw [h2, bchOrder, qcomm]
      intro h
      have h' : (1 / 2 : ℂ) • (X.den n * Y.den n - Y.den n * X.den n) = 0 := by
        generalize X.den n * Y.den n - Y.den n * X.den n = D at h
        have e : D = (1 / 2 : ℂ) • D + (1 / 2 : ℂ) • D := by rw [← add_smul]; norm_num
        have e' : (1 / 2 : ℂ) • D + 0 = (1 / 2 : ℂ) • D + (1 / 2 : ℂ) • D := by rw [add_zero, ← e, ← h]
        exact (add_left_cancel e').symm
      rcases smul_eq_zero.1 h' with h' | h'
      · norm_num at h'
      · exact hne (sub_eq_zero.1 h')
    · have anti : X.den n * Y.den n = -(Y.den n * X.den n) := by
        have := op_comm_or (n := n) ⟨hX, fX⟩ ⟨hY, fY⟩
        rw [op_eq_den fX cX, op_eq_den fY cY] at this
        exact this.resolve_left hne
      have hx0 : X.coeff ≠ 0 := by
        intro h
        apply hne
        rw [Mono.den, h, zero_smul, Matrix.zero_mul, Matrix.mul_zero]
      have sX := den_sq hX fX
      have sY := den_sq hY fY
      have eX : qcomm (X.den n) (qcomm (X.den n) (Y.den n)) = (4 * (X.coeff * X.coeff)) • Y.den n := by
        have e1 : qcomm (X.den n) (Y.den n) = (2 : ℂ) • (X.den n * Y.den n) := by
          rw [qcomm, ← neg_eq_iff_eq_neg.2 anti, sub_neg_eq_add, two_smul]
        have e2 : X.den n * Y.den n * X.den n = -((X.coeff * X.coeff) • Y.den n) := by
          rw [anti, Matrix.neg_mul, Matrix.mul_assoc, sX, Matrix.mul_smul, Matrix.mul_one]
        rw [e1, qcomm_smul, qcomm, ← Matrix.mul_assoc, sX, e2, Matrix.smul_mul, Matrix.one_mul, sub_neg_eq_add, ← two_smul ℂ, smul_smul, smul_smul]
        congr 1
        ring
      have eY : qcomm (Y.den n) (qcomm (Y.den n) (X.den n)) = (4 * (Y.coeff * Y.coeff)) • X.den n := by
        have anti' : Y.den n * X.den n = -(X.den n * Y.den n) := by rw [anti, neg_neg]
        have e1 : qcomm (Y.den n) (X.den n) = (2 : ℂ) • (Y.den n * X.den n) := by
          rw [qcomm, ← neg_eq_iff_eq_neg.2 anti', sub_neg_eq_add, two_smul]
        have e2 : Y.den n * X.den n * Y.den n = -((Y.coeff * Y.coeff) • X.den n) := by
          rw [anti', Matrix.neg_mul, Matrix.mul_assoc, sY, Matrix.mul_smul, Matrix.mul_one]
        rw [e1, qcomm_smul, qcomm, ← Matrix.mul_assoc, sY, e2, Matrix.smul_mul, Matrix.one_mul, sub_neg_eq_add, ← two_smul ℂ, smul_smul, smul_smul]
        congr 1
        ring
      intro h
      rw [bchOrder, eX, eY] at h
      rcases smul_eq_zero.1 h with h | h
      · norm_num at h
      · have h' : (4 * (X.coeff * X.coeff)) • (X.den n * Y.den n - Y.den n * X.den n) = 0 := by
          have a1 := congrArg (X.den n * ·) h
          have a2 := congrArg (· * X.den n) h
          simp only [Matrix.mul_add, Matrix.add_mul, Matrix.mul_smul, Matrix.smul_mul, Matrix.mul_zero, Matrix.zero_mul] at a1 a2
          rw [smul_sub]
          have : (4 * (X.coeff * X.coeff)) • (X.den n * Y.den n) = (4 * (X.coeff * X.coeff)) • (Y.den n * X.den n) :=
            add_right_cancel (a1.trans a2.symm)
          rw [this, sub_self]
        rcases smul_eq_zero.1 h' with h' | h'
        · exact hx0 (by simpa using h')
        · exact hne (sub_eq_zero.1 h')

/-- C105 (what is true): every single term is right up to its sign.  Each term of order 2 is the whole order 2 of the series, and each term of order 3 is plus or
minus 1/12 of a double commutator. -/
theorem C105_terms_partial (ord : SetOrder ℕ) {X Y : Mono} (hX : X.WF) (hY : Y.WF) (fX : X.Fits n) (fY : Y.Fits n) (cX : X.Consistent) (cY : Y.Consistent) :
    ∃ l₁ l₂ l₃, bchTerms ord X Y 2 = .ok [l₁, l₂, l₃] ∧ (∀ m ∈ l₂, m.den n = bchOrder (X.den n) (Y.den n) 2) ∧
      ∀ m ∈ l₃, ∃ Z ∈ [X, Y], m.den n = (1 / 12 : ℂ) • qcomm (Z.den n) (qcomm (X.den n) (Y.den n)) ∨
        m.den n = -((1 / 12 : ℂ) • qcomm (Z.den n) (qcomm (X.den n) (Y.den n))) := by
  have oX : X.On n := ⟨hX, fX⟩
  have oY : Y.On n := ⟨hY, fY⟩
  have eX := op_eq_den fX cX
  have eY := op_eq_den fY cY
  obtain ⟨l₂, h2, m2, -⟩ := bchLevel_spec ord oX oY 2 [X, Y] (by simp [oX, oY]) []
  obtain ⟨l₃, h3, m3, -⟩ := bchLevel_spec ord oX oY 3 l₂ (fun m hm => (m2 m hm).1) []
  refine ⟨[X, Y], l₂, l₃, ?_, ?_, ?_⟩
  · have e1 : bchTerms ord X Y 1 = .ok [[X, Y], l₂] := by
      rw [bchTerms, bchTerms]
      simp only [bind, Except.bind]
      rw [bchRecursion]
      simp only [List.getLast?_singleton, bind, Except.bind]
      rw [show [[X, Y]].length + 1 = 2 from rfl, h2]
      rfl
    rw [bchTerms, e1]
    simp only [bind, Except.bind]
    rw [bchRecursion]
    simp only [List.getLast?_cons_cons, List.getLast?_singleton, bind, Except.bind]
    rw [show [[X, Y], l₂].length + 1 = 3 from rfl, h3]
    rfl
  · intro m hm
    obtain ⟨-, t, ht, h⟩ := m2 m hm
    simp only [List.mem_cons, List.not_mem_nil, or_false] at ht
    have ef : (1 / (Nat.factorial 2 : ℂ)) = 1 / 2 := by norm_num [Nat.factorial]
    rw [ef] at h
    rw [bchOrder]
    rcases ht with rfl | rfl <;> rcases h with ⟨h0, -, h⟩ | ⟨h0, -, h⟩
    · exact absurd (qcomm_self _) h0
    · rw [h, qcomm_swap, smul_neg, neg_neg, eX, eY]
    · rw [h, eX, eY]
    · exact absurd (qcomm_self _) h0
  · have o2 : ∀ t ∈ l₂, t.op n = (1 / 2 : ℂ) • qcomm (X.den n) (Y.den n) ∨ t.op n = -((1 / 2 : ℂ) • qcomm (X.den n) (Y.den n)) := by
      intro m hm
      obtain ⟨-, t, ht, h⟩ := m2 m hm
      simp only [List.mem_cons, List.not_mem_nil, or_false] at ht
      rcases ht with rfl | rfl <;> rcases h with ⟨h0, h, -⟩ | ⟨h0, h, -⟩
      · exact absurd (qcomm_self _) h0
      · right; rw [h, qcomm_swap, smul_neg, eX, eY]
      · left; rw [h, eX, eY]
      · exact absurd (qcomm_self _) h0
    have ef : (1 / (Nat.factorial 3 : ℂ)) = 1 / 6 := by norm_num [Nat.factorial]
    have key : ∀ A B : QMat n, (1 / 6 : ℂ) • qcomm A ((1 / 2 : ℂ) • B) = (1 / 12 : ℂ) • qcomm A B := fun A B => by
      rw [qcomm_smul, smul_smul]
      norm_num
    have key' : ∀ A B : QMat n, (1 / 6 : ℂ) • qcomm A (-((1 / 2 : ℂ) • B)) = -((1 / 12 : ℂ) • qcomm A B) := fun A B => by
      rw [← neg_smul, qcomm_smul, smul_smul, ← neg_smul]
      norm_num
    intro m hm
    obtain ⟨-, t, ht, h⟩ := m3 m hm
    rw [ef] at h
    rcases h with ⟨-, -, h⟩ | ⟨-, -, h⟩
    · refine ⟨X, by simp, ?_⟩
      rcases o2 t ht with e | e
      · left; rw [h, e, key, eX]
      · right; rw [h, e, key', eX]
    · refine ⟨Y, by simp, ?_⟩
      rcases o2 t ht with e | e
      · right; rw [h, e, key, eY]
      · left; rw [h, e, key', neg_neg, eY]

/-- BCH.py:145-146: the monomials of `closeness_3`, for values `x` and `y` of the symbols. -/
noncomputable def closenessA (x : ℂ) : Mono := ⟨[⟨0, 3, x⟩, ⟨1, 3, 1⟩, ⟨2, 0, 1⟩], x⟩
noncomputable def closenessB (y : ℂ) : Mono := ⟨[⟨0, 0, y⟩, ⟨1, 1, 1⟩, ⟨2, 3, 1⟩], y⟩

/-- Hypotheses of C105: the monomials of the script do not commute when the symbols are not 0. -/
example (x y : ℂ) (hx : x ≠ 0) (hy : y ≠ 0) : (closenessA x).WF ∧ (closenessB y).WF ∧ (closenessA x).Fits 3 ∧ (closenessB y).Fits 3 ∧
    (closenessA x).Consistent ∧ (closenessB y).Consistent ∧ (closenessA x).den 3 * (closenessB y).den 3 ≠ (closenessB y).den 3 * (closenessA x).den 3 := by
  have hA : (closenessA x).WF := ⟨by simp [closenessA, Mono.locations]⟩
  have hB : (closenessB y).WF := ⟨by simp [closenessB, Mono.locations]⟩
  have fA : (closenessA x).Fits 3 := by simp [closenessA, Mono.Fits, Mono.locations]
  have fB : (closenessB y).Fits 3 := by simp [closenessB, Mono.Fits, Mono.locations]
  have cA : (closenessA x).Consistent := by simp [closenessA, Mono.Consistent]
  have cB : (closenessB y).Consistent := by simp [closenessB, Mono.Consistent]
  refine ⟨hA, hB, fA, fB, cA, cB, fun h => ?_⟩
  have g : ∀ q : Fin 3, (gAt (closenessA x) q, gAt (closenessB y) q) = (![3, 3, 0] q, ![0, 1, 3] q) := by
    intro q
    fin_cases q <;> simp [gAt, closenessA, closenessB, Mono.locations, siteOf]
  have gA : ∀ q : Fin 3, gAt (closenessA x) q = ![3, 3, 0] q := fun q => (Prod.mk.inj (g q)).1
  have gB : ∀ q : Fin 3, gAt (closenessB y) q = ![0, 1, 3] q := fun q => (Prod.mk.inj (g q)).2
  have ord : SetOrder ℕ := ⟨id, fun _ => List.Perm.refl _⟩
  obtain ⟨c, h1, w1, f1, c1, o1⟩ := mul_den ord hA hB fA fB
  obtain ⟨d, h2, w2, f2, c2, o2⟩ := mul_den ord hB hA fB fA
  have k1 := mul_coeff ord hA hB fA fB cA cB h1
  have k2 := mul_coeff ord hB hA fB fA cB cA h2
  rw [op_eq_den fA cA, op_eq_den fB cB] at o1 o2
  have h3 : c.den 3 = d.den 3 := by rw [← op_eq_den f1 c1, ← op_eq_den f2 c2, o1, o2, h]
  rw [Mono.den, Mono.den, den_of_word (word_comm ord hA hB h1 h2)] at h3
  have h4 := smul_left_injective ℂ (wordOp_ne_zero w2 f2) h3
  rw [k1, k2] at h4
  simp only [gA, gB, Fin.prod_univ_three] at h4
  have p : phase 3 1 = Complex.I ∧ phase 1 3 = -Complex.I ∧ phase 3 0 = 1 ∧ phase 0 3 = 1 := by
    refine ⟨?_, ?_, ?_, ?_⟩ <;> simp [phase, Pauli.mulCore, Pauli.mul, pyAssert, bind, Except.bind, pyGetItem, pyIndex, leviCivita]
  have h5 : x * y * Complex.I = y * x * -Complex.I := by
    simpa [p, closenessA, closenessB] using h4
  have : 2 * (x * y) * Complex.I = 0 := by linear_combination h5
  simp [hx, hy] at this

end Oranssi
