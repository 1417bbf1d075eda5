import Verif.Lemmas.MonoMul

/-! # C14 – C20, C25, C26: Pauli algebra -/

namespace Oranssi
open Spec
open scoped Matrix

/-- C14.  The product of Paulis on one site is the matrix product, on different sites it raises. -/
theorem C14_pauli_mul (p q : Pauli) :
    (p.alpha = q.alpha → ∃ r, p.mul q = .ok r ∧ r.alpha = p.alpha ∧
      r.coeff • (letterOf r.gamma).mat = (p.coeff • (letterOf p.gamma).mat) * (q.coeff • (letterOf q.gamma).mat)) ∧
    (p.alpha ≠ q.alpha → p.mul q = .error .assertion) := by
  refine ⟨fun h => ⟨_, (Pauli.mul_ok p q h).1, (Pauli.mul_ok p q h).2⟩, fun h => ?_⟩
  simp [Pauli.mul, pyAssert, h, bind, Except.bind]

/-- Instance of C14: `(2 X)(Y) = 2i Z`. -/
example : (⟨3, 1, 2⟩ : Pauli).mul ⟨3, 2, 1⟩ = .ok ⟨3, 3, Complex.I * 2⟩ := by
  simp [Pauli.mul, pyAssert, bind, Except.bind, pyGetItem, pyIndex, leviCivita]

/-- C15.  The product of two monomials exists, has the union of the sites in increasing order, a consistent coefficient
and denotes the operator product on every register that contains the sites, for whatever order sets are iterated in. -/
theorem C15_monomial_mul (ord : SetOrder ℕ) (n : ℕ) (a b : Mono) (ha : a.WF) (hb : b.WF) (fa : a.Fits n) (fb : b.Fits n) :
    ∃ c, a.mul ord b = .ok c ∧ c.locations.Pairwise (· < ·) ∧
      (∀ i, i ∈ c.locations ↔ i ∈ a.locations ∨ i ∈ b.locations) ∧
      c.coeff = (c.monomial.map (·.coeff)).prod ∧ c.op n = a.op n * b.op n ∧
      (a.Consistent → b.Consistent → c.den n = a.den n * b.den n) := by
  obtain ⟨c, hc, wc, fc, cc, oc⟩ := mul_den ord ha hb fa fb
  obtain ⟨c', hc', -, lc, -⟩ := mul_spec ord ha hb
  obtain rfl : c = c' := Except.ok.inj (hc.symm.trans hc')
  refine ⟨c, hc, wc.sorted, lc, cc, oc, fun ca cb => ?_⟩
  rw [← op_eq_den fc cc, ← op_eq_den fa ca, ← op_eq_den fb cb, oc]

/-- C15.  Multiplication is associative as operators. -/
theorem C15_monomial_mul_assoc (ord : SetOrder ℕ) (n : ℕ) (a b c : Mono) (ha : a.WF) (hb : b.WF) (hc : c.WF)
    (fa : a.Fits n) (fb : b.Fits n) (fc : c.Fits n) :
    ∃ ab bc l r, a.mul ord b = .ok ab ∧ b.mul ord c = .ok bc ∧ ab.mul ord c = .ok l ∧ a.mul ord bc = .ok r ∧
      l.den n = r.den n := by
  obtain ⟨ab, h1, w1, f1, c1, o1⟩ := mul_den ord ha hb fa fb
  obtain ⟨bc, h2, w2, f2, c2, o2⟩ := mul_den ord hb hc fb fc
  obtain ⟨l, h3, w3, f3, c3, o3⟩ := mul_den ord w1 hc f1 fc
  obtain ⟨r, h4, w4, f4, c4, o4⟩ := mul_den ord ha w2 fa f2
  refine ⟨ab, bc, l, r, h1, h2, h3, h4, ?_⟩
  rw [← op_eq_den f3 c3, ← op_eq_den f4 c4, o3, o4, o1, o2, Matrix.mul_assoc]

/-- C15.  The product does not depend on the iteration order of Python sets. -/
theorem C15_order_independent (ord ord' : SetOrder ℕ) (a b : Mono) (ha : a.WF) (hb : b.WF) :
    a.mul ord b = a.mul ord' b := by
  rw [mul_eq_new, mul_eq_new]
  have hp : (mulList ord a b).Perm (mulList ord' a b) := by
    simp only [mulList]
    exact ((((ord.perm _).trans (ord'.perm _).symm).map _).append (((ord.perm _).trans (ord'.perm _).symm).map _)).append
      (((ord.perm _).trans (ord'.perm _).symm).map _)
  obtain ⟨c, hc, wc, pc, cc⟩ := new_ok (mulList_alpha ord ha hb).1
  obtain ⟨d, hd, wd, pd, cd⟩ := new_ok (mulList_alpha ord' ha hb).1
  have hcd : c.monomial.Perm d.monomial := (pc.trans hp).trans pd.symm
  have e : c.monomial = d.monomial := by
    have hs := List.pairwise_map.1 wc.sorted
    have ht := List.pairwise_map.1 wd.sorted
    exact hcd.eq_of_pairwise (fun a b _ _ h1 h2 => absurd h1 (by omega)) hs ht
  rw [hc, hd]
  obtain ⟨cm, ck⟩ := c
  obtain ⟨dm, dk⟩ := d
  simp only at e cc cd
  rw [e] at cc ⊢
  rw [cc, cd]

/-- C15.  The constructor accepts exactly the lists of Paulis on distinct sites (and fails its assertion on all others); it sorts them by site, keeps every
Pauli, and its coefficient is the product of theirs. -/
theorem C15_constructor (ps : List Pauli) :
    ((∃ m, Mono.new ps = .ok m) ↔ (ps.map (·.alpha)).Nodup) ∧ (¬ (ps.map (·.alpha)).Nodup → Mono.new ps = .error .assertion) ∧
      ∀ m, Mono.new ps = .ok m → m.WF ∧ m.monomial.Perm ps ∧ m.Consistent := by
  have hbad : ¬ (ps.map (·.alpha)).Nodup → Mono.new ps = .error .assertion := fun h => by
    have hp := (List.mergeSort_perm ps (fun p q => p.alpha ≤ q.alpha)).map (·.alpha)
    simp only [Mono.new, pyAssert, if_neg (fun hn => h (hp.nodup_iff.1 hn))]
    rfl
  refine ⟨⟨fun ⟨m, hm⟩ => ?_, fun h => (new_ok h).imp fun m hm => hm.1⟩, hbad, fun m hm => ?_⟩
  · by_contra h
    rw [hbad h] at hm; cases hm
  · by_cases h : (ps.map (·.alpha)).Nodup
    · obtain ⟨m', h1, h2, h3, h4⟩ := new_ok h
      rw [hm] at h1
      obtain rfl := Except.ok.inj h1
      exact ⟨h2, h3, h4⟩
    · rw [hbad h] at hm; cases hm

/-- Instances of `C15_constructor`: `Z₃ X₁` is accepted, `X₁ Y₁` is not. -/
example : (([⟨3, 3, 1⟩, ⟨1, 1, 1⟩] : List Pauli).map (·.alpha)).Nodup ∧ ¬ (([⟨1, 1, 1⟩, ⟨1, 2, 1⟩] : List Pauli).map (·.alpha)).Nodup := by
  constructor <;> simp

/-- The example monomials X₀ Y₂ and Z₂ X₃. -/
noncomputable def exMonoA : Mono := ⟨[⟨0, 1, 1⟩, ⟨2, 2, 1⟩], 1⟩
noncomputable def exMonoB : Mono := ⟨[⟨2, 3, 1⟩, ⟨3, 1, 1⟩], 1⟩

theorem exMono_ok : exMonoA.WF ∧ exMonoB.WF ∧ exMonoA.Fits 4 ∧ exMonoB.Fits 4 ∧ exMonoA.Consistent ∧ exMonoB.Consistent := by
  refine ⟨⟨?_⟩, ⟨?_⟩, ?_, ?_, ?_, ?_⟩ <;> simp [exMonoA, exMonoB, Mono.locations, Mono.Fits, Mono.Consistent]

/-- Instance of C15. -/
example (ord : SetOrder ℕ) : ∃ c, exMonoA.mul ord exMonoB = .ok c ∧ c.den 4 = exMonoA.den 4 * exMonoB.den 4 := by
  obtain ⟨h1, h2, h3, h4, h5, h6⟩ := exMono_ok
  obtain ⟨c, hc, -, -, -, -, h⟩ := C15_monomial_mul ord 4 _ _ h1 h2 h3 h4
  exact ⟨c, hc, h h5 h6⟩

theorem den_of_word {n : ℕ} {c d : Mono} (h : c.word = d.word) : c.wordOp n = d.wordOp n := by
  rw [Mono.wordOp, Mono.wordOp, h]

/-- C16.  `commutes_with` decides commutation of the denoted operators. -/
theorem C16_commutes_with (ord : SetOrder ℕ) (n : ℕ) (a b : Mono) (ha : a.WF) (hb : b.WF) (fa : a.Fits n) (fb : b.Fits n)
    (ca : a.Consistent) (cb : b.Consistent) :
    ∃ r, a.commutesWith ord b = .ok r ∧ (r = true ↔ a.den n * b.den n = b.den n * a.den n) := by
  obtain ⟨c, h1, w1, f1, c1, o1⟩ := mul_den ord ha hb fa fb
  obtain ⟨d, h2, w2, f2, c2, o2⟩ := mul_den ord hb ha fb fa
  refine ⟨_, by simp only [Mono.commutesWith, h1, h2, bind, Except.bind]; rfl, ?_⟩
  rw [decide_eq_true_iff, ← op_eq_den fa ca, ← op_eq_den fb cb, ← o1, ← o2, op_eq_den f1 c1, op_eq_den f2 c2, Mono.den, Mono.den,
    den_of_word (word_comm ord ha hb h1 h2)]
  constructor
  · intro h; rw [h]
  · intro h
    exact (smul_left_injective ℂ (wordOp_ne_zero w2 f2) h).symm

/-- Both answers occur: X and Z on one site do not commute, X on different sites do. -/
example (ord : SetOrder ℕ) : (⟨[⟨0, 1, 1⟩], 1⟩ : Mono).commutesWith ord ⟨[⟨1, 1, 1⟩], 1⟩ = .ok true := by
  obtain ⟨r, hr, h⟩ := C16_commutes_with ord 2 ⟨[⟨0, 1, 1⟩], 1⟩ ⟨[⟨1, 1, 1⟩], 1⟩ ⟨by simp [Mono.locations]⟩
    ⟨by simp [Mono.locations]⟩ (by simp [Mono.Fits, Mono.locations]) (by simp [Mono.Fits, Mono.locations])
    (by simp [Mono.Consistent]) (by simp [Mono.Consistent])
  rw [hr, h.2]
  rw [Mono.den, Mono.den, wordOp_pauliWord ⟨by simp [Mono.locations]⟩ (by simp [Mono.Fits, Mono.locations]),
    wordOp_pauliWord ⟨by simp [Mono.locations]⟩ (by simp [Mono.Fits, Mono.locations]), smul_mul_smul_comm, smul_mul_smul_comm,
    pauliWord, pauliWord, tensor_mul, tensor_mul]
  congr 2
  funext q
  fin_cases q <;> simp [gAt, Mono.locations, siteOf, letterOf, Letter.mat]

/-- C17.  `commutator` denotes `AB - BA`. -/
theorem C17_commutator (ord : SetOrder ℕ) (n : ℕ) (a b : Mono) (ha : a.WF) (hb : b.WF) (fa : a.Fits n) (fb : b.Fits n)
    (ca : a.Consistent) (cb : b.Consistent) :
    ∃ c, a.commutator ord b = .ok c ∧ c.den n = a.den n * b.den n - b.den n * a.den n := by
  obtain ⟨c, h1, w1, f1, c1, o1⟩ := mul_den ord ha hb fa fb
  obtain ⟨d, h2, w2, f2, c2, o2⟩ := mul_den ord hb ha fb fa
  refine ⟨_, by simp only [Mono.commutator, h1, h2, bind, Except.bind]; rfl, ?_⟩
  rw [← op_eq_den fa ca, ← op_eq_den fb cb, ← o1, ← o2, op_eq_den f1 c1, op_eq_den f2 c2, Mono.den, Mono.den, Mono.den,
    ← den_of_word (word_comm ord ha hb h1 h2), ← sub_smul]
  rfl

/-- C18 (negative).  What is fed into the next product is not the commutator: multiplying `[A,B]` by `C` always gives
`A B C`, whatever `B A` is. -/
theorem C18_nested_is_plain_product (ord : SetOrder ℕ) (n : ℕ) (a b c : Mono) (ha : a.WF) (hb : b.WF) (hc : c.WF)
    (fa : a.Fits n) (fb : b.Fits n) (fc : c.Fits n) (ca : a.Consistent) (cb : b.Consistent) (cc : c.Consistent) :
    ∃ k r, a.commutator ord b = .ok k ∧ k.mul ord c = .ok r ∧ r.den n = a.den n * b.den n * c.den n := by
  obtain ⟨l, h1, w1, f1, c1, o1⟩ := mul_den ord ha hb fa fb
  obtain ⟨d, h2, w2, f2, c2, o2⟩ := mul_den ord hb ha fb fa
  have wk : (⟨l.monomial, l.coeff - d.coeff⟩ : Mono).WF := ⟨w1.sorted⟩
  have fk : (⟨l.monomial, l.coeff - d.coeff⟩ : Mono).Fits n := f1
  obtain ⟨r, h3, w3, f3, c3, o3⟩ := mul_den ord wk hc fk fc
  refine ⟨_, r, by simp only [Mono.commutator, h1, h2, bind, Except.bind], h3, ?_⟩
  rw [← op_eq_den f3 c3, o3, ← op_eq_den fa ca, ← op_eq_den fb cb, ← op_eq_den fc cc, ← o1]
  rfl

/-- C18 (negative), concrete: `[X,X] = 0` on one site, but the result times `Z` denotes `Z`, not `0`. -/
theorem C18_nested_commutator_wrong (ord : SetOrder ℕ) :
    ∃ x z k r : Mono, x.WF ∧ z.WF ∧ x.Consistent ∧ z.Consistent ∧ x.Fits 1 ∧ z.Fits 1 ∧
      x.commutator ord x = .ok k ∧ k.mul ord z = .ok r ∧ k.den 1 = 0 ∧ r.den 1 ≠ k.den 1 * z.den 1 := by
  have wx : (⟨[⟨0, 1, 1⟩], 1⟩ : Mono).WF := ⟨by simp [Mono.locations]⟩
  have wz : (⟨[⟨0, 3, 1⟩], 1⟩ : Mono).WF := ⟨by simp [Mono.locations]⟩
  have fx : (⟨[⟨0, 1, 1⟩], 1⟩ : Mono).Fits 1 := by simp [Mono.Fits, Mono.locations]
  have fz : (⟨[⟨0, 3, 1⟩], 1⟩ : Mono).Fits 1 := by simp [Mono.Fits, Mono.locations]
  have cx : (⟨[⟨0, 1, 1⟩], 1⟩ : Mono).Consistent := by simp [Mono.Consistent]
  have cz : (⟨[⟨0, 3, 1⟩], 1⟩ : Mono).Consistent := by simp [Mono.Consistent]
  obtain ⟨k, r, hk, hr, h⟩ := C18_nested_is_plain_product ord 1 _ _ _ wx wx wz fx fx fz cx cx cz
  obtain ⟨k', hk', h'⟩ := C17_commutator ord 1 _ _ wx wx fx fx cx cx
  obtain rfl : k = k' := Except.ok.inj (hk.symm.trans hk')
  rw [sub_self] at h'
  refine ⟨_, _, k, r, wx, wz, cx, cz, fx, fz, hk, hr, h', ?_⟩
  rw [h, h', Matrix.zero_mul]
  have e : (⟨[⟨0, 1, 1⟩], 1⟩ : Mono).den 1 * (⟨[⟨0, 1, 1⟩], 1⟩ : Mono).den 1 = 1 := by
    rw [Mono.den, wordOp_pauliWord wx fx, smul_mul_smul_comm, pauliWord_sq]; simp
  rw [e, Matrix.one_mul, Mono.den, one_smul]
  exact wordOp_ne_zero wz fz

/-! ### C19 -/

theorem eqv_iff (p q : Pauli) : p.eqv q = true ↔ p.alpha = q.alpha ∧ p.gamma = q.gamma := by
  simp [Pauli.eqv]

theorem eqCore_iff {a b : Mono} (hl : a.monomial.length = b.monomial.length) :
    a.eqCore b = true ↔ isReal a.coeff = isReal b.coeff ∧ a.word = b.word := by
  have h1 : (a.monomial.zip b.monomial).all (fun pq => pq.1.eqv pq.2) = true ↔ a.word = b.word := by
    obtain ⟨l, _⟩ := a
    obtain ⟨m, _⟩ := b
    simp only [Mono.word] at hl ⊢
    induction l generalizing m with
    | nil => cases m <;> simp_all
    | cons p l ih =>
      cases m with
      | nil => simp at hl
      | cons q m =>
        simp only [List.length_cons, Nat.add_right_cancel_iff] at hl
        simp only [List.zip_cons_cons, List.all_cons, Bool.and_eq_true, ih m hl, eqv_iff, List.map_cons, List.cons.injEq,
          Prod.mk.injEq]
  unfold Mono.eqCore
  cases h2 : isReal a.coeff <;> cases h3 : isReal b.coeff <;> simp [h1]

theorem reprBare_word {a b : Mono} (h : a.word = b.word) : a.reprBare = b.reprBare := by
  have : ∀ m : Mono, m.reprBare = " ".intercalate (m.word.map (fun p => s!"S({p.1},{p.2.val})")) := by
    intro m; simp only [Mono.reprBare, Mono.word, List.map_map]; rfl
  rw [this, this, h]

/-- C19 for monomials: equal monomials have equal hashes, and `==` is reflexive, symmetric and transitive on monomials of
one length; for different lengths it raises. -/
theorem C19_monomial_eq_hash_partial (pyHash : String → ℤ) (a b c : Mono) :
    (a.eq b = .ok true → a.hash pyHash = b.hash pyHash) ∧ a.eq a = .ok true ∧
      (a.eq b = .ok true → b.eq a = .ok true) ∧
      (a.eq b = .ok true → b.eq c = .ok true → a.eq c = .ok true) ∧
      (a.monomial.length ≠ b.monomial.length → a.eq b = .error .assertion) ∧
      (a.monomial.length = b.monomial.length →
        (a.eq b = .ok true ↔ (a.coeff.im = 0 ↔ b.coeff.im = 0) ∧ a.word = b.word)) := by
  have key : ∀ x y : Mono, x.eq y = .ok true ↔
      x.monomial.length = y.monomial.length ∧ isReal x.coeff = isReal y.coeff ∧ x.word = y.word := by
    intro x y
    unfold Mono.eq
    by_cases hl : x.monomial.length = y.monomial.length
    · simp [hl, eqCore_iff hl]
    · simp [hl]
  refine ⟨?_, ?_, ?_, ?_, ?_, ?_⟩
  · intro h
    obtain ⟨-, h1, h2⟩ := (key a b).1 h
    simp only [Mono.hash, h1, reprBare_word h2]
  · rw [key]; exact ⟨rfl, rfl, rfl⟩
  · rw [key, key]; rintro ⟨h1, h2, h3⟩; exact ⟨h1.symm, h2.symm, h3.symm⟩
  · rw [key, key, key]; rintro ⟨h1, h2, h3⟩ ⟨h4, h5, h6⟩; exact ⟨h1.trans h4, h2.trans h5, h3.trans h6⟩
  · intro h; simp [Mono.eq, h]
  · intro h
    rw [key]
    simp [h, isReal]

/-- C19 (negative) for Paulis: `1·X` and `2·X` on one site compare equal, but different strings are hashed, so that for every
hash function that separates these two strings the hashes differ. -/
theorem C19_pauli_hash_inconsistent (fmt : ℂ → String) :
    ∃ p q : Pauli, p.eqv q = true ∧ p.repr fmt ≠ q.repr fmt ∧
      ∃ pyHash : String → ℤ, p.hash fmt pyHash ≠ q.hash fmt pyHash := by
  have hne : (⟨0, 1, 1⟩ : Pauli).repr fmt ≠ (⟨0, 1, 2⟩ : Pauli).repr fmt := by
    have h2 : (2 : ℂ) ≠ 1 := by norm_num
    simp only [Pauli.repr, if_true, if_neg h2]
    intro h
    have := congrArg String.length h
    simp only [String.length_append] at this
    have h3 : (" * " : String).length = 3 := by decide
    rw [h3] at this
    simp only [Pauli.reprBare] at this
    omega
  refine ⟨⟨0, 1, 1⟩, ⟨0, 1, 2⟩, by simp [Pauli.eqv], hne, ?_⟩
  refine ⟨fun s => if s = (⟨0, 1, 1⟩ : Pauli).repr fmt then 0 else 1, ?_⟩
  simp [Pauli.hash, hne.symm]

/-! ### C20 -/

theorem listLt_irrefl (l : List (Fin 4)) : listLt l l = false := by
  induction l with
  | nil => rfl
  | cons a l ih => simp [listLt, ih]

theorem listLt_trans : ∀ l m k : List (Fin 4), listLt l m = true → listLt m k = true → listLt l k = true
  | [], m, k => by cases m <;> cases k <;> simp [listLt]
  | a :: l, [], k => by simp [listLt]
  | a :: l, b :: m, [] => by simp [listLt]
  | a :: l, b :: m, c :: k => by
    have ih := listLt_trans l m k
    simp only [listLt]
    intro h1 h2
    rcases lt_trichotomy a b with h | h | h
    · rcases lt_trichotomy b c with h' | h' | h'
      · simp [h.trans h']
      · simp [h' ▸ h]
      · simp [h'.not_gt, h'.ne'] at h2
    · subst h
      simp only [lt_irrefl, if_false, if_true] at h1
      rcases lt_trichotomy a c with h' | h' | h'
      · simp [h']
      · subst h'
        simp only [lt_irrefl, if_false, if_true] at h2 ⊢
        exact ih h1 h2
      · simp [h'.not_gt, h'.ne'] at h2
    · simp [h.not_gt, h.ne'] at h1

/-- C20 (true part).  `<` is irreflexive, and on monomials with real coefficients it is asymmetric and transitive. -/
theorem C20_real_strict_order_partial (a b c : Mono) :
    a.lt a = false ∧
      (a.coeff.im = 0 → b.coeff.im = 0 → a.lt b = true → b.lt a = false) ∧
      (a.coeff.im = 0 → b.coeff.im = 0 → c.coeff.im = 0 → a.lt b = true → b.lt c = true → a.lt c = true) := by
  have key : ∀ x y : Mono, x.coeff.im = 0 → y.coeff.im = 0 → (x.lt y = true ↔
      if x.monomial.map (·.gamma) = y.monomial.map (·.gamma) then x.coeff.re < y.coeff.re
      else listLt (x.monomial.map (·.gamma)) (y.monomial.map (·.gamma)) = true) := by
    intro x y hx hy
    simp only [Mono.lt, isReal, hx, hy]
    split <;> simp
  have htr : ∀ a b c : Mono, a.coeff.im = 0 → b.coeff.im = 0 → c.coeff.im = 0 → a.lt b = true → b.lt c = true → a.lt c = true := by
    intro a b c ha hb hc
    rw [key a b ha hb, key b c hb hc, key a c ha hc]
    generalize a.monomial.map (·.gamma) = x
    generalize b.monomial.map (·.gamma) = y
    generalize c.monomial.map (·.gamma) = z
    by_cases h1 : x = y
    · subst h1
      by_cases h2 : x = z
      · subst h2
        simp only [if_true]
        exact fun h h' => h.trans h'
      · simp only [if_true, if_neg h2]
        exact fun _ h => h
    · by_cases h2 : y = z
      · subst h2
        simp only [if_neg h1, if_true]
        exact fun h _ => h
      · simp only [if_neg h1, if_neg h2]
        intro h h'
        have := listLt_trans x y z h h'
        have hxz : x ≠ z := by
          rintro rfl
          rw [listLt_irrefl] at this
          cases this
        rw [if_neg hxz]
        exact this
  have hirr : ∀ a : Mono, a.lt a = false := by
    intro a
    simp only [Mono.lt, if_true]
    cases isReal a.coeff <;> simp
  refine ⟨hirr a, ?_, htr a b c⟩
  intro ha hb h
  by_contra hc
  have := htr a b a ha hb ha h (by simpa using hc)
  rw [hirr] at this
  cases this

/-- C20 (negative).  With a real and an imaginary coefficient on one word, each is smaller than the other; so `<` is neither
asymmetric nor transitive. -/
theorem C20_lt_not_asymmetric :
    ∃ a b : Mono, a.WF ∧ b.WF ∧ a.Consistent ∧ b.Consistent ∧ a.lt b = true ∧ b.lt a = true ∧ a.lt a = false := by
  refine ⟨⟨[⟨0, 1, 1⟩], 1⟩, ⟨[⟨0, 1, Complex.I⟩], Complex.I⟩, ⟨by simp [Mono.locations]⟩, ⟨by simp [Mono.locations]⟩,
    by simp [Mono.Consistent], by simp [Mono.Consistent], ?_, ?_, ?_⟩ <;> simp [Mono.lt, isReal]

/-- C20 (negative).  `<` ignores the sites, `==` does not: X on site 0 and X on site 1 are incomparable but different, so
sorting need not group equal monomials. -/
theorem C20_lt_ignores_sites :
    ∃ a b : Mono, a.WF ∧ b.WF ∧ a.lt b = false ∧ b.lt a = false ∧ a.eq b = .ok false := by
  refine ⟨⟨[⟨0, 1, 1⟩], 1⟩, ⟨[⟨1, 1, 1⟩], 1⟩, ⟨by simp [Mono.locations]⟩, ⟨by simp [Mono.locations]⟩, ?_, ?_, ?_⟩ <;>
    simp [Mono.lt, Mono.eq, Mono.eqCore, Pauli.eqv, isReal]

/-! ### C25 -/

/-- C25 (true part).  Conjugation of a Pauli is the adjoint; for a monomial the Paulis then denote the adjoint operator;
conjugating twice restores the object; and the object as a whole denotes the adjoint when its coefficient is real. -/
theorem C25_conj_partial (n : ℕ) (p : Pauli) (m : Mono) (hm : m.WF) (hf : m.Fits n) :
    (p.conj.coeff • (letterOf p.conj.gamma).mat = (p.coeff • (letterOf p.gamma).mat)ᴴ) ∧ p.conj.conj = p ∧
      m.conj.op n = (m.op n)ᴴ ∧ m.conj.conj = m ∧
      (m.coeff.im = 0 → m.conj.den n = (m.den n)ᴴ) := by
  have hp : ∀ p : Pauli, p.conj.coeff • (letterOf p.conj.gamma).mat = (p.coeff • (letterOf p.gamma).mat)ᴴ := by
    intro p; rw [Matrix.conjTranspose_smul, Letter.mat_herm]; rfl
  have hpp : ∀ p : Pauli, p.conj.conj = p := by
    intro p; simp [Pauli.conj]
  have hloc : m.conj.locations = m.locations := by
    simp [Mono.conj, Mono.locations, Function.comp_def, Pauli.conj]
  have hf' : m.conj.Fits n := by intro i hi; rw [hloc] at hi; exact hf i hi
  refine ⟨hp p, hpp p, ?_, ?_, ?_⟩
  · rw [op_tensor hf, op_tensor hf', tensor_conjTranspose]
    congr 1
    funext q
    rw [pauliAt_nodup hm.nodup, pauliAt_nodup (by rw [show m.conj.monomial.map (·.alpha) = _ from hloc]; exact hm.nodup)]
    rw [show m.conj.monomial.map (·.alpha) = _ from hloc]
    by_cases hq : (q : ℕ) ∈ m.locations
    · obtain ⟨-, h1, h2⟩ := siteOf_mem hq
      have : siteOf m.conj.monomial q = (siteOf m.monomial q).conj := by
        have h3 : (siteOf m.monomial q).conj ∈ m.conj.monomial := List.mem_map.2 ⟨_, h1, rfl⟩
        have := siteOf_eq_of_mem (by rw [show m.conj.monomial.map (·.alpha) = _ from hloc]; exact hm.nodup) h3
        rw [show (siteOf m.monomial q).conj.alpha = q from h2] at this
        exact this
      rw [if_pos hq, if_pos (show (q : ℕ) ∈ m.monomial.map (·.alpha) from hq), this, hp]
    · rw [if_neg hq, if_neg (show (q : ℕ) ∉ m.monomial.map (·.alpha) from hq), Matrix.conjTranspose_one]
  · obtain ⟨l, c⟩ := m
    simp only [Mono.conj, List.map_map]
    congr 1
    exact map_eq_self _ _ (fun p _ => hpp p)
  · intro him
    have hw : m.conj.wordOp n = m.wordOp n := by
      simp [Mono.wordOp, Mono.word, Mono.conj, Function.comp_def, Pauli.conj]
    rw [Mono.den, Mono.den, hw, Matrix.conjTranspose_smul, wordOp_pauliWord hm hf, pauliWord_herm]
    congr 1
    apply Complex.ext <;> simp [Mono.conj, him]

/-- C25 (negative).  `(i X).conj()` still denotes `i X`, which is not its adjoint `-i X`, because the attribute `coeff` is not
conjugated. -/
theorem C25_conj_stale_coeff :
    ∃ m : Mono, m.WF ∧ m.Consistent ∧ m.Fits 1 ∧ m.conj.den 1 = m.den 1 ∧ m.conj.den 1 ≠ (m.den 1)ᴴ := by
  have wx : (⟨[⟨0, 1, Complex.I⟩], Complex.I⟩ : Mono).WF := ⟨by simp [Mono.locations]⟩
  have fx : (⟨[⟨0, 1, Complex.I⟩], Complex.I⟩ : Mono).Fits 1 := by simp [Mono.Fits, Mono.locations]
  have e : (⟨[⟨0, 1, Complex.I⟩], Complex.I⟩ : Mono).conj.den 1 = (⟨[⟨0, 1, Complex.I⟩], Complex.I⟩ : Mono).den 1 := by
    simp [Mono.den, Mono.wordOp, Mono.word, Mono.conj, Pauli.conj]
  refine ⟨_, wx, by simp [Mono.Consistent], fx, e, ?_⟩
  rw [e, Mono.den, Matrix.conjTranspose_smul]
  intro h
  have hw := wordOp_ne_zero wx fx
  have hh : ((⟨[⟨0, 1, Complex.I⟩], Complex.I⟩ : Mono).wordOp 1)ᴴ = (⟨[⟨0, 1, Complex.I⟩], Complex.I⟩ : Mono).wordOp 1 := by
    rw [wordOp_pauliWord wx fx, pauliWord_herm]
  rw [hh] at h
  have := smul_left_injective ℂ hw h
  have := congrArg Complex.im this
  simp at this
  norm_num at this

/-! ### C26 -/

theorem new_char (l : ℕ) (g : Fin 4) :
    Pauli.new l (.inr (String.singleton (pauliInt2Str g))) 1 = .ok ⟨l, g, 1⟩ := by
  have h : ∀ g : Fin 4, pauliStr2Int (String.singleton (pauliInt2Str g)) = some g := by decide
  simp [Pauli.new, pyAssert, bind, Except.bind, h]

/-- Building the key list. -/
theorem monoOfKey_eq (l : List (ℕ × Fin 4)) (hs : (l.map (·.1)).Pairwise (· < ·)) :
    monoOfKey (String.ofList (l.map (fun p => pauliInt2Str p.2)), l.map (·.1)) =
      .ok ⟨l.map (fun p => ⟨p.1, p.2, 1⟩), 1⟩ := by
  have hz : (l.map (fun p => pauliInt2Str p.2)).zip (l.map (·.1)) = l.map (fun p => (pauliInt2Str p.2, p.1)) := by
    rw [List.zip_map']
  have e : (l.map (fun p : ℕ × Fin 4 => (⟨p.1, p.2, 1⟩ : Pauli))).map (·.alpha) = l.map (·.1) := by
    simp [Function.comp_def]
  have hm : (l.map (fun p : ℕ × Fin 4 => (⟨p.1, p.2, 1⟩ : Pauli))).mergeSort (fun p q => p.alpha ≤ q.alpha) =
      l.map (fun p : ℕ × Fin 4 => (⟨p.1, p.2, 1⟩ : Pauli)) := by
    apply List.mergeSort_of_pairwise
    rw [List.pairwise_map] at hs ⊢
    exact hs.imp (fun h => by simpa using h.le)
  simp only [monoOfKey, String.toList_ofList, hz]
  rw [mapM_ok _ (fun p => ⟨p.2, (pauliStr2Int (String.singleton p.1)).getD 0, 1⟩)]
  · simp only [bind, Except.bind, List.map_map]
    have h : ∀ g : Fin 4, pauliStr2Int (String.singleton (pauliInt2Str g)) = some g := by decide
    have e2 : ((fun p : Char × ℕ => (⟨p.2, (pauliStr2Int (String.singleton p.1)).getD 0, 1⟩ : Pauli)) ∘
        fun p : ℕ × Fin 4 => (pauliInt2Str p.2, p.1)) = fun p => ⟨p.1, p.2, 1⟩ := by
      funext p; simp [h]
    rw [e2]
    simp only [Mono.new, hm, e]
    have hn : (l.map (·.1)).Nodup := hs.imp (fun h => Nat.ne_of_lt h)
    simp [pyAssert, hn, bind, Except.bind, Function.comp_def]
  · intro p hp
    obtain ⟨q, hq, rfl⟩ := List.mem_map.1 hp
    rw [new_char]
    have h : ∀ g : Fin 4, pauliStr2Int (String.singleton (pauliInt2Str g)) = some g := by decide
    simp [h]

/-- C26.  A key with letters X, Y, Z on increasing qubits survives the round trip. -/
theorem C26_key_round_trip (l : List (ℕ × Fin 4)) (hs : (l.map (·.1)).Pairwise (· < ·)) (h0 : ∀ p ∈ l, p.2 ≠ 0) :
    ∃ m, monoOfKey (String.ofList (l.map (fun p => (letterOf p.2).char)), l.map (·.1)) = .ok m ∧
      m.toOranssi = (String.ofList (l.map (fun p => (letterOf p.2).char)), l.map (·.1)) := by
  have hc : ∀ g : Fin 4, (letterOf g).char = pauliInt2Str g := by decide
  simp only [hc]
  refine ⟨_, monoOfKey_eq l hs, ?_⟩
  have hf : (l.map (fun p : ℕ × Fin 4 => (⟨p.1, p.2, 1⟩ : Pauli))).filter (·.gamma ≠ 0) =
      l.map (fun p : ℕ × Fin 4 => (⟨p.1, p.2, 1⟩ : Pauli)) := by
    rw [List.filter_eq_self]
    intro p hp
    obtain ⟨q, hq, rfl⟩ := List.mem_map.1 hp
    simpa using h0 q hq
  simp only [Mono.toOranssi, hf, List.map_map, Function.comp_def]

/-- Instance of C26: the key `("XZ", 0, 2)`. -/
example : ∃ m, monoOfKey ("XZ", [0, 2]) = .ok m ∧ m.toOranssi = ("XZ", [0, 2]) := by
  obtain ⟨m, h1, h2⟩ := C26_key_round_trip [(0, 1), (2, 3)] (by simp) (by simp)
  exact ⟨m, h1, h2⟩

/-- C26.  For any monomial, `to_oranssi` lists the non-identity sites in increasing order, and the monomial rebuilt from the
key has the same Pauli word operator (coefficient one). -/
theorem C26_to_oranssi (n : ℕ) (m : Mono) (hm : m.WF) (hf : m.Fits n) :
    m.toOranssi.2.Pairwise (· < ·) ∧
      (∀ i, i ∈ m.toOranssi.2 ↔ ∃ p ∈ m.monomial, p.alpha = i ∧ p.gamma ≠ 0) ∧
      ∃ m', monoOfKey m.toOranssi = .ok m' ∧ m'.den n = m.wordOp n := by
  have hs : ((m.monomial.filter (·.gamma ≠ 0)).map (·.alpha)).Pairwise (· < ·) :=
    hm.sorted.sublist (List.Sublist.map _ List.filter_sublist)
  refine ⟨hs, ?_, ?_⟩
  · intro i
    simp only [Mono.toOranssi, List.mem_map, List.mem_filter, decide_eq_true_eq]
    constructor
    · rintro ⟨p, ⟨h1, h2⟩, h3⟩; exact ⟨p, h1, h3, h2⟩
    · rintro ⟨p, h1, h3, h2⟩; exact ⟨p, ⟨h1, h2⟩, h3⟩
  · have e := monoOfKey_eq ((m.monomial.filter (·.gamma ≠ 0)).map (fun p => (p.alpha, p.gamma)))
      (by rw [List.map_map]; exact hs)
    simp only [List.map_map] at e
    refine ⟨_, e, ?_⟩
    rw [Mono.den, one_smul]
    have w' : (⟨(m.monomial.filter (·.gamma ≠ 0)).map (fun p => (⟨p.alpha, p.gamma, 1⟩ : Pauli)), 1⟩ : Mono).WF :=
      ⟨by simp only [Mono.locations, List.map_map]; exact hs⟩
    have f' : (⟨(m.monomial.filter (·.gamma ≠ 0)).map (fun p => (⟨p.alpha, p.gamma, 1⟩ : Pauli)), 1⟩ : Mono).Fits n := by
      intro i hi
      simp only [Mono.locations, List.map_map, List.mem_map, List.mem_filter] at hi
      obtain ⟨p, ⟨h1, -⟩, rfl⟩ := hi
      exact hf _ (List.mem_map.2 ⟨p, h1, rfl⟩)
    refine (wordOp_pauliWord w' f').trans ?_
    rw [wordOp_pauliWord hm hf]
    congr 1
    funext q
    congr 1
    by_cases hq : ∃ p ∈ m.monomial, p.alpha = (q : ℕ) ∧ p.gamma ≠ 0
    · obtain ⟨p, h1, h2, h3⟩ := hq
      have a1 := gAt_mem hm.nodup h1
      have a2 := gAt_mem w'.nodup (p := ⟨p.alpha, p.gamma, 1⟩) (List.mem_map.2 ⟨p, by simp [h1, h3], rfl⟩)
      rw [h2] at a1
      simp only [h2] at a2
      rw [a1, a2]
    · have a1 : gAt m q = 0 := by
        by_contra hne
        have hl : (q : ℕ) ∈ m.locations := by
          by_contra hl; exact hne (by rw [gAt, if_neg hl])
        obtain ⟨-, b1, b2⟩ := siteOf_mem hl
        rw [gAt, if_pos hl] at hne
        exact hq ⟨_, b1, b2, hne⟩
      rw [a1, gAt, if_neg]
      simp only [Mono.locations, List.map_map, List.mem_map, List.mem_filter, decide_eq_true_eq, Function.comp_def]
      rintro ⟨p, ⟨h1, h3⟩, h2⟩
      exact hq ⟨p, h1, h2, h3⟩

end Oranssi
