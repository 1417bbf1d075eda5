import Verif.Model.AlgebraGraphs
import Verif.Spec.CommDepth
import Verif.Lemmas.Commutator

/-! # Nodes of the algebra graphs -/

namespace Oranssi
open Spec
open scoped Matrix

/-- The product of the coefficients of the Paulis of a monomial. -/
noncomputable def Mono.inner (m : Mono) : ℂ := (m.monomial.map (·.coeff)).prod

/-- The monomial with the coefficient its constructor would have given it. -/
noncomputable def Mono.core (m : Mono) : Mono := { m with coeff := m.inner }

/-- What every node of the graphs satisfies. -/
structure AlgNode (m : Mono) : Prop where
  sites : m.locations = [0, 1, 2]
  unit : m.inner ^ 4 = 1
  sign : m.coeff = m.inner ∨ m.coeff = -m.inner

theorem Spec.Generator.node {m : Mono} (h : Generator m) : AlgNode m :=
  ⟨h.sites, by rw [Mono.inner, ← h.consistent]; exact h.unit, Or.inl h.consistent⟩

theorem wf_of_sites {m : Mono} (h : m.locations = [0, 1, 2]) : m.WF := ⟨by rw [h]; decide⟩

theorem fits_of_sites {m : Mono} (h : m.locations = [0, 1, 2]) : m.Fits 3 := by
  intro i hi
  rw [h] at hi
  simp at hi
  omega

theorem unit_cases {z : ℂ} (h : z ^ 4 = 1) : z = 1 ∨ z = -1 ∨ z = Complex.I ∨ z = -Complex.I := by
  have : (z - 1) * (z + 1) * (z - Complex.I) * (z + Complex.I) = 0 := by
    have hI : Complex.I ^ 2 = -1 := Complex.I_sq
    linear_combination h - (z ^ 2 - 1) * hI
  rcases mul_eq_zero.1 this with h | h
  · rcases mul_eq_zero.1 h with h | h
    · rcases mul_eq_zero.1 h with h | h
      · exact Or.inl (sub_eq_zero.1 h)
      · exact Or.inr (Or.inl (eq_neg_of_add_eq_zero_left h))
    · exact Or.inr (Or.inr (Or.inl (sub_eq_zero.1 h)))
  · exact Or.inr (Or.inr (Or.inr (eq_neg_of_add_eq_zero_left h)))

theorem AlgNode.coeff_unit {m : Mono} (h : AlgNode m) : m.coeff ^ 4 = 1 := by
  rcases h.sign with e | e <;> rw [e]
  · exact h.unit
  · rw [neg_pow, h.unit]; norm_num

theorem keepCoeff_unit {z : ℂ} (h : z ^ 4 = 1) : keepCoeff z = true := by
  have : ‖z‖ = 1 := by rcases unit_cases h with rfl | rfl | rfl | rfl <;> simp
  simp only [keepCoeff, this]
  norm_num

theorem keepCoeff_zero : keepCoeff 0 = false := by simp [keepCoeff]

theorem phase_pow (g h : Fin 4) : phase g h ^ 4 = 1 := by
  by_cases h1 : g = 0
  · subst h1; rw [phase_zero_left, one_pow]
  by_cases h2 : h = 0
  · subst h2; rw [phase_zero_right, one_pow]
  by_cases h3 : g = h
  · subst h3; rw [phase_self, one_pow]
  rcases phase_ne h1 h2 h3 with h | h <;> rw [h.1]
  · exact Complex.I_pow_four
  · rw [neg_pow, Complex.I_pow_four]; norm_num

theorem phase_symm (g h : Fin 4) : phase h g = (starRingEnd ℂ) (phase g h) := by
  by_cases h1 : g = 0
  · subst h1; rw [phase_zero_left, phase_zero_right, map_one]
  by_cases h2 : h = 0
  · subst h2; rw [phase_zero_left, phase_zero_right, map_one]
  by_cases h3 : g = h
  · subst h3; rw [phase_self, map_one]
  rcases phase_ne h1 h2 h3 with h | h <;> rw [h.1, h.2]
  · rw [Complex.conj_I]
  · rw [map_neg, Complex.conj_I, neg_neg]

theorem mul_core (ord : SetOrder ℕ) (a b : Mono) : a.core.mul ord b.core = a.mul ord b := rfl

theorem core_consistent (m : Mono) : m.core.Consistent := rfl

theorem AlgNode.den_core {m : Mono} (h : AlgNode m) : m.den 3 = m.core.den 3 ∨ m.den 3 = -m.core.den 3 := by
  rcases h.sign with e | e
  · left; rw [Mono.den, Mono.den, e]; rfl
  · right; rw [Mono.den, Mono.den, e, neg_smul]; rfl

/-- Half a commutator of two nodes is zero or a node. -/
theorem halfComm_node (ord : SetOrder ℕ) {a b : Mono} (ha : AlgNode a) (hb : AlgNode b) :
    ∃ p, halfComm ord a b = .ok p ∧ p.locations = [0, 1, 2] ∧
      ((p.coeff = 0 ∧ a.den 3 * b.den 3 - b.den 3 * a.den 3 = 0) ∨
        (AlgNode p ∧ (p.den 3 = (1 / 2 : ℝ) • (a.den 3 * b.den 3 - b.den 3 * a.den 3) ∨
          p.den 3 = -((1 / 2 : ℝ) • (a.den 3 * b.den 3 - b.den 3 * a.den 3))))) := by
  have wa : a.core.WF := ⟨(wf_of_sites ha.sites).sorted⟩
  have wb : b.core.WF := ⟨(wf_of_sites hb.sites).sorted⟩
  have fa : a.core.Fits 3 := fits_of_sites ha.sites
  have fb : b.core.Fits 3 := fits_of_sites hb.sites
  obtain ⟨l, hl, wl, ll, cl, -, gl⟩ := mul_spec ord wa wb
  obtain ⟨r, hr, wr, lr, cr, -, gr⟩ := mul_spec ord wb wa
  have kl := mul_coeff ord wa wb fa fb (core_consistent a) (core_consistent b) hl
  have kr := mul_coeff ord wb wa fb fa (core_consistent b) (core_consistent a) hr
  have hC := C17_commutator ord 3 _ _ wa wb fa fb (core_consistent a) (core_consistent b)
  obtain ⟨c, hc, dc⟩ := hC
  have hc' : a.core.commutator ord b.core = .ok { l with coeff := l.coeff - r.coeff } := by
    simp only [Mono.commutator, hl, hr, bind, Except.bind]
  obtain rfl : _ = c := Except.ok.inj (hc'.symm.trans hc)
  have sl : l.locations = [0, 1, 2] := by
    refine sorted_ext wl.sorted (by decide) (fun i => ?_)
    rw [ll]
    change i ∈ a.locations ∨ i ∈ b.locations ↔ _
    rw [ha.sites, hb.sites]; simp
  set z : ℂ := ∏ q : Fin 3, phase (gAt a.core q) (gAt b.core q) with hz
  have hz4 : z ^ 4 = 1 := by rw [hz, ← Finset.prod_pow]; simp [phase_pow]
  have hz' : ∏ q : Fin 3, phase (gAt b.core q) (gAt a.core q) = (starRingEnd ℂ) z := by
    rw [hz, map_prod]; exact Finset.prod_congr rfl (fun q _ => phase_symm _ _)
  rw [hz'] at kr
  have kr' : r.coeff = a.core.coeff * b.core.coeff * (starRingEnd ℂ) z := by rw [kr]; ring
  have ulab : (a.core.coeff * b.core.coeff) ^ 4 = 1 := by
    change (a.inner * b.inner) ^ 4 = 1
    rw [mul_pow, ha.unit, hb.unit, one_mul]
  have ul : l.coeff ^ 4 = 1 := by rw [kl, mul_pow, ulab, hz4, one_mul]
  refine ⟨⟨l.monomial, (l.coeff - r.coeff) * (-1 / 2)⟩, ?_, sl, ?_⟩
  · have : a.commutator ord b = a.core.commutator ord b.core := rfl
    simp only [halfComm, this, hc', bind, Except.bind]
  · -- the commutator of the attributes agrees with the one of the inner coefficients up to a sign
    have hsign : a.den 3 * b.den 3 - b.den 3 * a.den 3 = a.core.den 3 * b.core.den 3 - b.core.den 3 * a.core.den 3 ∨
        a.den 3 * b.den 3 - b.den 3 * a.den 3 = -(a.core.den 3 * b.core.den 3 - b.core.den 3 * a.core.den 3) := by
      rcases ha.den_core with e | e <;> rcases hb.den_core with e' | e' <;> rw [e, e']
      · left; rfl
      · right; noncomm_ring
      · right; noncomm_ring
      · left; noncomm_ring
    have hcase : r.coeff = l.coeff ∨ r.coeff = -l.coeff := by
      rw [kr', kl]
      rcases unit_cases hz4 with e | e | e | e <;> rw [e] <;> simp
    rcases hcase with e | e
    · left
      refine ⟨by simp [e], ?_⟩
      have : a.core.den 3 * b.core.den 3 - b.core.den 3 * a.core.den 3 = 0 := by
        rw [← dc, Mono.den]; simp [e]
      rcases hsign with h | h <;> rw [h, this]
      rw [neg_zero]
    · right
      refine ⟨⟨sl, ?_, ?_⟩, ?_⟩
      · change (l.monomial.map (·.coeff)).prod ^ 4 = 1
        rw [← cl]; exact ul
      · right
        change (l.coeff - r.coeff) * (-1 / 2) = -(l.monomial.map (·.coeff)).prod
        rw [← cl, e]; ring
      · have hd : (⟨l.monomial, (l.coeff - r.coeff) * (-1 / 2)⟩ : Mono).den 3 =
            -((1 / 2 : ℝ) • (a.core.den 3 * b.core.den 3 - b.core.den 3 * a.core.den 3)) := by
          rw [← dc, Mono.den, Mono.den]
          change ((l.coeff - r.coeff) * (-1 / 2)) • l.wordOp 3 = -((1 / 2 : ℝ) • (l.coeff - r.coeff) • l.wordOp 3)
          rw [← Complex.coe_smul, smul_smul, ← neg_smul]
          congr 1
          push_cast; ring
        rcases hsign with h | h
        · right; rw [h, hd]
        · left; rw [h, hd, smul_neg]

/-! ### Keys -/

theorem same_iff (a b : Mono) : a.same b = true ↔
    a.monomial.length = b.monomial.length ∧ isReal a.coeff = isReal b.coeff ∧ a.word = b.word := by
  rw [Mono.same, Bool.and_eq_true, beq_iff_eq]
  constructor
  · rintro ⟨h1, h2⟩; exact ⟨h1, (eqCore_iff h1).1 h2⟩
  · rintro ⟨h1, h2⟩; exact ⟨h1, (eqCore_iff h1).2 h2⟩

theorem same_refl (a : Mono) : a.same a = true := (same_iff a a).2 ⟨rfl, rfl, rfl⟩

theorem same_symm {a b : Mono} (h : a.same b = true) : b.same a = true := by
  obtain ⟨h1, h2, h3⟩ := (same_iff a b).1 h
  exact (same_iff b a).2 ⟨h1.symm, h2.symm, h3.symm⟩

theorem same_trans {a b c : Mono} (h : a.same b = true) (h' : b.same c = true) : a.same c = true := by
  obtain ⟨h1, h2, h3⟩ := (same_iff a b).1 h
  obtain ⟨g1, g2, g3⟩ := (same_iff b c).1 h'
  exact (same_iff a c).2 ⟨h1.trans g1, h2.trans g2, h3.trans g3⟩

theorem AlgNode.length {m : Mono} (h : AlgNode m) : m.monomial.length = 3 := by
  have := congrArg List.length h.sites
  simpa [Mono.locations] using this

theorem AlgNode.eq_same {a b : Mono} (ha : AlgNode a) (hb : AlgNode b) : a.eq b = .ok (a.same b) := by
  rw [Mono.eq, if_neg (by rw [ha.length, hb.length]; simp), Mono.same, ha.length, hb.length]
  simp

theorem word_gAt {a b : Mono} (ha : a.locations = [0, 1, 2]) (hb : b.locations = [0, 1, 2]) :
    a.word = b.word ↔ (fun q : Fin 3 => letterOf (gAt a q)) = fun q : Fin 3 => letterOf (gAt b q) := by
  rw [word_eq (wf_of_sites ha), word_eq (wf_of_sites hb), ha, hb]
  have hinj : ∀ g g' : Fin 4, letterOf g = letterOf g' ↔ g = g' := by decide
  constructor
  · intro h
    simp only [List.map_cons, List.map_nil, List.cons.injEq, Prod.mk.injEq, true_and, and_true] at h
    funext q
    fin_cases q
    · simp [h.1]
    · simp [h.2.1]
    · simp [h.2.2]
  · intro h
    have e : ∀ q : Fin 3, gAt a q = gAt b q := fun q => (hinj _ _).1 (congrFun h q)
    have e0 := e 0
    have e1 := e 1
    have e2 := e 2
    simp only [Fin.val_zero, Fin.val_one, Fin.val_two] at e0 e1 e2
    simp [e0, e1, e2]

theorem isReal_unit {z : ℂ} (h : z ^ 4 = 1) :
    (isReal z = true ∧ (z = 1 ∨ z = -1)) ∨ (isReal z = false ∧ (z = Complex.I ∨ z = -Complex.I)) := by
  rcases unit_cases h with rfl | rfl | rfl | rfl <;> simp [isReal]

/-- The coordinate of an operator along a node. -/
noncomputable def pairing (a : Mono) : QMat 3 →ₗ[ℝ] ℝ where
  toFun M := ((starRingEnd ℂ) a.coeff * (a.wordOp 3 * M).trace).re / 8
  map_add' M N := by
    rw [Matrix.mul_add, Matrix.trace_add, mul_add, Complex.add_re, add_div]
  map_smul' r M := by
    rw [Matrix.mul_smul, Matrix.trace_smul, RingHom.id_apply, smul_eq_mul, mul_smul_comm, Complex.smul_re, smul_eq_mul]
    ring

theorem pairing_apply (a : Mono) (M : QMat 3) : pairing a M = ((starRingEnd ℂ) a.coeff * (a.wordOp 3 * M).trace).re / 8 := rfl

theorem pairing_den {a b : Mono} (ha : AlgNode a) (hb : AlgNode b) :
    pairing a (b.den 3) = if a.word = b.word then ((starRingEnd ℂ) a.coeff * b.coeff).re else 0 := by
  rw [pairing_apply, Mono.den, Matrix.mul_smul, Matrix.trace_smul,
    wordOp_pauliWord (wf_of_sites ha.sites) (fits_of_sites ha.sites),
    wordOp_pauliWord (wf_of_sites hb.sites) (fits_of_sites hb.sites), pauliWord_trace_mul]
  by_cases h : a.word = b.word
  · rw [if_pos h, if_pos ((word_gAt ha.sites hb.sites).1 h), smul_eq_mul, ← mul_assoc]
    have : ((starRingEnd ℂ) a.coeff * b.coeff * (2 : ℂ) ^ 3) = ((starRingEnd ℂ) a.coeff * b.coeff) * ((8 : ℝ) : ℂ) := by
      push_cast; ring
    rw [this, Complex.re_mul_ofReal]; ring
  · rw [if_neg h, if_neg (fun h' => h ((word_gAt ha.sites hb.sites).2 h'))]
    simp

theorem pairing_self {a : Mono} (ha : AlgNode a) : pairing a (a.den 3) = 1 := by
  rw [pairing_den ha ha, if_pos rfl]
  rcases unit_cases ha.coeff_unit with e | e | e | e <;> rw [e] <;> simp

theorem pairing_other {a b : Mono} (ha : AlgNode a) (hb : AlgNode b) (h : a.same b = false) : pairing a (b.den 3) = 0 := by
  rw [pairing_den ha hb]
  split
  · next hw =>
    have hr : isReal a.coeff ≠ isReal b.coeff := by
      intro hr
      rw [(same_iff a b).2 ⟨by rw [ha.length, hb.length], hr, hw⟩] at h
      cases h
    rcases isReal_unit ha.coeff_unit with ⟨h1, h2⟩ | ⟨h1, h2⟩ <;> rcases isReal_unit hb.coeff_unit with ⟨h3, h4⟩ | ⟨h3, h4⟩ <;>
      first
        | exact absurd (h1.trans h3.symm) hr
        | (rcases h2 with h2 | h2 <;> rcases h4 with h4 | h4 <;> rw [h2, h4] <;> simp)
  · rfl

/-- Two nodes are the same key exactly when they denote one operator up to a sign. -/
theorem same_den {a b : Mono} (ha : AlgNode a) (hb : AlgNode b) :
    a.same b = true ↔ a.den 3 = b.den 3 ∨ a.den 3 = -b.den 3 := by
  constructor
  · intro h
    obtain ⟨-, h2, h3⟩ := (same_iff a b).1 h
    have hw : a.wordOp 3 = b.wordOp 3 := den_of_word h3
    rw [Mono.den, Mono.den, hw, ← neg_smul]
    rcases isReal_unit ha.coeff_unit with ⟨g1, g2⟩ | ⟨g1, g2⟩ <;> rcases isReal_unit hb.coeff_unit with ⟨g3, g4⟩ | ⟨g3, g4⟩
    · rcases g2 with g2 | g2 <;> rcases g4 with g4 | g4 <;> rw [g2, g4] <;> simp
    · rw [g1, g3] at h2; cases h2
    · rw [g1, g3] at h2; cases h2
    · rcases g2 with g2 | g2 <;> rcases g4 with g4 | g4 <;> rw [g2, g4] <;> simp
  · intro h
    by_contra hs
    have hs : a.same b = false := by simpa using hs
    have h0 := pairing_other ha hb hs
    have h1 := pairing_self ha
    rcases h with h | h
    · rw [h, h0] at h1; exact zero_ne_one h1
    · rw [h, map_neg, h0, neg_zero] at h1; exact zero_ne_one h1

theorem AlgNode.den_ne_zero {a : Mono} (ha : AlgNode a) : a.den 3 ≠ 0 := by
  intro h
  have := pairing_self ha
  rw [h, map_zero] at this
  exact zero_ne_one this

/-! ### The identity -/

/-- The monomial `I₀ I₁ I₂`. -/
noncomputable def idMono : Mono := ⟨[⟨0, 0, 1⟩, ⟨1, 0, 1⟩, ⟨2, 0, 1⟩], 1⟩

theorem threeIdentity_eq : threeIdentity = .ok idMono := by
  have h : (List.range 3).mapM (fun loc : ℕ => Pauli.new loc (.inl 0) 1) = .ok [⟨0, 0, 1⟩, ⟨1, 0, 1⟩, ⟨2, 0, 1⟩] := by
    simp [List.range, List.range.loop, Pauli.new, pyAssert, bind, Except.bind, pure, Except.pure]
  rw [threeIdentity, h]
  simp [bind, Except.bind, Mono.new, pyAssert, List.mergeSort, idMono, List.MergeSort.Internal.splitInTwo]

theorem idMono_node : AlgNode idMono :=
  ⟨rfl, by simp [Mono.inner, idMono], Or.inl (by simp [Mono.inner, idMono])⟩

theorem idMono_den : idMono.den 3 = 1 := by
  rw [Mono.den, wordOp_pauliWord (wf_of_sites rfl) (fits_of_sites rfl)]
  have : (fun q : Fin 3 => letterOf (gAt idMono q)) = fun _ => .I := by
    funext q
    fin_cases q <;> simp [gAt, idMono, Mono.locations, siteOf, letterOf]
  rw [this, ← pauliWord_sq (fun _ : Fin 3 => Letter.I)]
  change (1 : ℂ) • _ = _
  rw [one_smul]
  conv_lhs => rw [← Matrix.one_mul (pauliWord _)]
  congr 1
  rw [pauliWord]
  exact (tensor_one).symm

/-- A commutator is not the identity. -/
theorem same_id_false {p : Mono} (hp : AlgNode p) {B C : QMat 3} {r : ℝ} (h : p.den 3 = r • (B * C - C * B)) :
    p.same idMono = false := by
  by_contra hs
  have hs : p.same idMono = true := by simpa using hs
  have ht : (p.den 3).trace = 0 := by
    rw [h, Matrix.trace_smul, Matrix.trace_sub, Matrix.trace_mul_comm, sub_self, smul_zero]
  rcases (same_den hp idMono_node).1 hs with e | e <;> rw [e, idMono_den] at ht
  · rw [Matrix.trace_one] at ht; norm_num at ht
  · rw [Matrix.trace_neg, Matrix.trace_one] at ht; norm_num at ht

end Oranssi
