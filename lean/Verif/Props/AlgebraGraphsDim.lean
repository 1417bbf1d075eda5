import Verif.Props.AlgebraGraphsMain

/-! # C89: nodes of the algebra graph and the dimension of the dynamical Lie algebra -/

namespace Oranssi
open Spec
open scoped Matrix

attribute [local instance 100] LieRing.ofAssociativeRing

/-- The dynamical Lie algebra of a list of Hermitian generators: the real Lie algebra generated by `i H`. -/
noncomputable def Spec.dynamicalAlgebra (S : Set (QMat 3)) : LieSubalgebra ℝ (QMat 3) :=
  LieSubalgebra.lieSpan ℝ (QMat 3) {A | ∃ H ∈ S, A = Complex.I • H}

/-- `i` times a generator is a generator. -/
theorem times_i {a : Mono} (ha : Generator a) : ∃ a', Generator a' ∧ a'.den 3 = Complex.I • a.den 3 := by
  obtain ⟨ps, c⟩ := a
  have hs := ha.sites
  have hc : c = (ps.map (·.coeff)).prod := ha.consistent
  have hu : c ^ 4 = 1 := ha.unit
  cases ps with
  | nil => simp [Mono.locations] at hs
  | cons p ps =>
    refine ⟨⟨{ p with coeff := Complex.I * p.coeff } :: ps, Complex.I * c⟩, ⟨hs, ?_, ?_⟩, ?_⟩
    · simp only [Mono.Consistent, List.map_cons, List.prod_cons] at hc ⊢
      rw [hc]; ring
    · simp only
      rw [mul_pow, Complex.I_pow_four, hu, one_mul]
    · rw [Mono.den, Mono.den, smul_smul]
      rfl

/-- C89, the part that holds: for any two generators the number of nodes is the dimension of the
dynamical Lie algebra. -/
theorem C89_two_generators_partial (ord : SetOrder ℕ) (a b : Mono) (ha : Generator a) (hb : Generator b) :
    ∃ G, (∀ fuel, 129 ≤ fuel → generateProductAlgebraDigraph ord fuel [a, b] = .ok G) ∧
      Module.finrank ℝ (dynamicalAlgebra (genOps [a, b])) = G.nodes.length := by
  obtain ⟨a', ga, da⟩ := times_i ha
  obtain ⟨b', gb, db⟩ := times_i hb
  obtain ⟨G, h1, h2, h3, h4⟩ := C87_two_generators ord a b ha hb
  obtain ⟨G', g1, g2, g3, g4⟩ := C87_two_generators ord a' b' ga gb
  obtain ⟨G'', k1, -, -, k2, -⟩ := C87_digraph ord [a', b'] (by simp) (by simp [ga, gb])
  obtain rfl : G' = G'' := Except.ok.inj ((g1 129 le_rfl).symm.trans (k1 129 le_rfl))
  have hset : {A | ∃ H ∈ genOps [a, b], A = Complex.I • H} = genOps [a', b'] := by
    ext A
    constructor
    · rintro ⟨H, ⟨m, hm, rfl⟩, rfl⟩
      simp only [List.mem_cons, List.not_mem_nil, or_false] at hm
      rcases hm with rfl | rfl
      · exact ⟨a', by simp, da.symm⟩
      · exact ⟨b', by simp, db.symm⟩
    · rintro ⟨m, hm, rfl⟩
      simp only [List.mem_cons, List.not_mem_nil, or_false] at hm
      rcases hm with rfl | rfl
      · exact ⟨_, ⟨a, by simp, rfl⟩, da⟩
      · exact ⟨_, ⟨b, by simp, rfl⟩, db⟩
  have hI : ∀ {A B : QMat 3}, Complex.I • A = Complex.I • B ↔ A = B := fun {A B} =>
    ⟨fun h => smul_right_injective _ Complex.I_ne_zero h, fun h => by rw [h]⟩
  have hsame : a'.same b' = true ↔ a.same b = true := by
    rw [same_den ga.node gb.node, same_den ha.node hb.node, da, db, hI, ← smul_neg, hI]
  have hcomm : a'.den 3 * b'.den 3 = b'.den 3 * a'.den 3 ↔ a.den 3 * b.den 3 = b.den 3 * a.den 3 := by
    rw [da, db, smul_mul_smul_comm, smul_mul_smul_comm, Complex.I_mul_I, neg_one_smul, neg_one_smul, neg_inj]
  refine ⟨G, h1, ?_⟩
  rw [dynamicalAlgebra, hset, k2]
  by_cases hs : a.same b = true
  · rw [h2 hs, g2 (hsame.2 hs)]
  · by_cases hc : a.den 3 * b.den 3 = b.den 3 * a.den 3
    · rw [h3 (by simpa using hs) hc, g3 (by rw [← Bool.not_eq_true, hsame]; exact hs) (hcomm.2 hc)]
    · rw [h4 hc, g4 (fun h => hc (hcomm.1 h))]

/-- Two generators meet the hypotheses. -/
example : Generator ⟨[⟨0, 1, 1⟩, ⟨1, 3, 1⟩, ⟨2, 0, 1⟩], 1⟩ ∧ Generator ⟨[⟨0, 0, 1⟩, ⟨1, 2, -1⟩, ⟨2, 2, 1⟩], -1⟩ :=
  ⟨⟨rfl, by simp [Mono.Consistent], by simp⟩, ⟨rfl, by simp [Mono.Consistent], by norm_num⟩⟩

/-- The word with letter `g` on site 0. -/
noncomputable def siteZero (g : Fin 4) (c : ℂ) : Mono := ⟨[⟨0, g, c⟩, ⟨1, 0, 1⟩, ⟨2, 0, 1⟩], c⟩

theorem siteZero_gen (g : Fin 4) {c : ℂ} (h : c ^ 4 = 1) : Generator (siteZero g c) :=
  ⟨rfl, by simp [Mono.Consistent, siteZero], h⟩

theorem siteZero_gAt (g : Fin 4) (c : ℂ) : (fun q : Fin 3 => letterOf (gAt (siteZero g c) q)) = ![letterOf g, .I, .I] := by
  funext q
  fin_cases q <;> simp [gAt, siteZero, Mono.locations, siteOf, letterOf]

theorem siteZero_den (g : Fin 4) (c : ℂ) : (siteZero g c).den 3 = c • pauliWord ![letterOf g, .I, .I] := by
  rw [Mono.den, wordOp_pauliWord (wf_of_sites rfl) (fits_of_sites rfl), siteZero_gAt]
  rfl

/-- One-qubit matrices on site 0. -/
noncomputable def onZero (A : Mat2) : QMat 3 := tensor ![A, 1, 1]

theorem onZero_mul (A B : Mat2) : onZero A * onZero B = onZero (A * B) := by
  rw [onZero, onZero, onZero, tensor_mul]
  congr 1
  funext q; fin_cases q <;> simp

theorem onZero_smul (c : ℂ) (A : Mat2) : onZero (c • A) = c • onZero A := by
  have := tensor_smul (n := 3) ![A, 1, 1] ![c, 1, 1]
  rw [Fin.prod_univ_three] at this
  simp only [Matrix.cons_val_zero, Matrix.cons_val_one, Matrix.cons_val_two, Matrix.head_cons, Matrix.tail_cons, mul_one] at this
  rw [onZero, onZero, ← this]
  congr 1
  funext q; fin_cases q <;> simp

theorem siteZero_onZero (g : Fin 4) (c : ℂ) : (siteZero g c).den 3 = c • onZero (letterOf g).mat := by
  rw [siteZero_den, pauliWord, onZero]
  congr 2
  funext q; fin_cases q <;> simp [Letter.mat, Matrix.one_fin_two]

theorem siteZero_mul (g h : Fin 4) (c d : ℂ) : (siteZero g c).den 3 * (siteZero h d).den 3 =
    (c * d * phase g h) • onZero (letterOf (gammaProd g h)).mat := by
  rw [siteZero_onZero, siteZero_onZero, smul_mul_smul_comm, onZero_mul, mat_mul, onZero_smul, smul_smul]

/-- The commutator of two Pauli letters on site 0 is a real multiple of `i` times a Pauli letter. -/
theorem siteZero_comm (g h : Fin 3) (c d : ℂ) : ∃ (r : ℝ) (k : Fin 3), ∀ e : ℂ, ∀ s : ℝ, Complex.I * c * d = s * e →
    (siteZero g.succ c).den 3 * (siteZero h.succ d).den 3 - (siteZero h.succ d).den 3 * (siteZero g.succ c).den 3 =
      (r * s) • (siteZero k.succ e).den 3 := by
  have key : ∃ (r : ℝ) (k : Fin 3), gammaProd g.succ h.succ = gammaProd h.succ g.succ ∧
      (phase g.succ h.succ - phase h.succ g.succ = r * Complex.I) ∧ (r ≠ 0 → gammaProd g.succ h.succ = k.succ) := by
    fin_cases g <;> fin_cases h
    · exact ⟨0, 0, rfl, by simp [phase], by simp⟩
    · exact ⟨2, 2, rfl, by simp [phase, Pauli.mulCore, Pauli.mul, pyAssert, bind, Except.bind, pyGetItem, pyIndex, leviCivita]; ring, fun _ => rfl⟩
    · exact ⟨-2, 1, rfl, by simp [phase, Pauli.mulCore, Pauli.mul, pyAssert, bind, Except.bind, pyGetItem, pyIndex, leviCivita]; ring, fun _ => rfl⟩
    · exact ⟨-2, 2, rfl, by simp [phase, Pauli.mulCore, Pauli.mul, pyAssert, bind, Except.bind, pyGetItem, pyIndex, leviCivita]; ring, fun _ => rfl⟩
    · exact ⟨0, 0, rfl, by simp [phase], by simp⟩
    · exact ⟨2, 0, rfl, by simp [phase, Pauli.mulCore, Pauli.mul, pyAssert, bind, Except.bind, pyGetItem, pyIndex, leviCivita]; ring, fun _ => rfl⟩
    · exact ⟨2, 1, rfl, by simp [phase, Pauli.mulCore, Pauli.mul, pyAssert, bind, Except.bind, pyGetItem, pyIndex, leviCivita]; ring, fun _ => rfl⟩
    · exact ⟨-2, 0, rfl, by simp [phase, Pauli.mulCore, Pauli.mul, pyAssert, bind, Except.bind, pyGetItem, pyIndex, leviCivita]; ring, fun _ => rfl⟩
    · exact ⟨0, 0, rfl, by simp [phase], by simp⟩
  obtain ⟨r, k, h1, h2, h3⟩ := key
  refine ⟨r, k, fun e s hs => ?_⟩
  rw [siteZero_mul, siteZero_mul, ← h1, ← sub_smul, siteZero_onZero]
  have e1 : c * d * phase g.succ h.succ - d * c * phase h.succ g.succ = r * (s * e) := by
    rw [← hs]
    linear_combination (c * d) * h2
  rw [e1]
  by_cases hr : r = 0
  · simp [hr]
  · rw [h3 hr, ← Complex.coe_smul, smul_smul]
    congr 1
    push_cast
    ring

/-- The words with a Pauli letter on site 0 and a coefficient in `C`, as the nodes of a graph. -/
noncomputable def zeroGraph (C : List ℂ) : AGraph :=
  ⟨(C.map (fun c => [(siteZero 1 c, none), (siteZero 2 c, none), (siteZero 3 c, none)])).flatten, []⟩

theorem mem_zeroGraph {C : List ℂ} {x : Mono × Option ℕ} :
    x ∈ (zeroGraph C).nodes ↔ ∃ c ∈ C, ∃ g : Fin 3, x = (siteZero g.succ c, none) := by
  simp only [zeroGraph, List.mem_flatten, List.mem_map]
  constructor
  · rintro ⟨l, ⟨c, hc, rfl⟩, hx⟩
    simp only [List.mem_cons, List.not_mem_nil, or_false] at hx
    rcases hx with rfl | rfl | rfl
    · exact ⟨c, hc, 0, rfl⟩
    · exact ⟨c, hc, 1, rfl⟩
    · exact ⟨c, hc, 2, rfl⟩
  · rintro ⟨c, hc, g, rfl⟩
    refine ⟨_, ⟨c, hc, rfl⟩, ?_⟩
    fin_cases g <;> simp

theorem siteZero_same (g h : Fin 4) (c d : ℂ) :
    (siteZero g c).same (siteZero h d) = true ↔ isReal c = isReal d ∧ g = h := by
  rw [same_iff]
  simp [siteZero, Mono.word]

/-- The dimension of the Lie algebra generated by `X`, `Y`, `Z` with coefficients such that the closure uses exactly the
coefficients in `C`. -/
theorem zero_finrank {C : List ℂ} (hC : ∀ c ∈ C, c ^ 4 = 1) (hd : C.Pairwise (fun c d => isReal c ≠ isReal d))
    (hcl : ∀ c ∈ C, ∀ d ∈ C, ∃ e ∈ C, ∃ s : ℝ, Complex.I * c * d = s * e) {S : Set (QMat 3)}
    (hS : ∀ A ∈ S, ∃ x ∈ (zeroGraph C).nodes, A = x.1.den 3 ∨ A = -x.1.den 3)
    (hL : ∀ x ∈ (zeroGraph C).nodes, x.1.den 3 ∈ LieSubalgebra.lieSpan ℝ (QMat 3) S) :
    Module.finrank ℝ (LieSubalgebra.lieSpan ℝ (QMat 3) S) = 3 * C.length := by
  have hspan : Submodule.span ℝ (Set.range (zeroGraph C).den) = (LieSubalgebra.lieSpan ℝ (QMat 3) S).toSubmodule := by
    refine span_closed hS hL ?_
    intro x hx y hy
    obtain ⟨c, hc, g, rfl⟩ := mem_zeroGraph.1 hx
    obtain ⟨d, hd', h, rfl⟩ := mem_zeroGraph.1 hy
    obtain ⟨r, k, hk⟩ := siteZero_comm g h c d
    obtain ⟨e, he, s, hs⟩ := hcl c hc d hd'
    rw [hk e s hs]
    exact Submodule.smul_mem _ _ (Submodule.subset_span (((zeroGraph C).mem_den _).2 ⟨_, mem_zeroGraph.2 ⟨e, he, k, rfl⟩, rfl⟩))
  have hgood : (zeroGraph C).Good := by
    refine ⟨?_, ?_, ?_⟩
    · intro x hx
      obtain ⟨c, hc, g, rfl⟩ := mem_zeroGraph.1 hx
      exact (siteZero_gen _ (hC c hc)).node
    · rw [zeroGraph, List.pairwise_flatten]
      constructor
      · intro l hl
        obtain ⟨c, hc, rfl⟩ := List.mem_map.1 hl
        have hne : ∀ g h : Fin 4, g ≠ h → (siteZero g c).same (siteZero h c) = false := by
          intro g h hgh
          rw [← Bool.not_eq_true, siteZero_same]
          exact fun h => hgh h.2
        simp [hne]
      · rw [List.pairwise_map]
        refine hd.imp ?_
        intro c d hcd x hx y hy
        have hne : ∀ g h : Fin 4, (siteZero g c).same (siteZero h d) = false := by
          intro g h
          rw [← Bool.not_eq_true, siteZero_same]
          exact fun h => hcd h.1
        simp only [List.mem_cons, List.not_mem_nil, or_false] at hx hy
        rcases hx with rfl | rfl | rfl <;> rcases hy with rfl | rfl | rfl <;> exact hne _ _
    · intro e he
      simp [zeroGraph] at he
  have h1 := finrank_span_eq_card hgood.independent
  rw [hspan, Fintype.card_fin] at h1
  have h2 : (zeroGraph C).nodes.length = 3 * C.length := by
    simp [zeroGraph, List.length_flatten, Function.comp_def, mul_comm]
  rw [← h2]
  exact h1

/-- C89 is false in general: for the three Hermitian generators `X₀`, `Y₀`, `Z₀` the graph has six nodes, while the dynamical
Lie algebra has dimension three.  The graph keeps `A` and `i A` as two different nodes. -/
theorem C89_refuted (ord : SetOrder ℕ) :
    (∀ m ∈ [siteZero 1 1, siteZero 2 1, siteZero 3 1], Generator m) ∧
    ∃ G, (∀ fuel, 129 ≤ fuel →
        generateProductAlgebraDigraph ord fuel [siteZero 1 1, siteZero 2 1, siteZero 3 1] = .ok G) ∧
      G.nodes.length = 6 ∧
      Module.finrank ℝ (dynamicalAlgebra (genOps [siteZero 1 1, siteZero 2 1, siteZero 3 1])) = 3 := by
  have hgen : ∀ m ∈ [siteZero 1 1, siteZero 2 1, siteZero 3 1], Generator m := by
    intro m hm
    simp only [List.mem_cons, List.not_mem_nil, or_false] at hm
    rcases hm with rfl | rfl | rfl <;> exact siteZero_gen _ (by simp)
  refine ⟨hgen, ?_⟩
  obtain ⟨G, h1, -, -, h2, -⟩ := C87_digraph ord _ (by simp) hgen
  have hI2 : isReal Complex.I = false := by simp [isReal]
  have hR1 : isReal 1 = true := by simp [isReal]
  have hmem : ∀ g : Fin 3, siteZero g.succ 1 ∈ [siteZero 1 1, siteZero 2 1, siteZero 3 1] := by
    intro g; fin_cases g <;> simp
  have hmem' : ∀ m ∈ [siteZero 1 1, siteZero 2 1, siteZero 3 1], ∃ g : Fin 3, m = siteZero g.succ 1 := by
    intro m hm
    simp only [List.mem_cons, List.not_mem_nil, or_false] at hm
    rcases hm with rfl | rfl | rfl
    · exact ⟨0, rfl⟩
    · exact ⟨1, rfl⟩
    · exact ⟨2, rfl⟩
  have hbase : ∀ g : Fin 3, (siteZero g.succ 1).den 3 ∈
      LieSubalgebra.lieSpan ℝ (QMat 3) (genOps [siteZero 1 1, siteZero 2 1, siteZero 3 1]) :=
    fun g => LieSubalgebra.subset_lieSpan ⟨_, hmem g, rfl⟩
  -- the commutator of two letters gives `i` times the third
  have hpair : ∀ g h k : Fin 4, gammaProd g h = k → gammaProd h g = k → phase g h = Complex.I → phase h g = -Complex.I →
      (siteZero k Complex.I).den 3 =
        (1 / 2 : ℝ) • ((siteZero g 1).den 3 * (siteZero h 1).den 3 - (siteZero h 1).den 3 * (siteZero g 1).den 3) := by
    intro g h k e1 e2 e3 e4
    rw [siteZero_mul, siteZero_mul, e1, e2, e3, e4, ← sub_smul, siteZero_onZero, ← Complex.coe_smul, smul_smul]
    congr 1
    push_cast
    ring
  have hph : ∀ g h : Fin 4, (g = 1 ∧ h = 2 ∨ g = 2 ∧ h = 3 ∨ g = 3 ∧ h = 1) → phase g h = Complex.I ∧ phase h g = -Complex.I := by
    rintro g h (⟨rfl, rfl⟩ | ⟨rfl, rfl⟩ | ⟨rfl, rfl⟩) <;>
      simp [phase, Pauli.mulCore, Pauli.mul, pyAssert, bind, Except.bind, pyGetItem, pyIndex, leviCivita]
  have himag : ∀ k : Fin 3, (siteZero k.succ Complex.I).den 3 ∈
      LieSubalgebra.lieSpan ℝ (QMat 3) (genOps [siteZero 1 1, siteZero 2 1, siteZero 3 1]) := by
    intro k
    have hb : ∀ g h : Fin 3, (1 / 2 : ℝ) • ((siteZero g.succ 1).den 3 * (siteZero h.succ 1).den 3 -
        (siteZero h.succ 1).den 3 * (siteZero g.succ 1).den 3) ∈
        LieSubalgebra.lieSpan ℝ (QMat 3) (genOps [siteZero 1 1, siteZero 2 1, siteZero 3 1]) := by
      intro g h
      apply LieSubalgebra.smul_mem
      have := LieSubalgebra.lie_mem _ (hbase g) (hbase h)
      rwa [Ring.lie_def] at this
    fin_cases k
    · have := hb 1 2
      rwa [← hpair (Fin.succ 1) (Fin.succ 2) 1 rfl rfl (hph 2 3 (by simp)).1 (hph 2 3 (by simp)).2] at this
    · have := hb 2 0
      rwa [← hpair (Fin.succ 2) (Fin.succ 0) 2 rfl rfl (hph 3 1 (by simp)).1 (hph 3 1 (by simp)).2] at this
    · have := hb 0 1
      rwa [← hpair (Fin.succ 0) (Fin.succ 1) 3 rfl rfl (hph 1 2 (by simp)).1 (hph 1 2 (by simp)).2] at this
  refine ⟨G, h1, ?_, ?_⟩
  · rw [← h2]
    refine zero_finrank (C := [1, Complex.I]) ?_ ?_ ?_ ?_ ?_
    · intro c hc
      simp only [List.mem_cons, List.not_mem_nil, or_false] at hc
      rcases hc with rfl | rfl <;> simp
    · simp [hI2, hR1]
    · intro c hc d hd
      simp only [List.mem_cons, List.not_mem_nil, or_false] at hc hd
      rcases hc with rfl | rfl <;> rcases hd with rfl | rfl
      · exact ⟨Complex.I, by simp, 1, by simp⟩
      · exact ⟨1, by simp, -1, by simp⟩
      · exact ⟨1, by simp, -1, by simp⟩
      · exact ⟨Complex.I, by simp, -1, by simp⟩
    · rintro A ⟨m, hm, rfl⟩
      obtain ⟨g, rfl⟩ := hmem' m hm
      exact ⟨_, mem_zeroGraph.2 ⟨1, by simp, g, rfl⟩, Or.inl rfl⟩
    · intro x hx
      obtain ⟨c, hc, g, rfl⟩ := mem_zeroGraph.1 hx
      simp only [List.mem_cons, List.not_mem_nil, or_false] at hc
      rcases hc with rfl | rfl
      · exact hbase g
      · exact himag g
  · have hi : ∀ g : Fin 4, Complex.I • (siteZero g 1).den 3 = (siteZero g Complex.I).den 3 := by
      intro g
      rw [siteZero_onZero, siteZero_onZero, one_smul]
    refine zero_finrank (C := [Complex.I]) ?_ ?_ ?_ ?_ ?_
    · simp
    · simp
    · intro c hc d hd
      simp only [List.mem_cons, List.not_mem_nil, or_false] at hc hd
      subst hc; subst hd
      exact ⟨Complex.I, by simp, -1, by simp⟩
    · rintro A ⟨H, ⟨m, hm, rfl⟩, rfl⟩
      obtain ⟨g, rfl⟩ := hmem' m hm
      exact ⟨_, mem_zeroGraph.2 ⟨Complex.I, by simp, g, rfl⟩, Or.inl (hi _)⟩
    · intro x hx
      obtain ⟨c, hc, g, rfl⟩ := mem_zeroGraph.1 hx
      simp only [List.mem_cons, List.not_mem_nil, or_false] at hc
      subst hc
      exact LieSubalgebra.subset_lieSpan ⟨_, ⟨_, hmem g, rfl⟩, (hi _).symm⟩

end Oranssi
