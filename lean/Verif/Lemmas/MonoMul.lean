import Verif.Lemmas.PauliOp
import Verif.Spec.MonoDen
import Verif.Lemmas.FullAlg

/-! # The product of Pauli monomials -/

namespace Oranssi
open Spec
open scoped Matrix

theorem siteOf_eq_of_mem {l : List Pauli} (hl : (l.map (·.alpha)).Nodup) {p : Pauli} (hp : p ∈ l) : siteOf l p.alpha = p := by
  have h := filter_site hl p.alpha
  rw [if_pos (List.mem_map.2 ⟨p, hp, rfl⟩)] at h
  have : p ∈ l.filter (fun q => q.alpha = p.alpha) := List.mem_filter.2 ⟨hp, by simp⟩
  rw [h] at this
  exact (List.mem_singleton.1 this).symm

/-- The index of the product of two Paulis. -/
noncomputable def gammaProd (g g' : Fin 4) : Fin 4 := (Pauli.mulCore ⟨0, g, 1⟩ ⟨0, g', 1⟩).gamma

theorem mulCore_gamma (p q : Pauli) : (p.mulCore q).gamma = gammaProd p.gamma q.gamma := by
  obtain ⟨a, g, c⟩ := p
  obtain ⟨a', g', c'⟩ := q
  fin_cases g <;> fin_cases g' <;>
    simp [gammaProd, Pauli.mulCore, Pauli.mul, pyAssert, bind, Except.bind, pyGetItem, pyIndex]

theorem gammaProd_zero_left (g : Fin 4) : gammaProd 0 g = g := by
  fin_cases g <;> simp [gammaProd, Pauli.mulCore, Pauli.mul, pyAssert, bind, Except.bind]

theorem gammaProd_zero_right (g : Fin 4) : gammaProd g 0 = g := by
  fin_cases g <;> simp [gammaProd, Pauli.mulCore, Pauli.mul, pyAssert, bind, Except.bind]

theorem gammaProd_comm (g g' : Fin 4) : gammaProd g g' = gammaProd g' g := by
  fin_cases g <;> fin_cases g' <;>
    simp [gammaProd, Pauli.mulCore, Pauli.mul, pyAssert, bind, Except.bind, pyGetItem, pyIndex]

theorem mulCore_alpha (p q : Pauli) : (p.mulCore q).alpha = p.alpha := by
  obtain ⟨a, g, c⟩ := p
  obtain ⟨a', g', c'⟩ := q
  fin_cases g <;> fin_cases g' <;>
    simp [Pauli.mulCore, Pauli.mul, pyAssert, bind, Except.bind, pyGetItem, pyIndex]

/-- The index of a monomial at a site; identity where it does not act. -/
def gAt (m : Mono) (i : ℕ) : Fin 4 := if i ∈ m.locations then (siteOf m.monomial i).gamma else 0

theorem map_eq_self {α : Type} (f : α → α) (l : List α) (h : ∀ x ∈ l, f x = x) : l.map f = l := by
  conv_rhs => rw [← List.map_id l]
  exact List.map_congr_left h

section
variable {a b : Mono} (ord : SetOrder ℕ)

theorem mulList_alpha (ha : a.WF) (hb : b.WF) :
    ((mulList ord a b).map (·.alpha)).Nodup ∧
      ∀ i, i ∈ (mulList ord a b).map (·.alpha) ↔ i ∈ a.locations ∨ i ∈ b.locations := by
  have e : (mulList ord a b).map (·.alpha) =
      ord.run (a.locations.filter (· ∈ b.locations)) ++
      ord.run (a.locations.filter (· ∉ a.locations.filter (· ∈ b.locations))) ++
      ord.run (b.locations.filter (· ∉ a.locations.filter (· ∈ b.locations))) := by
    simp only [mulList, List.map_append, List.map_map]
    congr 1
    · congr 1
      · refine map_eq_self _ _ (fun i hi => ?_)
        have hi := (ord.perm _).mem_iff.1 hi
        have h1 : i ∈ a.locations := List.mem_of_mem_filter hi
        rw [Function.comp_apply, mulCore_alpha, (siteOf_mem h1).2.2]
      · refine map_eq_self _ _ (fun i hi => ?_)
        have hi := (ord.perm _).mem_iff.1 hi
        exact (siteOf_mem (List.mem_of_mem_filter hi)).2.2
    · refine map_eq_self _ _ (fun i hi => ?_)
      have hi := (ord.perm _).mem_iff.1 hi
      exact (siteOf_mem (List.mem_of_mem_filter hi)).2.2
  rw [e]
  have p1 := ord.perm (a.locations.filter (· ∈ b.locations))
  have p2 := ord.perm (a.locations.filter (· ∉ a.locations.filter (· ∈ b.locations)))
  have p3 := ord.perm (b.locations.filter (· ∉ a.locations.filter (· ∈ b.locations)))
  constructor
  · rw [((p1.append p2).append p3).nodup_iff, List.nodup_append', List.nodup_append']
    refine ⟨⟨ha.nodup.filter _, ha.nodup.filter _, ?_⟩, hb.nodup.filter _, ?_⟩
    · intro x h1 h2
      simp only [List.mem_filter, decide_eq_true_eq] at h1 h2
      exact h2.2 h1
    · intro x h1 h2
      simp only [List.mem_append, List.mem_filter, decide_eq_true_eq] at h1 h2
      tauto
  · intro i
    rw [((p1.append p2).append p3).mem_iff]
    simp only [List.mem_append, List.mem_filter, decide_eq_true_eq]
    tauto

theorem mulList_at (ha : a.WF) (hb : b.WF) (q : ℕ) :
    pauliAt (mulList ord a b) q = pauliAt a.monomial q * pauliAt b.monomial q := by
  have p1 := ord.perm (a.locations.filter (· ∈ b.locations))
  have p2 := ord.perm (a.locations.filter (· ∉ a.locations.filter (· ∈ b.locations)))
  have p3 := ord.perm (b.locations.filter (· ∉ a.locations.filter (· ∈ b.locations)))
  simp only [mulList, pauliAt_append]
  rw [pauliAt_map (p1.nodup_iff.2 (ha.nodup.filter _)), pauliAt_map (p2.nodup_iff.2 (ha.nodup.filter _)),
    pauliAt_map (p3.nodup_iff.2 (hb.nodup.filter _)), pauliAt_nodup ha.nodup, pauliAt_nodup hb.nodup]
  · rw [if_congr p1.mem_iff rfl rfl, if_congr p2.mem_iff rfl rfl, if_congr p3.mem_iff rfl rfl]
    simp only [List.mem_filter, decide_eq_true_eq]
    change (if q ∈ a.locations ∧ _ then _ else _) * _ * _ = (if q ∈ a.locations then _ else _) * (if q ∈ b.locations then _ else _)
    by_cases h1 : q ∈ a.locations <;> by_cases h2 : q ∈ b.locations
    · simp only [h1, h2, and_self, if_true, not_true, and_false, if_false, mul_one]
      exact (Pauli.mul_ok _ _ (by rw [(siteOf_mem h1).2.2, (siteOf_mem h2).2.2])).2.2
    · simp [h1, h2]
    · simp [h1, h2]
    · simp [h1, h2]
  · intro i hi
    exact (siteOf_mem (List.mem_of_mem_filter (p3.mem_iff.1 hi))).2.2
  · intro i hi
    exact (siteOf_mem (List.mem_of_mem_filter (p2.mem_iff.1 hi))).2.2
  · intro i hi
    have h1 : i ∈ a.locations := List.mem_of_mem_filter (p1.mem_iff.1 hi)
    rw [mulCore_alpha, (siteOf_mem h1).2.2]

theorem gAt_mem {m : Mono} (hm : (m.monomial.map (·.alpha)).Nodup) {p : Pauli} (hp : p ∈ m.monomial) :
    gAt m p.alpha = p.gamma := by
  have : p.alpha ∈ m.locations := List.mem_map.2 ⟨p, hp, rfl⟩
  rw [gAt, if_pos this, siteOf_eq_of_mem hm hp]

theorem mul_spec (ha : a.WF) (hb : b.WF) :
    ∃ c, a.mul ord b = .ok c ∧ c.WF ∧ (∀ i, i ∈ c.locations ↔ i ∈ a.locations ∨ i ∈ b.locations) ∧
      c.coeff = (c.monomial.map (·.coeff)).prod ∧
      (∀ q, pauliAt c.monomial q = pauliAt a.monomial q * pauliAt b.monomial q) ∧
      (∀ q, gAt c q = gammaProd (gAt a q) (gAt b q)) := by
  obtain ⟨hn, hm⟩ := mulList_alpha ord ha hb
  obtain ⟨c, hc, hwf, hperm, hco⟩ := new_ok hn
  have hloc : ∀ i, i ∈ c.locations ↔ i ∈ a.locations ∨ i ∈ b.locations := by
    intro i
    rw [← hm i]
    exact (hperm.map _).mem_iff
  refine ⟨c, by rw [mul_eq_new, hc], hwf, hloc, hco, ?_, ?_⟩
  · intro q
    rw [pauliAt_perm hperm hn, mulList_at ord ha hb]
  · intro q
    have p1 := ord.perm (a.locations.filter (· ∈ b.locations))
    have p2 := ord.perm (a.locations.filter (· ∉ a.locations.filter (· ∈ b.locations)))
    have p3 := ord.perm (b.locations.filter (· ∉ a.locations.filter (· ∈ b.locations)))
    by_cases h1 : q ∈ a.locations <;> by_cases h2 : q ∈ b.locations
    · have hx : (siteOf a.monomial q).mulCore (siteOf b.monomial q) ∈ c.monomial := by
        rw [hperm.mem_iff]
        simp only [mulList, List.mem_append, List.mem_map]
        exact Or.inl (Or.inl ⟨q, p1.mem_iff.2 (by simp [h1, h2]), rfl⟩)
      have := gAt_mem hwf.nodup hx
      rw [mulCore_alpha, (siteOf_mem h1).2.2, mulCore_gamma] at this
      rw [this, gAt, gAt, if_pos h1, if_pos h2]
    · have hx : siteOf a.monomial q ∈ c.monomial := by
        rw [hperm.mem_iff]
        simp only [mulList, List.mem_append, List.mem_map]
        exact Or.inl (Or.inr ⟨q, p2.mem_iff.2 (by simp [h1, h2]), rfl⟩)
      have := gAt_mem hwf.nodup hx
      rw [(siteOf_mem h1).2.2] at this
      rw [this, gAt, gAt, if_pos h1, if_neg h2, gammaProd_zero_right]
    · have hx : siteOf b.monomial q ∈ c.monomial := by
        rw [hperm.mem_iff]
        simp only [mulList, List.mem_append, List.mem_map]
        exact Or.inr ⟨q, p3.mem_iff.2 (by simp [h1, h2]), rfl⟩
      have := gAt_mem hwf.nodup hx
      rw [(siteOf_mem h2).2.2] at this
      rw [this, gAt, gAt, if_neg h1, if_pos h2, gammaProd_zero_left]
    · have h3 : q ∉ c.locations := by rw [hloc]; tauto
      rw [gAt, gAt, gAt, if_neg h1, if_neg h2, if_neg h3, gammaProd_zero_left]

end

/-- Two strictly increasing lists with the same members are equal. -/
theorem sorted_ext {l m : List ℕ} (hl : l.Pairwise (· < ·)) (hm : m.Pairwise (· < ·)) (h : ∀ i, i ∈ l ↔ i ∈ m) : l = m := by
  have hp : l.Perm m := (List.perm_ext_iff_of_nodup (hl.imp (fun h => Nat.ne_of_lt h)) (hm.imp (fun h => Nat.ne_of_lt h))).2 h
  exact hp.eq_of_pairwise (fun a b _ _ h1 h2 => absurd h1 (by omega)) hl hm

theorem word_eq {m : Mono} (hm : m.WF) : m.word = m.locations.map (fun i => (i, gAt m i)) := by
  simp only [Mono.word, Mono.locations, List.map_map]
  apply List.map_congr_left
  intro p hp
  simp [gAt_mem hm.nodup hp]

theorem word_comm (ord : SetOrder ℕ) {a b c d : Mono} (ha : a.WF) (hb : b.WF) (hc : a.mul ord b = .ok c)
    (hd : b.mul ord a = .ok d) : c.word = d.word := by
  obtain ⟨c', hc', wc, lc, -, -, gc⟩ := mul_spec ord ha hb
  obtain ⟨d', hd', wd, ld, -, -, gd⟩ := mul_spec ord hb ha
  rw [hc] at hc'; rw [hd] at hd'
  obtain rfl : c = c' := Except.ok.inj hc'
  obtain rfl : d = d' := Except.ok.inj hd'
  rw [word_eq wc, word_eq wd, sorted_ext wc.sorted wd.sorted (fun i => by rw [lc, ld, or_comm])]
  apply List.map_congr_left
  intro i _
  rw [gc, gd, gammaProd_comm]

theorem op_eq_smul (n : ℕ) (l : List Pauli) (hl : ∀ p ∈ l, p.alpha < n) :
    opOf n (l.map Pauli.trip) = (l.map (·.coeff)).prod • opOf n (l.map (fun p => (p.alpha, p.gamma, (1 : ℂ)))) := by
  induction l with
  | nil => simp [opOf]
  | cons p l ih =>
    have ih := ih (fun q hq => hl q (List.mem_cons_of_mem _ hq))
    simp only [opOf, List.map_cons, List.prod_cons] at ih ⊢
    rw [ih]
    have : oneSite p.trip.2.2 p.trip.2.1 = p.coeff • oneSite 1 p.gamma := by
      simp [oneSite, Pauli.trip]
    rw [this, full_smul, smul_mul_smul_comm]
    rfl

theorem op_eq_den {n : ℕ} {m : Mono} (hf : m.Fits n) (hc : m.Consistent) : m.op n = m.den n := by
  rw [Mono.op, op_eq_smul n _ (fun p hp => hf _ (List.mem_map.2 ⟨p, hp, rfl⟩)), Mono.den, hc, Mono.wordOp, Mono.word, List.map_map]
  rfl

theorem op_tensor {n : ℕ} {m : Mono} (hf : m.Fits n) : m.op n = tensor (fun q : Fin n => pauliAt m.monomial q) := by
  rw [Mono.op, opOf_eq_tensor]
  · rfl
  · intro p hp
    obtain ⟨q, hq, rfl⟩ := List.mem_map.1 hp
    exact hf _ (List.mem_map.2 ⟨q, hq, rfl⟩)

theorem wordOp_pauliWord {n : ℕ} {m : Mono} (hm : m.WF) (hf : m.Fits n) :
    m.wordOp n = pauliWord (fun q : Fin n => letterOf (gAt m q)) := by
  rw [Mono.wordOp, opOf_eq_tensor, pauliWord]
  · congr 1
    funext q
    have h := pauliAt_nodup (l := m.monomial.map (fun p => ⟨p.alpha, p.gamma, 1⟩)) (by rw [List.map_map]; exact hm.nodup) q
    have e : siteMat (m.word.map (fun p => (p.1, p.2, (1 : ℂ)))) q = pauliAt (m.monomial.map (fun p => ⟨p.alpha, p.gamma, 1⟩)) q := by
      simp only [pauliAt, Mono.word, List.map_map]; rfl
    rw [e, h, gAt]
    have e2 : (m.monomial.map (fun p => (⟨p.alpha, p.gamma, 1⟩ : Pauli))).map (·.alpha) = m.locations := by
      simp [Mono.locations, Function.comp_def]
    rw [e2]
    by_cases hq : (q : ℕ) ∈ m.locations
    · rw [if_pos hq, if_pos hq]
      obtain ⟨-, h2, h3⟩ := siteOf_mem hq
      have : siteOf (m.monomial.map (fun p => ⟨p.alpha, p.gamma, 1⟩)) q = ⟨q, (siteOf m.monomial q).gamma, 1⟩ := by
        have := siteOf_eq_of_mem (l := m.monomial.map (fun p => (⟨p.alpha, p.gamma, 1⟩ : Pauli)))
          (by rw [e2]; exact hm.nodup) (List.mem_map.2 ⟨_, h2, rfl⟩)
        simp only [h3] at this
        exact this
      rw [this]; simp
    · rw [if_neg hq, if_neg hq]; rfl
  · intro p hp
    obtain ⟨q, hq, rfl⟩ := List.mem_map.1 hp
    obtain ⟨r, hr, rfl⟩ := List.mem_map.1 hq
    exact hf _ (List.mem_map.2 ⟨r, hr, rfl⟩)

theorem wordOp_ne_zero {n : ℕ} {m : Mono} (hm : m.WF) (hf : m.Fits n) : m.wordOp n ≠ 0 := by
  rw [wordOp_pauliWord hm hf]
  intro h
  have := pauliWord_sq (fun q : Fin n => letterOf (gAt m q))
  rw [h, Matrix.mul_zero] at this
  exact zero_ne_one this

/-- The product denotes the operator product. -/
theorem mul_den (ord : SetOrder ℕ) {n : ℕ} {a b : Mono} (ha : a.WF) (hb : b.WF) (fa : a.Fits n) (fb : b.Fits n) :
    ∃ c, a.mul ord b = .ok c ∧ c.WF ∧ c.Fits n ∧ c.Consistent ∧ c.op n = a.op n * b.op n := by
  obtain ⟨c, hc, wc, lc, cc, pc, gc⟩ := mul_spec ord ha hb
  have fc : c.Fits n := fun i hi => ((lc i).1 hi).elim (fa i) (fb i)
  refine ⟨c, hc, wc, fc, cc, ?_⟩
  rw [op_tensor fc, op_tensor fa, op_tensor fb, tensor_mul]
  congr 1
  funext q
  exact pc q

end Oranssi
