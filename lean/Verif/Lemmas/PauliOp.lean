import Verif.Spec.MonoDen
import Verif.Model.Pauli
import Verif.Lemmas.TensorProd
import Verif.Lemmas.PauliWords
import Mathlib.Data.List.Sort

/-! # Lemmas about Pauli monomials as operators -/

namespace Oranssi
open Spec
open scoped Matrix

/-- The scaled matrices of a list at site `q`. -/
noncomputable def siteMat (l : List (ℕ × Fin 4 × ℂ)) (q : ℕ) : Mat2 :=
  ((l.filter (fun p => p.1 = q)).map (fun p => p.2.2 • (letterOf p.2.1).mat)).prod

theorem full_oneSite {n a : ℕ} (ha : a < n) (c : ℂ) (g : Fin 4) :
    full n [a] (oneSite c g) = tensor (fun q : Fin n => if (q : ℕ) = a then c • (letterOf g).mat else 1) := by
  have h1 : oneSite c g = tensor (fun _ : Fin 1 => c • (letterOf g).mat) := by
    rw [oneSite, pauliWord, tensor_smul (fun _ : Fin 1 => (letterOf g).mat) (fun _ => c)]; simp
  have hv : ValidWires n [a] := ⟨by simp, by simpa using ha⟩
  rw [h1, full_tensor (k := 1) (ws := [a]) rfl hv]
  congr 1
  funext q
  have hw : ∀ i, wireFn [a] 1 rfl hv.2 i = ⟨a, ha⟩ := by
    intro i; apply Fin.ext; simp [wireFn]
  by_cases hq : (q : ℕ) = a
  · rw [if_pos hq]
    have : q = wireFn [a] 1 rfl hv.2 0 := by rw [hw]; exact Fin.ext hq
    have hi : Function.Injective (wireFn [a] 1 rfl hv.2) := fun x y _ => Subsingleton.elim x y
    rw [this, hi.extend_apply]
  · rw [if_neg hq, Function.extend_apply']
    rintro ⟨i, hi⟩
    rw [hw] at hi
    exact hq (by rw [← hi])

theorem opOf_eq_tensor {n : ℕ} (l : List (ℕ × Fin 4 × ℂ)) (hl : ∀ p ∈ l, p.1 < n) :
    opOf n l = tensor (fun q : Fin n => siteMat l q) := by
  induction l with
  | nil => simp [opOf, siteMat, tensor_one]
  | cons p l ih =>
    have : opOf n (p :: l) = full n [p.1] (oneSite p.2.2 p.2.1) * opOf n l := by simp [opOf]
    rw [this, ih (fun p hp => hl p (List.mem_cons_of_mem _ hp)), full_oneSite (hl p List.mem_cons_self), tensor_mul]
    congr 1
    funext q
    by_cases hq : (q : ℕ) = p.1
    · simp [siteMat, hq]
    · simp [siteMat, hq, Ne.symm hq]

theorem trip_alpha (p : Pauli) : p.trip.1 = p.alpha := rfl

/-- The pure part of the product of two Paulis on one site. -/
noncomputable def Pauli.mulCore (p q : Pauli) : Pauli :=
  match p.mul { q with alpha := p.alpha } with
  | .ok r => r
  | .error _ => p

theorem Pauli.mul_ok (p q : Pauli) (h : p.alpha = q.alpha) : p.mul q = .ok (p.mulCore q) ∧
    (p.mulCore q).alpha = p.alpha ∧
    (p.mulCore q).coeff • (letterOf (p.mulCore q).gamma).mat =
      (p.coeff • (letterOf p.gamma).mat) * (q.coeff • (letterOf q.gamma).mat) := by
  obtain ⟨a, g, c⟩ := p
  obtain ⟨a', g', c'⟩ := q
  simp only at h
  subst h
  fin_cases g <;> fin_cases g' <;>
  · simp [Pauli.mulCore, Pauli.mul, pyAssert, bind, Except.bind, letterOf, Letter.mat, leviCivita,
      pyGetItem, pyIndex, Matrix.one_fin_two]
    try first
      | ring1
      | (left; ring1)
      | linear_combination (c * c') * Complex.I_mul_I
      | linear_combination (-(c * c')) * Complex.I_mul_I
      | (constructor <;> linear_combination (c * c') * Complex.I_mul_I)
      | (constructor <;> linear_combination (-(c * c')) * Complex.I_mul_I)
      | exact ⟨by linear_combination (c * c') * Complex.I_mul_I, by linear_combination (-(c * c')) * Complex.I_mul_I⟩
      | exact ⟨by linear_combination (-(c * c')) * Complex.I_mul_I, by linear_combination (c * c') * Complex.I_mul_I⟩

/-! ### Lists with distinct sites -/

theorem mapM_ok {α β : Type} (F : α → Py β) (f : α → β) (l : List α) (h : ∀ a ∈ l, F a = .ok (f a)) :
    l.mapM F = .ok (l.map f) := by
  induction l with
  | nil => rfl
  | cons a l ih =>
    rw [List.mapM_cons, h a List.mem_cons_self, ih (fun b hb => h b (List.mem_cons_of_mem _ hb))]
    rfl

/-- The Pauli of a list at a site. -/
def siteOf (l : List Pauli) (i : ℕ) : Pauli := (l.find? (fun p => p.alpha = i)).getD default

theorem filter_site {l : List Pauli} (hl : (l.map (·.alpha)).Nodup) (i : ℕ) :
    l.filter (fun p => p.alpha = i) = if i ∈ l.map (·.alpha) then [siteOf l i] else [] := by
  induction l with
  | nil => simp
  | cons p l ih =>
    simp only [List.map_cons, List.nodup_cons] at hl
    by_cases h : p.alpha = i
    · subst h
      have : l.filter (fun q => q.alpha = p.alpha) = [] := by rw [ih hl.2, if_neg hl.1]
      simp [siteOf, this]
    · rw [List.filter_cons, if_neg (by simpa using h), ih hl.2]
      have : siteOf (p :: l) i = siteOf l i := by simp [siteOf, h]
      rw [this]
      simp [Ne.symm h]

theorem siteOf_mem {l : List Pauli} {i : ℕ} (h : i ∈ l.map (·.alpha)) :
    l.find? (fun p => p.alpha = i) = some (siteOf l i) ∧ siteOf l i ∈ l ∧ (siteOf l i).alpha = i := by
  have : ∃ p, l.find? (fun p => p.alpha = i) = some p := by
    rw [← Option.isSome_iff_exists, List.find?_isSome]
    obtain ⟨p, hp, rfl⟩ := List.mem_map.1 h
    exact ⟨p, hp, by simp⟩
  obtain ⟨p, hp⟩ := this
  have h2 : siteOf l i = p := by simp [siteOf, hp]
  rw [h2]
  refine ⟨hp, List.mem_of_find?_eq_some hp, ?_⟩
  simpa using List.find?_some hp

theorem atSite_ok {m : Mono} {i : ℕ} (h : i ∈ m.locations) : m.atSite i = .ok (siteOf m.monomial i) := by
  simp only [Mono.atSite, (siteOf_mem h).1]

theorem filter_eq_nodup {l : List ℕ} (hl : l.Nodup) (q : ℕ) : l.filter (fun x => x = q) = if q ∈ l then [q] else [] := by
  induction l with
  | nil => simp
  | cons a l ih =>
    simp only [List.nodup_cons] at hl
    by_cases h : a = q
    · subst h
      simp [ih hl.2, hl.1]
    · simp [h, ih hl.2, Ne.symm h]

theorem new_eta (p : Pauli) : Pauli.new p.alpha (.inl p.gamma) p.coeff = .ok p := by
  obtain ⟨a, g, c⟩ := p
  simp [Pauli.new, pyAssert, bind, Except.bind]
  
/-- The unsorted list of Paulis that `PauliMonomial.__mul__` builds. -/
noncomputable def mulList (ord : SetOrder ℕ) (a b : Mono) : List Pauli :=
  let common := a.locations.filter (· ∈ b.locations)
  let ua := a.locations.filter (· ∉ common)
  let ub := b.locations.filter (· ∉ common)
  (ord.run common).map (fun i => (siteOf a.monomial i).mulCore (siteOf b.monomial i)) ++
    (ord.run ua).map (siteOf a.monomial) ++ (ord.run ub).map (siteOf b.monomial)

theorem mul_eq_new (ord : SetOrder ℕ) (a b : Mono) : a.mul ord b = Mono.new (mulList ord a b) := by
  simp only [Mono.mul]
  rw [mapM_ok _ (fun i => (siteOf a.monomial i).mulCore (siteOf b.monomial i)),
    mapM_ok _ (siteOf a.monomial), mapM_ok _ (siteOf b.monomial)]
  · rfl
  · intro i hi
    have hi := (ord.perm _).mem_iff.1 hi
    rw [atSite_ok (List.mem_of_mem_filter hi)]
    exact new_eta _
  · intro i hi
    have hi := (ord.perm _).mem_iff.1 hi
    rw [atSite_ok (List.mem_of_mem_filter hi)]
    exact new_eta _
  · intro i hi
    have hi := (ord.perm _).mem_iff.1 hi
    have h1 : i ∈ a.locations := List.mem_of_mem_filter hi
    have h2 : i ∈ b.locations := by simpa using (List.mem_filter.1 hi).2
    rw [atSite_ok h1, atSite_ok h2]
    exact (Pauli.mul_ok _ _ (by rw [(siteOf_mem h1).2.2, (siteOf_mem h2).2.2])).1

/-- The matrix of a list of Paulis at site `q`. -/
noncomputable def pauliAt (l : List Pauli) (q : ℕ) : Mat2 := siteMat (l.map Pauli.trip) q

theorem pauliAt_eq (l : List Pauli) (q : ℕ) :
    pauliAt l q = ((l.filter (fun p => p.alpha = q)).map (fun p => p.coeff • (letterOf p.gamma).mat)).prod := by
  simp only [pauliAt, siteMat, List.filter_map, List.map_map]
  rfl

theorem pauliAt_nodup {l : List Pauli} (hl : (l.map (·.alpha)).Nodup) (q : ℕ) :
    pauliAt l q = if q ∈ l.map (·.alpha) then (siteOf l q).coeff • (letterOf (siteOf l q).gamma).mat else 1 := by
  rw [pauliAt_eq, filter_site hl]
  split <;> simp

theorem pauliAt_append (l m : List Pauli) (q : ℕ) : pauliAt (l ++ m) q = pauliAt l q * pauliAt m q := by
  simp [pauliAt_eq]

theorem pauliAt_map {l : List ℕ} (hl : l.Nodup) (f : ℕ → Pauli) (hf : ∀ i ∈ l, (f i).alpha = i) (q : ℕ) :
    pauliAt (l.map f) q = if q ∈ l then (f q).coeff • (letterOf (f q).gamma).mat else 1 := by
  rw [pauliAt_eq, List.filter_map]
  have : l.filter ((fun p : Pauli => decide (p.alpha = q)) ∘ f) = l.filter (fun x => x = q) := by
    apply List.filter_congr
    intro x hx
    simp [hf x hx]
  rw [this, filter_eq_nodup hl]
  split <;> simp

theorem perm_eq_of_length_le_one {α : Type} {l m : List α} (h : l.Perm m) (hl : m.length ≤ 1) : l = m := by
  match m, hl with
  | [], _ => exact h.eq_nil
  | [a], _ => exact List.perm_singleton.1 h

theorem pauliAt_perm {l m : List Pauli} (h : l.Perm m) (hm : (m.map (·.alpha)).Nodup) (q : ℕ) : pauliAt l q = pauliAt m q := by
  rw [pauliAt_eq, pauliAt_eq]
  rw [perm_eq_of_length_le_one (h.filter _)]
  rw [filter_site hm]
  split <;> simp

theorem Mono.WF.nodup {m : Mono} (h : m.WF) : m.locations.Nodup := h.sorted.imp (fun h => Nat.ne_of_lt h)

theorem new_ok {ps : List Pauli} (h : (ps.map (·.alpha)).Nodup) :
    ∃ m, Mono.new ps = .ok m ∧ m.WF ∧ m.monomial.Perm ps ∧ m.coeff = (m.monomial.map (·.coeff)).prod := by
  have hp : (ps.mergeSort (fun p q => p.alpha ≤ q.alpha)).Perm ps := List.mergeSort_perm _ _
  have hn : ((ps.mergeSort (fun p q => p.alpha ≤ q.alpha)).map (·.alpha)).Nodup := (hp.map _).nodup_iff.2 h
  refine ⟨_, by simp only [Mono.new, pyAssert, if_pos hn]; rfl, ⟨?_⟩, hp, rfl⟩
  have hs := List.pairwise_mergeSort (le := fun p q : Pauli => decide (p.alpha ≤ q.alpha))
    (fun a b c => by simp; omega) (fun a b => by simp; omega) ps
  have hs' : ((ps.mergeSort (fun p q => p.alpha ≤ q.alpha)).map (·.alpha)).Pairwise (· ≤ ·) := by
    rw [List.pairwise_map]; exact hs.imp (by simp)
  exact (hs'.and hn).imp (fun h => lt_of_le_of_ne h.1 h.2)

end Oranssi
