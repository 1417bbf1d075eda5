import Verif.Lemmas.Choices
import Verif.Lemmas.SameRay
import Verif.Lemmas.Svd
import Verif.Props.ExactRefute
import Verif.Props.ApproxTotal

/-! # C83: no result depends on the eigenvectors, singular vectors or set orders that the libraries happen to choose -/

namespace Oranssi
open Spec
open scoped Matrix

variable {n m : ℕ}

theorem exactUpdate_eigh {eigh eigh' : EighFn n} (he : ValidEigh eigh) (he' : ValidEigh eigh') (eta : ℝ) (o : Obs) (U : QMat n) :
    exactUpdate eigh eta o U = exactUpdate eigh' eta o U := by
  rw [exactUpdate, exactUpdate, density_eq]
  cases getFullOperator o.matrix o.wires n with
  | error e => rfl
  | ok F =>
    change Except.ok (eighExp eigh eta (shiftGen F U) * U) = Except.ok (eighExp eigh' eta (shiftGen F U) * U)
    rw [eighExp_eq he eta (shiftGen_herm F U), eighExp_eq he' eta (shiftGen_herm F U)]

theorem exactUpdates_eigh {eigh eigh' : EighFn n} (he : ValidEigh eigh) (he' : ValidEigh eigh') (eta : ℝ) : ∀ (os : List Obs) (U : QMat n),
    exactUpdates eigh eta os U = exactUpdates eigh' eta os U
  | [], _ => rfl
  | o :: os, U => by
    rw [exactUpdates, exactUpdates, exactUpdate_eigh he he']
    simp only [exactUpdates_eigh he he' eta os]

theorem perturb_eigh {eigh eigh' : EighFn n} (he : ValidEigh eigh) (he' : ValidEigh eigh') (eta : ℝ)
    (R : Matrix (Fin (2 ^ n)) (Fin (2 ^ n)) ℝ) (U : QMat n) : perturb eigh eta R U = perturb eigh' eta R U := by
  rw [perturb_eq he, perturb_eq he']

/-- **C83** for `exact_lie_optimizer`: two correct eigensolvers give the same run, with all its outputs and errors, although the
eigenvectors of a degenerate matrix are not determined.  The matrices to be diagonalised are Hermitian whatever the observables are. -/
theorem C83_exact (eigh eigh' : EighFn n) (he : ValidEigh eigh) (he' : ValidEigh eigh') (rnd : ℕ → Matrix (Fin (2 ^ n)) (Fin (2 ^ n)) ℝ)
    (ret : CircuitRet) (ops : List (NpMat × List ℤ)) (observables : List Obs) (args : ExactArgs) :
    exactLieOptimizer eigh rnd ret ops observables args = exactLieOptimizer eigh' rnd ret ops observables args := by
  have h : ∀ eta tol rs pt, exactBody eigh rnd observables eta tol rs pt = exactBody eigh' rnd observables eta tol rs pt := by
    intro eta tol rs pt
    funext k s
    simp only [exactBody, exactUpdates_eigh he he', perturb_eigh he he']
  simp only [exactLieOptimizer, h]

theorem approxBody_choices {E E' : LayerEnv n} (hs : ValidSvd E.svd) (hs' : ValidSvd E'.svd) (hgd : E.gd = E'.gd) {eigh eigh' : EighFn n}
    (he : ValidEigh eigh) (he' : ValidEigh eigh') (rnd : ℕ → Matrix (Fin (2 ^ n)) (Fin (2 ^ n)) ℝ) (observables : List Obs) (eta : ℝ)
    (tol : Option Tol) (F : ApproxFlags) (k : ℕ) (s : ApproxState n m) (h : ∀ i, HermLayer (s.objs i)) :
    SameBehaviour (fun a b : ApproxState n m × Bool => (a.1 = b.1 ∧ ∀ i, HermLayer (a.1.objs i)) ∧ a.2 = b.2)
      (approxBody E eigh rnd observables eta tol F k s) (approxBody E' eigh' rnd observables eta tol F k s) := by
  rw [approxBody, approxBody]
  refine .bind_eq _ fun nx => ?_
  dsimp only
  rw [← call_choices hs hs' hgd (h nx.1)]
  cases hc : (s.objs nx.1).call E s.params s.U with
  | error e => exact .error e
  | ok r =>
    obtain ⟨V, ps, L⟩ := r
    have hobj : ∀ i, HermLayer (Function.update s.objs nx.1 L i) := by
      intro i
      by_cases hi : i = nx.1
      · subst hi
        rw [Function.update_self]
        exact hermLayer_call (h _) hc
      · rw [Function.update_of_ne hi]
        exact h i
    change SameBehaviour _ (addCosts V _ observables _ >>= _) (addCosts V _ observables _ >>= _)
    refine .bind_eq _ fun costs => .bind_eq _ fun om => ?_
    cases tol with
    | none => exact .ok ⟨⟨rfl, hobj⟩, rfl⟩
    | some tl =>
      dsimp only
      split
      · refine .bind_eq _ fun a => .bind_eq _ fun b => ?_
        split
        · split
          · exact .ok ⟨⟨by rw [perturb_eigh he he'], hobj⟩, rfl⟩
          · exact .ok ⟨⟨rfl, hobj⟩, rfl⟩
        · exact .ok ⟨⟨rfl, hobj⟩, rfl⟩
      · exact .ok ⟨⟨rfl, hobj⟩, rfl⟩

/-- **C83** for `approximate_lie_optimizer` with newly constructed layers of any class (and Hermitian observables for the two classes
that use the singular value decomposition): the run, with all its outputs, errors and the final state of the layers, does not depend on which correct
eigensolver, which correct singular value decomposition and which iteration order of sets is used. -/
theorem C83_approx (E : LayerEnv n) (svd' : SvdFn n) (ord' : SetOrder ℕ) (hs : ValidSvd E.svd) (hs' : ValidSvd svd') (eigh eigh' : EighFn n)
    (he : ValidEigh eigh) (he' : ValidEigh eigh') (rnd : ℕ → Matrix (Fin (2 ^ n)) (Fin (2 ^ n)) ℝ) (ret : CircuitRet)
    (ops : List (NpMat × List ℤ)) (params : List (List ℝ)) (observables : List Obs) (objs : Fin m → AnyLayer n) (hF : ∀ i, Fresh (objs i))
    (layers : List (Fin m)) (args : ApproxArgs) :
    approximateLieOptimizer E eigh rnd ret ops params observables objs layers args =
      approximateLieOptimizer { E with svd := svd', ord := ord' } eigh' rnd ret ops params observables objs layers args := by
  apply SameBehaviour.eq
  rw [approximateLieOptimizer, approximateLieOptimizer]
  refine .bind_eq _ fun _ => .bind_eq _ fun nsteps => .bind_eq _ fun eta => .bind_eq _ fun tol => .bind_eq _ fun _ => .bind_eq _ fun rs =>
    .bind_eq _ fun ro => .bind_eq _ fun ru => .bind_eq _ fun rg => .bind_eq _ fun pt => .bind_eq _ fun rp => .bind_eq _ fun rz =>
    .bind_eq _ fun U => ?_
  dsimp only
  refine .bind_eq _ fun costs => ?_
  refine .bind (R := fun s t : ApproxState n m => s = t ∧ ∀ i, HermLayer (s.objs i)) (SameBehaviour.forRange ?_ nsteps 0 _ _ ⟨rfl, fun i => hermLayer_fresh (hF i)⟩) ?_
  · rintro k s t ⟨rfl, h⟩
    exact approxBody_choices (E' := { E with svd := svd', ord := ord' }) hs hs' rfl he he' rnd observables eta tol _ k s h
  · rintro s t ⟨rfl, -⟩
    exact .ok rfl

/-- **C83** for products of monomials: the same monomial (with its Paulis in the same order) or the same error, whatever the iteration order
of sets; hence the same commutators. -/
theorem C83_products (ord ord' : SetOrder ℕ) (a b : Mono) :
    a.mul ord b = a.mul ord' b ∧ a.commutator ord b = a.commutator ord' b ∧ a.commutesWith ord b = a.commutesWith ord' b :=
  ⟨mul_ord ord ord' a b, commutator_ord ord ord' a b, commutesWith_ord ord ord' a b⟩

theorem neg_ne_of_unitary {V : QMat n} (h : Vᴴ * V = 1) : -V ≠ V := by
  intro hc
  have h0 : V = 0 := by
    have : (2 : ℂ) • V = 0 := by rw [two_smul]; nth_rewrite 1 [← hc]; exact neg_add_cancel V
    simpa using this
  rw [h0, Matrix.mul_zero] at h
  have := congrFun (congrFun h 0) 0
  simp at this

/-- There are different correct eigensolvers, singular value decompositions and set orders. -/
theorem exists_choices (n : ℕ) : (∃ eigh eigh' : EighFn n, ValidEigh eigh ∧ ValidEigh eigh' ∧ eigh ≠ eigh') ∧
    (∃ svd svd' : SvdFn n, ValidSvd svd ∧ ValidSvd svd' ∧ svd ≠ svd') ∧ ∃ ord ord' : SetOrder ℕ, ord ≠ ord' := by
  refine ⟨?_, ?_, ⟨id, fun l => List.Perm.refl l⟩, ⟨List.reverse, List.reverse_perm⟩, fun h => ?_⟩
  · obtain ⟨eigh, he⟩ := exists_validEigh n
    refine ⟨eigh, fun H => ((eigh H).1, -(eigh H).2), he, fun H hH => ?_, fun h => ?_⟩
    · obtain ⟨h1, h2⟩ := he H hH
      dsimp only
      rw [Matrix.conjTranspose_neg, neg_mul_neg, neg_mul, neg_mul_neg]
      exact ⟨h1, h2⟩
    · have h0 := congrArg Prod.snd (congrFun h 0)
      exact neg_ne_of_unitary (he 0 (by simp)).1 h0.symm
  · obtain ⟨svd, hs⟩ := exists_validSvd n
    refine ⟨svd, fun U => (-(svd U).1, (svd U).2.1, -(svd U).2.2), hs, fun U => ?_, fun h => ?_⟩
    · obtain ⟨h1, h2, h3, h4⟩ := hs U
      dsimp only
      refine ⟨?_, ?_, h3, ?_⟩
      · rw [Unitary, Matrix.conjTranspose_neg, neg_mul_neg]; exact h1
      · rw [Unitary, Matrix.conjTranspose_neg, neg_mul_neg]; exact h2
      · rw [neg_mul, neg_mul_neg]; exact h4
    · have h0 := congrArg Prod.fst (congrFun h 0)
      exact neg_ne_of_unitary (hs 0).1 h0.symm
  · have h0 := congrFun (congrArg SetOrder.run h) [0, 1]
    simp at h0

/-- The hypotheses of C83 hold for two different choices of everything and a successful run. -/
example (rnd : ℕ → Matrix (Fin (2 ^ 2)) (Fin (2 ^ 2)) ℝ) : ∃ (E : LayerEnv 2) (svd' : SvdFn 2) (ord' : SetOrder ℕ) (eigh eigh' : EighFn 2)
    (objs : Fin 1 → AnyLayer 2) (args : ApproxArgs), ValidSvd E.svd ∧ ValidSvd svd' ∧ ValidEigh eigh ∧ ValidEigh eigh' ∧ (∀ i, Fresh (objs i)) ∧ E.svd ≠ svd' ∧
    E.ord ≠ ord' ∧ eigh ≠ eigh' ∧
    ∃ out, approximateLieOptimizer E eigh rnd .state ([exObsZ].map (fun g => (g.obs.matrix, g.obs.wires))) [] ([exObsZ].map Gate.obs) objs [0] args = .ok out := by
  obtain ⟨⟨eigh, eigh', h1, h2, h3⟩, ⟨svd, svd', h4, h5, h6⟩, ord, ord', h7⟩ := exists_choices 2
  obtain ⟨L, hL⟩ := exLocal
  let E : LayerEnv 2 := ⟨svd, ord, fun _ _ p => .ok p⟩
  have hE : ValidSvd E.svd := h4
  refine ⟨E, svd', ord', eigh, eigh', fun _ => .loc L,
    { nsteps := .int (12 : ℕ), returnState := .bool true, perturb := .bool true, returnPerturbations := .bool true }, h4, h5, h1, h2, fun _ => .loc [exObsZ] exObsZ_herm 2 {} none none L hL, h6, h7, h3, ?_⟩
  exact (C50_total_layers E hE eigh rnd .state [exObsZ] [] [exObsZ] _ [0] _ (List.cons_ne_nil _ _)
    (fun _ => .loc [exObsZ] exObsZ_herm 2 {} none none L hL (.inl (by simp))) rfl).mpr
    ⟨rfl, 12, 0.1, some (.fin 1e-3), _, approxValid_of 12 (by norm_num) (some (.float 1e-3)) (some (.fin 1e-3)) ⟨rfl, by norm_num⟩ ⟨true, false, false, false, true, true, false⟩⟩

end Oranssi
