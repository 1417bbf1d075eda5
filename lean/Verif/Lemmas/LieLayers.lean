import Verif.Model.LieLayers
import Verif.Spec.Layers
import Verif.Lemmas.Algebra
import Verif.Lemmas.MatExp
import Verif.Props.Algebra
import Verif.Props.CircuitTools
import Mathlib.LinearAlgebra.Matrix.DotProduct
import Mathlib.Analysis.Complex.Order

/-! # The layers built from matrix exponentials -/

namespace Oranssi
open Spec
open scoped Matrix

theorem Spec.Unitary.mul {n : ℕ} {A B : QMat n} (hA : Unitary A) (hB : Unitary B) : Unitary (A * B) := by
  unfold Unitary at *
  rw [Matrix.conjTranspose_mul, Matrix.mul_assoc, ← Matrix.mul_assoc Aᴴ, hA, Matrix.one_mul, hB]

theorem Spec.Unitary.right {n : ℕ} {A : QMat n} (hA : Unitary A) : A * Aᴴ = 1 := mul_eq_one_comm.1 hA

theorem projectOntoUnitary_unitary {n : ℕ} {svd : SvdFn n} (h : ValidSvd svd) (U : QMat n) : Unitary (projectOntoUnitary svd U) :=
  (h U).1.mul (h U).2.1

/-- The projection of a unitary matrix is the matrix itself. -/
theorem projectOntoUnitary_self {n : ℕ} {svd : SvdFn n} (h : ValidSvd svd) {U : QMat n} (hU : Unitary U) : projectOntoUnitary svd U = U := by
  obtain ⟨hP, hQ, hs, e⟩ := h U
  set P := (svd U).1
  set Q := (svd U).2.2
  set s := (svd U).2.1
  set D : QMat n := Matrix.diagonal (fun i => (s i : ℂ)) with hD
  have hDh : Dᴴ = D := by
    rw [hD, Matrix.diagonal_conjTranspose]; congr 1; funext i; simp
  have h1 : D * D = 1 := by
    have h2 : Qᴴ * (D * D) * Q = 1 := by
      calc Qᴴ * (D * D) * Q = (P * D * Q)ᴴ * (P * D * Q) := by
            simp only [Matrix.conjTranspose_mul, hDh, Matrix.mul_assoc]
            rw [← Matrix.mul_assoc Pᴴ P, hP, Matrix.one_mul]
        _ = 1 := by rw [← e]; exact hU
    have h3 : Q * (Qᴴ * (D * D) * Q) * Qᴴ = Q * Qᴴ := by rw [h2, Matrix.mul_one]
    rw [hQ.right] at h3
    calc D * D = (Q * Qᴴ) * (D * D) * (Q * Qᴴ) := by rw [hQ.right]; simp
      _ = 1 := by rw [← h3]; simp only [Matrix.mul_assoc]
  have hs1 : ∀ i, s i = 1 := by
    intro i
    have := congrFun (congrFun h1 i) i
    rw [hD, Matrix.diagonal_mul_diagonal, Matrix.diagonal_apply_eq, Matrix.one_apply_eq] at this
    have h2 : s i * s i = 1 := by exact_mod_cast this
    have := hs i
    nlinarith
  have hD1 : D = 1 := by
    rw [hD, ← Matrix.diagonal_one]; congr 1; funext i; simp [hs1]
  rw [projectOntoUnitary]
  conv_rhs => rw [e, hD1, Matrix.mul_one]

theorem checkUpdate_unitary {n : ℕ} {svd : SvdFn n} (h : ValidSvd svd) (b : Bool) {U : QMat n} (hU : Unitary U) :
    checkUpdate svd b U = U := by
  rw [checkUpdate]
  split
  · exact projectOntoUnitary_self h hU
  · rfl

theorem exp_unitary {n : ℕ} {A : QMat n} (hA : Aᴴ = -A) : Unitary (NormedSpace.exp A) := (exp_skew_unitary A hA).1

/-- For Hermitian operators the commutator expectation is imaginary. -/
theorem omegaC_eq {n : ℕ} (φ : Ket n) {P H : QMat n} (hP : Pᴴ = P) (hH : Hᴴ = H) :
    omegaC φ P H = Complex.I * ((omegaC φ P H).im : ℂ) := by
  have := dot_comm_re φ P H hP hH
  apply Complex.ext
  · simpa [omegaC] using this
  · simp

theorem omegaC_smul_skew {n : ℕ} (φ : Ket n) {P H : QMat n} (hP : Pᴴ = P) (hH : Hᴴ = H) :
    (omegaC φ P H • P)ᴴ = -(omegaC φ P H • P) := by
  rw [omegaC_eq φ hP hH, Matrix.conjTranspose_smul, hP]
  simp

theorem real_smul_skew {n : ℕ} (r : ℝ) {A : QMat n} (hA : Aᴴ = -A) : ((-(r : ℝ) : ℂ) • A)ᴴ = -((-(r : ℝ) : ℂ) • A) := by
  rw [Matrix.conjTranspose_smul, hA]; simp

theorem sum_skew {n : ℕ} {l : List (QMat n)} (h : ∀ A ∈ l, Aᴴ = -A) : l.sumᴴ = -l.sum := by
  induction l with
  | nil => simp
  | cons a l ih =>
    rw [List.sum_cons, Matrix.conjTranspose_add, h a List.mem_cons_self, ih (fun A hA => h A (List.mem_cons_of_mem _ hA))]
    abel

/-! ### The loops as products of unitaries -/

/-- The update factors of one group, in the order of application. -/
noncomputable def groupFactors {n : ℕ} (eta : ℝ) (trot : Bool) (phi : Ket n) (obs : QMat n) (ps : List (QMat n)) : List (QMat n) :=
  if trot then ps.map (fun p => NormedSpace.exp ((-(eta / 2 ^ n : ℝ) : ℂ) • (omegaC phi p obs • p)))
  else [NormedSpace.exp ((-(eta / 2 ^ n : ℝ) : ℂ) • (ps.map (fun p => omegaC phi p obs • p)).sum)]

theorem trotterLoop_eq {n : ℕ} {svd : SvdFn n} (hs : ValidSvd svd) (eta : ℝ) (b : Bool) (phi : Ket n) {obs : QMat n} (ho : obsᴴ = obs) :
    ∀ (ps : List (QMat n)), (∀ p ∈ ps, pᴴ = p) → ∀ U, trotterLoop svd eta b phi obs ps U =
      (groupFactors eta true phi obs ps).foldl (fun U F => F * U) U := by
  intro ps
  induction ps with
  | nil => intro _ U; rfl
  | cons p ps ih =>
    intro h U
    have hu : Unitary (NormedSpace.exp ((-(eta / 2 ^ n : ℝ) : ℂ) • (omegaC phi p obs • p))) :=
      exp_unitary (real_smul_skew _ (omegaC_smul_skew phi (h p List.mem_cons_self) ho))
    rw [trotterLoop, checkUpdate_unitary hs b hu, ih (fun q hq => h q (List.mem_cons_of_mem _ hq))]
    rfl

theorem groupStep_eq {n : ℕ} {svd : SvdFn n} (hs : ValidSvd svd) (eta : ℝ) (b trot : Bool) (phi : Ket n) {obs : QMat n} (ho : obsᴴ = obs)
    {ps : List (QMat n)} (h : ∀ p ∈ ps, pᴴ = p) (hne : ps ≠ [] ∨ trot = true) (U : QMat n) :
    groupStep svd eta b trot phi obs ps U = .ok ((groupFactors eta trot phi obs ps).foldl (fun U F => F * U) U) := by
  cases trot
  · have hne' : ps ≠ [] := by simpa using hne
    have hu : Unitary (NormedSpace.exp ((-(eta / 2 ^ n : ℝ) : ℂ) • (ps.map (fun p => omegaC phi p obs • p)).sum)) := by
      refine exp_unitary (real_smul_skew _ (sum_skew ?_))
      intro A hA
      obtain ⟨p, hp, rfl⟩ := List.mem_map.1 hA
      exact omegaC_smul_skew phi (h p hp) ho
    rw [groupStep, if_neg (by simp), if_neg hne', checkUpdate_unitary hs b hu]
    rfl
  · rw [groupStep, if_pos rfl, trotterLoop_eq hs eta b phi ho ps h]

theorem groupFactors_unitary {n : ℕ} (eta : ℝ) (trot : Bool) (phi : Ket n) {obs : QMat n} (ho : obsᴴ = obs)
    {ps : List (QMat n)} (h : ∀ p ∈ ps, pᴴ = p) : ∀ F ∈ groupFactors eta trot phi obs ps, Unitary F := by
  intro F hF
  cases trot
  · simp only [groupFactors, Bool.false_eq_true, if_false, List.mem_singleton] at hF
    subst hF
    refine exp_unitary (real_smul_skew _ (sum_skew ?_))
    intro A hA
    obtain ⟨p, hp, rfl⟩ := List.mem_map.1 hA
    exact omegaC_smul_skew phi (h p hp) ho
  · simp only [groupFactors, if_true, List.mem_map] at hF
    obtain ⟨p, hp, rfl⟩ := hF
    exact exp_unitary (real_smul_skew _ (omegaC_smul_skew phi (h p hp) ho))

theorem foldl_unitary {n : ℕ} : ∀ {Fs : List (QMat n)}, (∀ F ∈ Fs, Unitary F) → ∀ {U : QMat n}, Unitary U →
    Unitary (Fs.foldl (fun U F => F * U) U) := by
  intro Fs
  induction Fs with
  | nil => intro _ U hU; exact hU
  | cons F Fs ih =>
    intro h U hU
    exact ih (fun G hG => h G (List.mem_cons_of_mem _ hG)) ((h F List.mem_cons_self).mul hU)

theorem groupsLoop_eq {n : ℕ} {svd : SvdFn n} (hs : ValidSvd svd) (eta : ℝ) (b trot : Bool) (phi : Ket n) {obs : QMat n} (ho : obsᴴ = obs) :
    ∀ (gs : List (List (QMat n))), (∀ g ∈ gs, (∀ p ∈ g, pᴴ = p) ∧ (g ≠ [] ∨ trot = true)) → ∀ U,
    groupsLoop svd eta b trot phi obs gs U =
      .ok ((gs.flatMap (groupFactors eta trot phi obs)).foldl (fun U F => F * U) U) := by
  intro gs
  induction gs with
  | nil => intro _ U; rfl
  | cons g gs ih =>
    intro h U
    obtain ⟨h1, h2⟩ := h g List.mem_cons_self
    rw [groupsLoop, groupStep_eq hs eta b trot phi ho h1 h2]
    simp only [bind, Except.bind]
    rw [ih (fun g' hg' => h g' (List.mem_cons_of_mem _ hg')), List.flatMap_cons, List.foldl_append]

theorem obsLoop_eq {n : ℕ} {svd : SvdFn n} (hs : ValidSvd svd) (eta : ℝ) (b trot : Bool) (phi : Ket n)
    {gs : List (List (QMat n))} (hg : ∀ g ∈ gs, (∀ p ∈ g, pᴴ = p) ∧ (g ≠ [] ∨ trot = true)) :
    ∀ (os : List (QMat n)), (∀ o ∈ os, oᴴ = o) → ∀ U, obsLoop svd eta b trot phi gs os U =
      .ok ((os.flatMap (fun o => gs.flatMap (groupFactors eta trot phi o))).foldl (fun U F => F * U) U) := by
  intro os
  induction os with
  | nil => intro _ U; rfl
  | cons o os ih =>
    intro h U
    rw [obsLoop, groupsLoop_eq hs eta b trot phi (h o List.mem_cons_self) gs hg]
    simp only [bind, Except.bind]
    rw [ih (fun o' ho' => h o' (List.mem_cons_of_mem _ ho')), List.flatMap_cons, List.foldl_append]

theorem obsFactors_unitary {n : ℕ} (eta : ℝ) (trot : Bool) (phi : Ket n) {gs : List (List (QMat n))} (hg : ∀ g ∈ gs, ∀ p ∈ g, pᴴ = p)
    {os : List (QMat n)} (ho : ∀ o ∈ os, oᴴ = o) : ∀ F ∈ os.flatMap (fun o => gs.flatMap (groupFactors eta trot phi o)), Unitary F := by
  intro F hF
  obtain ⟨o, ho', hF⟩ := List.mem_flatMap.1 hF
  obtain ⟨g, hg', hF⟩ := List.mem_flatMap.1 hF
  exact groupFactors_unitary eta trot phi (ho o ho') (hg g hg') F hF

/-- When all expectations of commutators vanish, or the step is zero, every factor is the identity. -/
theorem groupFactors_one {n : ℕ} {eta : ℝ} (trot : Bool) {phi : Ket n} {obs : QMat n} {ps : List (QMat n)}
    (h : eta = 0 ∨ ∀ p ∈ ps, omegaC phi p obs = 0) : ∀ F ∈ groupFactors eta trot phi obs ps, F = 1 := by
  have key : ∀ p ∈ ps, ((-(eta / 2 ^ n : ℝ) : ℂ) • (omegaC phi p obs • p)) = 0 := by
    intro p hp
    rcases h with rfl | h
    · simp
    · rw [h p hp]; simp
  intro F hF
  cases trot
  · simp only [groupFactors, Bool.false_eq_true, if_false, List.mem_singleton] at hF
    subst hF
    rcases h with rfl | h
    · simp
    · have : ps.map (fun p => omegaC phi p obs • p) = ps.map (fun _ => 0) := by
        apply List.map_congr_left
        intro p hp; rw [h p hp, zero_smul]
      rw [this]; simp
  · simp only [groupFactors, if_true, List.mem_map] at hF
    obtain ⟨p, hp, rfl⟩ := hF
    rw [key p hp, NormedSpace.exp_zero]

theorem foldl_one {n : ℕ} : ∀ {Fs : List (QMat n)}, (∀ F ∈ Fs, F = 1) → ∀ (U : QMat n), Fs.foldl (fun U F => F * U) U = U := by
  intro Fs
  induction Fs with
  | nil => intro _ U; rfl
  | cons F Fs ih =>
    intro h U
    rw [List.foldl_cons, h F List.mem_cons_self, Matrix.one_mul]
    exact ih (fun G hG => h G (List.mem_cons_of_mem _ hG)) U

open scoped ComplexOrder in
theorem omegaC_eigen {n : ℕ} {φ : Ket n} {P H : QMat n} (hP : Pᴴ = P) (hH : Hᴴ = H) {c : ℂ} (h : H *ᵥ φ = c • φ) : omegaC φ P H = 0 := by
  have h1 : omegaC φ P H = c * (star φ ⬝ᵥ (P *ᵥ φ)) - star c * (star φ ⬝ᵥ (P *ᵥ φ)) := by
    rw [omegaC, Matrix.sub_mulVec, dotProduct_sub, ← Matrix.mulVec_mulVec, h, Matrix.mulVec_smul, dotProduct_smul, smul_eq_mul]
    congr 1
    rw [← Matrix.mulVec_mulVec, Matrix.dotProduct_mulVec, ← hH, ← Matrix.star_mulVec, h, star_smul, smul_dotProduct, smul_eq_mul]
  have h2 : (star φ ⬝ᵥ (P *ᵥ φ)).im = 0 := by
    have := star_dot_mulVec φ P
    rw [hP] at this
    have := congrArg Complex.im this
    simp at this
    linarith
  -- the expectation of H is real, so either c is real or φ = 0
  by_cases hφ : star φ ⬝ᵥ φ = 0
  · have : φ = 0 := dotProduct_star_self_eq_zero.1 hφ
    subst this; simp [omegaC]
  · have h3 : c * (star φ ⬝ᵥ φ) = star c * (star φ ⬝ᵥ φ) := by
      have e1 : star φ ⬝ᵥ (H *ᵥ φ) = c * (star φ ⬝ᵥ φ) := by rw [h, dotProduct_smul, smul_eq_mul]
      have e2 : star φ ⬝ᵥ (H *ᵥ φ) = star c * (star φ ⬝ᵥ φ) := by
        conv_lhs => rw [← hH]
        rw [Matrix.dotProduct_mulVec, ← Matrix.star_mulVec, h, star_smul, smul_dotProduct, smul_eq_mul]
      rw [← e1, e2]
    have := mul_right_cancel₀ hφ h3
    rw [h1, ← this, sub_self]

/-! ### Constructors -/

/-- The words kept by the filter. -/
def keptWords (k : ℕ) (D : Option (List String)) : List (List Letter) :=
  (wordsXYZ k).filter (fun w => match D with | none => true | some D => decide (letterStr w ∈ D))

theorem filterDirections_words (k : ℕ) (D : Option (List String)) :
    filterDirections ((wordsXYZ k).map (fun w => npQ (pauliWord w.get))) ((wordsXYZ k).map letterStr) D =
      if (∀ D', D = some D' → ∀ d ∈ D', d ∈ (wordsXYZ k).map letterStr) then
        .ok ((keptWords k D).map (fun w => npQ (pauliWord w.get)), (keptWords k D).map letterStr)
      else .error .assertion := by
  cases D with
  | none =>
    rw [if_pos (by simp)]
    simp [filterDirections, keptWords]
  | some D =>
    rw [filterDirections, pyAssert]
    by_cases h : ∀ d ∈ D, d ∈ (wordsXYZ k).map letterStr
    · rw [if_pos h, if_pos (by simpa using h)]
      simp only [bind, Except.bind, zip_map_map, List.filter_map, List.map_map]
      rfl
    · rw [if_neg h, if_neg (by intro hc; exact h (hc D rfl))]
      rfl

theorem promotePaulis_words {n : ℕ} {q : List ℕ} (hv : ValidWires n q) (hne : q ≠ []) : ∀ (ws : List (List Letter)),
    (∀ w ∈ ws, w.length = q.length) → promotePaulis n q (ws.map (fun w => npQ (pauliWord w.get))) =
      .ok (ws.map (fun w => pauliWord (placed n w q))) := by
  intro ws
  induction ws with
  | nil => intro _; rfl
  | cons w ws ih =>
    intro h
    have hl := h w List.mem_cons_self
    rw [List.map_cons, promotePaulis, getFullOperator_npQ hl.symm hne hv, full_placed hl.symm hv,
      ih (fun w' hw' => h w' (List.mem_cons_of_mem _ hw'))]
    rfl

theorem promoteGroups_words {n : ℕ} {ws : List (List Letter)} : ∀ (qs : List (List ℕ)),
    (∀ q ∈ qs, ValidWires n q ∧ q ≠ [] ∧ ∀ w ∈ ws, w.length = q.length) →
      promoteGroups n (ws.map (fun w => npQ (pauliWord w.get))) qs =
      .ok (qs.map (fun q => ws.map (fun w => pauliWord (placed n w q)))) := by
  intro qs
  induction qs with
  | nil => intro _; rfl
  | cons q qs ih =>
    intro h
    obtain ⟨h1, h2, h3⟩ := h q List.mem_cons_self
    rw [promoteGroups, promotePaulis_words h1 h2 ws h3, ih (fun q' hq' => h q' (List.mem_cons_of_mem _ hq'))]
    rfl

theorem keptWords_length {k : ℕ} {D : Option (List String)} {w : List Letter} (h : w ∈ keptWords k D) : w.length = k :=
  (mem_wordsXYZ.1 (List.mem_filter.1 h).1).1

theorem promoteGroups_kept (n k : ℕ) (hk : 0 < k) (D : Option (List String)) :
    promoteGroups n ((keptWords k D).map (fun w => npQ (pauliWord w.get))) (combinations (List.range n) k) =
      .ok ((combinations (List.range n) k).map (fun q => (keptWords k D).map (fun w => pauliWord (placed n w q)))) := by
  apply promoteGroups_words
  intro q hq
  obtain ⟨h1, h2⟩ := combos_valid hq
  refine ⟨h2, ?_, fun w hw => (keptWords_length hw).trans h1.symm⟩
  rintro rfl; simp at h1; omega

/-- The conditions under which the constructor of `LocalLieAlgebraLayer` accepts its arguments (observables being fine). -/
structure LocalOk (n : ℕ) (locality : ℤ) (args : LayerArgs) (stride : Option ℤ) (D : Option (List String)) : Prop where
  eta : ∃ e, validateEta (args.eta.getD (.float 0.1)) = .ok e
  loc : locality = 1 ∨ (locality = 2 ∧ n % 2 = 0 ∧ (stride.getD 0 = 0 ∨ stride.getD 0 = 1))
  dirs : ∀ D', D = some D' → ∀ d ∈ D', d ∈ (wordsXYZ locality.toNat).map letterStr
  check : ∃ b, validateBool (args.unitaryErrorCheck.getD (.bool false)) = .ok b
  trot : ∃ b, validateBool (args.trotterize.getD (.bool false)) = .ok b

theorem localLayer_ok {n : ℕ} (gs : List (Gate n)) {locality : ℤ} {args : LayerArgs} {stride : Option ℤ} {D : Option (List String)}
    (h : LocalOk n locality args stride D) : ∃ (k : ℕ) (e : ℝ) (b t : Bool), (k = 1 ∨ k = 2) ∧ locality = k ∧
      validateEta (args.eta.getD (.float 0.1)) = .ok e ∧ validateBool (args.unitaryErrorCheck.getD (.bool false)) = .ok b ∧
      validateBool (args.trotterize.getD (.bool false)) = .ok t ∧
      localLayer n (gs.map Gate.obs) locality args stride D = .ok
        { eta := e, locality := k, stride := if k = 2 then stride.getD 0 else 0, directions := (keptWords k D).map letterStr,
          paulis := (keptWords k D).map (fun w => npQ (pauliWord w.get)),
          observables := gs.map (fun g => full n g.ws g.A), check := b, trotterize := t,
          fullPaulis := (combinations (List.range n) k).map (fun q => (keptWords k D).map (fun w => pauliWord (placed n w q))) } := by
  obtain ⟨⟨e, he⟩, hl, hd, ⟨b, hb⟩, ⟨t, ht⟩⟩ := h
  rcases hl with rfl | ⟨rfl, hev, hst⟩
  · refine ⟨1, e, b, t, Or.inl rfl, rfl, he, hb, ht, ?_⟩
    have hd' : ∀ D', D = some D' → ∀ d ∈ D', d ∈ (wordsXYZ 1).map letterStr := hd
    have hg := promoteGroups_kept n 1 (by omega) D
    rw [combinations_one] at hg ⊢
    simp only [localLayer, promoteAll_gates, he, hb, ht, bind, Except.bind, pyAssert, List.mem_cons, true_or, if_true,
      su2_words, filterDirections_words, if_pos hd', hg, show ((1 : ℤ) = 2) ↔ False by decide, if_false]
    rfl
  · refine ⟨2, e, b, t, Or.inr rfl, rfl, he, hb, ht, ?_⟩
    have hd' : ∀ D', D = some D' → ∀ d ∈ D', d ∈ (wordsXYZ 2).map letterStr := hd
    have hg := promoteGroups_kept n 2 (by omega) D
    have hst' : stride.getD 0 ∈ [(0 : ℤ), 1] := by simpa using hst
    simp only [localLayer, promoteAll_gates, he, hb, ht, bind, Except.bind, pyAssert, if_pos hst', if_pos hev,
      su4_words, filterDirections_words, if_pos hd', hg, show ((2 : ℤ) = 1) ↔ False by decide, if_false, if_true,
      show (2 : ℤ) ∈ [(1 : ℤ), 2] ↔ True by decide]
    rfl

/-- When the constructor returns, its arguments were acceptable. -/
theorem localLayer_inv {n : ℕ} (gs : List (Gate n)) {locality : ℤ} {args : LayerArgs} {stride : Option ℤ} {D : Option (List String)}
    {L : LocalLayer n} (h : localLayer n (gs.map Gate.obs) locality args stride D = .ok L) : LocalOk n locality args stride D := by
  rw [localLayer, promoteAll_gates] at h
  simp only [bind, Except.bind] at h
  cases he : validateEta (args.eta.getD (.float 0.1)) with
  | error x => rw [he] at h; simp at h
  | ok e =>
    rw [he] at h
    simp only [pyAssert] at h
    by_cases hl : locality ∈ [(1 : ℤ), 2]
    swap
    · rw [if_neg hl] at h; simp at h
    rw [if_pos hl] at h
    simp only at h
    have hloc : locality = 1 ∨ (locality = 2 ∧ n % 2 = 0 ∧ (stride.getD 0 = 0 ∨ stride.getD 0 = 1)) := by
      simp only [List.mem_cons, List.not_mem_nil, or_false] at hl
      rcases hl with rfl | rfl
      · exact Or.inl rfl
      · right
        rw [if_pos rfl] at h
        by_cases hev : n % 2 = 0
        · rw [if_pos hev] at h
          by_cases hst : stride.getD 0 ∈ [(0 : ℤ), 1]
          · exact ⟨rfl, hev, by simpa using hst⟩
          · rw [if_neg hst] at h; simp at h
        · rw [if_neg hev] at h; simp at h
    have hrest : (∀ D', D = some D' → ∀ d ∈ D', d ∈ (wordsXYZ locality.toNat).map letterStr) ∧
        (∃ b, validateBool (args.unitaryErrorCheck.getD (.bool false)) = .ok b) ∧
        (∃ b, validateBool (args.trotterize.getD (.bool false)) = .ok b) := by
      rcases hloc with rfl | ⟨rfl, hev, hst⟩
      · rw [if_neg (by decide)] at h
        simp only [su2_words, filterDirections_words] at h
        refine ⟨?_, ?_, ?_⟩
        · show ∀ D', D = some D' → ∀ d ∈ D', d ∈ (wordsXYZ 1).map letterStr
          by_contra hd; rw [if_neg hd] at h; simp at h
        · cases hb : validateBool (args.unitaryErrorCheck.getD (.bool false)) with
          | ok b => exact ⟨b, rfl⟩
          | error x => rw [hb] at h; split at h <;> simp at h
        · cases hb : validateBool (args.trotterize.getD (.bool false)) with
          | ok b => exact ⟨b, rfl⟩
          | error x => rw [hb] at h; split at h <;> [skip; split at h] <;> (try split at h) <;> simp_all
      · have hst' : stride.getD 0 ∈ [(0 : ℤ), 1] := by simpa using hst
        rw [if_pos rfl, if_pos hev, if_pos hst'] at h
        simp only [su4_words, filterDirections_words] at h
        refine ⟨?_, ?_, ?_⟩
        · show ∀ D', D = some D' → ∀ d ∈ D', d ∈ (wordsXYZ 2).map letterStr
          by_contra hd; rw [if_neg hd] at h; simp at h
        · cases hb : validateBool (args.unitaryErrorCheck.getD (.bool false)) with
          | ok b => exact ⟨b, rfl⟩
          | error x => rw [hb] at h; split at h <;> simp at h
        · cases hb : validateBool (args.trotterize.getD (.bool false)) with
          | ok b => exact ⟨b, rfl⟩
          | error x => rw [hb] at h; split at h <;> [skip; split at h] <;> (try split at h) <;> simp_all
    exact ⟨⟨e, he⟩, hloc, hrest.1, hrest.2.1, hrest.2.2⟩

end Oranssi
