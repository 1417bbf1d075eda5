import Mathlib.LinearAlgebra.Matrix.Hermitian
import Verif.Lemmas.Circuit
import Verif.Lemmas.PauliWords
import Verif.Lemmas.MatExp
import Verif.Props.Utils

/-! # C06 – C08, C12, C13: circuits, parameter shift, Hamiltonian matrix, directions -/

namespace Oranssi
open Spec
open scoped Matrix

/-- C06.  The compiled unitary acts on every state exactly like the gates one after the other, and is unitary when the
gates are. -/
theorem C06_compiled_circuit (n : ℕ) (gs : List (Gate n)) :
    ∃ U : QMat n, compileCircuit n (gs.map (fun g => ⟨2 ^ g.ws.length, 2 ^ g.ws.length, g.A⟩))
        (gs.map (fun g => g.ws.map (Nat.cast : ℕ → ℤ))) = .ok U ∧
      (∀ ψ : Fin (2 ^ n) → ℂ, U *ᵥ ψ = gs.foldl (fun ψ g => g.apply ψ) ψ) ∧
      stateFromUnitary U = gs.foldl (fun ψ g => g.apply ψ) (Pi.single 0 1) ∧
      ((∀ g ∈ gs, g.Aᴴ * g.A = 1) → Uᴴ * U = 1) := by
  have key : ∀ ψ : Fin (2 ^ n) → ℂ, gs.foldl (fun U g => full n g.ws g.A * U) 1 *ᵥ ψ =
      gs.foldl (fun ψ g => g.apply ψ) ψ := by
    intro ψ; rw [foldl_gates_mulVec, Matrix.one_mulVec]
  refine ⟨_, compileCircuit_gates gs, key, ?_, fun h => foldl_gates_unitary gs h 1 (by simp)⟩
  rw [← key]
  funext i
  simp [stateFromUnitary, Matrix.mulVec_single]

/-- A two-gate circuit meeting the hypotheses (X on qubit 1, then Y on qubit 0). -/
example : ∃ gs : List (Gate 2), gs.length = 2 ∧ ∀ g ∈ gs, g.Aᴴ * g.A = 1 := by
  refine ⟨[⟨[1], pauliWord (n := 1) (fun _ => .X), by simp, by simp, by simp⟩,
    ⟨[0], pauliWord (n := 1) (fun _ => .Y), by simp, by simp, by simp⟩], rfl, ?_⟩
  intro g hg
  simp only [List.mem_cons, List.not_mem_nil, or_false] at hg
  rcases hg with rfl | rfl
  · exact (congrArg (· * _) (pauliWord_herm _)).trans (pauliWord_sq _)
  · exact (congrArg (· * _) (pauliWord_herm _)).trans (pauliWord_sq _)

/-- C07.  For a Hermitian involution `O`, `param_shift_comm(ρ, t ↦ exp(-i t/2 O))` is `i(ρO - Oρ)`; it is traceless,
and Hermitian for Hermitian `ρ`. -/
theorem C07_param_shift_comm (d : ℕ) (rho O : Matrix (Fin d) (Fin d) ℂ) (hO : Oᴴ = O) (hO2 : O * O = 1) :
    paramShiftComm rho (fun t => NormedSpace.exp ((-Complex.I * (t / 2 : ℝ)) • O)) =
        Complex.I • (rho * O - O * rho) ∧
      (paramShiftComm rho (fun t => NormedSpace.exp ((-Complex.I * (t / 2 : ℝ)) • O))).trace = 0 ∧
      (rhoᴴ = rho → (paramShiftComm rho (fun t => NormedSpace.exp ((-Complex.I * (t / 2 : ℝ)) • O)))ᴴ =
        paramShiftComm rho (fun t => NormedSpace.exp ((-Complex.I * (t / 2 : ℝ)) • O))) := by
  have main : paramShiftComm rho (fun t => NormedSpace.exp ((-Complex.I * (t / 2 : ℝ)) • O)) =
      Complex.I • (rho * O - O * rho) := by
    simp only [paramShiftComm, exp_neg_I_smul_involution O hO2]
    have e1 : (Real.pi / 2 / 2 : ℝ) = Real.pi / 4 := by ring
    have e2 : (-Real.pi / 2 / 2 : ℝ) = -(Real.pi / 4) := by ring
    rw [e1, e2, Real.cos_neg, Real.sin_neg, Real.cos_pi_div_four, Real.sin_pi_div_four]
    set s : ℂ := ((Real.sqrt 2 / 2 : ℝ) : ℂ) with hs
    have hss : s * s = 1 / 2 := by
      rw [hs, ← Complex.ofReal_mul]
      have : Real.sqrt 2 / 2 * (Real.sqrt 2 / 2) = 1 / 2 := by
        have := Real.mul_self_sqrt (show (0:ℝ) ≤ 2 by norm_num); linarith
      rw [this]; push_cast; ring
    have hsc : star s = s := by rw [hs]; exact Complex.conj_ofReal _
    rw [Complex.ofReal_neg]
    simp only [Matrix.conjTranspose_sub, Matrix.conjTranspose_smul, Matrix.conjTranspose_one, hO, star_mul', hsc,
      star_neg, ← hs, show star Complex.I = -Complex.I from Complex.conj_I]
    simp only [mul_neg, neg_mul, neg_smul, sub_neg_eq_add, Matrix.sub_mul, Matrix.mul_sub, Matrix.add_mul,
      Matrix.mul_add, Matrix.smul_mul, Matrix.mul_smul, Matrix.one_mul, Matrix.mul_one, smul_smul, neg_neg, smul_sub, smul_add]
    have : s * (Complex.I * s) = Complex.I / 2 := by rw [mul_left_comm, hss]; ring
    have h2 : Complex.I * s * s = Complex.I / 2 := by rw [mul_assoc, hss]; ring
    rw [this, h2]
    have hI : Complex.I • (rho * O) = (Complex.I / 2) • (rho * O) + (Complex.I / 2) • (rho * O) := by
      rw [← add_smul]; congr 1; ring
    have hI2 : Complex.I • (O * rho) = (Complex.I / 2) • (O * rho) + (Complex.I / 2) • (O * rho) := by
      rw [← add_smul]; congr 1; ring
    rw [hI, hI2]
    abel
  refine ⟨main, ?_, ?_⟩
  · rw [main, Matrix.trace_smul, Matrix.trace_sub, Matrix.trace_mul_comm, sub_self, smul_zero]
  · intro hr
    rw [main, Matrix.conjTranspose_smul, Matrix.conjTranspose_sub, Matrix.conjTranspose_mul, Matrix.conjTranspose_mul,
      hO, hr, show star Complex.I = -Complex.I from Complex.conj_I, neg_smul, ← smul_neg, neg_sub]

/-- The hypotheses of C07 are met by Pauli Y. -/
example : (Letter.Y.mat)ᴴ = Letter.Y.mat ∧ Letter.Y.mat * Letter.Y.mat = 1 := ⟨Letter.mat_herm _, Letter.mat_sq _⟩

/-! ### C08 -/

/-- A valid local operator as an observable object. -/
def Spec.Gate.obs {n : ℕ} (g : Gate n) : Obs := ⟨⟨2 ^ g.ws.length, 2 ^ g.ws.length, g.A⟩, g.ws.map (Nat.cast : ℕ → ℤ)⟩

theorem getFullOperator_obs {n : ℕ} (g : Gate n) : getFullOperator g.obs.matrix g.obs.wires n = .ok (full n g.ws g.A) :=
  getFullOperator_gate g

theorem hamLoop_ok {n : ℕ} (cs : List ℂ) (gs : List (Gate n)) (i : ℕ) (H : QMat n) (h : i + gs.length ≤ cs.length) :
    hamLoop n cs i (gs.map Gate.obs) H =
      .ok (H + (List.zipWith (fun c g => c • full n g.ws g.A) (cs.drop i) gs).sum) := by
  induction gs generalizing i H with
  | nil => simp [hamLoop]
  | cons g gs ih =>
    simp only [List.length_cons] at h
    have hi : i < cs.length := by omega
    have hg : pyGetItem cs (i : ℤ) = .ok cs[i] := by
      simp [pyGetItem, pyIndex, hi]
    simp only [List.map_cons, hamLoop, hg, getFullOperator_obs, bind, Except.bind]
    rw [ih (i + 1) _ (by omega), List.drop_eq_getElem_cons hi, List.zipWith_cons_cons, List.sum_cons, add_assoc]

theorem hamLoop_err {n : ℕ} (cs : List ℂ) (gs : List (Gate n)) (i : ℕ) (H : QMat n) (hi : i ≤ cs.length)
    (h : cs.length < i + gs.length) : hamLoop n cs i (gs.map Gate.obs) H = .error .index := by
  induction gs generalizing i H with
  | nil => simp at h; omega
  | cons g gs ih =>
    simp only [List.length_cons] at h
    by_cases hi' : i < cs.length
    · have hg : pyGetItem cs (i : ℤ) = .ok cs[i] := by
        simp [pyGetItem, pyIndex, hi']
      simp only [List.map_cons, hamLoop, hg, getFullOperator_obs, bind, Except.bind]
      exact ih (i + 1) _ (by omega) (by omega)
    · have hg : pyGetItem cs (i : ℤ) = .error .index := by
        simp [pyGetItem, pyIndex, hi']
      simp only [List.map_cons, hamLoop, hg, bind, Except.bind]

/-- C08.  Value: the weighted sum; surplus coefficients are ignored. -/
theorem C08_hamiltonian_value (n : ℕ) (gs : List (Gate n)) (cs : List ℂ) (h : gs.length ≤ cs.length) :
    getHamiltonianMatrix n (gs.map Gate.obs) (some cs) =
      .ok (List.zipWith (fun c g => c • full n g.ws g.A) cs gs).sum := by
  simp only [getHamiltonianMatrix, Option.getD_some]
  rw [hamLoop_ok cs gs 0 0 (by omega)]
  simp

/-- C08.  Default coefficients are all one. -/
theorem C08_hamiltonian_default (n : ℕ) (gs : List (Gate n)) :
    getHamiltonianMatrix n (gs.map Gate.obs) none = .ok (gs.map (fun g => full n g.ws g.A)).sum := by
  simp only [getHamiltonianMatrix, Option.getD_none]
  rw [hamLoop_ok _ gs 0 0 (by simp)]
  simp only [List.length_map, List.drop_zero, zero_add]
  congr 2
  induction gs with
  | nil => rfl
  | cons g gs ih => simp [List.replicate_succ, ih]

/-- C08.  Too few coefficients raise `IndexError`. -/
theorem C08_too_few_coeffs (n : ℕ) (gs : List (Gate n)) (cs : List ℂ) (h : cs.length < gs.length) :
    getHamiltonianMatrix n (gs.map Gate.obs) (some cs) = .error .index := by
  simp only [getHamiltonianMatrix, Option.getD_some]
  exact hamLoop_err cs gs 0 0 (by omega) (by omega)

/-- C08.  Real coefficients and Hermitian observables give a Hermitian matrix. -/
theorem C08_hamiltonian_hermitian (n : ℕ) (gs : List (Gate n)) (cs : List ℂ) (h : gs.length ≤ cs.length)
    (hA : ∀ g ∈ gs, g.Aᴴ = g.A) (hc : ∀ c ∈ cs, star c = c) :
    ∃ H, getHamiltonianMatrix n (gs.map Gate.obs) (some cs) = .ok H ∧ Hᴴ = H := by
  refine ⟨_, C08_hamiltonian_value n gs cs h, ?_⟩
  clear h
  induction gs generalizing cs with
  | nil => simp
  | cons g gs ih =>
    cases cs with
    | nil => simp
    | cons c cs =>
      rw [List.zipWith_cons_cons, List.sum_cons, Matrix.conjTranspose_add, Matrix.conjTranspose_smul,
        hc c List.mem_cons_self, ← full_conjTranspose rfl g.valid.2, hA g List.mem_cons_self,
        ih cs (fun g' hg' => hA g' (List.mem_cons_of_mem _ hg')) (fun c' hc' => hc c' (List.mem_cons_of_mem _ hc'))]

/-- C08.  Concatenating lists of observables adds the matrices. -/
theorem C08_hamiltonian_additive (n : ℕ) (gs hs : List (Gate n)) (cs ds : List ℂ) (h1 : cs.length = gs.length)
    (h2 : ds.length = hs.length) :
    ∃ H1 H2, getHamiltonianMatrix n (gs.map Gate.obs) (some cs) = .ok H1 ∧
      getHamiltonianMatrix n (hs.map Gate.obs) (some ds) = .ok H2 ∧
      getHamiltonianMatrix n ((gs ++ hs).map Gate.obs) (some (cs ++ ds)) = .ok (H1 + H2) := by
  refine ⟨_, _, C08_hamiltonian_value n gs cs (by omega), C08_hamiltonian_value n hs ds (by omega), ?_⟩
  rw [C08_hamiltonian_value n (gs ++ hs) (cs ++ ds) (by simp; omega), List.zipWith_append h1, List.sum_append]

/-! ### C12, C13 -/

theorem promoteAll_gates {n : ℕ} (gs : List (Gate n)) :
    promoteAll n (gs.map Gate.obs) = .ok (gs.map (fun g => full n g.ws g.A)) := by
  induction gs with
  | nil => rfl
  | cons g gs ih => simp [promoteAll, getFullOperator_obs, ih, bind, Except.bind]

theorem npQ_toQ {n : ℕ} (A : QMat n) : (npQ A).toQ n = .ok A := by
  simp [NpMat.toQ, npQ]

theorem omega_add {n : ℕ} (φ : Ket n) (P A B : QMat n) : omega φ P (A + B) = omega φ P A + omega φ P B := by
  simp only [omega]
  rw [show P * (A + B) - (A + B) * P = (P * A - A * P) + (P * B - B * P) by
    rw [Matrix.mul_add, Matrix.add_mul]; abel, Matrix.add_mulVec, dotProduct_add, Complex.add_im, add_div]

theorem omega_zero {n : ℕ} (φ : Ket n) (P : QMat n) : omega φ P 0 = 0 := by
  simp [omega]

theorem omega_sum {n : ℕ} (φ : Ket n) (P : QMat n) (Os : List (QMat n)) :
    (Os.map (fun O => omega φ P O)).foldl (· + ·) 0 = omega φ P Os.sum := by
  rw [← List.sum_eq_foldl]
  induction Os with
  | nil => simp [omega_zero]
  | cons O Os ih => simp [omega_add, ih]

theorem directionsLoop_words {n : ℕ} (φ : Ket n) (Os : List (QMat n)) (ws : List (Fin n → Letter)) :
    directionsLoop φ Os (ws.map (fun w => (npQ (pauliWord w), wordStr w))) =
      .ok (ws.map (fun w => (wordStr w, omega φ (pauliWord w) Os.sum))) := by
  induction ws with
  | nil => rfl
  | cons w ws ih =>
    simp only [List.map_cons, directionsLoop, npQ_toQ, ih, bind, Except.bind, omega_sum]

theorem getAllSuNDirections_eq {n : ℕ} (U : QMat n) (gs : List (Gate n)) :
    getAllSuNDirections U (gs.map Gate.obs) = .ok ((fnWords (lettersOf true) n).map (fun w =>
      (wordStr w, omega (stateFromUnitary U) (pauliWord w) (gs.map (fun g => full n g.ws g.A)).sum))) := by
  simp only [getAllSuNDirections, promoteAll_gates, getSuNOperators_eq, bind, Except.bind, zip_map_map,
    directionsLoop_words]

/-- The total observable of a list of local observables. -/
def Spec.totalObs {n : ℕ} (gs : List (Gate n)) : QMat n := (gs.map (fun g => full n g.ws g.A)).sum

theorem totalObs_herm {n : ℕ} (gs : List (Gate n)) (hA : ∀ g ∈ gs, g.Aᴴ = g.A) : (totalObs gs)ᴴ = totalObs gs := by
  unfold totalObs
  induction gs with
  | nil => simp
  | cons g gs ih =>
    rw [List.map_cons, List.sum_cons, Matrix.conjTranspose_add, ← full_conjTranspose rfl g.valid.2,
      hA g List.mem_cons_self, ih (fun g' hg' => hA g' (List.mem_cons_of_mem _ hg'))]

theorem star_dot_mulVec {n : ℕ} (φ : Ket n) (M : QMat n) :
    star (star φ ⬝ᵥ (M *ᵥ φ)) = star φ ⬝ᵥ (Mᴴ *ᵥ φ) := by
  rw [Matrix.star_dotProduct, star_star, Matrix.star_mulVec, Matrix.dotProduct_mulVec, dotProduct_comm]

theorem dot_comm_re {n : ℕ} (φ : Ket n) (P H : QMat n) (hP : Pᴴ = P) (hH : Hᴴ = H) :
    (star φ ⬝ᵥ ((P * H - H * P) *ᵥ φ)).re = 0 := by
  have h := star_dot_mulVec φ (P * H - H * P)
  rw [Matrix.conjTranspose_sub, Matrix.conjTranspose_mul, Matrix.conjTranspose_mul, hP, hH,
    show H * P - P * H = -(P * H - H * P) by abel, Matrix.neg_mulVec, dotProduct_neg] at h
  have := congrArg Complex.re h
  simp only [Complex.star_def, Complex.conj_re, Complex.neg_re] at this
  linarith

/-- C12.  The dictionary has exactly one entry for each of the `4^n` Pauli words; the entry of a word `P` is
`Im⟨φ|[P,H]|φ⟩ / 2^n` with `φ = U|0⟩` and `H` the sum of the observables; for Hermitian observables the expectation is
purely imaginary, so taking the imaginary part loses nothing; the identity word has the value `0`. -/
theorem C12_directions (n : ℕ) (U : QMat n) (gs : List (Gate n)) :
    ∃ d, getAllSuNDirections U (gs.map Gate.obs) = .ok d ∧
      d.length = 4 ^ n ∧ (d.map Prod.fst).Nodup ∧
      (∀ e ∈ d, ∃ w : Fin n → Letter, e.1 = wordStr w) ∧
      (∀ w : Fin n → Letter, (wordStr w,
        (star (fun i => U i 0) ⬝ᵥ ((pauliWord w * totalObs gs - totalObs gs * pauliWord w) *ᵥ (fun i => U i 0))).im / 2 ^ n) ∈ d) ∧
      ((∀ g ∈ gs, g.Aᴴ = g.A) → ∀ w : Fin n → Letter,
        (star (fun i => U i 0) ⬝ᵥ ((pauliWord w * totalObs gs - totalObs gs * pauliWord w) *ᵥ (fun i => U i 0))).re = 0) ∧
      (wordStr (fun _ : Fin n => Letter.I), 0) ∈ d := by
  refine ⟨_, getAllSuNDirections_eq U gs, ?_, ?_, ?_, ?_, ?_, ?_⟩
  · have := length_pyProduct (lettersOf true) n
    rw [pyProduct_eq_fnWords, List.length_map] at this
    rw [List.length_map, this]; rfl
  · rw [List.map_map]
    obtain ⟨ops, names, h, hs, -⟩ := C09_pauli_words n true
    rw [getSuNOperators_eq] at h
    simp only [Except.ok.injEq, Prod.mk.injEq] at h
    have h2 : ((fnWords (lettersOf true) n).map wordStr).Nodup := by
      rw [h.2]; exact hs.imp (fun {a b} hab hc => by subst hc; exact absurd hab (String.lt_irrefl _))
    exact h2
  · intro e he
    obtain ⟨w, -, rfl⟩ := List.mem_map.1 he
    exact ⟨w, rfl⟩
  · intro w
    exact List.mem_map.2 ⟨w, (mem_fnWords _ _ _).2 (fun i => by cases w i <;> simp [lettersOf]), rfl⟩
  · intro hA w
    exact dot_comm_re _ _ _ (pauliWord_herm w) (totalObs_herm gs hA)
  · refine List.mem_map.2 ⟨fun _ => Letter.I, (mem_fnWords _ _ _).2 (fun i => by simp [lettersOf]), ?_⟩
    rw [Prod.mk.injEq]
    refine ⟨rfl, ?_⟩
    have : pauliWord (fun _ : Fin n => Letter.I) = 1 := by
      simp only [pauliWord, Letter.mat, tensor_one]
    simp [omega, this]

theorem eigen_iff_omega {n : ℕ} (φ : Ket n) (hφ : star φ ⬝ᵥ φ = 1) (H : QMat n) (hH : Hᴴ = H) :
    (∀ w : Fin n → Letter, omega φ (pauliWord w) H = 0) ↔ ∃ c : ℂ, H *ᵥ φ = c • φ := by
  have tr : ∀ M : QMat n, star φ ⬝ᵥ (M *ᵥ φ) = (M * Matrix.vecMulVec φ (star φ)).trace := by
    intro M
    rw [Matrix.mul_vecMulVec, Matrix.trace_vecMulVec, dotProduct_comm]
  constructor
  · intro h
    have hz : H * Matrix.vecMulVec φ (star φ) - Matrix.vecMulVec φ (star φ) * H = 0 := by
      refine eq_zero_of_pauli_trace (fun w => ?_)
      have h1 : star φ ⬝ᵥ ((pauliWord w * H - H * pauliWord w) *ᵥ φ) = 0 := by
        apply Complex.ext
        · exact dot_comm_re φ _ H (pauliWord_herm w) hH
        · have := h w
          simp only [omega] at this
          rcases div_eq_zero_iff.1 this with h | h
          · exact h
          · exact absurd h (by positivity)
      rw [tr] at h1
      rw [← h1, Matrix.mul_sub, Matrix.sub_mul, Matrix.trace_sub, Matrix.trace_sub, Matrix.mul_assoc, Matrix.mul_assoc,
        Matrix.trace_mul_comm H, Matrix.mul_assoc]
    refine ⟨star φ ⬝ᵥ (H *ᵥ φ), ?_⟩
    have h2 := congrArg (fun M => M *ᵥ φ) (sub_eq_zero.1 hz)
    simp only [Matrix.mul_vecMulVec, Matrix.vecMulVec_mul] at h2
    have h3 : ∀ u v : Ket n, Matrix.vecMulVec u v *ᵥ φ = (v ⬝ᵥ φ) • u := by
      intro u v
      funext i
      simp only [Matrix.mulVec, dotProduct, Matrix.vecMulVec_apply, Pi.smul_apply, smul_eq_mul, Finset.sum_mul]
      exact Finset.sum_congr rfl (fun j _ => by ring)
    rw [h3, h3, hφ, one_smul, ← Matrix.dotProduct_mulVec] at h2
    exact h2
  · rintro ⟨c, hc⟩ w
    have hcr : star c = c := by
      have h := star_dot_mulVec φ H
      rw [hH, hc, dotProduct_smul, hφ, smul_eq_mul, mul_one] at h
      exact h
    have hv : star φ ᵥ* H = c • star φ := by
      have := congrArg star hc
      rw [Matrix.star_mulVec, hH, star_smul, hcr] at this
      exact this
    simp only [omega]
    rw [Matrix.sub_mulVec, ← Matrix.mulVec_mulVec, ← Matrix.mulVec_mulVec, hc, dotProduct_sub,
      Matrix.mulVec_smul, dotProduct_smul, Matrix.dotProduct_mulVec _ H, hv, smul_dotProduct, sub_self]
    simp

/-- C13.  For a unitary `U` and Hermitian observables all directions vanish exactly when `U|0⟩` is an eigenvector of the
total observable. -/
theorem C13_directions_vanish_iff_eigenvector (n : ℕ) (U : QMat n) (hU : Uᴴ * U = 1) (gs : List (Gate n))
    (hA : ∀ g ∈ gs, g.Aᴴ = g.A) :
    ∃ d, getAllSuNDirections U (gs.map Gate.obs) = .ok d ∧
      ((∀ e ∈ d, e.2 = 0) ↔ ∃ c : ℂ, totalObs gs *ᵥ (fun i => U i 0) = c • (fun i => U i 0)) := by
  refine ⟨_, getAllSuNDirections_eq U gs, ?_⟩
  have hφ : star (fun i => U i 0) ⬝ᵥ (fun i => U i 0) = 1 := by
    have := congrFun (congrFun hU 0) 0
    simpa [Matrix.mul_apply, dotProduct] using this
  rw [← eigen_iff_omega _ hφ _ (totalObs_herm gs hA)]
  constructor
  · intro h w
    exact h _ (List.mem_map.2 ⟨w, (mem_fnWords _ _ _).2 (fun i => by cases w i <;> simp [lettersOf]), rfl⟩)
  · intro h e he
    obtain ⟨w, -, rfl⟩ := List.mem_map.1 he
    exact h w

/-- The example observable: Z on qubit 1 of two qubits. -/
noncomputable def exObsZ : Gate 2 := ⟨[1], pauliWord (n := 1) (fun _ => .Z), by simp, by simp, by simp⟩

/-- Hypotheses of C08, C12 and C13 met by a non-trivial case: Hermitian observable, unitary, right number of
coefficients. -/
example : (∀ g ∈ [exObsZ, exObsZ], g.Aᴴ = g.A) ∧ (pauliWord (n := 2) (fun _ => .X))ᴴ * pauliWord (n := 2) (fun _ => .X) = 1 ∧
    [exObsZ, exObsZ].length ≤ [(1 : ℂ), 2, 3].length := by
  refine ⟨?_, (congrArg (· * _) (pauliWord_herm _)).trans (pauliWord_sq _), by simp⟩
  intro g hg
  simp only [List.mem_cons, List.not_mem_nil, or_false, or_self] at hg
  subst hg
  exact pauliWord_herm _

end Oranssi
