import Verif.Model.EigenstatePerturbation
import Verif.Props.Symmetry
import Verif.Props.SumOnly
import Verif.Props.InvolutionRun
import Verif.Props.PlotEqual

/-! # C96: the unperturbed run of experiments_paper/eigenstate_perturbation.py cannot reach the ground state -/

namespace Oranssi
open Spec
open scoped Matrix ComplexOrder

/-- The Pauli matrix Y. -/
def matYq : QMat 1 := (!![0, -Complex.I; Complex.I, 0] : Matrix (Fin 2) (Fin 2) ℂ)

/-- The observables of the script as gates on two qubits. -/
def epGates : List (Gate 2) := [⟨[1], matX, by simp, by simp, by simp⟩, ⟨[0], matX, by simp, by simp, by simp⟩, ⟨[0], matYq, by simp, by simp, by simp⟩]

/-- X on the second qubit. -/
noncomputable def Spec.secondX : QMat 2 := full 2 [1] matX

/-- `X + Y` on the first qubit plus `X` on the second one. -/
noncomputable def Spec.twoQubitH : QMat 2 := full 2 [0] matX + full 2 [0] matYq + secondX

theorem epGates_obs : perturbationObservables = epGates.map Gate.obs := rfl

theorem epGates_total : totalObs epGates = twoQubitH := by
  simp only [totalObs, epGates, twoQubitH, secondX, List.map_cons, List.map_nil, List.sum_cons, List.sum_nil]
  abel

theorem epCircuit_compile : compileLoop 2 perturbationCircuit 1 = .ok (full 2 [1] hadamard * full 2 [0] hadamard) := by
  have := compileLoop_gates (n := 2) [⟨[0], hadamard, by simp, by simp, by simp⟩, ⟨[1], hadamard, by simp, by simp, by simp⟩] 1
  refine Eq.trans ?_ (this.trans ?_)
  · rfl
  · simp

theorem matX_matYq : matX * matYq = -(matYq * matX) := by
  change (!![0, 1; 1, 0] : Matrix (Fin 2) (Fin 2) ℂ) * !![0, -Complex.I; Complex.I, 0] = -(!![0, -Complex.I; Complex.I, 0] * !![0, 1; 1, 0])
  ext i j
  fin_cases i <;> fin_cases j <;> simp [Matrix.mul_apply, Fin.sum_univ_two]

theorem matYq_sq : matYq * matYq = 1 := by
  change (!![0, -Complex.I; Complex.I, 0] : Matrix (Fin 2) (Fin 2) ℂ) * !![0, -Complex.I; Complex.I, 0] = 1
  ext i j
  fin_cases i <;> fin_cases j <;> simp [Matrix.mul_apply, Fin.sum_univ_two]

theorem matYq_herm : matYqᴴ = matYq := by
  change (!![0, -Complex.I; Complex.I, 0] : Matrix (Fin 2) (Fin 2) ℂ)ᴴ = !![0, -Complex.I; Complex.I, 0]
  ext i j
  fin_cases i <;> fin_cases j <;> simp [Matrix.conjTranspose_apply]

theorem wires0 : ValidWires 2 [0] := ⟨by simp, by simp⟩

theorem wires1 : ValidWires 2 [1] := ⟨by simp, by simp⟩

/-- `(X + Y) / √2` on the first qubit. -/
noncomputable def halfXY : QMat 2 := ((1 / Real.sqrt 2 : ℝ) : ℂ) • full 2 [0] (matX + matYq)

theorem sqrt_two_inv_sq : (((1 / Real.sqrt 2 : ℝ) : ℂ)) * ((1 / Real.sqrt 2 : ℝ) : ℂ) = 1 / 2 := by
  rw [← Complex.ofReal_mul, div_mul_div_comm, Real.mul_self_sqrt (by norm_num)]; norm_num

theorem halfXY_sq : halfXY * halfXY = 1 := by
  rw [halfXY, smul_mul_smul_comm, ← full_mul rfl wires0, sqrt_two_inv_sq]
  have : (matX + matYq) * (matX + matYq) = (2 : ℂ) • 1 := by
    rw [add_mul, mul_add, mul_add, matX_sq, matYq_sq, matX_matYq, two_smul]; abel
  rw [this, full_smul, full_one rfl wires0, smul_smul]
  norm_num

theorem halfXY_herm : halfXYᴴ = halfXY := by
  rw [halfXY, Matrix.conjTranspose_smul, ← full_conjTranspose rfl (by simp), Matrix.conjTranspose_add, matX_herm, matYq_herm]
  simp

theorem twoQubitH_eq : twoQubitH = ((Real.sqrt 2 : ℝ) : ℂ) • halfXY + secondX := by
  rw [twoQubitH, halfXY, smul_smul, ← Complex.ofReal_mul, mul_one_div_cancel (by positivity), Complex.ofReal_one, one_smul, full_add]

theorem secondX_sq : secondX * secondX = 1 := by
  rw [secondX, ← full_mul rfl wires1, matX_sq, full_one rfl wires1]

theorem secondX_herm : secondXᴴ = secondX := by
  rw [secondX, ← full_conjTranspose rfl (by simp), matX_herm]

theorem secondX_comm (A : QMat 1) : Commute secondX (full 2 [0] A) := full_comm_disjoint rfl rfl wires1 wires0 (by simp) _ _

theorem hadamard_matX : matX * hadamard = hadamard * matZ := by
  change (!![0, 1; 1, 0] : Matrix (Fin 2) (Fin 2) ℂ) * (((1 / Real.sqrt 2 : ℝ) : ℂ) • !![1, 1; 1, -1]) = (((1 / Real.sqrt 2 : ℝ) : ℂ) • !![1, 1; 1, -1]) * !![1, 0; 0, -1]
  ext i j
  fin_cases i <;> fin_cases j <;> simp [Matrix.mul_apply, Fin.sum_univ_two]

theorem secondZ_zero : full 2 [1] matZ *ᵥ (fun i => (1 : QMat 2) i 0) = fun i => (1 : QMat 2) i 0 := by
  rw [← mul_column, mul_one]
  funext i
  change (full 2 [1] matZ : Matrix (Fin 4) (Fin 4) ℂ) i 0 = (1 : Matrix (Fin 4) (Fin 4) ℂ) i 0
  have key : ∀ a b : Fin 2, ent matZ a b = (!![1, 0; 0, -1] : Matrix (Fin 2) (Fin 2) ℂ) a b := by
    intro a b
    rw [ent, dif_pos ⟨a.2, b.2⟩]
    rfl
  have k00 := key 0 0
  have k10 := key 1 0
  fin_cases i
  · refine Eq.trans ?_ (Matrix.one_apply_eq _).symm
    simpa [full, bit, Spec.sub] using k00
  · refine Eq.trans ?_ (Matrix.one_apply_ne (by decide)).symm
    simp only [full]
    split
    · simpa [bit, Spec.sub] using k10
    · rfl
  · refine Eq.trans ?_ (Matrix.one_apply_ne (by decide)).symm
    refine if_neg fun h => ?_
    have := h 0 (by norm_num) (by simp)
    simp [bit] at this
  · refine Eq.trans ?_ (Matrix.one_apply_ne (by decide)).symm
    refine if_neg fun h => ?_
    have := h 0 (by norm_num) (by simp)
    simp [bit] at this

/-- The circuit of the script prepares `|++⟩`, on which `X` of the second qubit has the value 1. -/
theorem epCircuit_sector : InSector secondX 1 (fun i => (full 2 [1] hadamard * full 2 [0] hadamard : QMat 2) i 0) := by
  have h1 : secondX * (full 2 [1] hadamard * full 2 [0] hadamard) = full 2 [1] hadamard * full 2 [0] hadamard * full 2 [1] matZ := by
    rw [← mul_assoc, secondX, ← full_mul rfl wires1, hadamard_matX, full_mul rfl wires1, mul_assoc, mul_assoc,
      full_comm_disjoint (n := 2) (ws := [1]) (vs := [0]) rfl rfl wires1 wires0 (by simp)]
  rw [InSector, one_smul, ← mul_column, h1, mul_column, ← mul_one (full 2 [1] hadamard * full 2 [0] hadamard), mul_column, mul_one]
  rw [show (fun i => (full 2 [1] matZ : QMat 2) i 0) = full 2 [1] matZ *ᵥ (fun i => (1 : QMat 2) i 0) by rw [← mul_column, mul_one], secondZ_zero]

theorem epCircuit_unitary : Unitary (full 2 [1] hadamard * full 2 [0] hadamard : QMat 2) := by
  have key : ∀ q : ℕ, ValidWires 2 [q] → Unitary (full 2 [q] hadamard : QMat 2) := by
    intro q hq
    rw [Unitary, ← full_conjTranspose rfl hq.2, ← full_mul rfl hq, hadamard_unitary, full_one rfl hq]
  exact Unitary.mul (key 1 wires1) (key 0 wires0)

theorem dot_sq_nonneg {n : ℕ} (M : QMat n) (φ : Ket n) : 0 ≤ (star φ ⬝ᵥ ((Mᴴ * M) *ᵥ φ)).re := by
  rw [← Matrix.mulVec_mulVec, Matrix.dotProduct_mulVec, ← Matrix.star_mulVec]
  simp only [dotProduct, Pi.star_apply, Complex.re_sum]
  refine Finset.sum_nonneg fun i _ => ?_
  rw [Complex.star_def, ← Complex.normSq_eq_conj_mul_self, Complex.ofReal_re]
  exact Complex.normSq_nonneg _

/-- The expectation of an involution is at least `-1`. -/
theorem dot_involution {n : ℕ} {O : QMat n} (hO : Oᴴ = O) (hO2 : O * O = 1) {φ : Ket n} (hφ : Normalised φ) : -1 ≤ (star φ ⬝ᵥ (O *ᵥ φ)).re := by
  have h1 := dot_sq_nonneg (1 + O) φ
  have e1 : (1 + O)ᴴ * (1 + O) = (1 + O) + (1 + O) := by
    simp only [Matrix.conjTranspose_add, Matrix.conjTranspose_one, hO, Matrix.add_mul, Matrix.mul_add, hO2, Matrix.one_mul, Matrix.mul_one]
    abel
  rw [e1, Matrix.add_mulVec, Matrix.add_mulVec, Matrix.one_mulVec, dotProduct_add, dotProduct_add, hφ] at h1
  simp only [Complex.add_re, Complex.one_re] at h1
  linarith

theorem dot_twoQubitH (φ : Ket 2) : (star φ ⬝ᵥ (twoQubitH *ᵥ φ)).re = Real.sqrt 2 * (star φ ⬝ᵥ (halfXY *ᵥ φ)).re + (star φ ⬝ᵥ (secondX *ᵥ φ)).re := by
  rw [twoQubitH_eq, Matrix.add_mulVec, dotProduct_add, Matrix.smul_mulVec, dotProduct_smul, smul_eq_mul, Complex.add_re, Complex.re_ofReal_mul]

theorem npAdd_npQ {n : ℕ} (A B : QMat n) : npAdd (npQ A) (npQ B) = .ok (npQ (A + B)) := by
  rw [npAdd, dif_pos ⟨rfl, rfl⟩]
  rfl

theorem ok_bind' {α β : Type} (a : α) (f : α → Py β) : ((.ok a : Py α) >>= f) = f a := rfl

/-- **C96**, the matrix `H` of the script is the sum of the observables. -/
theorem C96_hamiltonian : perturbationH = .ok (npQ (totalObs epGates)) ∧ totalObs epGates = twoQubitH := by
  refine ⟨?_, epGates_total⟩
  have h0 : ∀ A : QMat 1, (kron A (1 : QMat 1) : QMat 2) = full 2 [0] A := fun A => by
    rw [← full_range 2 (kron A (1 : QMat 1) : QMat 2), show List.range 2 = [0] ++ [1] from rfl, full_kron (n := 2) rfl rfl ⟨by simp, by simp⟩, full_one rfl wires1, mul_one]
  have h1 : ∀ A : QMat 1, (kron (1 : QMat 1) A : QMat 2) = full 2 [1] A := fun A => by
    rw [← full_range 2 (kron (1 : QMat 1) A : QMat 2), show List.range 2 = [0] ++ [1] from rfl, full_kron (n := 2) rfl rfl ⟨by simp, by simp⟩, full_one rfl wires0, one_mul]
  have e : perturbationH = npAdd (npKron (npQ matX) (npQ (1 : QMat 1))) (npKron (npQ matYq) (npQ (1 : QMat 1))) >>= fun h => npAdd h (npKron (npQ (1 : QMat 1)) (npQ matX)) := by
    have g : ∀ i : Fin 3, pyGetItem (getSu2Operators true).1 (i : ℕ) = .ok (![npI, npX, npY] i) := by
      intro i
      fin_cases i <;> rfl
    rw [perturbationH]
    rw [show pyGetItem (getSu2Operators true).1 0 = .ok npI from g 0, show pyGetItem (getSu2Operators true).1 1 = .ok npX from g 1,
      show pyGetItem (getSu2Operators true).1 2 = .ok npY from g 2]
    rfl
  rw [e, npKron_npQ, npKron_npQ, npKron_npQ, npAdd_npQ, ok_bind', npAdd_npQ, h0, h0, h1, epGates_total]
  rfl

/-- **C96**, the range of the sum of the observables: no state has an expectation below `-1 - √2`, and this value is an eigenvalue. -/
theorem C96_minimum : (∀ φ : Ket 2, Normalised φ → -1 - Real.sqrt 2 ≤ (star φ ⬝ᵥ (twoQubitH *ᵥ φ)).re) ∧
    ∃ φ : Ket 2, φ ≠ 0 ∧ InSector twoQubitH ((-1 - Real.sqrt 2 : ℝ) : ℂ) φ := by
  refine ⟨fun φ hφ => ?_, ?_⟩
  · rw [dot_twoQubitH]
    have h1 := dot_involution halfXY_herm halfXY_sq hφ
    have h2 := dot_involution secondX_herm secondX_sq hφ
    nlinarith [Real.sqrt_nonneg 2]
  · have hcm : Commute halfXY secondX := ((secondX_comm _).smul_right _).symm
    refine ⟨((1 - halfXY) * (1 - secondX)) *ᵥ (fun i => (1 : QMat 2) i 0), ?_, ?_⟩
    · intro h0
      rw [← mul_column, mul_one] at h0
      have h1 := congrFun h0 0
      rw [sub_mul, one_mul, mul_sub, mul_one] at h1
      have a1 : secondX 0 0 = 0 := by
        simp [secondX, full, bit, Spec.sub, ent, matX]
      have a2 : halfXY 0 0 = 0 := by
        simp [halfXY, full, bit, Spec.sub, ent, matX, matYq]
      have a3 : (halfXY * secondX) 0 0 = 0 := by
        rw [halfXY, secondX, smul_mul_assoc, ← full_kron (n := 2) (ws := [0]) (vs := [1]) rfl rfl ⟨by simp, by simp⟩]
        simp [full, bit, Spec.sub, ent, matX, kron]
      simp only [Matrix.sub_apply, a1, a2, a3, Matrix.one_apply_eq] at h1
      simp at h1
    · rw [InSector, Matrix.mulVec_mulVec, ← Matrix.smul_mulVec]
      congr 1
      have b1 : halfXY * (1 - halfXY) = -(1 - halfXY) := by rw [mul_sub, mul_one, halfXY_sq, neg_sub]
      have b2 : secondX * (1 - secondX) = -(1 - secondX) := by rw [mul_sub, mul_one, secondX_sq, neg_sub]
      have b3 : secondX * (1 - halfXY) = (1 - halfXY) * secondX := ((Commute.one_right _).sub_right hcm.symm).eq
      rw [twoQubitH_eq, add_mul, ← mul_assoc, ← mul_assoc, smul_mul_assoc, b1, b3, mul_assoc _ secondX, b2, smul_neg, neg_mul, smul_mul_assoc, mul_neg]
      push_cast
      rw [sub_smul, neg_smul, one_smul]
      abel

theorem epGates_comm : ∀ g ∈ epGates, Commute secondX (full 2 g.ws g.A) := by
  intro g hg
  simp only [epGates, List.mem_cons, List.not_mem_nil, or_false] at hg
  rcases hg with rfl | rfl | rfl
  · exact Commute.refl _
  · exact secondX_comm _
  · exact secondX_comm _

/-- **C96**: without perturbation the run of the script never gets below `1 - √2`, the second eigenvalue it draws; the value of `X` on the second qubit
stays 1.  This holds for any number of steps, step size and tolerance. -/
theorem C96_stuck {eigh : EighFn 2} (he : ValidEigh eigh) (rnd : ℕ → Matrix (Fin (2 ^ 2)) (Fin (2 ^ 2)) ℝ) (args : ExactArgs) (out : OptOut (ExactItem 2))
    (hp : args.perturbation = .bool false) (h : exactLieOptimizer eigh rnd .state perturbationCircuit perturbationObservables args = .ok out) :
    (∀ x ∈ exactCosts out, 1 - Real.sqrt 2 ≤ x) ∧ ∀ V, exactUnitary out = some V → InSector secondX 1 (fun i => V i 0) := by
  rw [epGates_obs] at h
  obtain ⟨-, h2, h3⟩ := C94_exact he rnd .state perturbationCircuit epGates args out hp _ epCircuit_compile epCircuit_unitary secondX 1 epGates_comm epCircuit_sector h
  refine ⟨fun x hx => ?_, h2⟩
  obtain ⟨φ, hφ, hs, rfl⟩ := h3 x hx
  rw [epGates_total, dot_twoQubitH, hs, one_smul, hφ, Complex.one_re]
  have h1 := dot_involution halfXY_herm halfXY_sq hφ
  nlinarith [Real.sqrt_nonneg 2]

/-- **C96** for the two calls of the script: both succeed, and the costs of the first are at least 2 above the minimum. -/
theorem C96_script {eigh : EighFn 2} (he : ValidEigh eigh) (rnd : ℕ → Matrix (Fin (2 ^ 2)) (Fin (2 ^ 2)) ℝ) :
    (∀ b, ∃ out, perturbationRun eigh rnd b = .ok out) ∧ ∀ out, perturbationRun eigh rnd false = .ok out → ∀ x ∈ exactCosts out, (-1 - Real.sqrt 2) + 2 ≤ x := by
  refine ⟨fun b => ?_, fun out h x hx => ?_⟩
  · exact (C44_succeeds_iff eigh rnd .state epGates _ [⟨[0], hadamard, by simp, by simp, by simp⟩, ⟨[1], hadamard, by simp, by simp, by simp⟩]).mpr
      ⟨rfl, 100, 0.2, .fin 1e-3, false, b, b, true, ⟨rfl, by norm_num, rfl, by norm_num, by norm_num, ⟨rfl, by norm_num⟩, rfl, rfl, rfl, by simp, rfl⟩⟩
  · have := (C96_stuck he rnd _ out rfl h).1 x hx
    linarith

theorem epGates_herm : ∀ g ∈ epGates, g.Aᴴ = g.A := by
  intro g hg
  simp only [epGates, List.mem_cons, List.not_mem_nil, or_false] at hg
  rcases hg with rfl | rfl | rfl
  · exact matX_herm
  · exact matX_herm
  · exact matYq_herm

theorem secondX_word : secondX = pauliWord (placed 2 [.X] [1]) := by
  rw [← full_placed (n := 2) (w := [.X]) (qs := [1]) rfl wires1]
  change full 2 [1] matX = full 2 [1] (pauliWord (n := 1) _)
  rw [pauliWord_one]
  rfl

/-- The hypotheses of C94 are met by the script (`C96_script`), and those of C95 by the same circuit and observables with a local layer: the state prepared
is not a common eigenstate of the observables, and the run succeeds. -/
example : ∃ (eigh : EighFn 2) (E : LayerEnv 2) (L : LocalLayer 2) (out : OptOut (ApproxItem 2) × (Fin 1 → AnyLayer 2)),
    ValidEigh eigh ∧ ValidSvd E.svd ∧ SymmetricLayer (placed 2 [.X] [1]) (.loc L) ∧ InSector (pauliWord (placed 2 [.X] [1])) 1 (fun i => (full 2 [1] hadamard * full 2 [0] hadamard : QMat 2) i 0) ∧
    approximateLieOptimizer E eigh (fun _ => 0) .state perturbationCircuit [] perturbationObservables (fun _ : Fin 1 => .loc L) [0] { nsteps := .int (20 : ℕ) } = .ok out := by
  obtain ⟨eigh, he⟩ := exists_validEigh 2
  obtain ⟨svd, hsvd⟩ := exists_validSvd 2
  let E : LayerEnv 2 := ⟨svd, ⟨List.reverse, List.reverse_perm⟩, fun _ _ p => .ok p⟩
  have hok : LocalOk 2 2 {} none none :=
    { eta := ⟨0.1, defaultEta_ok⟩, loc := Or.inr ⟨rfl, rfl, .inl rfl⟩, dirs := by simp, check := ⟨false, rfl⟩, trot := ⟨false, rfl⟩ }
  obtain ⟨k, e, b, t, -, -, -, -, -, hL⟩ := localLayer_ok epGates hok
  have hS := SymmetricLayer.loc (w := placed 2 [.X] [1]) epGates epGates_herm (by rw [← secondX_word]; exact epGates_comm) 2 {} none none _ hL (.inl (by simp))
  obtain ⟨out', h'⟩ := (C50_total_layers E hsvd eigh (fun _ => 0) .state [⟨[0], hadamard, by simp, by simp, by simp⟩, ⟨[1], hadamard, by simp, by simp, by simp⟩] []
    epGates (fun _ : Fin 1 => .loc _) [0] { nsteps := .int (20 : ℕ) } (List.cons_ne_nil _ _) (fun _ => .loc epGates epGates_herm 2 {} none none _ hL (.inl (by simp))) rfl).mpr
    ⟨rfl, 20, 0.1, some (.fin 1e-3), _, approxValid_of 20 (by norm_num) (some (.float 1e-3)) (some (.fin 1e-3)) ⟨rfl, by norm_num⟩ ⟨false, false, false, false, false, false, false⟩⟩
  exact ⟨eigh, E, _, out', he, hsvd, hS, by rw [← secondX_word]; exact epCircuit_sector, h'⟩

end Oranssi
