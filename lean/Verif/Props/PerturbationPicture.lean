import Verif.Props.PerturbationScript

/-! # C131: the picture of the unperturbed run in experiments_paper/eigenstate_perturbation.py -/

namespace Oranssi
open Spec
open scoped Matrix

/-- The entries of the two Hadamard gates. -/
theorem hh_apply : ∀ i ∈ ([0, 1, 2, 3] : List (Fin (2 ^ 2))), ∀ j ∈ ([0, 1, 2, 3] : List (Fin (2 ^ 2))), hadamardPair 2 i j =
    (!![1 / 2, 1 / 2, 1 / 2, 1 / 2; 1 / 2, -1 / 2, 1 / 2, -1 / 2; 1 / 2, 1 / 2, -1 / 2, -1 / 2; 1 / 2, -1 / 2, -1 / 2, 1 / 2] : Matrix (Fin 4) (Fin 4) ℂ) i j := by
  obtain ⟨r, hr⟩ : ∃ r : ℂ, r = ((1 / Real.sqrt 2 : ℝ) : ℂ) := ⟨_, rfl⟩
  have hrr : r * r = 1 / 2 := by rw [hr]; exact sqrt_two_inv_sq
  have h00 : ent hadamard 0 0 = r := by rw [ent, dif_pos ⟨by norm_num, by norm_num⟩, hadamard, Matrix.smul_apply, ← hr]; simp
  have h01 : ent hadamard 0 1 = r := by rw [ent, dif_pos ⟨by norm_num, by norm_num⟩, hadamard, Matrix.smul_apply, ← hr]; simp
  have h10 : ent hadamard 1 0 = r := by rw [ent, dif_pos ⟨by norm_num, by norm_num⟩, hadamard, Matrix.smul_apply, ← hr]; simp
  have h11 : ent hadamard 1 1 = -r := by rw [ent, dif_pos ⟨by norm_num, by norm_num⟩, hadamard, Matrix.smul_apply, ← hr]; simp
  intro i hi j hj
  rw [hadamardPair_full le_rfl, full_pair_self]
  fin_cases hi <;> fin_cases hj <;> simp [kron, h00, h01, h10, h11, hrr] <;> norm_num

/-- The entries of the circuits of the unperturbed run. -/
theorem epU_apply (θ : ℝ) : ∀ i ∈ ([0, 1, 2, 3] : List (Fin (2 ^ 2))), ∀ j ∈ ([0, 1, 2, 3] : List (Fin (2 ^ 2))), epU θ i j =
    (!![(Real.cos θ - Complex.I * Real.sin θ) / 2, 1 / 2, (Real.cos θ - Complex.I * Real.sin θ) / 2, 1 / 2;
      (Real.cos θ - Complex.I * Real.sin θ) / 2, -1 / 2, (Real.cos θ - Complex.I * Real.sin θ) / 2, -1 / 2;
      (Real.cos θ + Complex.I * Real.sin θ) / 2, 1 / 2, -(Real.cos θ + Complex.I * Real.sin θ) / 2, -1 / 2;
      (Real.cos θ + Complex.I * Real.sin θ) / 2, -1 / 2, -(Real.cos θ + Complex.I * Real.sin θ) / 2, 1 / 2] : Matrix (Fin 4) (Fin 4) ℂ) i j := by
  intro i hi j hj
  have hc : ((Real.cos θ : ℝ) : ℂ) = (Real.cos (θ / 2) : ℂ) ^ 2 - (Real.sin (θ / 2) : ℂ) ^ 2 := by rw [← double_angle]; push_cast; ring
  have hs : ((Real.sin θ : ℝ) : ℂ) = 2 * (Real.sin (θ / 2) : ℂ) * (Real.cos (θ / 2) : ℂ) := by rw [← double_angle_sin]; push_cast; ring
  have h1 : (Real.cos (θ / 2) : ℂ) ^ 2 + (Real.sin (θ / 2) : ℂ) ^ 2 = 1 := by
    rw [← Complex.ofReal_pow, ← Complex.ofReal_pow, ← Complex.ofReal_add, Real.cos_sq_add_sin_sq, Complex.ofReal_one]
  rw [epU, rot2_lin, rot2_lin, hc, hs]
  generalize ((Real.cos (θ / 2) : ℝ) : ℂ) = C at *
  generalize ((Real.sin (θ / 2) : ℝ) : ℂ) = S at *
  have m0 : (0 : Fin (2 ^ 2)) ∈ ([0, 1, 2, 3] : List (Fin (2 ^ 2))) := by decide
  have m1 : (1 : Fin (2 ^ 2)) ∈ ([0, 1, 2, 3] : List (Fin (2 ^ 2))) := by decide
  have m2 : (2 : Fin (2 ^ 2)) ∈ ([0, 1, 2, 3] : List (Fin (2 ^ 2))) := by decide
  have m3 : (3 : Fin (2 ^ 2)) ∈ ([0, 1, 2, 3] : List (Fin (2 ^ 2))) := by decide
  rw [Matrix.mul_apply, sum_four, hh_apply 0 m0 j hj, hh_apply 1 m1 j hj, hh_apply 2 m2 j hj, hh_apply 3 m3 j hj]
  simp only [Matrix.mul_apply, sum_four, Matrix.sub_apply, Matrix.smul_apply]
  have hI := Complex.I_sq
  fin_cases hi <;> fin_cases hj <;> simp [pairWord_apply, Letter.mat, Matrix.one_apply] <;> first
    | linear_combination (S ^ 2 / 2) * hI
    | linear_combination (-S ^ 2 / 2) * hI
    | linear_combination (1 / 2) * h1 + (S ^ 2 / 2) * hI
    | linear_combination (1 / 2) * h1 - (S ^ 2 / 2) * hI
    | linear_combination (-1 / 2) * h1 + (S ^ 2 / 2) * hI

/-- The members of the list are all indices. -/
theorem four_mem (i : Fin (2 ^ 2)) : i ∈ ([0, 1, 2, 3] : List (Fin (2 ^ 2))) := (by decide : ∀ i : Fin (2 ^ 2), i ∈ ([0, 1, 2, 3] : List (Fin (2 ^ 2)))) i

theorem epU_entry (θ : ℝ) (i j : Fin (2 ^ 2)) : epU θ i j =
    (!![(Real.cos θ - Complex.I * Real.sin θ) / 2, 1 / 2, (Real.cos θ - Complex.I * Real.sin θ) / 2, 1 / 2;
      (Real.cos θ - Complex.I * Real.sin θ) / 2, -1 / 2, (Real.cos θ - Complex.I * Real.sin θ) / 2, -1 / 2;
      (Real.cos θ + Complex.I * Real.sin θ) / 2, 1 / 2, -(Real.cos θ + Complex.I * Real.sin θ) / 2, -1 / 2;
      (Real.cos θ + Complex.I * Real.sin θ) / 2, -1 / 2, -(Real.cos θ + Complex.I * Real.sin θ) / 2, 1 / 2] : Matrix (Fin 4) (Fin 4) ℂ) i j :=
  epU_apply θ i (four_mem i) j (four_mem j)

theorem epU_gen_x1 (θ : ℝ) : riemannGen (pairWord .I .X) (epU θ) = 0 := by
  ext i j
  refine four_cases (P := fun i j => riemannGen (pairWord .I .X) (epU θ) i j = (0 : QMat 2) i j) ?_ i j
  intro i hi j hj
  simp only [riemannGen, Matrix.sub_apply, Matrix.mul_apply, density, Matrix.of_apply, epU_entry, sum_four]
  generalize Real.cos θ = C
  generalize Real.sin θ = S
  fin_cases hi <;> fin_cases hj <;> simp [pairWord_apply, Letter.mat, Matrix.one_apply]

theorem epU_gen_x0 (θ : ℝ) : riemannGen (pairWord .X .I) (epU θ) = (-(Complex.I / 2) * ((Real.sin (2 * θ) : ℝ) : ℂ)) • (pairWord .Z .I + pairWord .Z .X) := by
  rw [Real.sin_two_mul]
  ext i j
  refine four_cases (P := fun i j => riemannGen (pairWord .X .I) (epU θ) i j = _) ?_ i j
  intro i hi j hj
  simp only [riemannGen, Matrix.sub_apply, Matrix.mul_apply, Matrix.smul_apply, Matrix.add_apply, density, Matrix.of_apply, epU_entry, sum_four]
  generalize Real.cos θ = C
  generalize Real.sin θ = S
  fin_cases hi <;> fin_cases hj <;> simp [pairWord_apply, Letter.mat, Matrix.one_apply] <;> ring

theorem epU_gen_y0 (θ : ℝ) : riemannGen (pairWord .Y .I) (epU θ) = ((Complex.I / 2) * ((Real.cos (2 * θ) : ℝ) : ℂ)) • (pairWord .Z .I + pairWord .Z .X) := by
  rw [Real.cos_two_mul']
  ext i j
  refine four_cases (P := fun i j => riemannGen (pairWord .Y .I) (epU θ) i j = _) ?_ i j
  intro i hi j hj
  simp only [riemannGen, Matrix.sub_apply, Matrix.mul_apply, Matrix.smul_apply, Matrix.add_apply, density, Matrix.of_apply, epU_entry, sum_four]
  generalize Real.cos θ = C
  generalize Real.sin θ = S
  fin_cases hi <;> fin_cases hj <;> simp [pairWord_apply, Letter.mat, Matrix.one_apply] <;> ring_nf <;> simp <;> ring

/-- The matrix that the script calls the unperturbed diagonalization, before its real part is taken. -/
noncomputable def epDiag (θ : ℝ) : QMat 2 := (!![1 + (Real.cos (2 * θ) + Real.sin (2 * θ)), 0, Complex.I * (Real.cos (2 * θ) - Real.sin (2 * θ)), 0;
    0, 0, 0, Complex.I;
    -Complex.I * (Real.cos (2 * θ) - Real.sin (2 * θ)), 0, 1 - (Real.cos (2 * θ) + Real.sin (2 * θ)), 0;
    0, -Complex.I, 0, -2] : Matrix (Fin 4) (Fin 4) ℂ)

theorem epU_diag (θ : ℝ) : (epU θ)ᴴ * (pairWord .X .I + pairWord .Y .I + pairWord .I .X) * epU θ = epDiag θ := by
  have h1 : (Real.cos θ : ℂ) ^ 2 + (Real.sin θ : ℂ) ^ 2 = 1 := by
    rw [← Complex.ofReal_pow, ← Complex.ofReal_pow, ← Complex.ofReal_add, Real.cos_sq_add_sin_sq, Complex.ofReal_one]
  rw [epDiag, Real.cos_two_mul', Real.sin_two_mul]
  push_cast
  ext i j
  refine four_cases (P := fun i j => ((epU θ)ᴴ * (pairWord .X .I + pairWord .Y .I + pairWord .I .X) * epU θ) i j = _) ?_ i j
  intro i hi j hj
  simp only [Matrix.mul_apply, Matrix.add_apply, Matrix.conjTranspose_apply, epU_entry, sum_four]
  rw [← Complex.ofReal_cos, ← Complex.ofReal_sin]
  have hC : (starRingEnd ℂ) ((Real.cos θ : ℝ) : ℂ) = ((Real.cos θ : ℝ) : ℂ) := Complex.conj_ofReal _
  have hS : (starRingEnd ℂ) ((Real.sin θ : ℝ) : ℂ) = ((Real.sin θ : ℝ) : ℂ) := Complex.conj_ofReal _
  generalize ((Real.cos θ : ℝ) : ℂ) = C at *
  generalize ((Real.sin θ : ℝ) : ℂ) = S at *
  have hI := Complex.I_sq
  fin_cases hi <;> fin_cases hj <;> simp [pairWord_apply, Letter.mat, Matrix.one_apply, hC, hS] <;> (try ring_nf) <;> (try simp only [Complex.I_sq, show Complex.I ^ 3 = -Complex.I by rw [pow_succ, Complex.I_sq]; ring]) <;> (try ring_nf) <;> linear_combination h1


theorem ep_full : full 2 [1] matX = pairWord .I .X ∧ full 2 [0] matX = pairWord .X .I ∧ full 2 [0] matYq = pairWord .Y .I := by
  have h : ∀ (q : ℕ) (hq : ValidWires 2 [q]) (A : QMat 1) (l : Letter), l.mat = A → full 2 [q] A = pauliWord (placed 2 [l] [q]) := by
    intro q hq A l hl
    rw [← full_placed (n := 2) (w := [l]) (qs := [q]) rfl hq]
    congr 1
    change A = pauliWord (n := 1) _
    rw [pauliWord_one]
    exact hl.symm
  refine ⟨?_, ?_, ?_⟩
  · rw [h 1 wires1 matX .X rfl, placed_second, pair_word le_rfl, full_pair_self]
  · rw [h 0 wires0 matX .X rfl, placed_first, pair_word le_rfl, full_pair_self]
  · rw [h 0 wires0 matYq .Y rfl, placed_first, pair_word le_rfl, full_pair_self]

/-- One step of the unperturbed run, as a map of the angle. -/
noncomputable def epStep (e θ : ℝ) : ℝ := (θ + e / 2 * Real.sin (2 * θ)) - e / 2 * Real.cos (2 * (θ + e / 2 * Real.sin (2 * θ)))

theorem epUpdates {eigh : EighFn 2} (he : ValidEigh eigh) (e θ : ℝ) : exactUpdates eigh e (epGates.map Gate.obs) (epU θ) = .ok (epU (epStep e θ)) := by
  obtain ⟨f1, f2, f3⟩ := ep_full
  have h1 := C47_riemannian_step eigh he e ⟨[1], matX, by simp, by simp, by simp⟩ matX_herm matX_sq (epU θ)
  have h2 := C47_riemannian_step eigh he e ⟨[0], matX, by simp, by simp, by simp⟩ matX_herm matX_sq (epU θ)
  have h3 := C47_riemannian_step eigh he e ⟨[0], matYq, by simp, by simp, by simp⟩ matYq_herm matYq_sq (epU (θ + e / 2 * Real.sin (2 * θ)))
  simp only [f1, f2, f3, epU_gen_x1, epU_gen_x0, epU_gen_y0, smul_zero, NormedSpace.exp_zero, one_mul] at h1 h2 h3
  rw [smul_smul, show ((e / 2 : ℝ) : ℂ) * (-(Complex.I / 2) * ((Real.sin (2 * θ) : ℝ) : ℂ)) = -Complex.I * ((e / 2 * Real.sin (2 * θ) / 2 : ℝ) : ℂ) by push_cast; ring,
    epU_rot, add_comm] at h2
  rw [smul_smul, show ((e / 2 : ℝ) : ℂ) * ((Complex.I / 2) * ((Real.cos (2 * (θ + e / 2 * Real.sin (2 * θ))) : ℝ) : ℂ)) =
    -Complex.I * ((-(e / 2 * Real.cos (2 * (θ + e / 2 * Real.sin (2 * θ)))) / 2 : ℝ) : ℂ) by push_cast; ring, epU_rot, neg_add_eq_sub] at h3
  simp only [epGates, List.map_cons, List.map_nil, exactUpdates]
  rw [h1]
  simp only [bind, Except.bind]
  rw [h2]
  simp only []
  rw [h3]
  rfl

theorem epU_zero : epU 0 = full 2 [1] hadamard * full 2 [0] hadamard := by
  rw [epU, rot2_lin, rot2_lin]
  simp [hadamardPair]

/-- C131 (the run).  Without perturbation, for every number of steps, step size and tolerance, the circuits of the run are `epU θ_k` with `θ_0 = 0` and `θ_{k+1} = epStep η θ_k`. -/
theorem C131_run {eigh : EighFn 2} (he : ValidEigh eigh) (rnd : ℕ → Matrix (Fin (2 ^ 2)) (Fin (2 ^ 2)) ℝ) (args : ExactArgs) (out : OptOut (ExactItem 2)) (e : ℝ)
    (hE : args.eta = .float e) (hp : args.perturbation = .bool false) (hu : args.returnUnitary = .bool true)
    (h : exactLieOptimizer eigh rnd .state perturbationCircuit perturbationObservables args = .ok out) :
    exactUnitary out = some (epU ((epStep e)^[(exactCosts out).length - 1] 0)) ∧
      ∀ k < (exactCosts out).length, (exactCosts out)[k]? = some (cost twoQubitH (epU ((epStep e)^[k] 0))) := by
  rw [epGates_obs] at h
  obtain ⟨-, N, e', t, rs, p, rp, ru, hv, V, W, m, r, h0, hrun, rfl, hW, hc, -, -⟩ := exact_outcome eigh rnd .state perturbationCircuit epGates args out h
  obtain rfl : p = false := BoolArg.bool.inj (hv.flagP.symm.trans hp)
  obtain rfl : ru = true := BoolArg.bool.inj (hv.flagU.symm.trans hu)
  obtain rfl : e = e' := PyVal.float.inj (hE.symm.trans hv.eta)
  have hVW : ∀ k ≤ m, V k = epU ((epStep e)^[k] 0) ∧ W k = V k := by
    intro k
    induction k with
    | zero =>
      intro _
      refine ⟨?_, hrun.start⟩
      rw [Function.iterate_zero, id, epU_zero]
      exact Except.ok.inj (h0.symm.trans epCircuit_compile)
    | succ k ih =>
      intro hk
      have h1 := hrun.advance k (by omega)
      simp only [exactRules] at h1
      rw [(ih (by omega)).2, (ih (by omega)).1, epUpdates he] at h1
      refine ⟨?_, hrun.kept k (by omega) (.inr rfl)⟩
      rw [Function.iterate_succ_apply', Except.ok.inj h1]
  rw [exactOutput_costs, exactOutput_unitary, if_pos rfl, hc]
  simp only [List.length_map, List.length_range, Nat.add_sub_cancel]
  refine ⟨by rw [hW, (hVW m le_rfl).2, (hVW m le_rfl).1], fun k hk => ?_⟩
  rw [List.getElem?_map, List.getElem?_range hk, Option.map_some, (hVW k (by omega)).1, epGates_total]

theorem twoQubitH_words : twoQubitH = pairWord .X .I + pairWord .Y .I + pairWord .I .X := by
  obtain ⟨f1, f2, f3⟩ := ep_full
  rw [twoQubitH, secondX, f1, f2, f3]

/-- The eigenvalues of the sum of the observables: their squares are `3 ± 2 √2`. -/
theorem ep_eigenvalues (c : ℂ) (φ : Ket 2) (hφ : φ ≠ 0) (h : InSector twoQubitH c φ) : (c ^ 2 - 3) ^ 2 = 8 := by
  have hcm : halfXY * secondX = secondX * halfXY := (((secondX_comm _).smul_right _).symm : Commute halfXY secondX).eq
  have hs : ((Real.sqrt 2 : ℝ) : ℂ) * ((Real.sqrt 2 : ℝ) : ℂ) = 2 := by rw [← Complex.ofReal_mul, Real.mul_self_sqrt (by norm_num)]; norm_num
  set s : ℂ := ((Real.sqrt 2 : ℝ) : ℂ) with hsd
  have h2 : twoQubitH * twoQubitH = (3 : ℂ) • (1 : QMat 2) + (2 * s) • (halfXY * secondX) := by
    rw [twoQubitH_eq, ← hsd]
    have e : (s • halfXY + secondX) * (s • halfXY + secondX) = (s * s) • (1 : QMat 2) + (s • (halfXY * secondX) + s • (halfXY * secondX)) + 1 := by
      rw [add_mul, mul_add, mul_add, smul_mul_assoc, smul_mul_assoc, mul_smul_comm, mul_smul_comm, halfXY_sq, secondX_sq, ← hcm, smul_smul]
      abel
    rw [e, hs, ← two_smul ℂ (s • _), smul_smul, show (3 : ℂ) = 2 + 1 by norm_num, add_smul, one_smul]
    abel
  have h4 : (twoQubitH * twoQubitH - (3 : ℂ) • 1) * (twoQubitH * twoQubitH - (3 : ℂ) • 1) = (8 : ℂ) • (1 : QMat 2) := by
    rw [h2, add_sub_cancel_left, smul_mul_assoc, mul_smul_comm, smul_smul]
    have : halfXY * secondX * (halfXY * secondX) = 1 := by
      rw [mul_assoc, ← mul_assoc secondX, ← hcm, mul_assoc halfXY secondX secondX, secondX_sq, mul_one, halfXY_sq]
    rw [this]
    congr 1
    linear_combination 4 * hs
  have hk : (twoQubitH * twoQubitH - (3 : ℂ) • 1) *ᵥ φ = (c ^ 2 - 3) • φ := by
    rw [Matrix.sub_mulVec, ← Matrix.mulVec_mulVec, h, Matrix.mulVec_smul, h, Matrix.smul_mulVec, Matrix.one_mulVec, smul_smul, ← sub_smul, ← pow_two c]
  have h5 := congrArg (fun M : QMat 2 => M *ᵥ φ) h4
  simp only [← Matrix.mulVec_mulVec, hk, Matrix.mulVec_smul, Matrix.smul_mulVec, Matrix.one_mulVec, smul_smul] at h5
  obtain ⟨i, hi⟩ := Function.ne_iff.1 hφ
  have h6 := congrFun h5 i
  simp only [Pi.smul_apply, smul_eq_mul] at h6
  have := mul_right_cancel₀ hi h6
  rw [pow_two]
  exact this

/-- C131.  In an unperturbed run from the state of the script, with any number of steps, step size and tolerance, the returned unitary `U` is such that the real part of `U† H U` is
diagonal: the picture shows a diagonal matrix even if the run has not converged.  `U† H U` itself is not diagonal (the entry 1, 3 is `i` for every run), and the numbers `0` and `-2` that
stand on the diagonal of the picture for every run are not eigenvalues of `H`. -/
theorem C131_picture {eigh : EighFn 2} (he : ValidEigh eigh) (rnd : ℕ → Matrix (Fin (2 ^ 2)) (Fin (2 ^ 2)) ℝ) (args : ExactArgs) (out : OptOut (ExactItem 2))
    (hp : args.perturbation = .bool false) (hu : args.returnUnitary = .bool true)
    (h : exactLieOptimizer eigh rnd .state perturbationCircuit perturbationObservables args = .ok out) :
    ∃ U, exactUnitary out = some U ∧ (∀ i j, i ≠ j → ((Uᴴ * twoQubitH * U) i j).re = 0) ∧ (Uᴴ * twoQubitH * U) 1 3 = Complex.I ∧
      (Uᴴ * twoQubitH * U) 1 1 = 0 ∧ (Uᴴ * twoQubitH * U) 3 3 = -2 ∧ ∀ φ : Ket 2, φ ≠ 0 → ¬ InSector twoQubitH 0 φ ∧ ¬ InSector twoQubitH (-2) φ := by
  have h' := h
  rw [epGates_obs] at h'
  obtain ⟨-, N, e, t, rs, p, rp, ru, hv, -⟩ := exact_outcome eigh rnd .state perturbationCircuit epGates args out h'
  obtain ⟨h1, -⟩ := C131_run he rnd args out e hv.eta hp hu h
  refine ⟨_, h1, ?_⟩
  rw [twoQubitH_words, epU_diag, ← twoQubitH_words]
  generalize (epStep e)^[(exactCosts out).length - 1] 0 = θ
  refine ⟨?_, rfl, rfl, rfl, fun φ hφ => ⟨fun hs => ?_, fun hs => ?_⟩⟩
  · refine four_cases ?_
    intro i hi j hj
    have key1 : epDiag θ 0 2 = Complex.I * ((Real.cos (2 * θ) : ℂ) - Real.sin (2 * θ)) := rfl
    have key2 : epDiag θ 2 0 = -Complex.I * ((Real.cos (2 * θ) : ℂ) - Real.sin (2 * θ)) := rfl
    have r1 : (epDiag θ 0 2).re = 0 := by
      rw [key1, ← Complex.ofReal_sub, Complex.re_mul_ofReal, Complex.I_re, zero_mul]
    have r2 : (epDiag θ 2 0).re = 0 := by
      rw [key2, ← Complex.ofReal_sub, Complex.re_mul_ofReal, Complex.neg_re, Complex.I_re, neg_zero, zero_mul]
    fin_cases hi <;> fin_cases hj <;> intro hij <;> first
      | exact absurd rfl hij
      | (simp [epDiag]; done)
      | exact r1
      | exact r2
  · have := ep_eigenvalues 0 φ hφ hs
    norm_num at this
  · have := ep_eigenvalues (-2) φ hφ hs
    norm_num at this

/-- C131 (costs).  The entry 0, 0 of the picture is the last cost of the unperturbed run, `1 + √2 cos(2 θ - π/4)` for the angle `θ` that the run has reached. -/
theorem C131_cost (θ : ℝ) : cost twoQubitH (epU θ) = 1 + (Real.cos (2 * θ) + Real.sin (2 * θ)) ∧ ((epU θ)ᴴ * twoQubitH * epU θ) 0 0 = ((cost twoQubitH (epU θ) : ℝ) : ℂ) := by
  have h : cost twoQubitH (epU θ) = (((epU θ)ᴴ * twoQubitH * epU θ) 0 0).re := by
    rw [cost_entry, Matrix.mul_assoc]
  rw [h, twoQubitH_words, epU_diag]
  have e : (epDiag θ 0 0) = ((1 + (Real.cos (2 * θ) + Real.sin (2 * θ)) : ℝ) : ℂ) := by
    simp [epDiag]
  rw [e]
  simp only [Complex.ofReal_re, and_self]

/-- The hypotheses of C131 are met by the first run of the script, and those of C130 by its second run with two different sequences of random matrices. -/
example : ∃ (eigh : EighFn 2) (rnd rnd' : ℕ → Matrix (Fin (2 ^ 2)) (Fin (2 ^ 2)) ℝ) (out out' out'' : OptOut (ExactItem 2)), ValidEigh eigh ∧ rnd 4 ≠ rnd' 4 ∧
    (∀ k < 4, rnd k = rnd' k) ∧ perturbationRun eigh rnd false = .ok out ∧ perturbationRun eigh rnd true = .ok out' ∧ perturbationRun eigh rnd' true = .ok out'' ∧
    (exactCosts out').take 6 = (exactCosts out'').take 6 := by
  obtain ⟨eigh, he⟩ := exists_validEigh 2
  let rnd : ℕ → Matrix (Fin (2 ^ 2)) (Fin (2 ^ 2)) ℝ := fun _ => 0
  let rnd' : ℕ → Matrix (Fin (2 ^ 2)) (Fin (2 ^ 2)) ℝ := fun k => if k = 4 then 1 else 0
  have hr : ∀ k < 4, rnd k = rnd' k := fun k hk => by
    simp only [rnd, rnd']
    rw [if_neg (by omega)]
  obtain ⟨out, h1⟩ := (C96_script he rnd).1 false
  obtain ⟨out', h2⟩ := (C96_script he rnd).1 true
  obtain ⟨out'', h3⟩ := (C96_script he rnd').1 true
  refine ⟨eigh, rnd, rnd', out, out', out'', he, fun h => ?_, hr, h1, h2, h3, ?_⟩
  · have := congrFun (congrFun h 0) 0
    simp [rnd, rnd'] at this
  · rw [perturbationRun, epGates_obs] at h2 h3
    exact C130_causal eigh rnd rnd' _ _ _ _ _ _ 4 hr h2 h3

end Oranssi
