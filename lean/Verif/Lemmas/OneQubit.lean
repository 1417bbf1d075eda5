import Verif.Lemmas.Circuit
import Verif.Lemmas.MatExp
import Verif.Lemmas.Rotosolve
import Mathlib.Tactic.FinCases

/-! One-qubit circuits: real rotations and the observable Z. -/

namespace Oranssi
open Spec
open scoped Matrix

theorem full_one_qubit (A : QMat 1) : full 1 [0] A = A := by
  funext r c
  rw [full, if_pos (by intro q hq hq'; exfalso; apply hq'; simp; omega)]
  have h : ∀ i : Fin (2 ^ 1), sub 1 i [0] = i.1 := by
    intro i; fin_cases i <;> rfl
  rw [h, h, ent, dif_pos ⟨r.2, c.2⟩]

/-- The rotation by the angle `a`. -/
noncomputable def rot (a : ℝ) : QMat 1 :=
  (!![(Real.cos a : ℂ), -(Real.sin a : ℂ); (Real.sin a : ℂ), (Real.cos a : ℂ)] : Matrix (Fin 2) (Fin 2) ℂ)

/-- The generator of the rotations. -/
def genJ : QMat 1 := (!![0, -1; 1, 0] : Matrix (Fin 2) (Fin 2) ℂ)

/-- The Pauli matrix Z. -/
def matZ : QMat 1 := (!![1, 0; 0, -1] : Matrix (Fin 2) (Fin 2) ℂ)

/-- The observable Z on qubit 0. -/
def gateZ : Gate 1 := ⟨[0], matZ, by simp, by simp, by simp⟩

theorem matZ_herm : matZᴴ = matZ := by
  change (!![1, 0; 0, -1] : Matrix (Fin 2) (Fin 2) ℂ)ᴴ = (!![1, 0; 0, -1] : Matrix (Fin 2) (Fin 2) ℂ)
  ext i j
  fin_cases i <;> fin_cases j <;> simp [Matrix.conjTranspose_apply]

theorem matZ_sq : matZ * matZ = 1 := by
  change (!![1, 0; 0, -1] : Matrix (Fin 2) (Fin 2) ℂ) * (!![1, 0; 0, -1] : Matrix (Fin 2) (Fin 2) ℂ) = 1
  rw [Matrix.one_fin_two]
  simp

theorem gateZ_herm : gateZ.Aᴴ = gateZ.A := matZ_herm

theorem gateZ_sq : gateZ.A * gateZ.A = 1 := matZ_sq

theorem full_gateZ : full 1 gateZ.ws gateZ.A = matZ := full_one_qubit matZ

theorem rot_zero : rot 0 = 1 := by
  change (!![((Real.cos 0 : ℝ) : ℂ), -((Real.sin 0 : ℝ) : ℂ); ((Real.sin 0 : ℝ) : ℂ), ((Real.cos 0 : ℝ) : ℂ)] : Matrix (Fin 2) (Fin 2) ℂ) = 1
  rw [Matrix.one_fin_two]; simp

theorem rot_mul (a b : ℝ) : rot a * rot b = rot (a + b) := by
  change (!![((Real.cos a : ℝ) : ℂ), -((Real.sin a : ℝ) : ℂ); ((Real.sin a : ℝ) : ℂ), ((Real.cos a : ℝ) : ℂ)] : Matrix (Fin 2) (Fin 2) ℂ) *
    !![((Real.cos b : ℝ) : ℂ), -((Real.sin b : ℝ) : ℂ); ((Real.sin b : ℝ) : ℂ), ((Real.cos b : ℝ) : ℂ)] =
    !![((Real.cos (a + b) : ℝ) : ℂ), -((Real.sin (a + b) : ℝ) : ℂ); ((Real.sin (a + b) : ℝ) : ℂ), ((Real.cos (a + b) : ℝ) : ℂ)]
  rw [Real.cos_add, Real.sin_add]
  ext i j
  fin_cases i <;> fin_cases j <;> simp [Matrix.mul_apply, Fin.sum_univ_two] <;> ring

theorem exp_genJ (a : ℝ) : NormedSpace.exp ((a : ℂ) • genJ) = rot a := by
  let Y : QMat 1 := (!![0, -Complex.I; Complex.I, 0] : Matrix (Fin 2) (Fin 2) ℂ)
  have hY : Y * Y = 1 := by
    change (!![0, -Complex.I; Complex.I, 0] : Matrix (Fin 2) (Fin 2) ℂ) * !![0, -Complex.I; Complex.I, 0] = 1
    rw [Matrix.one_fin_two]; simp
  have hJ : genJ = (-Complex.I) • Y := by
    change (!![0, -1; 1, 0] : Matrix (Fin 2) (Fin 2) ℂ) = (-Complex.I) • !![0, -Complex.I; Complex.I, 0]
    simp
  rw [hJ, smul_smul, mul_comm, exp_neg_I_smul_involution Y hY]
  change ((Real.cos a : ℝ) : ℂ) • (1 : Matrix (Fin 2) (Fin 2) ℂ) - (Complex.I * ((Real.sin a : ℝ) : ℂ)) • !![0, -Complex.I; Complex.I, 0] =
    !![((Real.cos a : ℝ) : ℂ), -((Real.sin a : ℝ) : ℂ); ((Real.sin a : ℝ) : ℂ), ((Real.cos a : ℝ) : ℂ)]
  rw [Matrix.one_fin_two]
  ext i j
  fin_cases i <;> fin_cases j <;> simp [mul_right_comm Complex.I _ Complex.I]

/-- The cost of a rotation for the observable Z. -/
theorem cost_rot (a : ℝ) : cost matZ (rot a) = Real.cos (2 * a) := by
  have h : star (fun i => rot a i 0) ⬝ᵥ (matZ *ᵥ (fun i => rot a i 0)) = ((Real.cos (2 * a) : ℝ) : ℂ) := by
    change ∑ i : Fin 2, star ((!![((Real.cos a : ℝ) : ℂ), -((Real.sin a : ℝ) : ℂ); ((Real.sin a : ℝ) : ℂ), ((Real.cos a : ℝ) : ℂ)] : Matrix (Fin 2) (Fin 2) ℂ) i 0) *
      ((!![1, 0; 0, -1] : Matrix (Fin 2) (Fin 2) ℂ) *ᵥ
        (fun i : Fin 2 => (!![((Real.cos a : ℝ) : ℂ), -((Real.sin a : ℝ) : ℂ); ((Real.sin a : ℝ) : ℂ), ((Real.cos a : ℝ) : ℂ)] : Matrix (Fin 2) (Fin 2) ℂ) i 0)) i = _
    rw [Real.cos_two_mul', Fin.sum_univ_two]
    simp [Matrix.mulVec, dotProduct, Fin.sum_univ_two, Complex.conj_ofReal, -Complex.ofReal_cos, -Complex.ofReal_sin]
    ring
  exact (congrArg Complex.re h).trans (Complex.ofReal_re _)

theorem totalObs_gateZ : totalObs [gateZ] = matZ := by
  have : totalObs [gateZ] = full 1 gateZ.ws gateZ.A := by simp [totalObs]
  rw [this, full_gateZ]

end Oranssi
