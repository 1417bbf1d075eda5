import Mathlib.Algebra.BigOperators.Ring.Finset
import Mathlib.Tactic.LinearCombination
import Mathlib.Tactic.FinCases
import Mathlib.LinearAlgebra.Matrix.Hermitian
import Verif.Spec.Pauli
import Verif.Lemmas.FullAlg

namespace Oranssi
open Spec
open scoped Matrix

/-- Tensor product on bit assignments. -/
def tprod {n : ℕ} (L : Fin n → Mat2) : TMat n := fun r c => ∏ q, L q (r q) (c q)

theorem toT_tensor {n : ℕ} (L : Fin n → Mat2) : toT n (tensor L) = tprod L := by
  ext r c
  rw [toT_apply]
  simp only [tensor, tprod]
  apply Finset.prod_congr rfl
  intro q _
  congr 1
  · apply Fin.ext
    have := bitsEquiv_apply_val n ((bitsEquiv n).symm r) q
    simp only [Equiv.apply_symm_apply] at this
    exact this.symm
  · apply Fin.ext
    have := bitsEquiv_apply_val n ((bitsEquiv n).symm c) q
    simp only [Equiv.apply_symm_apply] at this
    exact this.symm

theorem tprod_mul {n : ℕ} (L M : Fin n → Mat2) : tprod L * tprod M = tprod (fun q => L q * M q) := by
  ext r c
  simp only [Matrix.mul_apply, tprod]
  rw [Finset.prod_univ_sum]
  simp only [Fintype.piFinset_univ, Finset.prod_mul_distrib]

theorem tprod_conjTranspose {n : ℕ} (L : Fin n → Mat2) : (tprod L)ᴴ = tprod (fun q => (L q)ᴴ) := by
  ext r c
  simp [tprod, Matrix.conjTranspose_apply]

theorem tprod_one {n : ℕ} : tprod (fun _ : Fin n => (1 : Mat2)) = 1 := by
  ext r c
  simp only [tprod, Matrix.one_apply]
  by_cases h : r = c
  · subst h; simp
  · rw [if_neg h]
    obtain ⟨q, hq⟩ := Function.ne_iff.1 h
    exact Finset.prod_eq_zero (Finset.mem_univ q) (if_neg hq)

theorem tprod_trace {n : ℕ} (L : Fin n → Mat2) : (tprod L).trace = ∏ q, (L q).trace := by
  simp only [Matrix.trace, Matrix.diag, tprod]
  rw [Finset.prod_univ_sum]
  simp only [Fintype.piFinset_univ]

theorem tprod_smul {n : ℕ} (L : Fin n → Mat2) (z : Fin n → ℂ) :
    tprod (fun q => z q • L q) = (∏ q, z q) • tprod L := by
  ext r c
  simp only [tprod, Matrix.smul_apply, smul_eq_mul, Finset.prod_mul_distrib]

theorem tensor_mul {n : ℕ} (L M : Fin n → Mat2) : tensor L * tensor M = tensor (fun q => L q * M q) := by
  apply (toT n).injective; rw [map_mul, toT_tensor, toT_tensor, toT_tensor, tprod_mul]

theorem tensor_one {n : ℕ} : tensor (fun _ : Fin n => (1 : Mat2)) = 1 := by
  apply (toT n).injective; rw [toT_tensor, map_one, tprod_one]

theorem tensor_conjTranspose {n : ℕ} (L : Fin n → Mat2) : (tensor L)ᴴ = tensor (fun q => (L q)ᴴ) := by
  apply (toT n).injective; rw [toT_conjTranspose, toT_tensor, toT_tensor, tprod_conjTranspose]

theorem tensor_trace {n : ℕ} (L : Fin n → Mat2) : (tensor L).trace = ∏ q, (L q).trace := by
  rw [← toT_trace, toT_tensor, tprod_trace]

theorem tensor_smul {n : ℕ} (L : Fin n → Mat2) (z : Fin n → ℂ) :
    tensor (fun q => z q • L q) = (∏ q, z q) • tensor L := by
  apply (toT n).injective; rw [toT_tensor, map_smul, toT_tensor, tprod_smul]

theorem embed_tprod {k n : ℕ} {ws : Fin k → Fin n} (hw : Function.Injective ws) (L : Fin k → Mat2) :
    embed ws (tprod L) = tprod (Function.extend ws L (fun _ => 1)) := by
  ext r c
  simp only [embed, tprod]
  by_cases h : ∀ q, (∀ i, ws i ≠ q) → r q = c q
  · rw [if_pos h]
    apply Fintype.prod_of_injective ws hw
    · intro q hq
      have hq' : ∀ i, ws i ≠ q := fun i hi => hq ⟨i, hi⟩
      rw [Function.extend_apply' _ _ _ (by rintro ⟨i, hi⟩; exact hq' i hi), h q hq', Matrix.one_apply_eq]
    · intro i; rw [hw.extend_apply]; rfl
  · rw [if_neg h]
    push Not at h
    obtain ⟨q, hq, hne⟩ := h
    symm
    apply Finset.prod_eq_zero (Finset.mem_univ q)
    rw [Function.extend_apply' _ _ _ (by rintro ⟨i, hi⟩; exact hq i hi), Matrix.one_apply_ne hne]

theorem kronT_tprod {a b : ℕ} (L : Fin a → Mat2) (M : Fin b → Mat2) :
    kronT (tprod L) (tprod M) = tprod (Fin.append L M) := by
  ext r c
  simp only [kronT, tprod, Fin.prod_univ_add, Fin.append_left, Fin.append_right, Function.comp]

theorem kron_tensor {a b : ℕ} (L : Fin a → Mat2) (M : Fin b → Mat2) :
    kron (tensor L) (tensor M) = tensor (Fin.append L M) := by
  apply (toT _).injective; rw [toT_kron, toT_tensor, toT_tensor, toT_tensor, kronT_tprod]

/-- Promoting a tensor product of single-qubit matrices. -/
theorem full_tensor {n k : ℕ} {ws : List ℕ} (hk : ws.length = k) (hv : ValidWires n ws) (L : Fin k → Mat2) :
    full n ws (tensor L) = tensor (Function.extend (wireFn ws k hk hv.2) L (fun _ => 1)) := by
  apply (toT n).injective
  rw [toT_full ws hk hv.2, toT_tensor, toT_tensor, embed_tprod (wireFn_injective hv.1)]

end Oranssi
