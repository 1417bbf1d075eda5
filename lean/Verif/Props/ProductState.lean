import Verif.Props.AdaptTfim
import Verif.Props.ZassenhausV2Reach

/-! # Costs and gradients in product states -/

namespace Oranssi
open scoped Matrix
open Spec

variable {n : ℕ}

/-- The rotation about one letter as a 2 by 2 matrix. -/
noncomputable def Spec.rot2 (θ : ℝ) (a : Letter) : Mat2 := (Real.cos (θ / 2) : ℂ) • 1 - (Complex.I * Real.sin (θ / 2)) • a.mat

theorem rotOp_tensor (θ : ℝ) (a : Letter) (i : ℕ) (hi : i < n) : rotOp n θ [a] [i] = tensor (fun q : Fin n => if q.val = i then rot2 θ a else 1) := by
  have hv : ValidWires n [i] := ⟨by simp, by simpa using hi⟩
  have h1 : pauliRot θ [a] = (tensor (fun _ : Fin 1 => rot2 θ a) : QMat 1) := by
    have e : (pauliWord (n := 1) (placed 1 [a] (List.range 1))) = tensor (fun _ : Fin 1 => a.mat) := by
      rw [pauliWord]; congr 1; funext q; fin_cases q; simp [placed, List.range_succ]
    have e1 : (1 : QMat 1) = tensor (fun _ : Fin 1 => 1) := tensor_one.symm
    have e2 : pauliRot θ [a] = ((Real.cos (θ / 2) : ℂ) • (1 : QMat 1) - (Complex.I * Real.sin (θ / 2)) • pauliWord (n := 1) (placed 1 [a] (List.range 1)) : QMat 1) := rfl
    rw [e2, e, e1]
    ext r c
    simp [tensor, rot2]
    exact .inl rfl
  rw [← full_pauliRot rfl hv, h1]
  refine (full_tensor (k := 1) rfl hv _).trans ?_
  congr 1
  funext q
  by_cases hq : q.val = i
  · have hw : q = wireFn [i] 1 rfl hv.2 0 := Fin.ext (by simpa [wireFn] using hq)
    have hinj := wireFn_injective (k := 1) (hk := rfl) (hlt := hv.2) hv.1
    rw [if_pos hq]
    conv_lhs => rw [hw]
    rw [hinj.extend_apply]
  · rw [if_neg hq, Function.extend_apply' _ _ _ (by rintro ⟨x, hx⟩; apply hq; rw [← hx]; simp [wireFn])]

/-- The expectation of a letter in the first column of a 2 by 2 matrix. -/
noncomputable def Spec.bloch (L : Mat2) (a : Letter) : ℂ := (Lᴴ * (a.mat * L)) 0 0

theorem tensor_origin (L : Fin n → Mat2) : tensor L 0 0 = ∏ q, L q 0 0 := by
  simp [tensor, bit]

/-- The expectation of a word in a product state is the product of the expectations of its letters. -/
theorem expect_product (L : Fin n → Mat2) (w : Fin n → Letter) : star (fun i => tensor L i 0) ⬝ᵥ (pauliWord w *ᵥ fun i => tensor L i 0) = ∏ q, bloch (L q) (w q) := by
  have h : star (fun i => tensor L i 0) ⬝ᵥ (pauliWord w *ᵥ fun i => tensor L i 0) = ((tensor L)ᴴ * (pauliWord w * tensor L)) 0 0 := by
    simp only [dotProduct, Matrix.mulVec, Matrix.mul_apply, Matrix.conjTranspose_apply, Pi.star_apply]
  rw [h, pauliWord, tensor_conjTranspose, tensor_mul, tensor_mul, tensor_origin]
  rfl

/-- The letter and the phase of the product of two letters. -/
def Spec.lmul : Letter → Letter → Letter
  | .I, b => b
  | a, .I => a
  | .X, .X => .I | .Y, .Y => .I | .Z, .Z => .I
  | .X, .Y => .Z | .Y, .X => .Z
  | .Y, .Z => .X | .Z, .Y => .X
  | .Z, .X => .Y | .X, .Z => .Y

def Spec.lphase : Letter → Letter → ℂ
  | .X, .Y => Complex.I | .Y, .X => -Complex.I
  | .Y, .Z => Complex.I | .Z, .Y => -Complex.I
  | .Z, .X => Complex.I | .X, .Z => -Complex.I
  | _, _ => 1

theorem letter_mul (a b : Letter) : a.mat * b.mat = lphase a b • (lmul a b).mat := by
  cases a <;> cases b <;> (ext i j; fin_cases i <;> fin_cases j <;> simp [Letter.mat, lphase, lmul, Matrix.mul_apply, Fin.sum_univ_two, Matrix.one_apply])

theorem words_mul (f g : Fin n → Letter) : pauliWord f * pauliWord g = (∏ q, lphase (f q) (g q)) • pauliWord (fun q => lmul (f q) (g q)) := by
  rw [pauliWord, pauliWord, tensor_mul, pauliWord, ← tensor_smul]
  congr 1
  funext q
  exact letter_mul _ _

/-- The gradient of a word along a word, in a product state. -/
theorem grad_product (L : Fin n → Mat2) (v w : Fin n → Letter) : grad (pauliWord v) (tensor L) (pauliWord w) =
    ((∏ q, lphase (w q) (v q)) * (∏ q, bloch (L q) (lmul (w q) (v q))) - (∏ q, lphase (v q) (w q)) * ∏ q, bloch (L q) (lmul (v q) (w q))).im := by
  rw [grad, words_mul, words_mul, Matrix.sub_mulVec, dotProduct_sub, Matrix.smul_mulVec, Matrix.smul_mulVec, dotProduct_smul, dotProduct_smul, expect_product, expect_product,
    smul_eq_mul, smul_eq_mul]

theorem cost_product (L : Fin n → Mat2) (w : Fin n → Letter) : cost (pauliWord w) (tensor L) = (∏ q, bloch (L q) (w q)).re := by
  rw [cost, expect_product]

end Oranssi
