import Mathlib.Analysis.SpecialFunctions.Trigonometric.Sinc
import Mathlib.Analysis.SpecialFunctions.Trigonometric.Deriv
import Mathlib.Analysis.Real.Pi.Bounds
import Verif.Model.BchCompare
import Verif.Lemmas.MatExp
import Verif.Lemmas.PauliWords
import Verif.Props.Tfim
import Verif.Props.LieLayersMore

/-! # The comparisons of BCH.py (C119) -/

namespace Oranssi
open Oranssi.Spec
open scoped Matrix

/-- The Baker-Campbell-Hausdorff formula up to second order. -/
noncomputable def Spec.bch2 {n : ℕ} (A B : QMat n) : QMat n := A + B + (1 / 2 : ℂ) • (A * B - B * A)

/-- Two anticommuting Pauli words. -/
structure Spec.AntiWords {n : ℕ} (P Q : QMat n) : Prop where
  left : ∃ f : Fin n → Letter, P = pauliWord f
  right : ∃ g : Fin n → Letter, Q = pauliWord g
  swap : P * Q = -(Q * P)

section Algebra
variable {n : ℕ} {P Q : QMat n}

theorem Spec.AntiWords.sqP (h : AntiWords P Q) : P * P = 1 := by obtain ⟨f, rfl⟩ := h.left; exact pauliWord_sq f
theorem Spec.AntiWords.sqQ (h : AntiWords P Q) : Q * Q = 1 := by obtain ⟨f, rfl⟩ := h.right; exact pauliWord_sq f

theorem Spec.AntiWords.sqM (h : AntiWords P Q) : P * Q * (P * Q) = -1 := by
  have : P * Q * (P * Q) = P * (Q * P) * Q := by simp only [mul_assoc]
  rw [this, show Q * P = -(P * Q) by rw [h.swap, neg_neg], mul_neg, neg_mul, ← mul_assoc P P Q, h.sqP, one_mul, h.sqQ]

theorem Spec.AntiWords.PM (h : AntiWords P Q) : P * (P * Q) = Q := by rw [← mul_assoc, h.sqP, one_mul]
theorem Spec.AntiWords.MP (h : AntiWords P Q) : P * Q * P = -Q := by
  rw [h.swap, neg_mul, mul_assoc, h.sqP, mul_one]
theorem Spec.AntiWords.MQ (h : AntiWords P Q) : P * Q * Q = P := by rw [mul_assoc, h.sqQ, mul_one]
theorem Spec.AntiWords.QM (h : AntiWords P Q) : Q * (P * Q) = -P := by
  rw [h.swap, mul_neg, ← mul_assoc, h.sqQ, one_mul]
theorem Spec.AntiWords.QP (h : AntiWords P Q) : Q * P = -(P * Q) := by rw [h.swap, neg_neg]

theorem Spec.AntiWords.sq_triple (h : AntiWords P Q) (x y z : ℂ) :
    (x • P + y • Q + z • (P * Q)) * (x • P + y • Q + z • (P * Q)) = (x * x + y * y - z * z) • (1 : QMat n) := by
  simp only [add_mul, mul_add, smul_mul_assoc, mul_smul_comm, h.sqP, h.sqQ, h.sqM, h.PM, h.MP, h.MQ, h.QM, h.QP, smul_smul]
  module

/-- The exponential of a combination of two anticommuting words and their product. -/
theorem Spec.AntiWords.exp_triple (h : AntiWords P Q) (a b c : ℝ) :
    NormedSpace.exp ((-Complex.I * a) • P + (-Complex.I * b) • Q + (c : ℂ) • (P * Q)) =
      (Real.cos (Real.sqrt (a ^ 2 + b ^ 2 + c ^ 2)) : ℂ) • (1 : QMat n) -
        (Complex.I * (Real.sinc (Real.sqrt (a ^ 2 + b ^ 2 + c ^ 2)) * a : ℝ)) • P -
        (Complex.I * (Real.sinc (Real.sqrt (a ^ 2 + b ^ 2 + c ^ 2)) * b : ℝ)) • Q +
        ((Real.sinc (Real.sqrt (a ^ 2 + b ^ 2 + c ^ 2)) * c : ℝ) : ℂ) • (P * Q) := by
  set r := Real.sqrt (a ^ 2 + b ^ 2 + c ^ 2) with hr
  have hr2 : r ^ 2 = a ^ 2 + b ^ 2 + c ^ 2 := Real.sq_sqrt (by positivity)
  by_cases h0 : r = 0
  · have hz : a = 0 ∧ b = 0 ∧ c = 0 := by
      rw [h0] at hr2
      refine ⟨?_, ?_, ?_⟩ <;> nlinarith [sq_nonneg a, sq_nonneg b, sq_nonneg c]
    obtain ⟨rfl, rfl, rfl⟩ := hz
    simp [h0, NormedSpace.exp_zero]
  · have hrc : (r : ℂ) ≠ 0 := by exact_mod_cast h0
    have hr2c : (r : ℂ) ^ 2 = (a : ℂ) ^ 2 + (b : ℂ) ^ 2 + (c : ℂ) ^ 2 := by exact_mod_cast hr2
    set N : QMat n := (a / r : ℂ) • P + (b / r : ℂ) • Q + (Complex.I * c / r) • (P * Q) with hN
    have hNN : N * N = 1 := by
      have e : (a / r : ℂ) * (a / r) + b / r * (b / r) - (Complex.I * c / r) * (Complex.I * c / r) = 1 := by
        field_simp
        rw [Complex.I_sq, hr2c]; ring
      rw [hN, h.sq_triple, e, one_smul]
    have hX : (-Complex.I * a) • P + (-Complex.I * b) • Q + (c : ℂ) • (P * Q) = (-Complex.I * (r : ℝ)) • N := by
      have f1 : (-Complex.I * (r : ℝ)) * (a / r : ℂ) = -Complex.I * a := by field_simp
      have f2 : (-Complex.I * (r : ℝ)) * (b / r : ℂ) = -Complex.I * b := by field_simp
      have f3 : (-Complex.I * (r : ℝ)) * (Complex.I * c / r : ℂ) = c := by field_simp; rw [Complex.I_sq]; ring
      rw [hN, smul_add, smul_add, smul_smul, smul_smul, smul_smul, f1, f2, f3]
    rw [hX, exp_neg_I_smul_involution N hNN, hN, Real.sinc_of_ne_zero h0]
    have e1 : (Complex.I * Real.sin r) * (a / r : ℂ) = Complex.I * ((Real.sin r / r * a : ℝ) : ℂ) := by push_cast; field_simp
    have e2 : (Complex.I * Real.sin r) * (b / r : ℂ) = Complex.I * ((Real.sin r / r * b : ℝ) : ℂ) := by push_cast; field_simp
    have e3 : (Complex.I * Real.sin r) * (Complex.I * c / r : ℂ) = -((Real.sin r / r * c : ℝ) : ℂ) := by
      push_cast; field_simp; rw [Complex.I_sq]; ring
    rw [smul_add, smul_add, smul_smul, smul_smul, smul_smul, e1, e2, e3]
    module

/-- The product of the exponentials of two words. -/
theorem Spec.AntiWords.exp_mul (h : AntiWords P Q) (a b : ℝ) :
    NormedSpace.exp ((-Complex.I * a) • P) * NormedSpace.exp ((-Complex.I * b) • Q) =
      ((Real.cos a * Real.cos b : ℝ) : ℂ) • (1 : QMat n) - (Complex.I * (Real.sin a * Real.cos b : ℝ)) • P -
        (Complex.I * (Real.cos a * Real.sin b : ℝ)) • Q + ((-(Real.sin a * Real.sin b) : ℝ) : ℂ) • (P * Q) := by
  rw [exp_neg_I_smul_involution P h.sqP, exp_neg_I_smul_involution Q h.sqQ]
  simp only [sub_mul, mul_sub, smul_mul_assoc, mul_smul_comm, one_mul, mul_one, smul_smul, smul_sub]
  have e : Complex.I * (Real.sin b : ℂ) * (Complex.I * Real.sin a) = -((Real.sin a * Real.sin b : ℝ) : ℂ) := by
    push_cast; linear_combination (Complex.sin a * Complex.sin b) * Complex.I_sq
  rw [e]
  push_cast
  module

theorem Spec.AntiWords.traces (h : AntiWords P Q) : P.trace = 0 ∧ Q.trace = 0 ∧ (P * Q).trace = 0 := by
  have e1 : P.trace = -P.trace := by
    conv_lhs => rw [← h.MQ, Matrix.trace_mul_comm, h.QM, Matrix.trace_neg]
  have e2 : Q.trace = -Q.trace := by
    conv_lhs => rw [← h.PM, Matrix.trace_mul_comm, h.MP, Matrix.trace_neg]
  have e3 : (P * Q).trace = -(P * Q).trace := by
    conv_lhs => rw [h.swap, Matrix.trace_neg, Matrix.trace_mul_comm]
  exact ⟨self_eq_neg.1 e1, self_eq_neg.1 e2, self_eq_neg.1 e3⟩

/-- `1`, `P`, `Q` and `P Q` are independent. -/
theorem Spec.AntiWords.indep (h : AntiWords P Q) {x y z w : ℂ} (e : x • (1 : QMat n) + y • P + z • Q + w • (P * Q) = 0) : x = 0 ∧ y = 0 ∧ z = 0 ∧ w = 0 := by
  obtain ⟨tP, tQ, tM⟩ := h.traces
  have t1 : (1 : QMat n).trace ≠ 0 := by rw [Matrix.trace_one]; simp
  refine ⟨?_, ?_, ?_, ?_⟩
  · have := congrArg Matrix.trace e
    simp only [Matrix.trace_add, Matrix.trace_smul, tP, tQ, tM, mul_zero, add_zero, Matrix.trace_zero, smul_eq_mul] at this
    exact (mul_eq_zero.1 this).resolve_right t1
  · have := congrArg (fun M => Matrix.trace (P * M)) e
    simp only [mul_add, mul_smul_comm, mul_one, h.sqP, h.PM, Matrix.trace_add, Matrix.trace_smul, tP, tQ, tM, add_zero, zero_add,
      mul_zero, Matrix.trace_zero, smul_eq_mul] at this
    exact (mul_eq_zero.1 this).resolve_right t1
  · have := congrArg (fun M => Matrix.trace (Q * M)) e
    simp only [mul_add, mul_smul_comm, mul_one, h.sqQ, h.QM, h.QP, Matrix.trace_add, Matrix.trace_smul, Matrix.trace_neg, tP, tQ, tM, add_zero,
      zero_add, neg_zero, mul_zero, Matrix.trace_zero, smul_eq_mul] at this
    exact (mul_eq_zero.1 this).resolve_right t1
  · have := congrArg (fun M => Matrix.trace (P * Q * M)) e
    simp only [mul_add, mul_smul_comm, mul_one, h.sqM, h.MP, h.MQ, Matrix.trace_add, Matrix.trace_smul, Matrix.trace_neg, tP, tQ, tM, add_zero,
      zero_add, neg_zero, mul_zero, Matrix.trace_zero, smul_eq_mul, mul_neg, neg_eq_zero] at this
    exact (mul_eq_zero.1 this).resolve_right t1

/-- When the exponential of the combination is the product of the exponentials. -/
theorem Spec.AntiWords.eq_iff (h : AntiWords P Q) (a b c a' b' : ℝ) :
    NormedSpace.exp ((-Complex.I * a') • P + (-Complex.I * b') • Q + (c : ℂ) • (P * Q)) =
        NormedSpace.exp ((-Complex.I * a) • P) * NormedSpace.exp ((-Complex.I * b) • Q) ↔
      Real.cos (Real.sqrt (a' ^ 2 + b' ^ 2 + c ^ 2)) = Real.cos a * Real.cos b ∧
      Real.sinc (Real.sqrt (a' ^ 2 + b' ^ 2 + c ^ 2)) * a' = Real.sin a * Real.cos b ∧
      Real.sinc (Real.sqrt (a' ^ 2 + b' ^ 2 + c ^ 2)) * b' = Real.cos a * Real.sin b ∧
      Real.sinc (Real.sqrt (a' ^ 2 + b' ^ 2 + c ^ 2)) * c = -(Real.sin a * Real.sin b) := by
  rw [h.exp_triple, h.exp_mul]
  constructor
  · intro e
    generalize Real.cos (Real.sqrt (a' ^ 2 + b' ^ 2 + c ^ 2)) = C at *
    generalize Real.sinc (Real.sqrt (a' ^ 2 + b' ^ 2 + c ^ 2)) = S at *
    have e' : ((C - Real.cos a * Real.cos b : ℝ) : ℂ) • (1 : QMat n) + (-Complex.I * ((S * a' - Real.sin a * Real.cos b : ℝ) : ℂ)) • P +
        (-Complex.I * ((S * b' - Real.cos a * Real.sin b : ℝ) : ℂ)) • Q + ((S * c + Real.sin a * Real.sin b : ℝ) : ℂ) • (P * Q) = 0 := by
      rw [← sub_eq_zero.2 e]
      push_cast
      module
    obtain ⟨h1, h2, h3, h4⟩ := h.indep e'
    have hI : -Complex.I ≠ 0 := neg_ne_zero.2 Complex.I_ne_zero
    have h2 := (mul_eq_zero.1 h2).resolve_left hI
    have h3 := (mul_eq_zero.1 h3).resolve_left hI
    rw [Complex.ofReal_eq_zero] at h1 h2 h3 h4
    exact ⟨by linarith, by linarith, by linarith, by linarith⟩
  · rintro ⟨h1, h2, h3, h4⟩
    rw [h1, h2, h3, h4]

theorem Spec.AntiWords.bch2_eq (h : AntiWords P Q) (a b : ℝ) :
    bch2 ((-Complex.I * a) • P) ((-Complex.I * b) • Q) = (-Complex.I * a) • P + (-Complex.I * b) • Q + ((-(a * b) : ℝ) : ℂ) • (P * Q) := by
  rw [bch2, smul_mul_assoc, smul_mul_assoc, mul_smul_comm, mul_smul_comm, h.QP, smul_smul, smul_smul]
  have e : (-Complex.I * a) * (-Complex.I * b) = -((a * b : ℝ) : ℂ) := by push_cast; linear_combination (a * b : ℂ) * Complex.I_sq
  rw [e, mul_comm (-Complex.I * (b : ℂ)), e]
  push_cast
  module

end Algebra

theorem mul_cos_ne_sin {a : ℝ} (ha : |a| < Real.pi) (h0 : a ≠ 0) : a * Real.cos a ≠ Real.sin a := by
  have key : ∀ x : ℝ, 0 < x → x < Real.pi → x * Real.cos x < Real.sin x := by
    intro x h0 h1
    rcases lt_or_ge x (Real.pi / 2) with h | h
    · have hc := Real.cos_pos_of_mem_Ioo ⟨by linarith, h⟩
      have := Real.lt_tan h0 h
      rwa [Real.tan_eq_sin_div_cos, lt_div_iff₀ hc] at this
    · have hc := Real.cos_nonpos_of_pi_div_two_le_of_le h (by linarith)
      have hs := Real.sin_pos_of_pos_of_lt_pi h0 h1
      nlinarith
  rw [abs_lt] at ha
  rcases lt_or_gt_of_ne h0 with h | h
  · have := key (-a) (by linarith) (by linarith)
    rw [Real.cos_neg, Real.sin_neg] at this
    intro e; linarith
  · exact (key a h ha.2).ne

theorem sin_ne_zero_of {a : ℝ} (ha : |a| < Real.pi) (h0 : a ≠ 0) : Real.sin a ≠ 0 := by
  rw [abs_lt] at ha
  exact fun h => h0 ((Real.sin_eq_zero_iff_of_lt_of_lt ha.1 ha.2).1 h)

/-- **C119**: for two anticommuting Pauli words the formula up to second order is exact only if one of the factors is the identity. -/
theorem C119_anti {n : ℕ} {P Q : QMat n} (h : AntiWords P Q) {a b : ℝ} (ha : |a| < Real.pi) (hb : |b| < Real.pi) :
    NormedSpace.exp (bch2 ((-Complex.I * a) • P) ((-Complex.I * b) • Q)) =
      NormedSpace.exp ((-Complex.I * a) • P) * NormedSpace.exp ((-Complex.I * b) • Q) ↔ a = 0 ∨ b = 0 := by
  constructor
  · intro e
    rw [h.bch2_eq, h.eq_iff] at e
    obtain ⟨_, h2, h3, h4⟩ := e
    generalize Real.sinc _ = S at *
    by_contra hne
    push Not at hne
    obtain ⟨ha0, hb0⟩ := hne
    have sa := sin_ne_zero_of ha ha0
    have sb := sin_ne_zero_of hb hb0
    have hS : S ≠ 0 := by
      rintro rfl
      exact mul_ne_zero sa sb (by linarith)
    have h5 : S = Real.cos a * Real.cos b := by
      have : S * (a * b) * (S - Real.cos a * Real.cos b) = 0 := by
        have e1 : S * a * (S * b) = Real.sin a * Real.cos b * (Real.cos a * Real.sin b) := by rw [h2, h3]
        linear_combination e1 + Real.cos a * Real.cos b * h4
      have := (mul_eq_zero.1 this).resolve_left (mul_ne_zero hS (mul_ne_zero ha0 hb0))
      linarith
    have cb : Real.cos b ≠ 0 := by
      intro hc; rw [hc, mul_zero] at h5; exact hS h5
    apply mul_cos_ne_sin ha ha0
    rw [h5] at h2
    exact mul_right_cancel₀ cb (by linarith)
  · rintro (rfl | rfl)
    · simp [bch2, NormedSpace.exp_zero]
    · simp [bch2, NormedSpace.exp_zero]

/-- **C119**: for commuting matrices it is always exact. -/
theorem C119_commute {n : ℕ} {A B : QMat n} (h : Commute A B) : NormedSpace.exp (bch2 A B) = NormedSpace.exp A * NormedSpace.exp B := by
  rw [bch2, h.eq, sub_self, smul_zero, add_zero, Matrix.exp_add_of_commute _ _ h]

/-! ## The matrices of the script -/

theorem bch_word2 (a b : Letter) : (@kron 1 1 a.mat b.mat : QMat 2) = pauliWord ![a, b] := by
  have h := kron_tensor (a := 1) (b := 1) (fun _ => a.mat) (fun _ => b.mat)
  have e1 : (tensor (n := 1) (fun _ => a.mat) : QMat 1) = a.mat := word1 a
  have e2 : (tensor (n := 1) (fun _ => b.mat) : QMat 1) = b.mat := word1 b
  rw [e1, e2] at h
  rw [h, pauliWord]
  congr 1
  funext q
  fin_cases q <;> rfl

theorem bch_word3 (a b c : Letter) : (@kron 1 2 a.mat (@kron 1 1 b.mat c.mat) : QMat 3) = pauliWord ![a, b, c] := by
  rw [bch_word2 b c]
  have h := kron_tensor (a := 1) (b := 2) (fun _ => a.mat) (fun q => (![b, c] q).mat)
  have e1 : (tensor (n := 1) (fun _ => a.mat) : QMat 1) = a.mat := word1 a
  rw [e1] at h
  rw [pauliWord, h, pauliWord]
  congr 1
  funext q
  fin_cases q <;> rfl

theorem antiWords_of {n : ℕ} (f g : Fin n → Letter) (h : ∏ q, letterSign (f q) (g q) = -1) : AntiWords (pauliWord f) (pauliWord g) :=
  ⟨⟨f, rfl⟩, ⟨g, rfl⟩, by rw [pauliWord_swap, h, neg_one_smul]⟩

theorem bchZZ_word : bchZZ = pauliWord ![.Z, .Z] := bch_word2 .Z .Z
theorem bchZY_word : bchZY = pauliWord ![.Z, .Y] := bch_word2 .Z .Y
theorem bchYZ_word : bchYZ = pauliWord ![.Y, .Z] := bch_word2 .Y .Z
theorem bchIX_word : (kron bchI bchX : QMat 2) = pauliWord ![.I, .X] := bch_word2 .I .X
theorem bchXI_word : (kron bchX bchI : QMat 2) = pauliWord ![.X, .I] := bch_word2 .X .I
theorem bchXZI_word : (kron bchX (kron bchZ bchI) : QMat 3) = pauliWord ![.X, .Z, .I] := bch_word3 .X .Z .I
theorem bchIXZ_word : (kron bchI (kron bchX bchZ) : QMat 3) = pauliWord ![.I, .X, .Z] := bch_word3 .I .X .Z

theorem anti_ZZ_IX : AntiWords bchZZ (kron bchI bchX : QMat 2) := by
  rw [bchZZ_word, bchIX_word]
  exact antiWords_of _ _ (by simp [Fin.prod_univ_two, letterSign])

theorem anti_ZZ_XI : AntiWords bchZZ (kron bchX bchI : QMat 2) := by
  rw [bchZZ_word, bchXI_word]
  exact antiWords_of _ _ (by simp [Fin.prod_univ_two, letterSign])

theorem anti_XZI_IXZ : AntiWords (kron bchX (kron bchZ bchI) : QMat 3) (kron bchI (kron bchX bchZ) : QMat 3) := by
  rw [bchXZI_word, bchIXZ_word]
  exact antiWords_of _ _ (by simp [Fin.prod_univ_three, letterSign])

theorem ZX_mat : Letter.Z.mat * Letter.X.mat = Complex.I • Letter.Y.mat := by
  ext i j; fin_cases i <;> fin_cases j <;> simp [Letter.mat]

theorem bchZY_mul : bchZZ * (kron bchI bchX : QMat 2) = Complex.I • bchZY := by
  rw [bchZZ_word, bchIX_word, bchZY_word, pauliWord, pauliWord, pauliWord, tensor_mul]
  have : (fun q : Fin 2 => (![Letter.Z, .Z] q).mat * (![Letter.I, .X] q).mat) = fun q => ![(1 : ℂ), Complex.I] q • (![Letter.Z, .Y] q).mat := by
    funext q
    fin_cases q
    · simp [Letter.mat]
    · exact ZX_mat
  rw [this, tensor_smul]
  simp [Fin.prod_univ_two]

theorem bchYZ_mul : bchZZ * (kron bchX bchI : QMat 2) = Complex.I • bchYZ := by
  rw [bchZZ_word, bchXI_word, bchYZ_word, pauliWord, pauliWord, pauliWord, tensor_mul]
  have : (fun q : Fin 2 => (![Letter.Z, .Z] q).mat * (![Letter.X, .I] q).mat) = fun q => ![Complex.I, (1 : ℂ)] q • (![Letter.Y, .Z] q).mat := by
    funext q
    fin_cases q
    · exact ZX_mat
    · simp [Letter.mat]
  rw [this, tensor_smul]
  simp [Fin.prod_univ_two]

/-! ## `closeness_1` -/

theorem bch_exp_smul {n : ℕ} (x : ℝ) (P : QMat n) : NormedSpace.exp ((-Complex.I) • ((x : ℂ) • P)) = NormedSpace.exp ((-Complex.I * x) • P) := by
  rw [smul_smul]

theorem bchCircuit_x0 (x1 z12 : ℝ) : bchCircuit 0 x1 z12 =
    NormedSpace.exp ((-Complex.I * z12) • bchZZ) * NormedSpace.exp ((-Complex.I * x1) • (kron bchI bchX : QMat 2)) := by
  rw [bchCircuit, bch_exp_smul, bch_exp_smul, bch_exp_smul]
  simp [NormedSpace.exp_zero]

theorem bchCircuit_x1 (x0 z12 : ℝ) : bchCircuit x0 0 z12 =
    NormedSpace.exp ((-Complex.I * z12) • bchZZ) * NormedSpace.exp ((-Complex.I * x0) • (kron bchX bchI : QMat 2)) := by
  rw [bchCircuit, bch_exp_smul, bch_exp_smul, bch_exp_smul]
  simp [NormedSpace.exp_zero]

theorem bchPolynomial_x0 (x1 z12 : ℝ) : bchPolynomial 0 x1 z12 =
    NormedSpace.exp ((-Complex.I * z12) • bchZZ + (-Complex.I * (-x1 : ℝ)) • (kron bchI bchX : QMat 2) +
      ((z12 * x1 : ℝ) : ℂ) • (bchZZ * (kron bchI bchX : QMat 2))) := by
  rw [bchPolynomial, bchZY_mul, smul_smul]
  congr 1
  push_cast
  module

theorem bchPolynomial_x1 (x0 z12 : ℝ) : bchPolynomial x0 0 z12 =
    NormedSpace.exp ((-Complex.I * z12) • bchZZ + (-Complex.I * x0) • (kron bchX bchI : QMat 2) +
      ((z12 * x0 : ℝ) : ℂ) • (bchZZ * (kron bchX bchI : QMat 2))) := by
  rw [bchPolynomial, bchYZ_mul, smul_smul]
  congr 1
  push_cast
  module

/-- **C119**: on the slice `x0 = 0` the polynomial of `closeness_1` is the formula up to second order of the circuit with the angle `-x1`. -/
theorem C119_sign (x1 z12 : ℝ) : bchPolynomial 0 x1 z12 =
    NormedSpace.exp (bch2 ((-Complex.I * z12) • bchZZ) ((-Complex.I * (-x1 : ℝ)) • (kron bchI bchX : QMat 2))) := by
  rw [bchPolynomial_x0, anti_ZZ_IX.bch2_eq, mul_neg, neg_neg]

/-- **C119**: on that slice it is the circuit only if `x1 = 0`. -/
theorem C119_x1 {x1 z12 : ℝ} (h1 : |x1| < Real.pi) (hz : |z12| < Real.pi) : bchPolynomial 0 x1 z12 = bchCircuit 0 x1 z12 ↔ x1 = 0 := by
  constructor
  · intro e
    rw [bchPolynomial_x0, bchCircuit_x0, anti_ZZ_IX.eq_iff] at e
    obtain ⟨_, h2, h3, h4⟩ := e
    by_contra h0
    have s1 := sin_ne_zero_of h1 h0
    by_cases hz0 : z12 = 0
    · subst hz0
      have hr : Real.sqrt (0 ^ 2 + (-x1) ^ 2 + (0 * x1) ^ 2) = |x1| := by
        rw [show (0 : ℝ) ^ 2 + (-x1) ^ 2 + (0 * x1) ^ 2 = x1 ^ 2 by ring, Real.sqrt_sq_eq_abs]
      rw [hr, Real.cos_zero, one_mul] at h3
      have : Real.sinc |x1| * x1 = Real.sin x1 := by
        have : Real.sinc |x1| = Real.sinc x1 := by
          rcases abs_choice x1 with h | h <;> rw [h]
          exact Real.sinc_neg x1
        rw [this, Real.sinc_of_ne_zero h0]; field_simp
      exact s1 (by linarith)
    · have sz := sin_ne_zero_of hz hz0
      generalize Real.sinc _ = S at *
      have hS : S ≠ 0 := by
        rintro rfl
        exact mul_ne_zero sz s1 (by linarith)
      have h5 : S = Real.cos z12 * Real.cos x1 := by
        have : S * (z12 * x1) * (S - Real.cos z12 * Real.cos x1) = 0 := by
          have e1 : S * z12 * (S * -x1) = Real.sin z12 * Real.cos x1 * (Real.cos z12 * Real.sin x1) := by rw [h2, h3]
          linear_combination -e1 - Real.cos z12 * Real.cos x1 * h4
        have := (mul_eq_zero.1 this).resolve_left (mul_ne_zero hS (mul_ne_zero hz0 h0))
        linarith
      have cb : Real.cos x1 ≠ 0 := by
        intro hc; rw [hc, mul_zero] at h5; exact hS h5
      apply mul_cos_ne_sin hz hz0
      rw [h5] at h2
      exact mul_right_cancel₀ cb (by linarith)
  · rintro rfl
    rw [bchPolynomial_x0, bchCircuit_x0]
    simp [NormedSpace.exp_zero]

/-- **C119**: on the slice `x1 = 0` it is the circuit only if one of the other two angles is 0. -/
theorem C119_x0 {x0 z12 : ℝ} (h1 : |x0| ≤ Real.pi / 2) (hz : |z12| ≤ Real.pi / 2) : bchPolynomial x0 0 z12 = bchCircuit x0 0 z12 ↔ x0 = 0 ∨ z12 = 0 := by
  constructor
  · intro e
    rw [bchPolynomial_x1, bchCircuit_x1, anti_ZZ_XI.eq_iff] at e
    obtain ⟨_, h2, h3, h4⟩ := e
    generalize Real.sinc _ = S at *
    by_contra hne
    push Not at hne
    obtain ⟨h0, hz0⟩ := hne
    have hpi := Real.pi_pos
    have s1 := sin_ne_zero_of (by linarith : |x0| < Real.pi) h0
    have sz := sin_ne_zero_of (by linarith : |z12| < Real.pi) hz0
    have hS : S ≠ 0 := by
      rintro rfl
      exact mul_ne_zero sz s1 (by linarith)
    have h5 : S = -(Real.cos z12 * Real.cos x0) := by
      have : S * (z12 * x0) * (S + Real.cos z12 * Real.cos x0) = 0 := by
        have e1 : S * z12 * (S * x0) = Real.sin z12 * Real.cos x0 * (Real.cos z12 * Real.sin x0) := by rw [h2, h3]
        linear_combination e1 + Real.cos z12 * Real.cos x0 * h4
      have := (mul_eq_zero.1 this).resolve_left (mul_ne_zero hS (mul_ne_zero hz0 h0))
      linarith
    have cb : Real.cos x0 ≠ 0 := by
      intro hc; rw [hc, mul_zero, neg_zero] at h5; exact hS h5
    have h6 : -(z12 * Real.cos z12) = Real.sin z12 := by
      rw [h5] at h2
      exact mul_right_cancel₀ cb (by linarith)
    rw [abs_le] at hz
    have cz : 0 ≤ Real.cos z12 := Real.cos_nonneg_of_neg_pi_div_two_le_of_le (by linarith) hz.2
    rcases lt_or_gt_of_ne hz0 with h | h
    · have := Real.sin_neg_of_neg_of_neg_pi_lt h (by linarith)
      nlinarith
    · have := Real.sin_pos_of_pos_of_lt_pi h (by linarith)
      nlinarith
  · rintro (rfl | rfl)
    · rw [bchPolynomial_x1, bchCircuit_x1]
      simp [NormedSpace.exp_zero]
    · rw [bchPolynomial_x1, bchCircuit_x1]
      simp [NormedSpace.exp_zero]

/-! ## `closeness_2` -/

theorem allCloseQ_self {n : ℕ} (A : QMat n) : allCloseQ A A = true := by
  unfold allCloseQ
  rw [decide_eq_true_iff]
  intro i j
  rw [sub_self, norm_zero]
  positivity

theorem allCloseQ_false {n : ℕ} {A B : QMat n} (i j : Fin (2 ^ n)) (h : 1e-8 + 1e-5 * ‖B i j‖ < ‖A i j - B i j‖) : allCloseQ A B = false := by
  unfold allCloseQ
  rw [decide_eq_false_iff_not]
  intro h'
  exact absurd (h' i j) (not_le.2 h)

theorem bchA_eq : bchA = (-Complex.I * ((-1 : ℝ) : ℂ)) • (kron bchX (kron bchZ bchI) : QMat 3) := by
  rw [bchA]; congr 1; push_cast; ring
theorem bchB_eq : bchB = (-Complex.I * ((-1 : ℝ) : ℂ)) • (kron bchI (kron bchX bchZ) : QMat 3) := by
  rw [bchB]; congr 1; push_cast; ring

theorem bchAB_eq : bchAB = (-2 : ℂ) • ((kron bchX (kron bchZ bchI) : QMat 3) * (kron bchI (kron bchX bchZ) : QMat 3)) := by
  have h := anti_XZI_IXZ
  rw [bchAB, bchA, bchB]
  generalize (kron bchX (kron bchZ bchI) : QMat 3) = P at *
  generalize (kron bchI (kron bchX bchZ) : QMat 3) = Q at *
  rw [smul_mul_smul_comm, smul_mul_smul_comm, Complex.I_mul_I, h.QP]
  module

/-- The inner brackets of the formula do not vanish. -/
theorem bch_nested_A : bchA * bchAB - bchAB * bchA = (-4 * Complex.I) • (kron bchI (kron bchX bchZ) : QMat 3) := by
  have h := anti_XZI_IXZ
  rw [bchAB_eq, bchA]
  generalize (kron bchX (kron bchZ bchI) : QMat 3) = P at *
  generalize (kron bchI (kron bchX bchZ) : QMat 3) = Q at *
  rw [smul_mul_smul_comm, smul_mul_smul_comm, h.PM, h.MP]
  module

theorem bch_nested_B : bchB * bchAB - bchAB * bchB = (4 * Complex.I) • (kron bchX (kron bchZ bchI) : QMat 3) := by
  have h := anti_XZI_IXZ
  rw [bchAB_eq, bchB]
  generalize (kron bchX (kron bchZ bchI) : QMat 3) = P at *
  generalize (kron bchI (kron bchX bchZ) : QMat 3) = Q at *
  rw [smul_mul_smul_comm, smul_mul_smul_comm, h.QM, h.MQ]
  module

theorem ixz_entry : (kron bchI (kron bchX bchZ) : QMat 3) 0 2 = 1 := by
  rw [bchIXZ_word, pauliWord, tensor, Fin.prod_univ_three]
  change (1 : Mat2) 0 0 * (Letter.X.mat) 0 1 * (Letter.Z.mat) 0 0 = 1
  simp [Letter.mat]

theorem xzi_entry : (kron bchX (kron bchZ bchI) : QMat 3) 0 4 = 1 := by
  rw [bchXZI_word, pauliWord, tensor, Fin.prod_univ_three]
  change (Letter.X.mat) 0 1 * (Letter.Z.mat) 0 0 * (1 : Mat2) 0 0 = 1
  simp [Letter.mat]

theorem xzi_diag : (kron bchX (kron bchZ bchI) : QMat 3) 0 0 = 0 := by
  rw [bchXZI_word, pauliWord, tensor, Fin.prod_univ_three]
  change (Letter.X.mat) 0 0 * (Letter.Z.mat) 0 0 * (1 : Mat2) 0 0 = 0
  simp [Letter.mat]

theorem ixz_diag : (kron bchI (kron bchX bchZ) : QMat 3) 0 0 = 0 := by
  rw [bchIXZ_word, pauliWord, tensor, Fin.prod_univ_three]
  change (1 : Mat2) 0 0 * (Letter.X.mat) 0 0 * (Letter.Z.mat) 0 0 = 0
  simp [Letter.mat]

theorem prod_diag : ((kron bchX (kron bchZ bchI) : QMat 3) * (kron bchI (kron bchX bchZ) : QMat 3)) 0 0 = 0 := by
  rw [bchXZI_word, bchIXZ_word, pauliWord, pauliWord, tensor_mul, tensor, Fin.prod_univ_three]
  change ((Letter.X.mat * Letter.I.mat) 0 0 : ℂ) * (Letter.Z.mat * Letter.X.mat) 0 0 * (Letter.I.mat * Letter.Z.mat) 0 0 = 0
  simp [Letter.mat]

theorem cos_sqrt_three : Real.cos (Real.sqrt 3) < 0 := by
  have h1 : Real.pi / 2 < Real.sqrt 3 := by
    have := Real.pi_lt_d2
    exact lt_of_lt_of_le (by linarith : Real.pi / 2 < 1.6) (Real.le_sqrt_of_sq_le (by norm_num))
  have h2 : Real.sqrt 3 < 2 := by
    rw [Real.sqrt_lt' (by norm_num)]; norm_num
  exact Real.cos_neg_of_pi_div_two_lt_of_lt h1 (by linarith [Real.pi_gt_three])

/-- **C119**: what `closeness_2` prints. -/
theorem C119_closeness2 : closeness2 = [true, false, false, false] := by
  have hc : Commute ((-Complex.I) • (kron bchX bchI : QMat 2)) ((-Complex.I) • (kron bchI bchX : QMat 2)) := by
    apply Commute.smul_left
    apply Commute.smul_right
    rw [bchXI_word, bchIX_word]
    have := pauliWord_swap ![Letter.X, .I] ![Letter.I, .X]
    rw [show (∏ q, letterSign (![Letter.X, .I] q) (![Letter.I, .X] q)) = 1 by simp [Fin.prod_univ_two, letterSign], one_smul] at this
    exact this
  have h1 : NormedSpace.exp ((-Complex.I) • (kron bchX bchI : QMat 2) - Complex.I • (kron bchI bchX : QMat 2)) =
      NormedSpace.exp ((-Complex.I) • (kron bchX bchI : QMat 2)) * NormedSpace.exp ((-Complex.I) • (kron bchI bchX : QMat 2)) := by
    rw [← Matrix.exp_add_of_commute _ _ hc, neg_smul, neg_smul, sub_eq_add_neg]
  have h2 : allCloseQ 0 (bchA * bchAB - bchAB * bchA) = false := by
    apply allCloseQ_false 0 2
    rw [bch_nested_A, Matrix.smul_apply, ixz_entry]
    norm_num
  have h3 : allCloseQ 0 (bchB * bchAB - bchAB * bchB) = false := by
    apply allCloseQ_false 0 4
    rw [bch_nested_B, Matrix.smul_apply, xzi_entry]
    norm_num
  have h4 : allCloseQ (NormedSpace.exp (bchA + bchB + (0.5 : ℂ) • bchAB)) (NormedSpace.exp bchA * NormedSpace.exp bchB) = false := by
    apply allCloseQ_false 0 0
    have e : bchA + bchB + (0.5 : ℂ) • bchAB = (-Complex.I * ((-1 : ℝ) : ℂ)) • (kron bchX (kron bchZ bchI) : QMat 3) +
        (-Complex.I * ((-1 : ℝ) : ℂ)) • (kron bchI (kron bchX bchZ) : QMat 3) + ((-1 : ℝ) : ℂ) •
          ((kron bchX (kron bchZ bchI) : QMat 3) * (kron bchI (kron bchX bchZ) : QMat 3)) := by
      rw [bchAB_eq, ← bchA_eq, ← bchB_eq, smul_smul]
      congr 2
      push_cast
      norm_num
    rw [e, bchA_eq, bchB_eq, anti_XZI_IXZ.exp_triple, anti_XZI_IXZ.exp_mul]
    simp only [Matrix.add_apply, Matrix.sub_apply, Matrix.smul_apply, xzi_diag, ixz_diag, prod_diag, mul_zero, sub_zero, add_zero, Matrix.one_apply_eq,
      smul_eq_mul, mul_one]
    rw [show ((-1 : ℝ)) ^ 2 + (-1) ^ 2 + (-1) ^ 2 = 3 by norm_num, ← Complex.ofReal_sub, Complex.norm_real, Complex.norm_real, Real.norm_eq_abs, Real.norm_eq_abs,
      Real.cos_neg]
    have g1 := cos_sqrt_three
    have g2 : 1 / 2 ≤ Real.cos 1 := by
      have := Real.one_sub_sq_div_two_le_cos (x := 1)
      linarith
    have g3 := Real.cos_le_one 1
    rw [abs_of_nonneg (by positivity), abs_of_neg (by nlinarith)]
    nlinarith
  rw [closeness2, h1, h2, h3, h4, allCloseQ_self]

/-- The hypotheses of C119 hold for the words of the script, so the two sides differ there. -/
example : NormedSpace.exp (bch2 bchA bchB) ≠ NormedSpace.exp bchA * NormedSpace.exp bchB := by
  have hp := Real.pi_gt_three
  have h : |(-1 : ℝ)| < Real.pi := by rw [abs_neg, abs_one]; linarith
  rw [bchA_eq, bchB_eq]
  intro e
  rcases (C119_anti anti_XZI_IXZ h h).1 e with h | h <;> norm_num at h

/-- With the angles `params[1]` and `params[2]` of the script the two unitaries differ already for `x0 = 0`, and likewise for `x1 = 0`. -/
example : bchPolynomial 0 0.4 0.3 ≠ bchCircuit 0 0.4 0.3 ∧ bchPolynomial 0.2 0 0.3 ≠ bchCircuit 0.2 0 0.3 := by
  have hp := Real.pi_gt_three
  refine ⟨fun e => ?_, fun e => ?_⟩
  · have := (C119_x1 (by rw [abs_of_pos (by norm_num)]; linarith) (by rw [abs_of_pos (by norm_num)]; linarith)).1 e
    norm_num at this
  · have := (C119_x0 (by rw [abs_of_pos (by norm_num)]; linarith) (by rw [abs_of_pos (by norm_num)]; linarith)).1 e
    norm_num at this

/-- The hypothesis of `C119_commute` for two different words. -/
example : Commute (pauliWord ![Letter.X, .X]) (pauliWord ![Letter.Z, .Z]) := by
  have := pauliWord_swap ![Letter.X, .X] ![Letter.Z, .Z]
  rwa [show (∏ q, letterSign (![Letter.X, .X] q) (![Letter.Z, .Z] q)) = 1 by simp [Fin.prod_univ_two, letterSign], one_smul] at this

end Oranssi
