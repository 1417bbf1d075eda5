import Verif.Props.Tfim
import Verif.Props.Variational

/-! # C113: the minimum drawn in tfim_su4_adapt_vqe.py

The script draws the number -5.226251859505502 as the smallest energy of the chain of four spins.  The Hamiltonian is a matrix of integers; a polynomial
in its square vanishes, and the largest root of the polynomial is `16 + 8 √2`. -/

namespace Oranssi
open Spec
open scoped Matrix

/-- A matrix of integers from its rows. -/
def tableMat (l : List (List ℤ)) : Matrix (Fin (2 ^ 4)) (Fin (2 ^ 4)) ℤ := fun i j => (l.getD i.val []).getD j.val 0

/-- The entries of a Pauli matrix other than `Y`. -/
def letInt : Letter → Fin 2 → Fin 2 → ℤ
  | .I => fun a b => if a = b then 1 else 0
  | .X => fun a b => if a = b then 0 else 1
  | .Z => fun a b => if a = b then (if a = 0 then 1 else -1) else 0
  | .Y => fun _ _ => 0

/-- The entries of a Pauli word without `Y`. -/
def wordInt (f : Fin 4 → Letter) : Matrix (Fin (2 ^ 4)) (Fin (2 ^ 4)) ℤ := fun i j =>
  ∏ q : Fin 4, letInt (f q) ⟨bit 4 i.val q.val, Nat.mod_lt _ (by decide)⟩ ⟨bit 4 j.val q.val, Nat.mod_lt _ (by decide)⟩

/-- The words of the Hamiltonian. -/
def tfimWords : List (Fin 4 → Letter) := [placed 4 [.X] [0], placed 4 [.X] [1], placed 4 [.X] [2], placed 4 [.X] [3],
  placed 4 [.Z, .Z] [0, 1], placed 4 [.Z, .Z] [1, 2], placed 4 [.Z, .Z] [2, 3], placed 4 [.Z, .Z] [3, 0]]

/-- The Hamiltonian. -/
def tfimH : Matrix (Fin (2 ^ 4)) (Fin (2 ^ 4)) ℤ := tableMat
   [[4, 1, 1, 0, 1, 0, 0, 0, 1, 0, 0, 0, 0, 0, 0, 0],
    [1, 0, 0, 1, 0, 1, 0, 0, 0, 1, 0, 0, 0, 0, 0, 0],
    [1, 0, 0, 1, 0, 0, 1, 0, 0, 0, 1, 0, 0, 0, 0, 0],
    [0, 1, 1, 0, 0, 0, 0, 1, 0, 0, 0, 1, 0, 0, 0, 0],
    [1, 0, 0, 0, 0, 1, 1, 0, 0, 0, 0, 0, 1, 0, 0, 0],
    [0, 1, 0, 0, 1, -4, 0, 1, 0, 0, 0, 0, 0, 1, 0, 0],
    [0, 0, 1, 0, 1, 0, 0, 1, 0, 0, 0, 0, 0, 0, 1, 0],
    [0, 0, 0, 1, 0, 1, 1, 0, 0, 0, 0, 0, 0, 0, 0, 1],
    [1, 0, 0, 0, 0, 0, 0, 0, 0, 1, 1, 0, 1, 0, 0, 0],
    [0, 1, 0, 0, 0, 0, 0, 0, 1, 0, 0, 1, 0, 1, 0, 0],
    [0, 0, 1, 0, 0, 0, 0, 0, 1, 0, -4, 1, 0, 0, 1, 0],
    [0, 0, 0, 1, 0, 0, 0, 0, 0, 1, 1, 0, 0, 0, 0, 1],
    [0, 0, 0, 0, 1, 0, 0, 0, 1, 0, 0, 0, 0, 1, 1, 0],
    [0, 0, 0, 0, 0, 1, 0, 0, 0, 1, 0, 0, 1, 0, 0, 1],
    [0, 0, 0, 0, 0, 0, 1, 0, 0, 0, 1, 0, 1, 0, 0, 1],
    [0, 0, 0, 0, 0, 0, 0, 1, 0, 0, 0, 1, 0, 1, 1, 4]]

/-- Its square. -/
def tfimS : Matrix (Fin (2 ^ 4)) (Fin (2 ^ 4)) ℤ := tableMat
   [[20, 4, 4, 2, 4, 2, 2, 0, 4, 2, 2, 0, 2, 0, 0, 0],
    [4, 4, 2, 0, 2, -4, 0, 2, 2, 0, 0, 2, 0, 2, 0, 0],
    [4, 2, 4, 0, 2, 0, 0, 2, 2, 0, -4, 2, 0, 0, 2, 0],
    [2, 0, 0, 4, 0, 2, 2, 0, 0, 2, 2, 0, 0, 0, 0, 2],
    [4, 2, 2, 0, 4, -4, 0, 2, 2, 0, 0, 0, 0, 2, 2, 0],
    [2, -4, 0, 2, -4, 20, 2, -4, 0, 2, 0, 0, 2, -4, 0, 2],
    [2, 0, 0, 2, 0, 2, 4, 0, 0, 0, 2, 0, 2, 0, 0, 2],
    [0, 2, 2, 0, 2, -4, 0, 4, 0, 0, 0, 2, 0, 2, 2, 4],
    [4, 2, 2, 0, 2, 0, 0, 0, 4, 0, -4, 2, 0, 2, 2, 0],
    [2, 0, 0, 2, 0, 2, 0, 0, 0, 4, 2, 0, 2, 0, 0, 2],
    [2, 0, -4, 2, 0, 0, 2, 0, -4, 2, 20, -4, 2, 0, -4, 2],
    [0, 2, 2, 0, 0, 0, 0, 2, 2, 0, -4, 4, 0, 2, 2, 4],
    [2, 0, 0, 0, 0, 2, 2, 0, 0, 2, 2, 0, 4, 0, 0, 2],
    [0, 2, 0, 0, 2, -4, 0, 2, 2, 0, 0, 2, 0, 4, 2, 4],
    [0, 0, 2, 0, 2, 0, 0, 2, 2, 0, -4, 2, 0, 2, 4, 4],
    [0, 0, 0, 2, 0, 2, 2, 4, 0, 2, 2, 4, 2, 4, 4, 20]]

/-- `S (S - 4)`. -/
def tfimA : Matrix (Fin (2 ^ 4)) (Fin (2 ^ 4)) ℤ := tableMat
   [[408, 96, 96, 56, 96, 56, 56, 16, 96, 56, 56, 16, 56, 16, 16, 24],
    [96, 56, 40, 0, 56, -96, 0, 40, 40, 0, -16, 24, 0, 40, 24, 16],
    [96, 40, 56, 0, 40, -16, 0, 24, 56, 0, -96, 40, 0, 24, 40, 16],
    [56, 0, 0, 24, 0, 56, 24, 0, 0, 24, 56, 0, 24, 0, 0, 56],
    [96, 56, 40, 0, 56, -96, 0, 40, 40, 0, -16, 24, 0, 40, 24, 16],
    [56, -96, -16, 56, -96, 408, 56, -96, -16, 56, 24, -16, 56, -96, -16, 56],
    [56, 0, 0, 24, 0, 56, 24, 0, 0, 24, 56, 0, 24, 0, 0, 56],
    [16, 40, 24, 0, 40, -96, 0, 56, 24, 0, -16, 40, 0, 56, 40, 96],
    [96, 40, 56, 0, 40, -16, 0, 24, 56, 0, -96, 40, 0, 24, 40, 16],
    [56, 0, 0, 24, 0, 56, 24, 0, 0, 24, 56, 0, 24, 0, 0, 56],
    [56, -16, -96, 56, -16, 24, 56, -16, -96, 56, 408, -96, 56, -16, -96, 56],
    [16, 24, 40, 0, 24, -16, 0, 40, 40, 0, -96, 56, 0, 40, 56, 96],
    [56, 0, 0, 24, 0, 56, 24, 0, 0, 24, 56, 0, 24, 0, 0, 56],
    [16, 40, 24, 0, 40, -96, 0, 56, 24, 0, -16, 40, 0, 56, 40, 96],
    [16, 24, 40, 0, 24, -16, 0, 40, 40, 0, -96, 56, 0, 40, 56, 96],
    [24, 16, 16, 56, 16, 56, 56, 96, 16, 56, 56, 96, 56, 96, 96, 408]]

/-- `S² - 32 S + 128`. -/
def tfimB : Matrix (Fin (2 ^ 4)) (Fin (2 ^ 4)) ℤ := tableMat
   [[-24, -16, -16, 0, -16, 0, 0, 16, -16, 0, 0, 16, 0, 16, 16, 24],
    [-16, 72, -16, 0, 0, 16, 0, -16, -16, 0, -16, -32, 0, -16, 24, 16],
    [-16, -16, 72, 0, -16, -16, 0, -32, 0, 0, 16, -16, 0, 24, -16, 16],
    [0, 0, 0, 40, 0, 0, -32, 0, 0, -32, 0, 0, 24, 0, 0, 0],
    [-16, 0, -16, 0, 72, 16, 0, -16, -16, 0, -16, 24, 0, -16, -32, 16],
    [0, 16, -16, 0, 16, -24, 0, 16, -16, 0, 24, -16, 0, 16, -16, 0],
    [0, 0, 0, -32, 0, 0, 40, 0, 0, 24, 0, 0, -32, 0, 0, 0],
    [16, -16, -32, 0, -16, 16, 0, 72, 24, 0, -16, -16, 0, 0, -16, -16],
    [-16, -16, 0, 0, -16, -16, 0, 24, 72, 0, 16, -16, 0, -32, -16, 16],
    [0, 0, 0, -32, 0, 0, 24, 0, 0, 40, 0, 0, -32, 0, 0, 0],
    [0, -16, 16, 0, -16, 24, 0, -16, 16, 0, -24, 16, 0, -16, 16, 0],
    [16, -32, -16, 0, 24, -16, 0, -16, -16, 0, 16, 72, 0, -16, 0, -16],
    [0, 0, 0, 24, 0, 0, -32, 0, 0, -32, 0, 0, 40, 0, 0, 0],
    [16, -16, 24, 0, -16, 16, 0, 0, -32, 0, -16, -16, 0, 72, -16, -16],
    [16, 24, -16, 0, -32, -16, 0, -16, -16, 0, 16, 0, 0, -16, 72, -16],
    [24, 16, 16, 0, 16, 0, 0, -16, 16, 0, 0, -16, 0, -16, -16, -24]]

/-- `S² - 24 S + 16`. -/
def tfimC : Matrix (Fin (2 ^ 4)) (Fin (2 ^ 4)) ℤ := tableMat
   [[24, 16, 16, 16, 16, 16, 16, 16, 16, 16, 16, 16, 16, 16, 16, 24],
    [16, -8, 0, 0, 16, -16, 0, 0, 0, 0, -16, -16, 0, 0, 24, 16],
    [16, 0, -8, 0, 0, -16, 0, -16, 16, 0, -16, 0, 0, 24, 0, 16],
    [16, 0, 0, -40, 0, 16, -16, 0, 0, -16, 16, 0, 24, 0, 0, 16],
    [16, 16, 0, 0, -8, -16, 0, 0, 0, 0, -16, 24, 0, 0, -16, 16],
    [16, -16, -16, 16, -16, 24, 16, -16, -16, 16, 24, -16, 16, -16, -16, 16],
    [16, 0, 0, -16, 0, 16, -40, 0, 0, 24, 16, 0, -16, 0, 0, 16],
    [16, 0, -16, 0, 0, -16, 0, -8, 24, 0, -16, 0, 0, 16, 0, 16],
    [16, 0, 16, 0, 0, -16, 0, 24, -8, 0, -16, 0, 0, -16, 0, 16],
    [16, 0, 0, -16, 0, 16, 24, 0, 0, -40, 16, 0, -16, 0, 0, 16],
    [16, -16, -16, 16, -16, 24, 16, -16, -16, 16, 24, -16, 16, -16, -16, 16],
    [16, -16, 0, 0, 24, -16, 0, 0, 0, 0, -16, -8, 0, 0, 16, 16],
    [16, 0, 0, 24, 0, 16, -16, 0, 0, -16, 16, 0, -40, 0, 0, 16],
    [16, 0, 24, 0, 0, -16, 0, 16, -16, 0, -16, 0, 0, -8, 0, 16],
    [16, 24, 0, 0, -16, -16, 0, 0, 0, 0, -16, 16, 0, 0, -8, 16],
    [24, 16, 16, 16, 16, 16, 16, 16, 16, 16, 16, 16, 16, 16, 16, 24]]

/-- `S (S - 4) (S² - 32 S + 128)`. -/
def tfimD : Matrix (Fin (2 ^ 4)) (Fin (2 ^ 4)) ℤ := tableMat
   [[-14336, -2944, -2944, 0, -2944, 0, 0, 2944, -2944, 0, 0, 2944, 0, 2944, 2944, 14336],
    [-2944, -1280, 0, 0, -1280, 2944, 0, 0, 0, 0, -2944, 1280, 0, 0, 1280, 2944],
    [-2944, 0, -1280, 0, 0, -2944, 0, 1280, -1280, 0, 2944, 0, 0, 1280, 0, 2944],
    [0, 0, 0, 0, 0, 0, 0, 0, 0, 0, 0, 0, 0, 0, 0, 0],
    [-2944, -1280, 0, 0, -1280, 2944, 0, 0, 0, 0, -2944, 1280, 0, 0, 1280, 2944],
    [0, 2944, -2944, 0, 2944, -14336, 0, 2944, -2944, 0, 14336, -2944, 0, 2944, -2944, 0],
    [0, 0, 0, 0, 0, 0, 0, 0, 0, 0, 0, 0, 0, 0, 0, 0],
    [2944, 0, 1280, 0, 0, 2944, 0, -1280, 1280, 0, -2944, 0, 0, -1280, 0, -2944],
    [-2944, 0, -1280, 0, 0, -2944, 0, 1280, -1280, 0, 2944, 0, 0, 1280, 0, 2944],
    [0, 0, 0, 0, 0, 0, 0, 0, 0, 0, 0, 0, 0, 0, 0, 0],
    [0, -2944, 2944, 0, -2944, 14336, 0, -2944, 2944, 0, -14336, 2944, 0, -2944, 2944, 0],
    [2944, 1280, 0, 0, 1280, -2944, 0, 0, 0, 0, 2944, -1280, 0, 0, -1280, -2944],
    [0, 0, 0, 0, 0, 0, 0, 0, 0, 0, 0, 0, 0, 0, 0, 0],
    [2944, 0, 1280, 0, 0, 2944, 0, -1280, 1280, 0, -2944, 0, 0, -1280, 0, -2944],
    [2944, 1280, 0, 0, 1280, -2944, 0, 0, 0, 0, 2944, -1280, 0, 0, -1280, -2944],
    [14336, 2944, 2944, 0, 2944, 0, 0, -2944, 2944, 0, 0, -2944, 0, -2944, -2944, -14336]]

theorem mat_eq_of_all {A B : Matrix (Fin (2 ^ 4)) (Fin (2 ^ 4)) ℤ}
    (h : ((List.finRange (2 ^ 4)).all fun i => (List.finRange (2 ^ 4)).all fun j => decide (A i j = B i j)) = true) : A = B := by
  ext i j
  have h1 := List.all_eq_true.1 h i (List.mem_finRange i)
  exact of_decide_eq_true (List.all_eq_true.1 h1 j (List.mem_finRange j))

theorem tfimH_sum : tfimH = (tfimWords.map wordInt).sum := by
  exact mat_eq_of_all (by decide +kernel)

theorem tfimS_eq : tfimH * tfimH = tfimS := by
  exact mat_eq_of_all (by decide +kernel)

theorem tfimA_eq : tfimS * (tfimS - 4) = tfimA := by
  exact mat_eq_of_all (by decide +kernel)

theorem tfimB_eq : tfimS * tfimS - 32 * tfimS + 128 = tfimB := by
  exact mat_eq_of_all (by decide +kernel)

theorem tfimC_eq : tfimS * tfimS - 24 * tfimS + 16 = tfimC := by
  exact mat_eq_of_all (by decide +kernel)

theorem tfimD_eq : tfimA * tfimB = tfimD := by
  exact mat_eq_of_all (by decide +kernel)

theorem tfimD_zero : tfimD * tfimC = 0 := by
  exact mat_eq_of_all (by decide +kernel)

theorem letInt_cast {l : Letter} (hl : l ≠ .Y) (a b : Fin 2) : l.mat a b = (letInt l a b : ℂ) := by
  cases l with
  | Y => exact absurd rfl hl
  | I => fin_cases a <;> fin_cases b <;> simp [Letter.mat, letInt]
  | X => fin_cases a <;> fin_cases b <;> simp [Letter.mat, letInt]
  | Z => fin_cases a <;> fin_cases b <;> simp [Letter.mat, letInt]

theorem wordInt_cast (f : Fin 4 → Letter) (hf : ∀ q, f q ≠ .Y) : pauliWord f = (wordInt f).map (Int.cast : ℤ → ℂ) := by
  ext i j
  rw [pauliWord, Matrix.map_apply, wordInt, Int.cast_prod]
  simp only [tensor]
  refine Finset.prod_congr rfl fun q _ => ?_
  exact letInt_cast (hf q) _ _

theorem tfim_total : totalObs (tfimGates 4 (by omega)) = tfimH.map (Int.cast : ℤ → ℂ) := by
  have h : totalObs (tfimGates 4 (by omega)) = (tfimWords.map pauliWord).sum := by
    rw [totalObs]
    congr 1
    change [_, _, _, _, _, _, _, _] = [_, _, _, _, _, _, _, _]
    simp only [siteObs_full, bondObs_full]
  have hw : tfimWords.map pauliWord = (tfimWords.map wordInt).map (fun A => A.map (Int.cast : ℤ → ℂ)) := by
    rw [List.map_map]
    refine List.map_congr_left fun f hf => wordInt_cast f ?_
    simp only [tfimWords, List.mem_cons, List.not_mem_nil, or_false] at hf
    rcases hf with rfl | rfl | rfl | rfl | rfl | rfl | rfl | rfl <;> intro q <;> fin_cases q <;> decide
  have hs : ∀ l : List (Matrix (Fin (2 ^ 4)) (Fin (2 ^ 4)) ℤ), (l.map (fun A => A.map (Int.cast : ℤ → ℂ))).sum = l.sum.map (Int.cast : ℤ → ℂ) := by
    intro l
    induction l with
    | nil => ext i j; simp
    | cons A l ih => rw [List.map_cons, List.sum_cons, List.sum_cons, ih, Matrix.map_add _ (fun a b => Int.cast_add a b)]
  rw [h, hw, hs, tfimH_sum]

/-- The polynomial in the square of the Hamiltonian. -/
theorem tfim_poly : ∀ S : QMat 4, S = totalObs (tfimGates 4 (by omega)) * totalObs (tfimGates 4 (by omega)) → 
    S * (S - 4) * (S * S - 32 * S + 128) * (S * S - 24 * S + 16) = 0 := by
  rintro S rfl
  have h : tfimH * tfimH * (tfimH * tfimH - 4) * (tfimH * tfimH * (tfimH * tfimH) - 32 * (tfimH * tfimH) + 128) * (tfimH * tfimH * (tfimH * tfimH) - 24 * (tfimH * tfimH) + 16) = 0 := by
    rw [tfimS_eq, tfimA_eq, tfimB_eq, tfimC_eq, tfimD_eq, tfimD_zero]
  have := congrArg (Int.castRingHom ℂ).mapMatrix h
  simp only [map_mul, map_sub, map_add, map_zero, map_ofNat] at this
  rw [tfim_total]
  exact this

theorem tfim_roots {μ : ℝ} (h : IsEigenvalue (totalObs (tfimGates 4 (by omega))) μ) :
    μ ^ 2 = 0 ∨ μ ^ 2 = 4 ∨ (μ ^ 2 - 16) ^ 2 = 128 ∨ (μ ^ 2 - 12) ^ 2 = 128 := by
  obtain ⟨v, hv, hHv⟩ := h
  have hp := tfim_poly _ rfl
  generalize hS : totalObs (tfimGates 4 (by omega)) * totalObs (tfimGates 4 (by omega)) = S at hp
  have a1 : S *ᵥ v = ((μ ^ 2 : ℝ) : ℂ) • v := by
    rw [← hS, ← Matrix.mulVec_mulVec, hHv, Matrix.mulVec_smul, hHv, smul_smul]
    congr 1
    push_cast
    ring
  have amul : ∀ {X Y : QMat 4} {a b : ℝ}, X *ᵥ v = (a : ℂ) • v → Y *ᵥ v = (b : ℂ) • v → (X * Y) *ᵥ v = ((a * b : ℝ) : ℂ) • v := by
    intro X Y a b hX hY
    rw [← Matrix.mulVec_mulVec, hY, Matrix.mulVec_smul, hX, smul_smul, mul_comm, Complex.ofReal_mul]
  have asub : ∀ {X Y : QMat 4} {a b : ℝ}, X *ᵥ v = (a : ℂ) • v → Y *ᵥ v = (b : ℂ) • v → (X - Y) *ᵥ v = ((a - b : ℝ) : ℂ) • v := by
    intro X Y a b hX hY
    rw [Matrix.sub_mulVec, hX, hY, Complex.ofReal_sub, sub_smul]
  have aadd : ∀ {X Y : QMat 4} {a b : ℝ}, X *ᵥ v = (a : ℂ) • v → Y *ᵥ v = (b : ℂ) • v → (X + Y) *ᵥ v = ((a + b : ℝ) : ℂ) • v := by
    intro X Y a b hX hY
    rw [Matrix.add_mulVec, hX, hY, Complex.ofReal_add, add_smul]
  have anat : ∀ k : ℕ, ((k : QMat 4)) *ᵥ v = ((k : ℝ) : ℂ) • v := by
    intro k
    rw [Matrix.natCast_mulVec]
    simp
  have a4 : (4 : QMat 4) *ᵥ v = ((4 : ℝ) : ℂ) • v := by simpa using anat 4
  have a32 : (32 : QMat 4) *ᵥ v = ((32 : ℝ) : ℂ) • v := by simpa using anat 32
  have a128 : (128 : QMat 4) *ᵥ v = ((128 : ℝ) : ℂ) • v := by simpa using anat 128
  have a24 : (24 : QMat 4) *ᵥ v = ((24 : ℝ) : ℂ) • v := by simpa using anat 24
  have a16 : (16 : QMat 4) *ᵥ v = ((16 : ℝ) : ℂ) • v := by simpa using anat 16
  have h := amul (amul (amul a1 (asub a1 a4)) (aadd (asub (amul a1 a1) (amul a32 a1)) a128)) (aadd (asub (amul a1 a1) (amul a24 a1)) a16)
  rw [hp, Matrix.zero_mulVec] at h
  have h0 := (smul_eq_zero.1 h.symm).resolve_right hv
  rw [Complex.ofReal_eq_zero] at h0
  generalize μ ^ 2 = y at h0
  rcases mul_eq_zero.1 h0 with h0 | h0
  · rcases mul_eq_zero.1 h0 with h0 | h0
    · rcases mul_eq_zero.1 h0 with h0 | h0
      · exact .inl h0
      · exact .inr (.inl (by linarith))
    · exact .inr (.inr (.inl (by linarith [h0])))
  · exact .inr (.inr (.inr (by linarith [h0])))

/-- A vector of integers from its list. -/
def tableVec (l : List ℤ) : Fin (2 ^ 4) → ℤ := fun i => l.getD i.val 0

theorem vec_eq_of_all {a b : Fin (2 ^ 4) → ℤ} (h : ((List.finRange (2 ^ 4)).all fun i => decide (a i = b i)) = true) : a = b := by
  funext i
  exact of_decide_eq_true (List.all_eq_true.1 h i (List.mem_finRange i))

/-- The vectors `w`, `H w`, `H² w`, `H³ w`, `H⁴ w` for the vector `w` of ones. -/
def tfimVecs : List (List ℤ) := [[1, 1, 1, 1, 1, 1, 1, 1, 1, 1, 1, 1, 1, 1, 1, 1], [8, 4, 4, 4, 4, 0, 4, 4, 4, 4, 0, 4, 4, 4, 4, 8], [48, 16, 16, 16, 16, 16, 16, 16, 16, 16, 16, 16, 16, 16, 16, 48], [256, 96, 96, 64, 96, 0, 64, 96, 96, 64, 0, 96, 64, 96, 96, 256], [1408, 384, 384, 384, 384, 384, 384, 384, 384, 384, 384, 384, 384, 384, 384, 1408]]

theorem tfimVecs_eq : ∀ k < 4, tfimH *ᵥ tableVec (tfimVecs.getD k []) = tableVec (tfimVecs.getD (k + 1) []) := by
  intro k hk
  interval_cases k
  · exact vec_eq_of_all (by decide +kernel)
  · exact vec_eq_of_all (by decide +kernel)
  · exact vec_eq_of_all (by decide +kernel)
  · exact vec_eq_of_all (by decide +kernel)

theorem tfim_mulVec (u : Fin (2 ^ 4) → ℤ) : totalObs (tfimGates 4 (by omega)) *ᵥ (fun i => (u i : ℂ)) = fun i => ((tfimH *ᵥ u) i : ℂ) := by
  rw [tfim_total]
  funext i
  simp [Matrix.mulVec, dotProduct]

/-- The smallest eigenvalue of the chain of four spins. -/
theorem C113_eigenvalue : IsEigenvalue (totalObs (tfimGates 4 (by omega))) (-Real.sqrt (16 + 8 * Real.sqrt 2)) ∧
    ∀ μ, IsEigenvalue (totalObs (tfimGates 4 (by omega))) μ → -Real.sqrt (16 + 8 * Real.sqrt 2) ≤ μ := by
  have h2 : Real.sqrt 2 ^ 2 = 2 := Real.sq_sqrt (by norm_num)
  have h0 : 0 ≤ Real.sqrt 2 := Real.sqrt_nonneg 2
  have hs : 0 < Real.sqrt 2 := by positivity
  have hE : Real.sqrt (16 + 8 * Real.sqrt 2) ^ 2 = 16 + 8 * Real.sqrt 2 := Real.sq_sqrt (by positivity)
  have hE0 : 0 < Real.sqrt (16 + 8 * Real.sqrt 2) := Real.sqrt_pos.2 (by positivity)
  constructor
  · generalize Real.sqrt (16 + 8 * Real.sqrt 2) = E at hE hE0
    generalize Real.sqrt 2 = r at *
    have e : ∀ k < 4, totalObs (tfimGates 4 (by omega)) *ᵥ (fun i => (tableVec (tfimVecs.getD k []) i : ℂ)) = fun i => (tableVec (tfimVecs.getD (k + 1) []) i : ℂ) := by
      intro k hk
      rw [tfim_mulVec, tfimVecs_eq k hk]
    have hrel : ∀ i, (tableVec (tfimVecs.getD 4 []) i : ℂ) = 32 * (tableVec (tfimVecs.getD 2 []) i : ℂ) - 128 * (tableVec (tfimVecs.getD 0 []) i : ℂ) := by
      intro i
      have : tableVec (tfimVecs.getD 4 []) = fun i => 32 * tableVec (tfimVecs.getD 2 []) i - 128 * tableVec (tfimVecs.getD 0 []) i := vec_eq_of_all (by decide +kernel)
      rw [this]
      push_cast
      ring
    have v0 : tableVec (tfimVecs.getD 0 []) 5 = 1 := by decide
    have v1 : tableVec (tfimVecs.getD 1 []) 5 = 0 := by decide
    have v2 : tableVec (tfimVecs.getD 2 []) 5 = 16 := by decide
    have v3 : tableVec (tfimVecs.getD 3 []) 5 = 0 := by decide
    have e0 := e 0 (by omega)
    have e1 := e 1 (by omega)
    have e2 := e 2 (by omega)
    have e3 := e 3 (by omega)
    simp only [zero_add, Nat.reduceAdd] at e0 e1 e2 e3
    generalize tableVec (tfimVecs.getD 0 []) = w0 at *
    generalize tableVec (tfimVecs.getD 1 []) = w1 at *
    generalize tableVec (tfimVecs.getD 2 []) = w2 at *
    generalize tableVec (tfimVecs.getD 3 []) = w3 at *
    generalize tableVec (tfimVecs.getD 4 []) = w4 at *
    have hEc : (E : ℂ) ^ 2 = 16 + 8 * (r : ℂ) := by exact_mod_cast congrArg (Complex.ofReal) hE
    have h2c : (r : ℂ) ^ 2 = 2 := by exact_mod_cast congrArg (Complex.ofReal) h2
    refine ⟨(fun i => (w3 i : ℂ)) - (E : ℂ) • (fun i => (w2 i : ℂ)) - (16 - 8 * (r : ℂ)) • (fun i => (w1 i : ℂ)) + ((16 - 8 * (r : ℂ)) * E) • (fun i => (w0 i : ℂ)), ?_, ?_⟩
    · intro hc
      have := congrFun hc 5
      simp only [Pi.add_apply, Pi.sub_apply, Pi.smul_apply, v0, v1, v2, v3, smul_eq_mul, Pi.zero_apply] at this
      have h8 : -(8 * (r : ℂ) * E) = 0 := by
        rw [← this]
        push_cast
        ring
      have h9 : 8 * r * E = 0 := by exact_mod_cast neg_eq_zero.1 h8
      have : 0 < 8 * r * E := by positivity
      linarith
    · rw [Matrix.mulVec_add, Matrix.mulVec_sub, Matrix.mulVec_sub, Matrix.mulVec_smul, Matrix.mulVec_smul, Matrix.mulVec_smul, e0, e1, e2, e3]
      funext i
      simp only [Pi.add_apply, Pi.sub_apply, Pi.smul_apply, smul_eq_mul, hrel i, Complex.ofReal_neg]
      linear_combination (-(w2 i : ℂ) + (16 - 8 * (r : ℂ)) * (w0 i : ℂ)) * hEc - 64 * (w0 i : ℂ) * h2c
  · intro μ hμ
    have hy : μ ^ 2 ≤ 16 + 8 * Real.sqrt 2 := by
      have key : ∀ y : ℝ, y ^ 2 = 128 → y ≤ 8 * Real.sqrt 2 := fun y hy => by
        refine (abs_le.1 (abs_le_of_sq_le_sq ?_ (by positivity))).2
        rw [mul_pow, h2, hy]
        norm_num
      rcases tfim_roots hμ with h | h | h | h
      · rw [h]; positivity
      · rw [h]; linarith
      · have := key _ h; linarith
      · have := key _ h; linarith
    refine (abs_le.1 (abs_le_of_sq_le_sq ?_ hE0.le)).1
    rw [hE]
    exact hy

/-- C113: the number drawn as the minimum (tfim_su4_adapt_vqe.py:50-52, 57-58) is the smallest eigenvalue up to `5e-15`. -/
theorem C113_drawn : |(-5.226251859505502 : ℝ) - -Real.sqrt (16 + 8 * Real.sqrt 2)| ≤ 5e-15 := by
  have l2 : (1.41421356237309504 : ℝ) ≤ Real.sqrt 2 := Real.le_sqrt_of_sq_le (by norm_num)
  have u2 : Real.sqrt 2 ≤ 1.41421356237309505 := Real.sqrt_le_iff.2 ⟨by norm_num, by norm_num⟩
  have l : (5.226251859505506 : ℝ) ≤ Real.sqrt (16 + 8 * Real.sqrt 2) := Real.le_sqrt_of_sq_le (by nlinarith)
  have u : Real.sqrt (16 + 8 * Real.sqrt 2) ≤ 5.226251859505507 := Real.sqrt_le_iff.2 ⟨by norm_num, by nlinarith⟩
  rw [abs_le]
  constructor <;> linarith

/-- C113 (runs): whatever layers are used, no cost reported for the chain of four spins lies below the drawn line by more than `5e-15`, and a step that
reports the smallest eigenvalue has reached a ground state. -/
theorem C113_run {m : ℕ} (E : LayerEnv 4) (hsvd : ValidSvd E.svd) (eigh : EighFn 4) (he : ValidEigh eigh) (rnd : ℕ → Matrix (Fin (2 ^ 4)) (Fin (2 ^ 4)) ℝ) (params : List (List ℝ))
    (objs : Fin m → AnyLayer 4) (hF : ∀ i, Fresh (objs i)) (layers : List (Fin m)) (args : ApproxArgs) (out : OptOut (ApproxItem 4) × (Fin m → AnyLayer 4))
    (h : approximateLieOptimizer E eigh rnd .state (tfimCircuit 4) params (tfimObservables 4) objs layers args = .ok out) :
    ∃ H, getHamiltonianMatrix 4 (tfimObservables 4) none = .ok H ∧ IsEigenvalue H (-Real.sqrt (16 + 8 * Real.sqrt 2)) ∧ approxCosts out.1 ≠ [] ∧
      (∀ c ∈ approxCosts out.1, -5.226251859505502 - 5e-15 ≤ c) ∧
      (args.returnState = .bool true → ∃ l, approxStates out.1 = some l ∧ ∀ (k : ℕ) (φ : Ket 4), (approxCosts out.1)[k]? = some (-Real.sqrt (16 + 8 * Real.sqrt 2)) →
        l[k]? = some φ → H *ᵥ φ = ((-Real.sqrt (16 + 8 * Real.sqrt 2) : ℝ) : ℂ) • φ) := by
  rw [tfimGates_obs (by omega), tfimOps_eq] at h
  have hcs : ∀ g ∈ tfimOps 4, g.Aᴴ * g.A = 1 := by
    intro g hg
    obtain ⟨i, -, rfl⟩ := List.mem_map.1 hg
    exact hadamard_unitary
  have hgs : ∀ g ∈ tfimGates 4 (by omega), g.Aᴴ = g.A := by
    intro g hg
    rw [tfimGates, List.mem_append, List.mem_append, List.mem_map, List.mem_map, List.mem_singleton] at hg
    rcases hg with (⟨i, -, rfl⟩ | ⟨i, -, rfl⟩) | rfl <;> exact pauliWord_herm _
  obtain ⟨H, h1, h2, h3, h4⟩ := C73_approx (by omega) E hsvd eigh he rnd .state (tfimOps 4) hcs params (tfimGates 4 (by omega)) hgs objs hF layers args out h
  obtain rfl : totalObs (tfimGates 4 (by omega)) = H := Except.ok.inj ((C08_hamiltonian_default 4 _).symm.trans h1)
  rw [← tfimGates_obs] at h1
  obtain ⟨e1, e2⟩ := C113_eigenvalue
  have hd := abs_le.1 C113_drawn
  refine ⟨_, h1, e1, h2, fun c hc => ?_, fun hr => ?_⟩
  · obtain ⟨⟨μ, hμ, hle⟩, -⟩ := h3 c hc
    have := e2 μ hμ
    linarith [hd.1, hd.2]
  · obtain ⟨l, l1, -, l3⟩ := h4 hr
    exact ⟨l, l1, fun k φ hk hφ => l3 k _ φ hk hφ e2⟩

/-- Runs exist: the squared layer of tfim_su4_linesearch.py with its arguments. -/
example (rnd : ℕ → Matrix (Fin (2 ^ 4)) (Fin (2 ^ 4)) ℝ) : ∃ (E : LayerEnv 4) (eigh : EighFn 4) (L : AnyLayer 4), ValidSvd E.svd ∧ ValidEigh eigh ∧ Fresh L ∧
    ∃ out, approximateLieOptimizer E eigh rnd .state (tfimCircuit 4) [] (tfimObservables 4) (fun _ : Fin 1 => L) [0]
      { nsteps := .int 50, eta := .float 0.1, tol := some (.float 1e-6), returnUnitary := .bool true } = .ok out := by
  obtain ⟨svd, hsvd⟩ := exists_validSvd 4
  obtain ⟨eigh, heigh⟩ := exists_validEigh 4
  obtain ⟨L, hL⟩ := squaredLayer_default (tfimGates 4 (by omega))
  let E : LayerEnv 4 := ⟨svd, ⟨List.reverse, List.reverse_perm⟩, fun _ _ p => .ok p⟩
  have hE : ValidSvd E.svd := hsvd
  have hF : Fresh (.squared L) := .squared _ {} L hL
  rw [← tfimGates_obs] at hL
  obtain ⟨out, l, hout, -⟩ := C112_run (n := 4) (by omega) E hE eigh rnd [] (.squared L) (.squared {} L hL)
    { nsteps := .int 50, eta := .float 0.1, tol := some (.float 1e-6), returnUnitary := .bool true } rfl rfl rfl
    ⟨50, _, _, _, approxValid_of 50 (by omega) (some (.float 1e-6)) (some (.fin 1e-6)) ⟨rfl, by norm_num⟩ ⟨false, false, true, false, false, false, false⟩⟩
  exact ⟨E, eigh, .squared L, hE, heigh, hF, out, hout⟩

end Oranssi
