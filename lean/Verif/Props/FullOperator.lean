import Mathlib.LinearAlgebra.Matrix.Notation
import Mathlib.Tactic.NormNum
import Mathlib.LinearAlgebra.Matrix.Hermitian
import Verif.Lemmas.FullAlg

/-! # C01 – C05: `get_full_operator` -/

namespace Oranssi
open Spec
open scoped Matrix

/-- C01.  For distinct in-range wires the code returns exactly the operator acting as `A` on those wires. -/
theorem C01_full_operator_entries (n k : ℕ) (ws : List ℕ) (A : QMat k) (hk : ws.length = k) (hk0 : 0 < k)
    (hnd : ws.Nodup) (hlt : ∀ w ∈ ws, w < n) :
    ∃ M : QMat n, getFullOperator ⟨2 ^ k, 2 ^ k, A⟩ (ws.map (Nat.cast : ℕ → ℤ)) n = .ok M ∧
      ∀ r c : Fin (2 ^ n), M r c =
        if ∀ q < n, q ∉ ws → bit n r q = bit n c q then ent A (Spec.sub n r ws) (Spec.sub n c ws) else 0 :=
  ⟨full n ws A, getFullOperator_valid n k ws A hk (by rintro rfl; simp at hk; omega) hnd hlt, fun _ _ => rfl⟩

/-- Pauli X as a 1-qubit register matrix (used in examples). -/
def exX : QMat 1 := fun i j => if i = j then 0 else 1

/-- Non-trivial instance of C01: X on the middle one of three qubits flips bit 1 of `|010⟩ = 2` to `|000⟩ = 0`. -/
example : ∃ M : QMat 3, getFullOperator ⟨2 ^ 1, 2 ^ 1, exX⟩ [1] 3 = .ok M ∧ M 0 2 = 1 ∧ M 0 1 = 0 := by
  obtain ⟨M, h, hM⟩ := C01_full_operator_entries 3 1 [1] exX rfl (by decide) (by decide) (by decide)
  refine ⟨M, h, ?_, ?_⟩
  · rw [hM, if_pos (by decide)]; simp [ent, Spec.sub, bit, exX]
  · rw [hM, if_neg (by decide)]

/-- C02.  On fixed valid wires the code never raises and is an injective unital *-homomorphism. -/
theorem C02_full_operator_star_hom (n k : ℕ) (ws : List ℕ) (hk : ws.length = k) (hk0 : 0 < k) (hv : ValidWires n ws) :
    ∃ F : QMat k → QMat n,
      (∀ A, getFullOperator ⟨2 ^ k, 2 ^ k, A⟩ (ws.map (Nat.cast : ℕ → ℤ)) n = .ok (F A)) ∧
      F 1 = 1 ∧ (∀ A B, F (A * B) = F A * F B) ∧ (∀ A B, F (A + B) = F A + F B) ∧
      (∀ (z : ℂ) A, F (z • A) = z • F A) ∧ (∀ A, F Aᴴ = (F A)ᴴ) ∧ Function.Injective F ∧
      (∀ A, Aᴴ * A = 1 ↔ (F A)ᴴ * F A = 1) ∧ (∀ A, A.IsHermitian ↔ (F A).IsHermitian) := by
  have hne : ws ≠ [] := by rintro rfl; simp at hk; omega
  refine ⟨full n ws, fun A => getFullOperator_npQ hk hne hv A, full_one hk hv, full_mul hk hv, full_add, full_smul,
    full_conjTranspose hk hv.2, full_injective hk hv, fun A => ?_, fun A => ?_⟩
  · rw [← full_conjTranspose hk hv.2, ← full_mul hk hv, ← full_one hk hv, (full_injective hk hv).eq_iff]
  · rw [Matrix.IsHermitian, Matrix.IsHermitian, ← full_conjTranspose hk hv.2, (full_injective hk hv).eq_iff]

example : ValidWires 3 [2, 0] := ⟨by decide, by decide⟩

/-- C03.  Operators promoted from disjoint wires commute. -/
theorem C03_disjoint_wires_commute (n a b : ℕ) (ws vs : List ℕ) (A : QMat a) (B : QMat b) (ha : ws.length = a)
    (hb : vs.length = b) (ha0 : 0 < a) (hb0 : 0 < b) (hw : ValidWires n ws) (hv : ValidWires n vs)
    (hd : ∀ q ∈ ws, q ∉ vs) :
    ∃ M N : QMat n, getFullOperator ⟨2 ^ a, 2 ^ a, A⟩ (ws.map (Nat.cast : ℕ → ℤ)) n = .ok M ∧
      getFullOperator ⟨2 ^ b, 2 ^ b, B⟩ (vs.map (Nat.cast : ℕ → ℤ)) n = .ok N ∧ M * N = N * M :=
  ⟨full n ws A, full n vs B, getFullOperator_npQ ha (by rintro rfl; simp at ha; omega) hw A,
    getFullOperator_npQ hb (by rintro rfl; simp at hb; omega) hv B, full_comm_disjoint ha hb hw hv hd A B⟩

example : ValidWires 3 [2, 0] ∧ ValidWires 3 [1] ∧ ∀ q ∈ [2, 0], q ∉ [1] :=
  ⟨⟨by decide, by decide⟩, ⟨by decide, by decide⟩, by decide⟩

/-- C04, first part.  Promoting `np.kron(A, B)` on `ws + vs` is the product of the two promotions. -/
theorem C04_kron_product (n a b : ℕ) (ws vs : List ℕ) (A : QMat a) (B : QMat b) (ha : ws.length = a)
    (hb : vs.length = b) (ha0 : 0 < a) (hb0 : 0 < b) (hwv : ValidWires n (ws ++ vs)) :
    ∃ M N : QMat n, getFullOperator ⟨2 ^ a, 2 ^ a, A⟩ (ws.map (Nat.cast : ℕ → ℤ)) n = .ok M ∧
      getFullOperator ⟨2 ^ b, 2 ^ b, B⟩ (vs.map (Nat.cast : ℕ → ℤ)) n = .ok N ∧
      getFullOperator (npKron ⟨2 ^ a, 2 ^ a, A⟩ ⟨2 ^ b, 2 ^ b, B⟩) ((ws ++ vs).map (Nat.cast : ℕ → ℤ)) n =
        .ok (M * N) := by
  have hw : ValidWires n ws := ⟨(List.nodup_append.1 hwv.1).1, fun w h => hwv.2 w (List.mem_append_left _ h)⟩
  have hv : ValidWires n vs := ⟨(List.nodup_append.1 hwv.1).2.1, fun w h => hwv.2 w (List.mem_append_right _ h)⟩
  have hne : ws ≠ [] := by rintro rfl; simp at ha; omega
  refine ⟨full n ws A, full n vs B, getFullOperator_npQ ha hne hw A,
    getFullOperator_npQ hb (by rintro rfl; simp at hb; omega) hv B, ?_⟩
  rw [← full_kron ha hb hwv]
  have := npKron_npQ A B
  simp only [npQ] at this
  rw [this]
  exact getFullOperator_npQ (by simp [ha, hb]) (by simp [hne]) hwv _

/-- C04, second part.  Promoting on all wires in order returns the matrix itself. -/
theorem C04_all_wires_identity (n : ℕ) (hn : 0 < n) (A : QMat n) :
    getFullOperator ⟨2 ^ n, 2 ^ n, A⟩ ((List.range n).map (Nat.cast : ℕ → ℤ)) n = .ok A := by
  have h := getFullOperator_npQ (n := n) (k := n) (ws := List.range n) (by simp) (by simp; omega)
    ⟨List.nodup_range, fun w h => List.mem_range.1 h⟩ A
  rw [full_range] at h
  exact h

example : ValidWires 4 ([3, 1] ++ [0]) := ⟨by decide, by decide⟩

end Oranssi
