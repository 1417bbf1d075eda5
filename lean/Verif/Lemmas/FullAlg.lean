import Verif.Lemmas.Tensor
import Verif.Lemmas.FullOperator

/-! Algebra of `Spec.full`, transported from `embed`. -/

namespace Oranssi
open Spec
open scoped Matrix

section
variable {n k : ℕ} {ws : List ℕ}

theorem full_mul (hk : ws.length = k) (hv : ValidWires n ws) (A B : QMat k) :
    full n ws (A * B) = full n ws A * full n ws B := by
  apply (toT n).injective
  rw [map_mul, toT_full ws hk hv.2, toT_full ws hk hv.2, toT_full ws hk hv.2, map_mul,
    embed_mul (wireFn_injective hv.1)]

theorem full_one (hk : ws.length = k) (hv : ValidWires n ws) : full n ws (1 : QMat k) = 1 := by
  apply (toT n).injective
  rw [toT_full ws hk hv.2, map_one, map_one, embed_one (wireFn_injective hv.1)]

theorem full_add (A B : QMat k) : full n ws (A + B) = full n ws A + full n ws B := by
  ext r c; simp only [full, ent, Matrix.add_apply]; split <;> [split; skip] <;> simp

theorem full_smul (z : ℂ) (A : QMat k) : full n ws (z • A) = z • full n ws A := by
  ext r c; simp only [full, ent, Matrix.smul_apply]; split <;> [split; skip] <;> simp

theorem full_zero : full n ws (0 : QMat k) = 0 := by
  ext r c; simp [full, ent]

theorem full_neg (A : QMat k) : full n ws (-A) = -full n ws A := by
  rw [← neg_one_smul ℂ, full_smul, neg_one_smul]

theorem full_sub (A B : QMat k) : full n ws (A - B) = full n ws A - full n ws B := by
  rw [sub_eq_add_neg, full_add, full_neg, sub_eq_add_neg]

theorem full_conjTranspose (hk : ws.length = k) (hlt : ∀ w ∈ ws, w < n) (A : QMat k) :
    full n ws Aᴴ = (full n ws A)ᴴ := by
  apply (toT n).injective
  rw [toT_full ws hk hlt, toT_conjTranspose, embed_conjTranspose, toT_conjTranspose, toT_full ws hk hlt]

theorem full_injective (hk : ws.length = k) (hv : ValidWires n ws) :
    Function.Injective (full n ws : QMat k → QMat n) := by
  intro A B h
  have h' := congrArg (toT n) h
  rw [toT_full ws hk hv.2, toT_full ws hk hv.2] at h'
  exact (toT k).injective (embed_injective (wireFn_injective hv.1) h')

end

theorem full_comm_disjoint {n a b : ℕ} {ws vs : List ℕ} (ha : ws.length = a) (hb : vs.length = b)
    (hw : ValidWires n ws) (hv : ValidWires n vs) (hd : ∀ q ∈ ws, q ∉ vs) (A : QMat a) (B : QMat b) :
    full n ws A * full n vs B = full n vs B * full n ws A := by
  apply (toT n).injective
  rw [map_mul, map_mul, toT_full ws ha hw.2, toT_full vs hb hv.2]
  apply embed_comm_disjoint (wireFn_injective hw.1) (wireFn_injective hv.1)
  intro i j h
  have h' : ws[i]'(by omega) = vs[j]'(by omega) := congrArg Fin.val h
  have h1 : (i : ℕ) < ws.length := by omega
  have h2 : (j : ℕ) < vs.length := by omega
  exact hd _ (List.getElem_mem h1) (h' ▸ List.getElem_mem h2)

theorem full_kron {n a b : ℕ} {ws vs : List ℕ} (ha : ws.length = a) (hb : vs.length = b)
    (hwv : ValidWires n (ws ++ vs)) (A : QMat a) (B : QMat b) :
    full n (ws ++ vs) (kron A B) = full n ws A * full n vs B := by
  have hw : ValidWires n ws := ⟨(List.nodup_append.1 hwv.1).1, fun w h => hwv.2 w (List.mem_append_left _ h)⟩
  have hv : ValidWires n vs := ⟨(List.nodup_append.1 hwv.1).2.1, fun w h => hwv.2 w (List.mem_append_right _ h)⟩
  apply (toT n).injective
  rw [map_mul, toT_full ws ha hw.2, toT_full vs hb hv.2, toT_full (ws ++ vs) (by simp [ha, hb]) hwv.2, toT_kron,
    embed_mul_disjoint (wireFn_injective hw.1)]
  · congr 1
    funext i
    refine Fin.addCases (fun i => ?_) (fun j => ?_) i
    · apply Fin.ext; simp [wireFn, ha]
    · apply Fin.ext; simp [wireFn, ← ha]
  · intro i j h
    have h' : ws[i]'(by omega) = vs[j]'(by omega) := congrArg Fin.val h
    exact (List.nodup_append.1 hwv.1).2.2 _ (List.getElem_mem (by omega)) _ (List.getElem_mem (by omega)) h'

theorem full_range (n : ℕ) (A : QMat n) : full n (List.range n) A = A := by
  ext r c
  have h : ∀ i : Fin (2 ^ n), Spec.sub n i (List.range n) = i := by
    intro i
    rw [← ravel_map_bitF, ← bits_eq_map, ravel_bits_of_lt i.2]
  have hcond : ∀ q < n, q ∉ List.range n → bit n r q = bit n c q := fun q hq hn => absurd (List.mem_range.2 hq) hn
  simp only [full, if_pos hcond, h, ent, Fin.is_lt, and_self, dite_true]

theorem NpMat.ext' {A B : NpMat} (hr : A.rows = B.rows) (hc : A.cols = B.cols)
    (h : ∀ i j (h1 : i < A.rows) (h2 : j < A.cols), A.val ⟨i, h1⟩ ⟨j, h2⟩ = B.val ⟨i, hr ▸ h1⟩ ⟨j, hc ▸ h2⟩) : A = B := by
  obtain ⟨r, c, v⟩ := A
  obtain ⟨r', c', v'⟩ := B
  simp only at hr hc
  subst hr hc
  congr
  ext i j
  exact h i j i.2 j.2

/-- A register matrix as a numpy array. -/
def npQ {n : ℕ} (A : QMat n) : NpMat := ⟨2 ^ n, 2 ^ n, A⟩

theorem npKron_npQ {a b : ℕ} (A : QMat a) (B : QMat b) : npKron (npQ A) (npQ B) = npQ (kron A B) := by
  apply NpMat.ext' (by simp [npKron, npQ, pow_add]) (by simp [npKron, npQ, pow_add])
  intro i j h1 h2
  simp only [npKron, npQ] at h1 h2 ⊢
  have h3 : i / 2 ^ b < 2 ^ a := Nat.div_lt_of_lt_mul (by rw [Nat.mul_comm]; exact h1)
  have h4 : j / 2 ^ b < 2 ^ a := Nat.div_lt_of_lt_mul (by rw [Nat.mul_comm]; exact h2)
  have h5 : i % 2 ^ b < 2 ^ b := Nat.mod_lt _ (by positivity)
  have h6 : j % 2 ^ b < 2 ^ b := Nat.mod_lt _ (by positivity)
  simp only [kron, ent, h3, h4, h5, h6, and_self, dite_true]

/-- Result of the code on valid wires, in the form used everywhere else. -/
theorem getFullOperator_npQ {n k : ℕ} {ws : List ℕ} (hk : ws.length = k) (hne : ws ≠ []) (hv : ValidWires n ws)
    (A : QMat k) : getFullOperator (npQ A) (ws.map (Nat.cast : ℕ → ℤ)) n = .ok (full n ws A) :=
  getFullOperator_valid n k ws A hk hne hv.1 hv.2

end Oranssi
