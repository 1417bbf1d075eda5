import Mathlib.Data.Complex.Basic
import Mathlib.Data.Matrix.Mul
import Mathlib.Algebra.BigOperators.Group.Finset.Basic
import Mathlib.Data.Finset.Powerset
import Mathlib.Data.Nat.Log
import Verif.Model.Py

/-!
# The part of numpy the code relies on

`ndarray`s whose dimensions are all 2 are functions on multi-indices (lists of bits).  `reshape` keeps the flat
C-order data, so it is modelled through `ravel` / `bits`.
-/

namespace Oranssi

/-- C-order unravelling of the flat index `t` in an array of shape `[2]*d`: most significant bit first.
Models `ndarray.reshape([2]*d)` index arithmetic (used in circuit_tools.py:43-44). -/
def bits : (d : Nat) → (t : Nat) → List (Fin 2)
  | 0, _ => []
  | d + 1, t => ⟨t / 2 ^ d % 2, Nat.mod_lt _ (by decide)⟩ :: bits d t

/-- C-order flat index of a multi-index in an array of shape `[2]*l.length`. -/
def ravel : List (Fin 2) → Nat
  | [] => 0
  | b :: l => b * 2 ^ l.length + ravel l

/-- A two-dimensional complex numpy array with its shape. -/
structure NpMat where
  rows : Nat
  cols : Nat
  val : Matrix (Fin rows) (Fin cols) ℂ

/-- Element of the flattened (C-order) array: `op.ravel()[t]`. -/
def NpMat.flat (m : NpMat) (t : Nat) : ℂ :=
  if h : t / m.cols < m.rows ∧ t % m.cols < m.cols then m.val ⟨t / m.cols, h.1⟩ ⟨t % m.cols, h.2⟩ else 0

/-- A tensor all of whose dimensions are 2, as a function of the multi-index. -/
abbrev Tensor := List (Fin 2) → ℂ

/-- `m.reshape([2]*r)` where `r` is the required rank. `ValueError` when the sizes differ. -/
def NpMat.reshape2 (m : NpMat) (r : Nat) : Py Tensor :=
  if m.rows * m.cols = 2 ^ r then .ok (fun l => m.flat (ravel l)) else .error .value

/-- `T.reshape((2**n, 2**n))` for a tensor of rank `2*n`. -/
def Tensor.toMatrix (T : Tensor) (n : Nat) : Matrix (Fin (2 ^ n)) (Fin (2 ^ n)) ℂ :=
  fun r c => T (bits (2 * n) (r * 2 ^ n + c))

/-- The 0/1 value that the set `s` of "labels with value 1" gives to a label. -/
def labelVal (s : Finset Nat) (l : Nat) : Fin 2 := if l ∈ s then 1 else 0

/-- `np.einsum(A, ia, B, ib, io)` for tensors with dimensions 2: for every value of the output multi-index, sum
over all 0/1 assignments of the labels occurring in `ia` and `ib` that are compatible with the output.
numpy raises `ValueError` if an output label is repeated or does not occur in the inputs.
(numpy's limit of 52 labels / 32 dimensions is not modelled.) -/
def einsum2 (A : Tensor) (ia : List Nat) (B : Tensor) (ib : List Nat) (io : List Nat) : Py Tensor :=
  if io.Nodup ∧ (∀ l ∈ io, l ∈ ia ++ ib) then
    .ok (fun o => ∑ s ∈ (ia ++ ib).toFinset.powerset,
      if io.map (labelVal s) = o then A (ia.map (labelVal s)) * B (ib.map (labelVal s)) else 0)
  else .error .value

/-- `np.eye(2**n)` as an array with shape. -/
def npEye (n : Nat) : NpMat := ⟨2 ^ n, 2 ^ n, 1⟩

/-- `np.kron(A, B)` of 2-D arrays. -/
def npKron (A B : NpMat) : NpMat where
  rows := A.rows * B.rows
  cols := A.cols * B.cols
  val := fun i j =>
    A.val ⟨i / B.rows, Nat.div_lt_of_lt_mul (lt_of_lt_of_eq i.2 (Nat.mul_comm _ _))⟩
        ⟨j / B.cols, Nat.div_lt_of_lt_mul (lt_of_lt_of_eq j.2 (Nat.mul_comm _ _))⟩ *
    B.val ⟨i % B.rows, Nat.mod_lt _ (Nat.pos_of_ne_zero (by rintro h; have := i.2; simp [h] at this))⟩
        ⟨j % B.cols, Nat.mod_lt _ (Nat.pos_of_ne_zero (by rintro h; have := j.2; simp [h] at this))⟩

/-- `int(np.log2(m))`: numpy gives `-inf` for 0 and `int` raises `OverflowError`; otherwise the floor.
(`np.log2` is exact on powers of two; rounding for huge non-powers is not modelled.) -/
def intLog2 (m : Nat) : Py Nat := if m = 0 then .error .overflow else .ok (Nat.log 2 m)

end Oranssi
