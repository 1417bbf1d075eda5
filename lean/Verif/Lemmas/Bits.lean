import Mathlib.Tactic.Ring
import Mathlib.Tactic.Linarith
import Mathlib.Data.Fintype.Pi
import Mathlib.Data.List.OfFn
import Verif.Model.Numpy
import Verif.Spec.Qubits

namespace Oranssi

@[simp] theorem length_bits (d t : ℕ) : (bits d t).length = d := by
  induction d with
  | zero => rfl
  | succ d ih => simp [bits, ih]

theorem ravel_lt (l : List (Fin 2)) : ravel l < 2 ^ l.length := by
  induction l with
  | nil => simp [ravel]
  | cons b l ih =>
    have hb : (b : ℕ) ≤ 1 := by omega
    have : (b : ℕ) * 2 ^ l.length ≤ 1 * 2 ^ l.length := Nat.mul_le_mul_right _ hb
    simp only [ravel, List.length_cons, pow_succ]
    omega

theorem bits_mod (d t : ℕ) : bits d (t % 2 ^ d) = bits d t := by
  suffices h : ∀ e, e ≤ d → bits e (t % 2 ^ d) = bits e t from h d le_rfl
  intro e
  induction e with
  | zero => intro _; rfl
  | succ e ih =>
    intro he
    simp only [bits, ih (by omega), List.cons.injEq, and_true, Fin.mk.injEq]
    have : 2 ^ d = 2 ^ e * (2 * 2 ^ (d - e - 1)) := by
      rw [← pow_succ', ← pow_add]; congr 1; omega
    rw [this, Nat.mod_mul_right_div_self, Nat.mod_mul_right_mod]

theorem ravel_bits (d t : ℕ) : ravel (bits d t) = t % 2 ^ d := by
  induction d with
  | zero => simp [bits, ravel, Nat.mod_one]
  | succ d ih =>
    simp only [bits, ravel, length_bits, ih]
    rw [pow_succ, Nat.mod_mul]
    ring

theorem ravel_bits_of_lt {d t : ℕ} (h : t < 2 ^ d) : ravel (bits d t) = t := by
  rw [ravel_bits, Nat.mod_eq_of_lt h]

theorem bits_add_mul (d t a : ℕ) : bits d (a * 2 ^ d + t) = bits d t := by
  rw [← bits_mod, Nat.mul_comm, Nat.mul_add_mod, bits_mod]

theorem bits_ravel (l : List (Fin 2)) : bits l.length (ravel l) = l := by
  induction l with
  | nil => rfl
  | cons b l ih =>
    simp only [List.length_cons, bits, ravel, List.cons.injEq]
    constructor
    · apply Fin.ext
      simp only
      rw [Nat.add_comm, Nat.mul_comm, Nat.add_mul_div_left _ _ (by positivity),
        Nat.div_eq_of_lt (ravel_lt l)]
      omega
    · rw [bits_add_mul, ih]

theorem bits_append (a b x y : ℕ) (hy : y < 2 ^ b) : bits (a + b) (x * 2 ^ b + y) = bits a x ++ bits b y := by
  induction a with
  | zero => simp only [Nat.zero_add, bits, List.nil_append, bits_add_mul]
  | succ a ih =>
    rw [Nat.add_right_comm]
    simp only [bits, ih, List.cons_append, List.cons.injEq, and_true, Fin.mk.injEq]
    rw [Nat.add_comm a b, pow_add, ← Nat.div_div_eq_div_mul, Nat.mul_comm x, Nat.mul_add_div (by positivity),
      Nat.div_eq_of_lt hy, Nat.add_zero]

theorem ravel_append (l m : List (Fin 2)) : ravel (l ++ m) = ravel l * 2 ^ m.length + ravel m := by
  induction l with
  | nil => simp [ravel]
  | cons b l ih => simp only [List.cons_append, ravel, ih, List.length_append, pow_add]; ring

theorem getElem_bits (d t q : ℕ) (h : q < (bits d t).length) : ((bits d t)[q] : ℕ) = Spec.bit d t q := by
  induction d generalizing q with
  | zero => simp at h
  | succ d ih =>
    cases q with
    | zero => simp [bits, Spec.bit]
    | succ q =>
      simp only [bits, List.getElem_cons_succ]
      rw [ih]
      simp only [Spec.bit]
      congr 3
      omega

theorem sub_eq_ravel (n i : ℕ) (ws : List ℕ) (f : ℕ → Fin 2) (hf : ∀ w ∈ ws, (f w : ℕ) = Spec.bit n i w) :
    ravel (ws.map f) = Spec.sub n i ws := by
  have key : ∀ (ws : List ℕ) (acc : ℕ), (∀ w ∈ ws, (f w : ℕ) = Spec.bit n i w) →
      ws.foldl (fun acc w => 2 * acc + Spec.bit n i w) acc = acc * 2 ^ ws.length + ravel (ws.map f) := by
    intro ws
    induction ws with
    | nil => intro acc _; simp [ravel]
    | cons w ws ih =>
      intro acc h
      simp only [List.foldl_cons, List.map_cons, ravel, List.length_cons, List.length_map]
      rw [ih _ (fun v hv => h v (List.mem_cons_of_mem _ hv)), h w List.mem_cons_self]
      ring
  rw [Spec.sub, key ws 0 hf]; simp

theorem bit_lt_two (n i q : ℕ) : Spec.bit n i q < 2 := Nat.mod_lt _ (by decide)

/-- bit value as an element of `Fin 2` -/
def bitF (n i q : ℕ) : Fin 2 := ⟨Spec.bit n i q, bit_lt_two n i q⟩

theorem ravel_map_bitF (n i : ℕ) (ws : List ℕ) : ravel (ws.map (bitF n i)) = Spec.sub n i ws :=
  sub_eq_ravel n i ws _ (fun _ _ => rfl)

theorem sub_lt (n i : ℕ) (ws : List ℕ) : Spec.sub n i ws < 2 ^ ws.length := by
  rw [← ravel_map_bitF]
  simpa using ravel_lt (ws.map (bitF n i))

theorem bits_eq_map (d t : ℕ) : bits d t = (List.range d).map (bitF d t) := by
  apply List.ext_getElem (by simp)
  intro q h1 h2
  apply Fin.ext
  rw [getElem_bits]; simp [bitF]

/-- Basis-state numbers and assignments of bits to qubits (qubit 0 most significant). -/
def bitsEquiv (n : ℕ) : Fin (2 ^ n) ≃ (Fin n → Fin 2) where
  toFun i q := bitF n i q
  invFun f := ⟨ravel (List.ofFn f), by simpa using ravel_lt (List.ofFn f)⟩
  left_inv i := by
    apply Fin.ext
    have : List.ofFn (fun q : Fin n => bitF n i q) = bits n i := by
      rw [bits_eq_map]; apply List.ext_getElem (by simp); intro q h1 h2; simp
    simp only [this, ravel_bits_of_lt i.2]
  right_inv f := by
    funext q
    apply Fin.ext
    have h := getElem_bits n (ravel (List.ofFn f)) q (by simp)
    have h2 : bits n (ravel (List.ofFn f)) = List.ofFn f := by
      have := bits_ravel (List.ofFn f); simpa using this
    simp only [bitF]
    rw [← h]
    simp [h2]

@[simp] theorem bitsEquiv_apply_val (n : ℕ) (i : Fin (2 ^ n)) (q : Fin n) :
    ((bitsEquiv n i q : Fin 2) : ℕ) = Spec.bit n i q := rfl

theorem bitsEquiv_apply (n : ℕ) (i : Fin (2 ^ n)) (q : Fin n) : bitsEquiv n i q = bitF n i q := rfl

end Oranssi
