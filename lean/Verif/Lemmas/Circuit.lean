import Mathlib.Algebra.BigOperators.Fin
import Verif.Lemmas.FullAlg
import Verif.Spec.Circuit
import Verif.Model.CircuitTools

namespace Oranssi
open Spec
open scoped Matrix

theorem ravel_ofFn_sum {n : ℕ} (f : Fin n → Fin 2) : ravel (List.ofFn f) = ∑ q : Fin n, (f q : ℕ) * 2 ^ (n - 1 - q) := by
  induction n with
  | zero => simp [ravel]
  | succ n ih =>
    rw [List.ofFn_succ, ravel, ih, Fin.sum_univ_succ]
    simp only [List.length_ofFn, Fin.val_zero, Nat.sub_zero, Nat.add_sub_cancel, Fin.val_succ]
    congr 1
    apply Finset.sum_congr rfl
    intro q _
    congr 2
    omega

theorem put_eq {n : ℕ} (ws : List ℕ) (hlt : ∀ w ∈ ws, w < n) (r : Fin (2 ^ n))
    (x : Fin (2 ^ ws.length)) (hnd : ws.Nodup) :
    put n ws r x = ((bitsEquiv n).symm (Function.extend (wireFn ws ws.length rfl hlt) (bitsEquiv ws.length x)
      (bitsEquiv n r)) : ℕ) := by
  rw [bitsEquiv_symm_val, ravel_ofFn_sum, put, ← Fin.sum_univ_eq_sum_range
    (fun q => (if q ∈ ws then bit ws.length x (ws.idxOf q) else bit n r q) * 2 ^ (n - 1 - q))]
  apply Finset.sum_congr rfl
  intro q _
  congr 1
  by_cases hq : (q : ℕ) ∈ ws
  · rw [if_pos hq]
    have hi : ws.idxOf (q : ℕ) < ws.length := List.idxOf_lt_length_iff.2 hq
    have hq' : q = wireFn ws ws.length rfl hlt ⟨ws.idxOf (q : ℕ), hi⟩ := by
      apply Fin.ext; simp [wireFn]
    conv_rhs => rw [hq']
    rw [(wireFn_injective hnd).extend_apply]
    rfl
  · rw [if_neg hq, Function.extend_apply']
    · rfl
    · rintro ⟨i, hi⟩
      exact hq ((mem_wires_iff q).2 ⟨i, hi⟩)

theorem amp_val {n : ℕ} (v : Fin (2 ^ n) → ℂ) (i : Fin (2 ^ n)) : amp v i = v i := by
  simp [amp]

theorem full_mulVec {n : ℕ} (g : Gate n) (v : Fin (2 ^ n) → ℂ) (r : Fin (2 ^ n)) :
    (full n g.ws g.A *ᵥ v) r = g.apply v r := by
  set wf := wireFn g.ws g.ws.length rfl g.valid.2 with hwf
  have hinj : Function.Injective wf := wireFn_injective g.valid.1
  have h1 : (full n g.ws g.A *ᵥ v) r =
      ∑ m : Fin n → Fin 2, embed wf (toT _ g.A) (bitsEquiv n r) m * v ((bitsEquiv n).symm m) := by
    rw [Matrix.mulVec, dotProduct]
    refine Fintype.sum_equiv (bitsEquiv n) _ _ ?_
    intro c
    rw [← toT_full g.ws rfl g.valid.2, toT_apply]
    simp
  rw [h1, sum_off hinj (bitsEquiv n r)]
  · rw [Gate.apply, ← Fin.sum_univ_eq_sum_range
      (fun x => ent g.A (Spec.sub n r g.ws) x * amp v (put n g.ws r x))]
    refine Fintype.sum_equiv (bitsEquiv _).symm _ _ ?_
    intro x
    have hput := put_eq g.ws g.valid.2 r ((bitsEquiv _).symm x) g.valid.1
    rw [Equiv.apply_symm_apply] at hput
    rw [hput, amp_val]
    congr 1
    rw [embed, extend_comp hinj, if_pos (fun q hq => (extend_off _ _ _ hq).symm), toT_apply, ent,
      dif_pos ⟨sub_lt n r g.ws, Fin.is_lt _⟩]
    congr 1
    apply Fin.ext
    show _ = Spec.sub n r g.ws
    rw [bitsEquiv_symm_val, ← ravel_map_bitF]
    congr 1
    apply List.ext_getElem (by simp)
    intro i h1 h2
    simp [hwf, wireFn, bitsEquiv_apply]
  · intro m hm
    rw [embed, if_neg, zero_mul]
    intro h
    exact hm (fun q hq => (h q hq).symm)

/-- The gate's data as the code sees it. -/
def Spec.Gate.np {n : ℕ} (g : Gate n) : NpMat := npQ g.A

theorem getFullOperator_gate {n : ℕ} (g : Gate n) :
    getFullOperator g.np (g.ws.map (Nat.cast : ℕ → ℤ)) n = .ok (full n g.ws g.A) :=
  getFullOperator_npQ rfl g.ne g.valid g.A

theorem compileLoop_gates {n : ℕ} (gs : List (Gate n)) (U : QMat n) :
    compileLoop n (gs.map (fun g => (g.np, g.ws.map (Nat.cast : ℕ → ℤ)))) U =
      .ok (gs.foldl (fun U g => full n g.ws g.A * U) U) := by
  induction gs generalizing U with
  | nil => rfl
  | cons g gs ih =>
    simp only [List.map_cons, compileLoop, getFullOperator_gate, bind, Except.bind, List.foldl_cons]
    exact ih _

theorem zip_map_map {α β γ : Type*} (l : List α) (f : α → β) (g : α → γ) :
    (l.map f).zip (l.map g) = l.map (fun a => (f a, g a)) := by
  rw [List.zip_map']

theorem compileCircuit_gates {n : ℕ} (gs : List (Gate n)) :
    compileCircuit n (gs.map Gate.np) (gs.map (fun g => g.ws.map (Nat.cast : ℕ → ℤ))) =
      .ok (gs.foldl (fun U g => full n g.ws g.A * U) 1) := by
  rw [compileCircuit, zip_map_map, compileLoop_gates]

theorem foldl_gates_mulVec {n : ℕ} (gs : List (Gate n)) (U : QMat n) (v : Fin (2 ^ n) → ℂ) :
    gs.foldl (fun U g => full n g.ws g.A * U) U *ᵥ v = gs.foldl (fun ψ g => g.apply ψ) (U *ᵥ v) := by
  induction gs generalizing U with
  | nil => rfl
  | cons g gs ih =>
    rw [List.foldl_cons, List.foldl_cons, ih, ← Matrix.mulVec_mulVec]
    congr 1
    funext r
    exact full_mulVec g (U *ᵥ v) r

theorem foldl_gates_unitary {n : ℕ} (gs : List (Gate n)) (hU : ∀ g ∈ gs, g.Aᴴ * g.A = 1) (U : QMat n) (h : Uᴴ * U = 1) :
    (gs.foldl (fun U g => full n g.ws g.A * U) U)ᴴ * gs.foldl (fun U g => full n g.ws g.A * U) U = 1 := by
  induction gs generalizing U with
  | nil => exact h
  | cons g gs ih =>
    rw [List.foldl_cons]
    apply ih (fun g' hg' => hU g' (List.mem_cons_of_mem _ hg'))
    rw [Matrix.conjTranspose_mul, Matrix.mul_assoc, ← Matrix.mul_assoc (full n g.ws g.A)ᴴ,
      ← full_conjTranspose rfl g.valid.2, ← full_mul rfl g.valid, hU g List.mem_cons_self, full_one rfl g.valid,
      Matrix.one_mul, h]

end Oranssi
