import Mathlib.Data.Matrix.Basic
import Mathlib.LinearAlgebra.Matrix.Reindex
import Mathlib.LinearAlgebra.Matrix.Trace
import Mathlib.Logic.Function.Basic
import Verif.Lemmas.Bits

/-! Matrices indexed by bit assignments and the embedding of a local operator. -/

namespace Oranssi
open Spec
open scoped Matrix

/-- Register matrices indexed by bit assignments. -/
abbrev TMat (n : ℕ) := Matrix (Fin n → Fin 2) (Fin n → Fin 2) ℂ

/-- Re-indexing by bit assignments is an algebra isomorphism. -/
def toT (n : ℕ) : QMat n ≃ₐ[ℂ] TMat n := Matrix.reindexAlgEquiv ℂ ℂ (bitsEquiv n)

theorem toT_apply {n : ℕ} (A : QMat n) (r c : Fin n → Fin 2) :
    toT n A r c = A ((bitsEquiv n).symm r) ((bitsEquiv n).symm c) := rfl

theorem toT_conjTranspose {n : ℕ} (A : QMat n) : toT n Aᴴ = (toT n A)ᴴ := rfl

theorem toT_trace {n : ℕ} (A : QMat n) : (toT n A).trace = A.trace := by
  simp only [Matrix.trace, Matrix.diag]
  exact Fintype.sum_equiv (bitsEquiv n).symm _ _ (fun _ => rfl)

/-- Embedding of a local operator, on bit assignments. -/
def embed {k n : ℕ} (ws : Fin k → Fin n) (A : TMat k) : TMat n := fun r c =>
  if ∀ q, (∀ i, ws i ≠ q) → r q = c q then A (r ∘ ws) (c ∘ ws) else 0

section
variable {k n : ℕ} {ws : Fin k → Fin n}

theorem sum_off (hw : Function.Injective ws) (c : Fin n → Fin 2) (F : (Fin n → Fin 2) → ℂ)
    (h0 : ∀ m, (¬ ∀ q, (∀ i, ws i ≠ q) → m q = c q) → F m = 0) :
    ∑ m, F m = ∑ x : Fin k → Fin 2, F (Function.extend ws x c) := by
  symm
  apply Fintype.sum_of_injective (fun x : Fin k → Fin 2 => Function.extend ws x c)
  · intro x y h
    funext i
    have := congrFun h (ws i)
    simpa [hw.extend_apply] using this
  · intro m hm
    apply h0
    intro h
    apply hm
    refine ⟨m ∘ ws, ?_⟩
    funext q
    by_cases hq : ∃ i, ws i = q
    · obtain ⟨i, rfl⟩ := hq
      simp [hw.extend_apply]
    · simp only [Function.extend_apply' _ _ _ hq]
      exact (h q (fun i hi => hq ⟨i, hi⟩)).symm
  · intro i; rfl

theorem extend_off (x : Fin k → Fin 2) (c : Fin n → Fin 2) (q : Fin n) (h : ∀ i, ws i ≠ q) :
    Function.extend ws x c q = c q := Function.extend_apply' _ _ _ (by rintro ⟨i, hi⟩; exact h i hi)

theorem extend_comp (hw : Function.Injective ws) (x : Fin k → Fin 2) (c : Fin n → Fin 2) :
    Function.extend ws x c ∘ ws = x := by
  funext i; simp [hw.extend_apply]

theorem embed_mul (hw : Function.Injective ws) (A B : TMat k) : embed ws (A * B) = embed ws A * embed ws B := by
  ext r c
  rw [Matrix.mul_apply, sum_off hw c]
  · have h1 : ∀ x, embed ws A r (Function.extend ws x c) =
        if ∀ q, (∀ i, ws i ≠ q) → r q = c q then A (r ∘ ws) x else 0 := by
      intro x
      simp only [embed, extend_comp hw]
      congr 1
      rw [eq_iff_iff]
      constructor
      · intro h q hq; rw [h q hq, extend_off _ _ _ hq]
      · intro h q hq; rw [h q hq, extend_off _ _ _ hq]
    have h2 : ∀ x, embed ws B (Function.extend ws x c) c = B x (c ∘ ws) := by
      intro x
      simp only [embed, extend_comp hw]
      rw [if_pos]
      intro q hq; rw [extend_off _ _ _ hq]
    simp only [h1, h2]
    by_cases hc : ∀ q, (∀ i, ws i ≠ q) → r q = c q
    · simp only [if_pos hc, embed, Matrix.mul_apply]
    · simp [if_neg hc, embed]
  · intro m hm
    simp only [embed, if_neg hm, mul_zero]

theorem embed_one (_hw : Function.Injective ws) : embed ws (1 : TMat k) = 1 := by
  ext r c
  simp only [embed, Matrix.one_apply]
  by_cases h : r = c
  · subst h; simp
  · rw [if_neg h]
    split
    · next hc =>
      rw [if_neg]
      intro hcomp
      apply h
      funext q
      by_cases hq : ∃ i, ws i = q
      · obtain ⟨i, rfl⟩ := hq; exact congrFun hcomp i
      · exact hc q (fun i hi => hq ⟨i, hi⟩)
    · rfl

theorem embed_add (A B : TMat k) : embed ws (A + B) = embed ws A + embed ws B := by
  ext r c; simp only [embed, Matrix.add_apply]; split <;> simp

theorem embed_smul (z : ℂ) (A : TMat k) : embed ws (z • A) = z • embed ws A := by
  ext r c; simp only [embed, Matrix.smul_apply]; split <;> simp

theorem embed_conjTranspose (A : TMat k) : embed ws Aᴴ = (embed ws A)ᴴ := by
  ext r c
  simp only [embed, Matrix.conjTranspose_apply]
  by_cases h : ∀ q, (∀ i, ws i ≠ q) → r q = c q
  · rw [if_pos h, if_pos (fun q hq => (h q hq).symm)]
  · rw [if_neg h, if_neg (fun h' => h (fun q hq => (h' q hq).symm)), star_zero]

theorem embed_injective (hw : Function.Injective ws) : Function.Injective (embed ws) := by
  intro A B h
  ext x y
  have := congrFun (congrFun h (Function.extend ws x 0)) (Function.extend ws y 0)
  simp only [embed, extend_comp hw] at this
  rwa [if_pos, if_pos] at this <;>
  · intro q hq; rw [extend_off _ _ _ hq, extend_off _ _ _ hq]

end

/-- Kronecker product on bit assignments. -/
def kronT {a b : ℕ} (A : TMat a) (B : TMat b) : TMat (a + b) := fun r c =>
  A (r ∘ Fin.castAdd b) (c ∘ Fin.castAdd b) * B (r ∘ Fin.natAdd a) (c ∘ Fin.natAdd a)

theorem embed_mul_disjoint {a b n : ℕ} {ws : Fin a → Fin n} {vs : Fin b → Fin n} (hw : Function.Injective ws)
    (hd : ∀ i j, ws i ≠ vs j) (A : TMat a) (B : TMat b) :
    embed ws A * embed vs B = embed (Fin.append ws vs) (kronT A B) := by
  ext r c
  rw [Matrix.mul_apply, Finset.sum_eq_single (Function.extend ws (c ∘ ws) r)]
  · have hv : Function.extend ws (c ∘ ws) r ∘ vs = r ∘ vs := by
      funext j; simp only [Function.comp]; exact extend_off _ _ _ (fun i => hd i j)
    simp only [embed, extend_comp hw, hv, kronT]
    rw [if_pos (fun q hq => (extend_off _ _ _ hq).symm)]
    have hcond : (∀ q, (∀ j, vs j ≠ q) → Function.extend ws (c ∘ ws) r q = c q) ↔
        ∀ q, (∀ i, Fin.append ws vs i ≠ q) → r q = c q := by
      constructor
      · intro h q hq
        rw [← h q (fun j => by have := hq (Fin.natAdd a j); simpa using this),
          extend_off _ _ _ (fun i => by have := hq (Fin.castAdd b i); simpa using this)]
      · intro h q hq
        by_cases hqw : ∃ i, ws i = q
        · obtain ⟨i, rfl⟩ := hqw; rw [hw.extend_apply]; rfl
        · have hqw' : ∀ i, ws i ≠ q := fun i hi => hqw ⟨i, hi⟩
          rw [extend_off _ _ _ hqw']
          apply h
          intro i
          refine Fin.addCases (fun i => ?_) (fun j => ?_) i
          · simpa using hqw' i
          · simpa using hq j
    have e1 : ∀ x : Fin n → Fin 2, (x ∘ Fin.append ws vs) ∘ Fin.castAdd b = x ∘ ws := by intro x; funext i; simp
    have e2 : ∀ x : Fin n → Fin 2, (x ∘ Fin.append ws vs) ∘ Fin.natAdd a = x ∘ vs := by intro x; funext i; simp
    simp only [e1, e2]
    by_cases h : ∀ q, (∀ i, Fin.append ws vs i ≠ q) → r q = c q
    · rw [if_pos h, if_pos (hcond.2 h)]
    · rw [if_neg h, if_neg (fun h' => h (hcond.1 h')), mul_zero]
  · intro m _ hm
    by_contra hne
    have h1 : ∀ q, (∀ i, ws i ≠ q) → r q = m q := by
      by_contra h; simp only [embed, if_neg h, zero_mul] at hne; exact hne trivial
    have h2 : ∀ q, (∀ i, vs i ≠ q) → m q = c q := by
      by_contra h
      have : embed vs B m c = 0 := by simp only [embed, if_neg h]
      rw [this, mul_zero] at hne; exact hne rfl
    apply hm
    funext q
    by_cases hqw : ∃ i, ws i = q
    · obtain ⟨i, rfl⟩ := hqw
      rw [hw.extend_apply]; exact h2 _ (fun j => (hd i j).symm)
    · have hqw' : ∀ i, ws i ≠ q := fun i hi => hqw ⟨i, hi⟩
      rw [extend_off _ _ _ hqw', h1 q hqw']
  · intro h; exact absurd (Finset.mem_univ _) h

theorem embed_comm_disjoint {a b n : ℕ} {ws : Fin a → Fin n} {vs : Fin b → Fin n} (hw : Function.Injective ws)
    (hv : Function.Injective vs) (hd : ∀ i j, ws i ≠ vs j) (A : TMat a) (B : TMat b) :
    embed ws A * embed vs B = embed vs B * embed ws A := by
  rw [embed_mul_disjoint hw hd, embed_mul_disjoint hv (fun i j => (hd j i).symm)]
  ext r c
  simp only [embed, kronT]
  have e1 : ∀ x : Fin n → Fin 2, (x ∘ Fin.append ws vs) ∘ Fin.castAdd b = x ∘ ws := by intro x; funext i; simp
  have e2 : ∀ x : Fin n → Fin 2, (x ∘ Fin.append ws vs) ∘ Fin.natAdd a = x ∘ vs := by intro x; funext i; simp
  have e3 : ∀ x : Fin n → Fin 2, (x ∘ Fin.append vs ws) ∘ Fin.castAdd a = x ∘ vs := by intro x; funext i; simp
  have e4 : ∀ x : Fin n → Fin 2, (x ∘ Fin.append vs ws) ∘ Fin.natAdd b = x ∘ ws := by intro x; funext i; simp
  simp only [e1, e2, e3, e4]
  have hc : (∀ q, (∀ i, Fin.append ws vs i ≠ q) → r q = c q) ↔ (∀ q, (∀ i, Fin.append vs ws i ≠ q) → r q = c q) := by
    have : ∀ q, (∀ i, Fin.append ws vs i ≠ q) ↔ (∀ i, Fin.append vs ws i ≠ q) := by
      intro q
      constructor
      · intro h i
        refine Fin.addCases (fun i => ?_) (fun j => ?_) i
        · have := h (Fin.natAdd a i); simpa using this
        · have := h (Fin.castAdd b j); simpa using this
      · intro h i
        refine Fin.addCases (fun i => ?_) (fun j => ?_) i
        · have := h (Fin.natAdd b i); simpa using this
        · have := h (Fin.castAdd a j); simpa using this
    simp only [this]
  simp only [hc, mul_comm]

/-! ### Bridge to `Spec.full` -/

/-- The wires of a valid list as a function. -/
def wireFn {n : ℕ} (ws : List ℕ) (k : ℕ) (hk : ws.length = k) (hlt : ∀ w ∈ ws, w < n) : Fin k → Fin n :=
  fun i => ⟨ws[i]'(by omega), hlt _ (List.getElem_mem _)⟩

theorem wireFn_injective {n k : ℕ} {ws : List ℕ} {hk : ws.length = k} {hlt : ∀ w ∈ ws, w < n} (hnd : ws.Nodup) :
    Function.Injective (wireFn ws k hk hlt) := by
  intro i j h
  simp only [wireFn, Fin.mk.injEq] at h
  exact Fin.ext ((hnd.getElem_inj_iff).1 h)

theorem mem_wires_iff {n k : ℕ} {ws : List ℕ} {hk : ws.length = k} {hlt : ∀ w ∈ ws, w < n} (q : Fin n) :
    (q : ℕ) ∈ ws ↔ ∃ i, wireFn ws k hk hlt i = q := by
  constructor
  · intro h
    obtain ⟨i, hi, h⟩ := List.getElem_of_mem h
    exact ⟨⟨i, by omega⟩, Fin.ext h⟩
  · rintro ⟨i, rfl⟩; exact List.getElem_mem _

theorem ent_sub {n k : ℕ} (ws : List ℕ) (hk : ws.length = k) (hlt : ∀ w ∈ ws, w < n) (A : QMat k) (r c : Fin (2 ^ n)) :
    ent A (sub n r ws) (sub n c ws) =
      toT k A (bitsEquiv n r ∘ wireFn ws k hk hlt) (bitsEquiv n c ∘ wireFn ws k hk hlt) := by
  have key : ∀ r : Fin (2 ^ n), (((bitsEquiv k).symm (bitsEquiv n r ∘ wireFn ws k hk hlt)) : ℕ) = sub n r ws := by
    intro r
    rw [← ravel_map_bitF]
    show ravel (List.ofFn _) = _
    congr 1
    apply List.ext_getElem (by simp [hk])
    intro i h1 h2
    simp [wireFn, bitsEquiv_apply]
  have hr := sub_lt n r ws
  have hc := sub_lt n c ws
  rw [hk] at hr hc
  rw [toT_apply, ent, dif_pos ⟨hr, hc⟩]
  congr 1 <;> exact Fin.ext (key _).symm

theorem toT_full {n k : ℕ} (ws : List ℕ) (hk : ws.length = k) (hlt : ∀ w ∈ ws, w < n) (A : QMat k) :
    toT n (full n ws A) = embed (wireFn ws k hk hlt) (toT k A) := by
  ext r c
  rw [toT_apply]
  simp only [full, embed]
  rw [ent_sub ws hk hlt]
  simp only [Equiv.apply_symm_apply]
  congr 1
  rw [eq_iff_iff]
  constructor
  · intro h q hq
    have := h q q.2 (fun hm => by obtain ⟨i, hi⟩ := (mem_wires_iff (hk := hk) (hlt := hlt) q).1 hm; exact hq i hi)
    rw [← bitsEquiv_apply_val, ← bitsEquiv_apply_val] at this
    simp only [Equiv.apply_symm_apply] at this
    exact Fin.ext this
  · intro h q hq hqm
    have := h ⟨q, hq⟩ (fun i hi => hqm ((mem_wires_iff (hk := hk) (hlt := hlt) ⟨q, hq⟩).2 ⟨i, hi⟩))
    have h1 := bitsEquiv_apply_val n ((bitsEquiv n).symm r) ⟨q, hq⟩
    have h2 := bitsEquiv_apply_val n ((bitsEquiv n).symm c) ⟨q, hq⟩
    simp only [Equiv.apply_symm_apply] at h1 h2
    rw [← h1, ← h2, this]

theorem bitsEquiv_symm_val {n : ℕ} (f : Fin n → Fin 2) : ((bitsEquiv n).symm f : ℕ) = ravel (List.ofFn f) := rfl

theorem toT_kron {a b : ℕ} (A : QMat a) (B : QMat b) : toT (a + b) (kron A B) = kronT (toT a A) (toT b B) := by
  have split : ∀ f : Fin (a + b) → Fin 2, (((bitsEquiv (a + b)).symm f : Fin (2 ^ (a + b))) : ℕ) =
      ((bitsEquiv a).symm (f ∘ Fin.castAdd b) : ℕ) * 2 ^ b + ((bitsEquiv b).symm (f ∘ Fin.natAdd a) : ℕ) := by
    intro f
    simp only [bitsEquiv_symm_val]
    rw [List.ofFn_add, ravel_append, List.length_ofFn]
    rfl
  have e1 : ∀ f : Fin (a + b) → Fin 2, (((bitsEquiv (a + b)).symm f : Fin (2 ^ (a + b))) : ℕ) / 2 ^ b =
      ((bitsEquiv a).symm (f ∘ Fin.castAdd b) : ℕ) := by
    intro f
    rw [split, Nat.mul_comm, Nat.mul_add_div (by positivity), Nat.div_eq_of_lt (Fin.isLt _), Nat.add_zero]
  have e2 : ∀ f : Fin (a + b) → Fin 2, (((bitsEquiv (a + b)).symm f : Fin (2 ^ (a + b))) : ℕ) % 2 ^ b =
      ((bitsEquiv b).symm (f ∘ Fin.natAdd a) : ℕ) := by
    intro f
    rw [split, Nat.mul_comm, Nat.mul_add_mod, Nat.mod_eq_of_lt (Fin.isLt _)]
  ext r c
  rw [toT_apply]
  simp only [kron, kronT, e1, e2, ent, Fin.is_lt, and_self, dite_true, toT_apply]

end Oranssi
