import Mathlib.Data.Nat.Prime.Basic
import Mathlib.Algebra.Order.Ring.Nat
import Mathlib.NumberTheory.Padics.PadicVal.Basic
import Verif.Props.FullOperator
import Verif.Lemmas.TensorProd

/-! # C04 (tensor words) and C05 (rejection of invalid wires) -/

namespace Oranssi
open Spec
open scoped Matrix

theorem npMat2_eq (a : Mat2) : (⟨2, 2, a⟩ : NpMat) = npQ (tensor (fun _ : Fin 1 => a)) := by
  refine NpMat.ext' (by rfl) (by rfl) ?_
  intro i j h1 h2
  simp only at h1 h2
  simp only [npQ, tensor, Finset.univ_unique, Fin.default_eq_zero, Finset.prod_singleton, bit]
  congr 1
  · apply Fin.ext; simp; omega
  · apply Fin.ext; simp; omega

theorem tensor_congr_npQ' {a b : ℕ} (hab : a = b) (L : Fin a → Mat2) (M : Fin b → Mat2)
    (h : ∀ i, L i = M (Fin.cast hab i)) : npQ (tensor L) = npQ (tensor M) := by
  subst hab
  congr; funext i; exact h i

theorem foldl_npKron_mat2 (ms : List Mat2) : ∀ l0 : List Mat2,
    ms.foldl (fun op a => npKron op ⟨2, 2, a⟩) (npQ (tensor l0.get)) = npQ (tensor (l0 ++ ms).get) := by
  induction ms with
  | nil =>
    intro l0
    simp only [List.foldl_nil]
    exact tensor_congr_npQ' (by simp) _ _ (fun i => by simp)
  | cons m ms ih =>
    intro l0
    have h : npKron (npQ (tensor l0.get)) ⟨2, 2, m⟩ = npQ (tensor (l0 ++ [m]).get) := by
      rw [npMat2_eq, npKron_npQ, kron_tensor]
      apply tensor_congr_npQ' (by simp)
      intro i
      refine Fin.addCases (fun i => ?_) (fun j => ?_) i
      · simp
      · simp
    rw [List.foldl_cons, h, ih, List.append_assoc]
    rfl

/-- C04, third part.  Promoting the `np.kron` of a non-empty list of single-qubit matrices on distinct wires gives the
tensor product over all `n` qubits that has the i-th matrix on wire `ws[i]` and the identity elsewhere. -/
theorem C04_word_is_tensor_product (n : ℕ) (ws : List ℕ) (m : Mat2) (ms : List Mat2)
    (hlen : ws.length = (m :: ms).length) (hv : ValidWires n ws) :
    getFullOperator (ms.foldl (fun op a => npKron op ⟨2, 2, a⟩) ⟨2, 2, m⟩) (ws.map (Nat.cast : ℕ → ℤ)) n =
      .ok (tensor (fun q : Fin n => if (q : ℕ) ∈ ws then (m :: ms).getD (ws.idxOf (q : ℕ)) 1 else 1)) := by
  have h0 : (⟨2, 2, m⟩ : NpMat) = npQ (tensor [m].get) := by
    rw [npMat2_eq]; exact tensor_congr_npQ' (by simp) _ _ (fun i => by simp)
  rw [h0, foldl_npKron_mat2, getFullOperator_npQ (ws := ws) (by simpa using hlen) (by rintro rfl; simp at hlen) hv,
    full_tensor (by simpa using hlen) hv]
  congr 2
  funext q
  by_cases hq : (q : ℕ) ∈ ws
  · rw [if_pos hq]
    have hi : ws.idxOf (q : ℕ) < ws.length := List.idxOf_lt_length_iff.2 hq
    have hi' : ws.idxOf (q : ℕ) < (m :: ms).length := by omega
    have hq' : q = wireFn ws ([m] ++ ms).length (by simpa using hlen) hv.2 ⟨ws.idxOf (q : ℕ), by simpa using hi'⟩ := by
      apply Fin.ext; simp [wireFn]
    conv_lhs => rw [hq']
    rw [(wireFn_injective hv.1).extend_apply]
    simp only [List.get_eq_getElem, List.singleton_append]
    rw [List.getD_eq_getElem _ _ hi']
  · rw [if_neg hq, Function.extend_apply']
    rintro ⟨i, hi⟩
    exact hq ((mem_wires_iff q).2 ⟨i, hi⟩)

example : ([2, 0] : List ℕ).length = ([Letter.X.mat, Letter.Y.mat] : List Mat2).length ∧ ValidWires 3 [2, 0] :=
  ⟨rfl, by decide, by decide⟩

/-! ### C05 -/

theorem pySetItem_ok {α : Type*} {l l' : List α} {w : ℤ} {v : α} (h : pySetItem l w v = .ok l') :
    -(l.length : ℤ) ≤ w ∧ w < l.length ∧ l'.length = l.length := by
  simp only [pySetItem, pyIndex] at h
  split at h
  · next j hj =>
    split at hj
    · split at hj
      · injection h with h; subst h; simp; omega
      · simp at hj
    · split at hj
      · injection h with h; subst h; simp; omega
      · simp at hj
  · simp at h

theorem assignLabels_ok {off : ℕ} {ws : List (ℤ × ℕ)} {l l' : List ℕ} (h : assignLabels off ws l = .ok l') :
    ∀ p ∈ ws, -(l.length : ℤ) ≤ p.1 := by
  induction ws generalizing l with
  | nil => simp
  | cons p ws ih =>
    obtain ⟨w, i⟩ := p
    simp only [assignLabels, bind, Except.bind] at h
    split at h
    · simp at h
    · next l1 h1 =>
      obtain ⟨h2, _, h4⟩ := pySetItem_ok h1
      have := ih h
      rw [h4] at this
      intro p hp
      rcases List.mem_cons.1 hp with rfl | hp
      · exact h2
      · exact this p hp

theorem pow_of_mul_eq {r c k : ℕ} (h : r * c = 2 ^ (2 * k)) (hr : Nat.log 2 r = k) : r = 2 ^ k ∧ c = 2 ^ k := by
  obtain ⟨j, _, hj⟩ := (Nat.dvd_prime_pow Nat.prime_two).1 (Dvd.intro c h)
  subst hj
  rw [Nat.log_pow (by decide)] at hr
  subst hr
  refine ⟨rfl, ?_⟩
  rw [Nat.two_mul, pow_add] at h
  exact Nat.eq_of_mul_eq_mul_left (by positivity) h

/-- C05, the part that holds: whenever the call does not raise, the wire tuple is non-empty, every wire is below `n`
(and not below `-2n`), and the operator has shape `2^k × 2^k` with `k = len(wires)`.  Missing from the full statement
"raises for every invalid tuple": negative and repeated wires are *not* rejected, see `C05_repeated_wires_accepted`,
`C05_negative_wire_transposes`. -/
theorem C05_rejects_partial (op : NpMat) (wires : List ℤ) (n : ℕ) (M : QMat n)
    (h : getFullOperator op wires n = .ok M) :
    wires ≠ [] ∧ (∀ w ∈ wires, -(2 * n : ℤ) ≤ w ∧ w < n) ∧ op.rows = 2 ^ wires.length ∧ op.cols = 2 ^ wires.length := by
  unfold getFullOperator at h
  cases hm : wires.max? with
  | none => rw [hm] at h; simp at h
  | some m =>
    rw [hm] at h
    simp only [bind, Except.bind] at h
    have hne : wires ≠ [] := by rintro rfl; simp at hm
    split at h
    · simp at h
    · next _ h1 =>
      split at h
      · simp at h
      · next k h2 =>
        split at h
        · simp at h
        · next _ h3 =>
          split at h
          · simp at h
          · next _ h4 =>
            split at h
            · simp at h
            · next _ h5 =>
              split at h
              · simp at h
              · next ib h6 =>
                have hmn : m < n := by
                  by_contra hc; simp [pyAssert, hc] at h1
                have hk : Nat.log 2 op.rows = k := by
                  simp only [intLog2] at h2; split at h2 <;> simp_all
                have hkl : k = wires.length := by
                  by_contra hc; simp [pyAssert, hc] at h3
                have hs : op.rows * op.cols = 2 ^ (2 * wires.length) := by
                  by_contra hc; simp [NpMat.reshape2, hc] at h5
                have hlab := assignLabels_ok h6
                refine ⟨hne, ?_, pow_of_mul_eq hs (by rw [hk, hkl])⟩
                intro w hw
                constructor
                · obtain ⟨i, hi, rfl⟩ := List.getElem_of_mem hw
                  have := hlab (wires[i], i) (by rw [List.mk_mem_zipIdx_iff_getElem?]; simp [hi])
                  simpa using this
                · have := (List.max?_eq_some_iff.1 hm).2 w hw
                  omega

/-- The hypotheses of `C05_rejects_partial` are satisfiable. -/
example : ∃ M, getFullOperator ⟨2 ^ 1, 2 ^ 1, exX⟩ [1] 3 = .ok M := by
  obtain ⟨M, h, _⟩ := C01_full_operator_entries 3 1 [1] exX rfl (by decide) (by decide) (by decide)
  exact ⟨M, h⟩

/-- `assignLabels` with possibly repeated wires. -/
theorem assignLabels_dup (off N : ℕ) (ws : List ℕ) (s : ℕ) (g : ℕ → ℕ) (hlt : ∀ w ∈ ws, w < N) :
    ∃ g' : ℕ → ℕ, assignLabels off ((ws.map (Nat.cast : ℕ → ℤ)).zipIdx s) ((List.range N).map g) =
      .ok ((List.range N).map g') ∧
      ∀ j, (j ∉ ws ∧ g' j = g j) ∨ ∃ i, ∃ h : i < ws.length, ws[i] = j ∧ g' j = i + s + off := by
  induction ws generalizing s g with
  | nil => exact ⟨g, by simp [assignLabels], fun j => Or.inl ⟨by simp, rfl⟩⟩
  | cons w ws ih =>
    have hw : w < N := hlt w List.mem_cons_self
    have h1 : pySetItem ((List.range N).map g) (w : ℤ) (s + off) =
        .ok ((List.range N).map (Function.update g w (s + off))) := by
      rw [← map_range_set]
      simp [pySetItem, pyIndex, hw]
    obtain ⟨g', hg', hp⟩ := ih (s + 1) (Function.update g w (s + off)) (fun v hv => hlt v (List.mem_cons_of_mem _ hv))
    refine ⟨g', ?_, ?_⟩
    · simp only [List.map_cons, List.zipIdx_cons, assignLabels, h1, bind, Except.bind]
      exact hg'
    · intro j
      rcases hp j with ⟨hj, he⟩ | ⟨i, hi, hij, he⟩
      · by_cases hjw : j = w
        · subst hjw
          exact Or.inr ⟨0, by simp, by simp, by rw [he, Function.update_self]; omega⟩
        · exact Or.inl ⟨by simp [hj, hjw], by rw [he, Function.update_of_ne hjw]⟩
      · exact Or.inr ⟨i + 1, by simp [hi], by simp [hij], by rw [he]; omega⟩

/-- C05 is violated: in-range wires are accepted even when they are repeated.  (With `ws = [0, 0]`, `n = 1`, this is a
two-qubit operator "promoted" to one qubit without any exception.) -/
theorem C05_repeated_wires_accepted (n k : ℕ) (ws : List ℕ) (A : QMat k) (hk : ws.length = k) (hk0 : 0 < k)
    (hlt : ∀ w ∈ ws, w < n) :
    ∃ M : QMat n, getFullOperator ⟨2 ^ k, 2 ^ k, A⟩ (ws.map (Nat.cast : ℕ → ℤ)) n = .ok M := by
  have hne : ws ≠ [] := by rintro rfl; simp at hk; omega
  obtain ⟨m, hm, hmn⟩ := max_cast_lt hne hlt
  have hk2 : (2 : ℕ) ^ k ≠ 0 := by positivity
  have hE : (npEye n).reshape2 (2 * n) = .ok (fun l => (npEye n).flat (ravel l)) := reshape2_square 1
  simp only [getFullOperator, hm, pyAssert, hmn, if_true, intLog2, hk2, if_false, List.length_map,
    Nat.log_pow (by decide : 1 < 2), hk, hE, reshape2_square, bind, Except.bind]
  have hlt2 : ∀ w ∈ ws, w < 2 * n := fun w hw => by have := hlt w hw; omega
  obtain ⟨gB, hB, pB⟩ := assignLabels_dup k (2 * n) ws 0 (· + 2 * k) hlt2
  rw [hB]
  obtain ⟨gO, hO, pO⟩ := assignLabels_dup 0 (2 * n) ws 0 gB hlt2
  simp only [hO]
  rw [einsum2_ok]
  · exact ⟨_, rfl⟩
  · have hout : ∀ j, j ∉ ws → gO j = j + 2 * k := by
      intro j hj
      rcases pO j with ⟨_, h⟩ | ⟨i, hi, h, _⟩
      · rcases pB j with ⟨_, h'⟩ | ⟨i, hi, h', _⟩
        · rw [h, h']
        · exact absurd (h' ▸ List.getElem_mem hi) hj
      · exact absurd (h ▸ List.getElem_mem hi) hj
    have hin : ∀ j ∈ ws, ∃ i, ∃ h : i < ws.length, ws[i] = j ∧ gO j = i := by
      intro j hj
      rcases pO j with ⟨h, _⟩ | ⟨i, hi, h, h2⟩
      · exact absurd hj h
      · exact ⟨i, hi, h, by simpa using h2⟩
    constructor
    · refine List.Nodup.map_on ?_ List.nodup_range
      intro x _ y _ hxy
      by_cases hx : x ∈ ws <;> by_cases hy : y ∈ ws
      · obtain ⟨i, hi, h1, h2⟩ := hin x hx
        obtain ⟨j, hj, h3, h4⟩ := hin y hy
        have : i = j := by omega
        subst this
        rw [← h1, ← h3]
      · obtain ⟨i, hi, h1, h2⟩ := hin x hx
        rw [h2, hout y hy] at hxy; omega
      · obtain ⟨i, hi, h1, h2⟩ := hin y hy
        rw [h2, hout x hx] at hxy; omega
      · rw [hout x hx, hout y hy] at hxy; omega
    · intro l hl
      obtain ⟨j, hj, rfl⟩ := List.mem_map.1 hl
      by_cases hjw : j ∈ ws
      · obtain ⟨i, hi, h1, h2⟩ := hin j hjw
        rw [h2]
        exact List.mem_append_left _ (List.mem_range.2 (by omega))
      · rw [hout j hjw]
        rcases pB j with ⟨_, h'⟩ | ⟨i, hi, h', _⟩
        · have h' : gB j = j + 2 * k := h'
          rw [← h']
          exact List.mem_append_right _ (List.mem_map_of_mem hj)
        · exact absurd (h' ▸ List.getElem_mem hi) hjw

/-- Instance: repeated wires `(0, 0)`. -/
example (A : QMat 2) : ∃ M : QMat 1, getFullOperator ⟨2 ^ 2, 2 ^ 2, A⟩ [0, 0] 1 = .ok M :=
  C05_repeated_wires_accepted 1 2 [0, 0] A rfl (by decide) (by decide)

/-- C05 is violated by negative wires as well, and not harmlessly: for `0 ≤ q < n` the wire `q - n` is accepted and
yields the *transposed* operator on qubit `q` (so a Pauli Y silently becomes -Y). -/
theorem C05_negative_wire_transposes (n q : ℕ) (hq : q < n) (A : QMat 1) :
    getFullOperator ⟨2 ^ 1, 2 ^ 1, A⟩ [(q : ℤ) - n] n = .ok (full n [q] Aᵀ) := by
  have hE : (npEye n).reshape2 (2 * n) = .ok (fun l => (npEye n).flat (ravel l)) := reshape2_square 1
  have hmn : (q : ℤ) - n < n := by omega
  have hR : (NpMat.mk (2 ^ 1) (2 ^ 1) A).reshape2 (2 * 1) =
    .ok (fun l => (NpMat.mk (2 ^ 1) (2 ^ 1) A).flat (ravel l)) := reshape2_square A
  have hset : ∀ (g : ℕ → ℕ) (v : ℕ), pySetItem ((List.range (2 * n)).map g) ((q : ℤ) - n) v =
      .ok ((List.range (2 * n)).map (Function.update g (n + q) v)) := by
    intro g v
    rw [← map_range_set]
    have h1 : ¬ (0 ≤ (q : ℤ) - n) := by omega
    have h2 : 0 ≤ (q : ℤ) - n + (2 * n : ℕ) := by omega
    have h3 : ((q : ℤ) - n + (2 * n : ℕ)).toNat = n + q := by omega
    simp only [pySetItem, pyIndex, List.length_map, List.length_range, h1, h2, if_true, if_false, h3]
  have hmax : [(q : ℤ) - n].max? = some ((q : ℤ) - n) := rfl
  simp only [getFullOperator, hmax, pyAssert, hmn, if_true, intLog2, List.length_singleton,
    show ((2 : ℕ) ^ 1 = 0) = False by simp, if_false, Nat.log_pow (by decide : 1 < 2), hE, hR, bind, Except.bind,
    List.zipIdx_cons, List.zipIdx_nil, assignLabels, hset]
  set gB : ℕ → ℕ := Function.update (fun x => x + 2 * 1) (n + q) (0 + 1) with hgB
  set gO : ℕ → ℕ := Function.update gB (n + q) (0 + 0) with hgO
  have gB_in : gB (n + q) = 1 := by simp [hgB]
  have gB_out : ∀ j, j ≠ n + q → gB j = j + 2 := fun j hj => by simp [hgB, hj]
  have gO_in : gO (n + q) = 0 := by simp [hgO]
  have gO_out : ∀ j, j ≠ n + q → gO j = j + 2 := fun j hj => by simp [hgO, hj, gB_out j hj]
  have hio : ((List.range (2 * n)).map gO).Nodup ∧
      ∀ l ∈ (List.range (2 * n)).map gO, l ∈ List.range (2 * 1) ++ (List.range (2 * n)).map gB := by
    constructor
    · refine List.Nodup.map_on ?_ List.nodup_range
      intro x _ y _ hxy
      by_cases hx : x = n + q <;> by_cases hy : y = n + q
      · rw [hx, hy]
      · rw [hx, gO_in, gO_out y hy] at hxy; omega
      · rw [hy, gO_in, gO_out x hx] at hxy; omega
      · rw [gO_out x hx, gO_out y hy] at hxy; omega
    · intro l hl
      obtain ⟨j, hj, rfl⟩ := List.mem_map.1 hl
      by_cases h : j = n + q
      · rw [h, gO_in]; simp
      · rw [gO_out j h, ← gB_out j h]; exact List.mem_append_right _ (List.mem_map_of_mem hj)
  rw [einsum2_ok hio]
  simp only
  congr 1
  ext r c
  simp only [Tensor.toMatrix]
  set oF : ℕ → Fin 2 := fun j => if j < n then bitF n r j else bitF n c (j - n) with hoF
  have ho : bits (2 * n) (r * 2 ^ n + c) = (List.range (2 * n)).map oF := by
    rw [Nat.two_mul, bits_append _ _ _ _ c.2, range_map_split, bits_eq_map, bits_eq_map]
    congr 1
    · apply List.map_congr_left; intro j hj; simp [hoF, List.mem_range.1 hj]
    · apply List.map_congr_left; intro j hj; simp [hoF]
  rw [ho]
  have oF_lo : ∀ j < n, oF j = bitF n r j := fun j hj => by simp [hoF, hj]
  have oF_hi : ∀ j, oF (n + j) = bitF n c j := fun j => by simp [hoF]
  set val : ℕ → Fin 2 := fun l => if l = 0 then oF (n + q) else if l = 1 then oF q else oF (l - 2) with hval
  have val_gO : ∀ j, val (gO j) = oF j := by
    intro j
    by_cases h : j = n + q
    · rw [h, gO_in]; simp [hval]
    · rw [gO_out j h]; simp [hval]
  have val_gB_in : val (gB (n + q)) = oF q := by rw [gB_in]; simp [hval]
  have val_gB_out : ∀ j, j ≠ n + q → val (gB j) = oF j := by
    intro j hj; rw [gB_out j hj, ← gO_out j hj, val_gO]
  rw [sum_labels_eq _ val (fun f => if ((List.range (2 * n)).map gO).map f = (List.range (2 * n)).map oF then
      (NpMat.mk (2 ^ 1) (2 ^ 1) A).flat (ravel ((List.range (2 * 1)).map f)) *
        (npEye n).flat (ravel (((List.range (2 * n)).map gB).map f)) else 0)]
  · have e1 : ((List.range (2 * n)).map gO).map val = (List.range (2 * n)).map oF := by
      rw [List.map_map]; apply List.map_congr_left; intro j _; exact val_gO j
    have e2 : (List.range (2 * 1)).map val = [q].map (bitF n c) ++ [q].map (bitF n r) := by
      simp [hval, List.range_succ, oF_hi, oF_lo q hq]
    have e3 : ((List.range (2 * n)).map gB).map val =
        (List.range n).map (bitF n r) ++ (List.range n).map (fun j => if j = q then bitF n r j else bitF n c j) := by
      rw [List.map_map, Nat.two_mul, range_map_split]
      congr 1
      · apply List.map_congr_left
        intro j hj
        have hj := List.mem_range.1 hj
        rw [Function.comp_apply, val_gB_out j (by omega), oF_lo j hj]
      · apply List.map_congr_left
        intro j hj
        by_cases h : j = q
        · subst h; simp only [Function.comp_apply, val_gB_in, if_true]; exact oF_lo j hq
        · rw [Function.comp_apply, val_gB_out (n + j) (by omega), oF_hi, if_neg h]
    simp only [e1, if_true, e2, e3]
    rw [mat_flat _ _ _ (by simp) (by simp), eye_flat _ _ _ (by simp) (by simp), ravel_map_bitF, ravel_map_bitF]
    have hcond : ((List.range n).map (bitF n r) =
        (List.range n).map (fun j => if j = q then bitF n r j else bitF n c j)) ↔
        ∀ p < n, p ∉ [q] → bit n r p = bit n c p := by
      rw [List.map_inj_left]
      constructor
      · intro h p hp hpq
        have := h p (List.mem_range.2 hp)
        simp only [List.mem_singleton] at hpq
        simp only [hpq, if_false] at this
        exact congrArg Fin.val this
      · intro h p hp
        by_cases hpq : p = q
        · simp [hpq]
        · simp only [hpq, if_false]
          exact Fin.ext (h p (List.mem_range.1 hp) (by simpa using hpq))
    simp only [full]
    have hent : ent Aᵀ (Spec.sub n r [q]) (Spec.sub n c [q]) = ent A (Spec.sub n c [q]) (Spec.sub n r [q]) := by
      simp only [ent, Matrix.transpose_apply, and_comm]
    by_cases hc : ∀ p < n, p ∉ [q] → bit n r p = bit n c p
    · rw [if_pos (hcond.2 hc), if_pos hc, mul_one, hent]
    · rw [if_neg (fun h => hc (hcond.1 h)), if_neg hc, mul_zero]
  · intro f g hfg
    have hL : ∀ l, l ∈ List.range (2 * 1) ++ (List.range (2 * n)).map gB → f l = g l :=
      fun l hl => hfg l (List.mem_toFinset.2 hl)
    have e1 : ((List.range (2 * n)).map gO).map f = ((List.range (2 * n)).map gO).map g :=
      List.map_congr_left (fun l hl => hL l (hio.2 l hl))
    have e2 : (List.range (2 * 1)).map f = (List.range (2 * 1)).map g :=
      List.map_congr_left (fun l hl => hL l (List.mem_append_left _ hl))
    have e3 : ((List.range (2 * n)).map gB).map f = ((List.range (2 * n)).map gB).map g :=
      List.map_congr_left (fun l hl => hL l (List.mem_append_right _ hl))
    simp only [e1, e2, e3]
  · intro f hf
    have hif : ((List.range (2 * n)).map gO).map f = (List.range (2 * n)).map oF := by
      by_contra h; rw [if_neg h] at hf; exact hf rfl
    rw [if_pos hif] at hf
    have hB := right_ne_zero_of_mul hf
    have hfO : ∀ j < 2 * n, f (gO j) = oF j := by
      rw [List.map_map, List.map_inj_left] at hif
      intro j hj; exact hif j (List.mem_range.2 hj)
    have hfB : ∀ j < n, f (gB j) = f (gB (n + j)) := by
      rw [List.map_map, Nat.two_mul, range_map_split, eye_flat _ _ _ (by simp) (by simp)] at hB
      have hB' : (List.range n).map (f ∘ gB) = (List.range n).map (fun j => (f ∘ gB) (n + j)) := by
        by_contra h; rw [if_neg h] at hB; exact hB rfl
      rw [List.map_inj_left] at hB'
      intro j hj; exact hB' j (List.mem_range.2 hj)
    have f0 : f 0 = val 0 := by rw [← gO_in, hfO _ (by omega), val_gO]
    have f1 : f 1 = val 1 := by
      have := hfB q hq
      rw [gB_in, gB_out q (by omega), ← gO_out q (by omega), hfO q (by omega)] at this
      rw [← this]; simp [hval]
    intro l hl
    rw [List.mem_toFinset, List.mem_append] at hl
    rcases hl with hl | hl
    · have := List.mem_range.1 hl
      have : l = 0 ∨ l = 1 := by omega
      rcases this with rfl | rfl
      · exact f0
      · exact f1
    · obtain ⟨j, hj, rfl⟩ := List.mem_map.1 hl
      have hj := List.mem_range.1 hj
      by_cases h : j = n + q
      · rw [h, gB_in, f1]
      · rw [val_gB_out j h, gB_out j h, ← gO_out j h, hfO j hj]

/-- Concrete consequence: `get_full_operator(Y, (-1,), 1)` returns `-Y`. -/
example : getFullOperator ⟨2 ^ 1, 2 ^ 1, (tensor fun _ => Letter.Y.mat : QMat 1)⟩ [-1] 1 =
    .ok (full 1 [0] (tensor fun _ => Letter.Y.mat : QMat 1)ᵀ) := by
  have := C05_negative_wire_transposes 1 0 (by decide) (tensor fun _ => Letter.Y.mat : QMat 1)
  simpa using this

/-- The transposed operator really is a different one: Y and its transpose differ on every register. -/
theorem C05_transpose_differs (n q : ℕ) (hq : q < n) :
    full n [q] (tensor fun _ => Letter.Y.mat : QMat 1)ᵀ ≠ full n [q] (tensor fun _ => Letter.Y.mat : QMat 1) := by
  intro h
  have h := full_injective (k := 1) rfl ⟨by simp, by simpa using hq⟩ h
  have h := congrFun (congrFun h 0) 1
  simp only [Matrix.transpose_apply, tensor, Finset.univ_unique, Fin.default_eq_zero, Finset.prod_singleton, bit,
    Letter.mat] at h
  norm_num at h
  have := congrArg Complex.im h
  norm_num at this

end Oranssi
