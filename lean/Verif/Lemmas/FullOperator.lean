import Mathlib.Data.List.GetD
import Verif.Lemmas.Bits
import Verif.Model.FullOperator

namespace Oranssi
open Spec

theorem map_range_set {α : Type*} (N : ℕ) (g : ℕ → α) (w : ℕ) (v : α) :
    ((List.range N).map g).set w v = (List.range N).map (Function.update g w v) := by
  apply List.ext_getElem (by simp)
  intro i h1 h2
  simp only [List.getElem_set, List.getElem_map, List.getElem_range, Function.update_apply]
  by_cases h : w = i <;> simp [h, eq_comm]

theorem assignLabels_range (off N : ℕ) (ws : List ℕ) (s : ℕ) (g : ℕ → ℕ) (hnd : ws.Nodup) (hlt : ∀ w ∈ ws, w < N) :
    assignLabels off ((ws.map (Nat.cast : ℕ → ℤ)).zipIdx s) ((List.range N).map g) =
      .ok ((List.range N).map (fun j => if j ∈ ws then ws.idxOf j + s + off else g j)) := by
  induction ws generalizing s g with
  | nil => simp [assignLabels]
  | cons w ws ih =>
    have hw : w < N := hlt w List.mem_cons_self
    have h1 : pySetItem ((List.range N).map g) (w : ℤ) (s + off) =
        .ok ((List.range N).map (Function.update g w (s + off))) := by
      rw [← map_range_set]
      simp [pySetItem, pyIndex, hw]
    simp only [List.map_cons, List.zipIdx_cons, assignLabels, h1, bind, Except.bind]
    rw [ih (s + 1) _ (List.nodup_cons.1 hnd).2 (fun v hv => hlt v (List.mem_cons_of_mem _ hv))]
    congr 1
    apply List.map_congr_left
    intro j _
    have hwn : w ∉ ws := (List.nodup_cons.1 hnd).1
    by_cases hj : j = w
    · subst hj; simp [hwn]
    · by_cases hm : j ∈ ws
      · have : w ≠ j := fun h => hj h.symm
        simp [hm, hj, List.idxOf_cons_ne _ this]; omega
      · simp [hm, hj]

theorem einsum2_ok {A : Tensor} {ia : List ℕ} {B : Tensor} {ib io : List ℕ}
    (h : io.Nodup ∧ (∀ l ∈ io, l ∈ ia ++ ib)) : einsum2 A ia B ib io =
    .ok (fun o => ∑ s ∈ (ia ++ ib).toFinset.powerset,
      if io.map (labelVal s) = o then A (ia.map (labelVal s)) * B (ib.map (labelVal s)) else 0) := by
  simp only [einsum2]; rw [if_pos h]

/-- A sum over label assignments in which only the assignment `val` contributes. -/
theorem sum_labels_eq (L : Finset ℕ) (val : ℕ → Fin 2) (F : (ℕ → Fin 2) → ℂ)
    (hF : ∀ f g : ℕ → Fin 2, (∀ l ∈ L, f l = g l) → F f = F g)
    (h0 : ∀ f : ℕ → Fin 2, F f ≠ 0 → ∀ l ∈ L, f l = val l) :
    ∑ s ∈ L.powerset, F (labelVal s) = F val := by
  rw [Finset.sum_eq_single (L.filter (fun l => val l = 1))]
  · apply hF
    intro l hl
    simp only [labelVal, Finset.mem_filter, hl, true_and]
    by_cases h : val l = 1 <;> simp [h]
    omega
  · intro s hs hne
    by_contra hF0
    apply hne
    have := h0 _ hF0
    ext l
    simp only [Finset.mem_filter]
    constructor
    · intro hl
      have hlL := Finset.mem_powerset.1 hs hl
      refine ⟨hlL, ?_⟩
      rw [← this l hlL]; simp [labelVal, hl]
    · rintro ⟨hlL, hv⟩
      by_contra hl
      rw [← this l hlL] at hv
      simp [labelVal, hl] at hv
  · intro h
    exact absurd (Finset.mem_powerset.2 (Finset.filter_subset _ _)) h

theorem eye_flat (n : ℕ) (a b : List (Fin 2)) (ha : a.length = n) (hb : b.length = n) :
    (npEye n).flat (ravel (a ++ b)) = if a = b then 1 else 0 := by
  have hb' := ravel_lt b
  have ha' := ravel_lt a
  rw [ravel_append, hb, Nat.mul_comm]
  rw [hb] at hb'; rw [ha] at ha'
  have h1 : (2 ^ n * ravel a + ravel b) / 2 ^ n = ravel a := by
    rw [Nat.mul_add_div (by positivity), Nat.div_eq_of_lt hb', Nat.add_zero]
  have h2 : (2 ^ n * ravel a + ravel b) % 2 ^ n = ravel b := by
    rw [Nat.mul_add_mod, Nat.mod_eq_of_lt hb']
  simp only [NpMat.flat, npEye, h1, h2, ha', hb', and_self, dite_true, Matrix.one_apply, Fin.mk.injEq]
  congr 1
  rw [eq_iff_iff]
  constructor
  · intro h; rw [← bits_ravel a, ← bits_ravel b, h, ha, hb]
  · rintro rfl; rfl

theorem mat_flat {k : ℕ} (A : QMat k) (a b : List (Fin 2)) (ha : a.length = k) (hb : b.length = k) :
    (NpMat.mk (2 ^ k) (2 ^ k) A).flat (ravel (a ++ b)) = ent A (ravel a) (ravel b) := by
  have hb' := ravel_lt b
  have ha' := ravel_lt a
  rw [ravel_append, hb, Nat.mul_comm]
  rw [hb] at hb'; rw [ha] at ha'
  have h1 : (2 ^ k * ravel a + ravel b) / 2 ^ k = ravel a := by
    rw [Nat.mul_add_div (by positivity), Nat.div_eq_of_lt hb', Nat.add_zero]
  have h2 : (2 ^ k * ravel a + ravel b) % 2 ^ k = ravel b := by
    rw [Nat.mul_add_mod, Nat.mod_eq_of_lt hb']
  simp only [NpMat.flat, ent, h1, h2, ha', hb', and_self, dite_true]

theorem range_map_split {α : Type*} (a b : ℕ) (f : ℕ → α) :
    (List.range (a + b)).map f = (List.range a).map f ++ (List.range b).map (fun j => f (a + j)) := by
  rw [List.range_add, List.map_append, List.map_map]; rfl

theorem map_range_length {α : Type*} (ws : List ℕ) (f : ℕ → α) (g : ℕ → α)
    (h : ∀ i (hi : i < ws.length), g i = f ws[i]) : (List.range ws.length).map g = ws.map f := by
  apply List.ext_getElem (by simp)
  intro i h1 h2
  simp at h1
  simp [h i h1]

theorem max_cast_lt {n : ℕ} {ws : List ℕ} (hne : ws ≠ []) (hlt : ∀ w ∈ ws, w < n) :
    ∃ m : ℤ, (ws.map (Nat.cast : ℕ → ℤ)).max? = some m ∧ m < n := by
  cases hm : (ws.map (Nat.cast : ℕ → ℤ)).max? with
  | none => simp at hm; exact absurd hm hne
  | some m =>
    refine ⟨m, rfl, ?_⟩
    have := List.max?_mem hm
    simp at this
    obtain ⟨w, hw, rfl⟩ := this
    exact_mod_cast hlt w hw

theorem reshape2_square {k : ℕ} (A : QMat k) :
    (NpMat.mk (2 ^ k) (2 ^ k) A).reshape2 (2 * k) = .ok (fun l => (NpMat.mk (2 ^ k) (2 ^ k) A).flat (ravel l)) := by
  simp [NpMat.reshape2, ← pow_add, ← Nat.two_mul]

theorem getFullOperator_valid (n k : ℕ) (ws : List ℕ) (A : QMat k) (hkdef : ws.length = k) (hne : ws ≠ [])
    (hnd : ws.Nodup) (hlt : ∀ w ∈ ws, w < n) :
    getFullOperator ⟨2 ^ k, 2 ^ k, A⟩ (ws.map (Nat.cast : ℕ → ℤ)) n = .ok (full n ws A) := by
  obtain ⟨m, hm, hmn⟩ := max_cast_lt hne hlt
  have hk : (2 : ℕ) ^ k ≠ 0 := by positivity
  have hE : (npEye n).reshape2 (2 * n) = .ok (fun l => (npEye n).flat (ravel l)) := reshape2_square 1
  simp only [getFullOperator, hm, pyAssert, hmn, if_true, intLog2, hk, if_false, List.length_map,
    Nat.log_pow (by decide : 1 < 2), hkdef, hE, reshape2_square, bind, Except.bind]
  have hlt2 : ∀ w ∈ ws, w < 2 * n := fun w hw => by have := hlt w hw; omega
  rw [assignLabels_range _ _ _ _ _ hnd hlt2]
  simp only
  rw [assignLabels_range _ _ _ _ _ hnd hlt2]
  simp only [Nat.add_zero]
  set gB : ℕ → ℕ := fun j => if j ∈ ws then ws.idxOf j + k else j + 2 * k with hgB
  set gO : ℕ → ℕ := fun j => if j ∈ ws then ws.idxOf j else gB j with hgO
  have gO_in : ∀ j ∈ ws, gO j = ws.idxOf j := fun j hj => by simp [hgO, hj]
  have gO_out : ∀ j, j ∉ ws → gO j = j + 2 * k := fun j hj => by simp [hgO, hgB, hj]
  have gB_in : ∀ j ∈ ws, gB j = ws.idxOf j + k := fun j hj => by simp [hgB, hj]
  have gB_out : ∀ j, j ∉ ws → gB j = j + 2 * k := fun j hj => by simp [hgB, hj]
  have idx_lt : ∀ j ∈ ws, ws.idxOf j < k := fun j hj => by rw [← hkdef]; exact List.idxOf_lt_length_iff.2 hj
  have hio : ((List.range (2 * n)).map gO).Nodup ∧
      ∀ l ∈ (List.range (2 * n)).map gO, l ∈ List.range (2 * k) ++ (List.range (2 * n)).map gB := by
    constructor
    · refine List.Nodup.map_on ?_ List.nodup_range
      intro x _ y _ hxy
      by_cases hx : x ∈ ws <;> by_cases hy : y ∈ ws
      · rw [gO_in x hx, gO_in y hy] at hxy
        exact (List.idxOf_inj hx).1 hxy
      · rw [gO_in x hx, gO_out y hy] at hxy
        have := idx_lt x hx; omega
      · rw [gO_out x hx, gO_in y hy] at hxy
        have := idx_lt y hy; omega
      · rw [gO_out x hx, gO_out y hy] at hxy; omega
    · intro l hl
      obtain ⟨j, hj, rfl⟩ := List.mem_map.1 hl
      by_cases hjw : j ∈ ws
      · rw [gO_in j hjw]
        have := idx_lt j hjw
        exact List.mem_append_left _ (List.mem_range.2 (by omega))
      · rw [gO_out j hjw, ← gB_out j hjw]
        exact List.mem_append_right _ (List.mem_map_of_mem hj)
  rw [einsum2_ok hio]
  simp only
  congr 1
  ext r c
  simp only [Tensor.toMatrix]
  -- the output multi-index
  set oF : ℕ → Fin 2 := fun j => if j < n then bitF n r j else bitF n c (j - n) with hoF
  have ho : bits (2 * n) (r * 2 ^ n + c) = (List.range (2 * n)).map oF := by
    rw [Nat.two_mul, bits_append _ _ _ _ c.2, range_map_split, bits_eq_map, bits_eq_map]
    congr 1
    · apply List.map_congr_left; intro j hj; simp [hoF, List.mem_range.1 hj]
    · apply List.map_congr_left; intro j hj; simp [hoF]
  rw [ho]
  set val : ℕ → Fin 2 := fun l =>
    if l < k then oF (ws.getD l 0) else if l < 2 * k then oF (n + ws.getD (l - k) 0) else oF (l - 2 * k) with hval
  have hwj : ∀ j ∈ ws, ws.getD (ws.idxOf j) 0 = j := by
    intro j hj
    have := List.idxOf_lt_length_iff.2 hj
    rw [List.getD_eq_getElem _ _ this]; exact List.getElem_idxOf this
  have val_gO : ∀ j, val (gO j) = oF j := by
    intro j
    by_cases hj : j ∈ ws
    · have h1 := idx_lt j hj
      rw [gO_in j hj]
      simp only [hval, h1, if_true, hwj j hj]
    · rw [gO_out j hj]; simp [hval, show ¬ (j + 2 * k < k) by omega]
  have val_gB_in : ∀ j ∈ ws, val (gB j) = oF (n + j) := by
    intro j hj
    have h1 := idx_lt j hj
    rw [gB_in j hj]
    simp only [hval, show ¬ (ws.idxOf j + k < k) by omega, show ws.idxOf j + k < 2 * k by omega, if_true, if_false,
      Nat.add_sub_cancel, hwj j hj]
  have val_gB_out : ∀ j, j ∉ ws → val (gB j) = oF j := by
    intro j hj; rw [gB_out j hj, ← gO_out j hj, val_gO]
  have hnot : ∀ j, n + j ∉ ws := fun j hj => by have := hlt _ hj; omega
  rw [sum_labels_eq _ val (fun f => if ((List.range (2 * n)).map gO).map f = (List.range (2 * n)).map oF then
      (NpMat.mk (2 ^ k) (2 ^ k) A).flat (ravel ((List.range (2 * k)).map f)) *
        (npEye n).flat (ravel (((List.range (2 * n)).map gB).map f)) else 0)]
  · -- value
    have e1 : ((List.range (2 * n)).map gO).map val = (List.range (2 * n)).map oF := by
      rw [List.map_map]; apply List.map_congr_left; intro j _; exact val_gO j
    have e2 : (List.range (2 * k)).map val = ws.map (bitF n r) ++ ws.map (bitF n c) := by
      rw [Nat.two_mul, range_map_split, ← hkdef]
      congr 1
      · apply map_range_length
        intro i hi
        simp only [hval, ← hkdef, hi, if_true]
        rw [List.getD_eq_getElem _ _ hi]
        simp [hoF, hlt _ (List.getElem_mem hi)]
      · apply map_range_length
        intro i hi
        simp only [hval, ← hkdef, show ¬ (ws.length + i < ws.length) by omega,
          show ws.length + i < 2 * ws.length by omega, if_true, if_false, Nat.add_sub_cancel_left]
        rw [List.getD_eq_getElem _ _ hi]
        simp [hoF]
    have e3 : ((List.range (2 * n)).map gB).map val =
        (List.range n).map (fun j => if j ∈ ws then bitF n c j else bitF n r j) ++ (List.range n).map (bitF n c) := by
      rw [List.map_map, Nat.two_mul, range_map_split]
      congr 1
      · apply List.map_congr_left
        intro j hj
        have hj := List.mem_range.1 hj
        by_cases h : j ∈ ws
        · simp [val_gB_in j h, hoF, h]
        · simp [val_gB_out j h, hoF, h, hj]
      · apply List.map_congr_left
        intro j hj
        simp [val_gB_out _ (hnot j), hoF]
    simp only [e1, if_true, e2, e3]
    rw [mat_flat _ _ _ (by simp [hkdef]) (by simp [hkdef]), eye_flat _ _ _ (by simp) (by simp), ravel_map_bitF, ravel_map_bitF]
    have hcond : ((List.range n).map (fun j => if j ∈ ws then bitF n c j else bitF n r j) =
        (List.range n).map (bitF n c)) ↔ ∀ q < n, q ∉ ws → bit n r q = bit n c q := by
      rw [List.map_inj_left]
      constructor
      · intro h q hq hqw
        have := h q (List.mem_range.2 hq)
        simp only [hqw, if_false] at this
        exact congrArg Fin.val this
      · intro h q hq
        by_cases hqw : q ∈ ws
        · simp [hqw]
        · simp only [hqw, if_false]
          exact Fin.ext (h q (List.mem_range.1 hq) hqw)
    simp only [full]
    by_cases hc : ∀ q < n, q ∉ ws → bit n r q = bit n c q
    · rw [if_pos (hcond.2 hc), if_pos hc, mul_one]
    · rw [if_neg (fun h => hc (hcond.1 h)), if_neg hc, mul_zero]
  · -- the summand depends only on the labels that occur
    intro f g hfg
    have hL : ∀ l, l ∈ List.range (2 * k) ++ (List.range (2 * n)).map gB → f l = g l :=
      fun l hl => hfg l (List.mem_toFinset.2 hl)
    have e1 : ((List.range (2 * n)).map gO).map f = ((List.range (2 * n)).map gO).map g :=
      List.map_congr_left (fun l hl => hL l (hio.2 l hl))
    have e2 : (List.range (2 * k)).map f = (List.range (2 * k)).map g :=
      List.map_congr_left (fun l hl => hL l (List.mem_append_left _ hl))
    have e3 : ((List.range (2 * n)).map gB).map f = ((List.range (2 * n)).map gB).map g :=
      List.map_congr_left (fun l hl => hL l (List.mem_append_right _ hl))
    simp only [e1, e2, e3]
  · -- a non-zero summand determines all labels
    intro f hf
    have hif : ((List.range (2 * n)).map gO).map f = (List.range (2 * n)).map oF := by
      by_contra h; rw [if_neg h] at hf; exact hf rfl
    rw [if_pos hif] at hf
    have hB := right_ne_zero_of_mul hf
    have hfO : ∀ j < 2 * n, f (gO j) = oF j := by
      rw [List.map_map, List.map_inj_left] at hif
      intro j hj; exact hif j (List.mem_range.2 hj)
    have hfB : ∀ j < n, f (gB j) = f (gB (n + j)) := by
      rw [List.map_map, Nat.two_mul, range_map_split, eye_flat _ _ _ (by simp) (by simp)] at hB
      have hB' : (List.range n).map (f ∘ gB) = (List.range n).map (fun j => (f ∘ gB) (n + j)) := by
        by_contra h; rw [if_neg h] at hB; exact hB rfl
      rw [List.map_inj_left] at hB'
      intro j hj; exact hB' j (List.mem_range.2 hj)
    intro l hl
    rw [List.mem_toFinset, List.mem_append] at hl
    have small : ∀ l < 2 * k, f l = val l := by
      intro l hl
      by_cases h1 : l < k
      · have h1 : l < ws.length := by omega
        have hmem : ws[l] ∈ ws := List.getElem_mem h1
        have hl' : gO ws[l] = l := by rw [gO_in _ hmem, hnd.idxOf_getElem]
        have h2 := hlt2 _ hmem
        calc f l = f (gO ws[l]) := by rw [hl']
          _ = oF ws[l] := hfO _ h2
          _ = val (gO ws[l]) := (val_gO _).symm
          _ = val l := by rw [hl']
      · have h1' : l - k < ws.length := by omega
        have hmem : ws[l - k] ∈ ws := List.getElem_mem h1'
        have hl' : gB ws[l - k] = l := by rw [gB_in _ hmem, hnd.idxOf_getElem]; omega
        have h2 := hlt _ hmem
        calc f l = f (gB ws[l - k]) := by rw [hl']
          _ = f (gB (n + ws[l - k])) := hfB _ h2
          _ = f (gO (n + ws[l - k])) := by rw [gB_out _ (hnot _), gO_out _ (hnot _)]
          _ = oF (n + ws[l - k]) := hfO _ (by omega)
          _ = val (gB ws[l - k]) := (val_gB_in _ hmem).symm
          _ = val l := by rw [hl']
    rcases hl with hl | hl
    · exact small l (List.mem_range.1 hl)
    · obtain ⟨j, hj, rfl⟩ := List.mem_map.1 hl
      have hj := List.mem_range.1 hj
      by_cases hjw : j ∈ ws
      · apply small; rw [gB_in j hjw]; have := idx_lt j hjw; omega
      · rw [val_gB_out j hjw, gB_out j hjw, ← gO_out j hjw, hfO j hj]

end Oranssi
