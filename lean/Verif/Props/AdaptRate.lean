import Verif.Props.ShiftRate
import Verif.Props.AdaptShift

/-! # C142: the training of an `AdaptVQELayer` never raises the cost while the circuit is small -/

namespace Oranssi
open Spec
open scoped Matrix
open scoped Matrix.Norms.L2Operator

variable {n : ℕ}

/-! ### Circuits in which every parameter turns at most one Pauli rotation -/

theorem sum_at_most_one (i : ℕ) : ∀ l : List (ℕ × ℝ), (l.map Prod.fst).Nodup → (∀ x ∈ l, x.2 = 1 / 2) →
    0 ≤ (l.map (fun x => if x.1 = i then x.2 else 0)).sum ∧ (l.map (fun x => if x.1 = i then x.2 else 0)).sum ≤ 1 / 2
  | [], _, _ => by simp
  | x :: l, hd, hx => by
    rw [List.map_cons, List.nodup_cons] at hd
    have ih := sum_at_most_one i l hd.2 fun y hy => hx y (List.mem_cons_of_mem _ hy)
    rw [List.map_cons, List.sum_cons]
    by_cases h : x.1 = i
    · have h0 : (l.map (fun x => if x.1 = i then x.2 else 0)).sum = 0 := by
        refine List.sum_eq_zero fun y hy => ?_
        obtain ⟨z, hz, rfl⟩ := List.mem_map.1 hy
        rw [if_neg fun hzi => hd.1 (List.mem_map.2 ⟨z, hz, hzi.trans h.symm⟩)]
      rw [if_pos h, h0, hx x List.mem_cons_self]
      norm_num
    · rw [if_neg h, zero_add]
      exact ih

theorem stiffness_single {ps : List (Piece n)} (hd : ((ps.filterMap Piece.rate).map Prod.fst).Nodup) (hr : ∀ x ∈ ps.filterMap Piece.rate, x.2 = 1 / 2) {m : ℕ} (hm : Reads ps m) :
    stiffness ps m ≤ (ps.filterMap Piece.rate).length / 4 := by
  have h1 : ∀ i, speed ps i ^ 2 ≤ 1 / 2 * speed ps i := fun i => by
    obtain ⟨a, b⟩ := sum_at_most_one i _ hd hr
    change 0 ≤ speed ps i at a
    change speed ps i ≤ 1 / 2 at b
    nlinarith
  have h2 := sum_by_index (fun _ => (1 : ℝ)) (fun x : ℕ × ℝ => x) m (ps.filterMap Piece.rate) hm
  simp only [one_mul] at h2
  have h3 : ((ps.filterMap Piece.rate).map (fun x => x.2)).sum = (ps.filterMap Piece.rate).length / 2 := by
    rw [List.map_congr_left hr]
    simp
    ring
  rw [h3] at h2
  rw [stiffness]
  refine (Finset.sum_le_sum fun i _ => h1 i).trans (le_of_eq ?_)
  rw [← Finset.mul_sum]
  change 1 / 2 * ∑ i ∈ Finset.range m, ((ps.filterMap Piece.rate).map (fun x => if x.1 = i then x.2 else 0)).sum = _
  rw [← h2]
  ring

/-! ### The circuit of an `AdaptVQELayer` as an ansatz -/

/-- The columns of the angles of a layer, site by site. -/
def Spec.LayerKind.cols (n : ℕ) : LayerKind → List ℕ
  | .odd => List.range ((LayerKind.odd.sites n).length - 1) ++ [n - 1]
  | _ => List.range n

theorem angles_cols (k : LayerKind) {ps : List ℝ} (h : ps.length = n) (hn : 1 ≤ n) : k.angles n ps = (k.cols n).map (fun i => ps.getD i 0) := by
  have hr : ∀ l : List ℝ, l = (List.range l.length).map (fun i => l.getD i 0) := fun l => by
    apply List.ext_getElem
    · simp
    · intro i h1 h2
      simp [h1]
  cases k with
  | single => rw [LayerKind.angles, LayerKind.cols, ← h]; exact hr ps; all_goals simp
  | even => rw [LayerKind.angles, LayerKind.cols, ← h]; exact hr ps; all_goals simp
  | odd =>
    have hs := odd_sites_length n
    rw [LayerKind.angles, LayerKind.cols, List.map_append]
    congr 1
    · apply List.ext_getElem
      · simp [h]; omega
      · intro i h1 h2
        simp at h1 h2
        simp [List.getElem?_eq_getElem h1.2]
    · rw [List.map_singleton, ← h, List.getLastD_eq_getLast?, List.getLast?_eq_getElem?, List.getD_eq_getElem?_getD]

/-- The pieces of layer number `j`: rotations about Pauli words, whose angles are in row `j` of a table with `n` columns. -/
noncomputable def layerPieces (n j : ℕ) (c : List Letter × LayerKind) : List (Piece n) :=
  List.zipWith (fun i q => .rot (j * n + i) ((-Complex.I / 2) • pauliWord (placed n c.1 q))) (c.2.cols n) (c.2.sites n)

noncomputable def layersPieces (n : ℕ) : ℕ → List (List Letter × LayerKind) → List (Piece n)
  | _, [] => []
  | j, c :: cs => layerPieces n j c ++ layersPieces n (j + 1) cs

/-- The entries of the table, row by row. -/
def flatten (n : ℕ) (θ : List (List ℝ)) (k : ℕ) : ℝ := angle θ (k / n) (k % n)

theorem flatten_at (θ : List (List ℝ)) (j : ℕ) {i : ℕ} (hi : i < n) : flatten n θ (j * n + i) = angle θ j i := by
  rw [flatten, Nat.mul_comm j n, Nat.mul_add_div (by omega), Nat.div_eq_of_lt hi, Nat.mul_add_mod, Nat.mod_eq_of_lt hi, add_zero]

theorem cols_lt (hn : 1 ≤ n) (k : LayerKind) : ∀ i ∈ k.cols n, i < n := by
  have hs := odd_sites_length n
  intro i hi
  cases k with
  | single => simpa [LayerKind.cols] using hi
  | even => simpa [LayerKind.cols] using hi
  | odd =>
    simp only [LayerKind.cols, List.mem_append, List.mem_range, List.mem_singleton] at hi
    omega

theorem cols_nodup (k : LayerKind) : (k.cols n).Nodup := by
  have hs := odd_sites_length n
  cases k with
  | single => exact List.nodup_range
  | even => exact List.nodup_range
  | odd =>
    rw [LayerKind.cols, List.nodup_append]
    refine ⟨List.nodup_range, List.nodup_singleton _, ?_⟩
    intro a ha b hb
    rw [List.mem_range] at ha
    rw [List.mem_singleton] at hb
    omega

theorem layerPieces_mat (hn : 1 ≤ n) {θ : List (List ℝ)} {r j : ℕ} (hθ : IsTable θ r n) (hj : j < r) (c : List Letter × LayerKind) :
    (layerPieces n j c).map (Piece.mat (flatten n θ)) = layerRots n c (θ.getD j []) := by
  have hlen : (θ.getD j []).length = n := by
    rw [List.getD_eq_getElem _ _ (by rw [hθ.1]; exact hj)]
    exact hθ.2 _ (List.getElem_mem _)
  rw [layerPieces, layerRots, angles_cols _ hlen hn, List.map_zipWith, List.zipWith_map_left]
  apply List.ext_getElem
  · simp
  · intro i h1 h2
    simp only [List.getElem_zipWith]
    have hc : (c.2.cols n)[i]'(by simp at h1; omega) < n := cols_lt hn c.2 _ (List.getElem_mem _)
    rw [Piece.mat, rotOp_exp_half, smul_smul, ← half_angle, flatten_at θ j hc]
    rfl

theorem layersPieces_mat (hn : 1 ≤ n) {θ : List (List ℝ)} {r : ℕ} (hθ : IsTable θ r n) : ∀ (cs : List (List Letter × LayerKind)) (j : ℕ), j + cs.length ≤ r →
    (layersPieces n j cs).map (Piece.mat (flatten n θ)) = (List.zipWith (layerRots n) cs (θ.drop j)).flatten
  | [], _, _ => by simp [layersPieces]
  | c :: cs, j, h => by
    rw [List.length_cons] at h
    have hj : j < θ.length := by rw [hθ.1]; omega
    rw [layersPieces, List.map_append, layerPieces_mat hn hθ (by omega), layersPieces_mat hn hθ cs (j + 1) (by omega), List.drop_eq_getElem_cons hj, List.zipWith_cons_cons, List.flatten_cons,
      List.getD_eq_getElem _ _ hj]

/-- The whole circuit: Hadamard gates, then the layers. -/
noncomputable def adaptPieces (n : ℕ) (cs : List (List Letter × LayerKind)) : List (Piece n) := .fixed (hadamardAll n) :: layersPieces n 0 cs

theorem adapt_ansatz (hn : 1 ≤ n) {θ : List (List ℝ)} {r : ℕ} (hθ : IsTable θ r n) {cs : List (List Letter × LayerKind)} (h : cs.length ≤ r) :
    ansatz (adaptPieces n cs) (flatten n θ) = inOrder (List.zipWith (layerRots n) cs θ).flatten * hadamardAll n := by
  have e := layersPieces_mat hn hθ cs 0 (by omega)
  rw [List.drop_zero] at e
  rw [← e, ansatz, adaptPieces, List.foldl_cons, inOrder, Matrix.mul_one, List.foldl_map]
  have : ∀ (l : List (Piece n)) (X : QMat n), l.foldl (fun U p => p.mat (flatten n θ) * U) X = l.foldl (fun U p => p.mat (flatten n θ) * U) 1 * X := by
    intro l
    induction l using List.reverseRecOn with
    | nil => intro X; simp
    | append_singleton l p ih => intro X; rw [List.foldl_append, List.foldl_append, ih]; simp [Matrix.mul_assoc]
  exact this _ _

/-! ### Its stiffness -/

theorem layerPieces_rates (j : ℕ) (c : List Letter × LayerKind) : (layerPieces n j c).filterMap Piece.rate = List.zipWith (fun i _ => (j * n + i, 1 / 2)) (c.2.cols n) (c.2.sites n) := by
  rw [layerPieces]
  generalize c.2.cols n = l
  generalize c.2.sites n = l'
  induction l generalizing l' with
  | nil => rfl
  | cons i l ih =>
    cases l' with
    | nil => rfl
    | cons q l' =>
      rw [List.zipWith_cons_cons, List.zipWith_cons_cons, List.filterMap_cons, ← ih l']
      simp only [Piece.rate, norm_smul, pauliWord_norm]
      simp

theorem zipWith_sublist {α β γ : Type} (g : α → γ) : ∀ (l : List α) (l' : List β), (List.zipWith (fun a _ => g a) l l').Sublist (l.map g)
  | [], _ => by simp
  | a :: l, [] => by simp
  | a :: l, b :: l' => by
    rw [List.zipWith_cons_cons, List.map_cons]
    exact (zipWith_sublist g l l').cons_cons _

theorem layersPieces_index (hn : 1 ≤ n) : ∀ (cs : List (List Letter × LayerKind)) (j : ℕ),
    (((layersPieces n j cs).filterMap Piece.rate).map Prod.fst).Nodup ∧ ∀ x ∈ (layersPieces n j cs).filterMap Piece.rate, x.2 = 1 / 2 ∧ j * n ≤ x.1 ∧ x.1 < (j + cs.length) * n
  | [], j => by simp [layersPieces]
  | c :: cs, j => by
    obtain ⟨h1, h2⟩ := layersPieces_index hn cs (j + 1)
    have hm : ((layerPieces n j c).filterMap Piece.rate).map Prod.fst = List.zipWith (fun i _ => j * n + i) (c.2.cols n) (c.2.sites n) := by
      rw [layerPieces_rates, List.map_zipWith]
    have h3 : ∀ x ∈ (layerPieces n j c).filterMap Piece.rate, x.2 = 1 / 2 ∧ j * n ≤ x.1 ∧ x.1 < (j + 1) * n := by
      intro x hx
      constructor
      · rw [layerPieces_rates] at hx
        obtain ⟨i, hi, rfl⟩ := List.getElem_of_mem hx
        simp
      · have : x.1 ∈ ((layerPieces n j c).filterMap Piece.rate).map Prod.fst := List.mem_map.2 ⟨x, hx, rfl⟩
        rw [hm] at this
        obtain ⟨i, hi, he⟩ := List.mem_map.1 ((zipWith_sublist (fun i => j * n + i) _ _).subset this)
        have := cols_lt hn c.2 i hi
        rw [← he, Nat.add_mul]
        omega
    rw [layersPieces, List.filterMap_append]
    constructor
    · rw [List.map_append, List.nodup_append]
      refine ⟨?_, h1, ?_⟩
      · rw [hm]
        refine (zipWith_sublist (fun i => j * n + i) _ _).nodup ((cols_nodup c.2).map fun a b h => ?_)
        simpa using h
      · intro a ha b hb
        obtain ⟨x, hx, rfl⟩ := List.mem_map.1 ha
        obtain ⟨y, hy, rfl⟩ := List.mem_map.1 hb
        have := (h3 x hx).2.2
        have := (h2 y hy).2.1
        omega
    · intro x hx
      rcases List.mem_append.1 hx with hx | hx
      · obtain ⟨a, b, d⟩ := h3 x hx
        refine ⟨a, b, d.trans_le (Nat.mul_le_mul_right _ ?_)⟩
        rw [List.length_cons]; omega
      · obtain ⟨a, b, d⟩ := h2 x hx
        refine ⟨a, le_trans (Nat.mul_le_mul_right _ (by omega)) b, ?_⟩
        rwa [List.length_cons, Nat.add_comm cs.length 1, ← Nat.add_assoc]

/-- The number of rotations of the layers. -/
def Spec.rotations (n : ℕ) (cs : List (List Letter × LayerKind)) : ℕ := (cs.map (fun c => (c.2.sites n).length)).sum

theorem layersPieces_count : ∀ (cs : List (List Letter × LayerKind)) (j : ℕ), ((layersPieces n j cs).filterMap Piece.rate).length ≤ rotations n cs
  | [], j => by simp [layersPieces]
  | c :: cs, j => by
    have := layersPieces_count cs (j + 1)
    rw [layersPieces, List.filterMap_append, List.length_append, layerPieces_rates, rotations, List.map_cons, List.sum_cons, List.length_zipWith]
    rw [rotations] at this
    omega

theorem adapt_stiffness (hn : 1 ≤ n) {cs : List (List Letter × LayerKind)} {r : ℕ} (hr : cs.length ≤ r) :
    Reads (adaptPieces n cs) (r * n) ∧ stiffness (adaptPieces n cs) (r * n) ≤ rotations n cs / 4 := by
  obtain ⟨h1, h2⟩ := layersPieces_index hn cs 0
  have e : (adaptPieces n cs).filterMap Piece.rate = (layersPieces n 0 cs).filterMap Piece.rate := rfl
  have hm : Reads (adaptPieces n cs) (r * n) := by
    intro x hx
    rw [e] at hx
    refine (h2 x hx).2.2.trans_le (Nat.mul_le_mul_right _ ?_)
    omega
  refine ⟨hm, (stiffness_single (by rw [e]; exact h1) (by rw [e]; exact fun x hx => (h2 x hx).1) hm).trans ?_⟩
  rw [e]
  have : (((layersPieces n 0 cs).filterMap Piece.rate).length : ℝ) ≤ rotations n cs := by exact_mod_cast layersPieces_count cs 0
  linarith

theorem adaptPieces_valid (cs : List (List Letter × LayerKind)) : ∀ p ∈ adaptPieces n cs, p.Valid := by
  have hl : ∀ (cs : List (List Letter × LayerKind)) (j : ℕ), ∀ p ∈ layersPieces n j cs, p.Valid := by
    intro cs
    induction cs with
    | nil => intro j p hp; simp [layersPieces] at hp
    | cons c cs ih =>
      intro j p hp
      rw [layersPieces] at hp
      rcases List.mem_append.1 hp with hp | hp
      · rw [layerPieces] at hp
        obtain ⟨i, hi, rfl⟩ := List.getElem_of_mem hp
        rw [List.getElem_zipWith, Piece.Valid, Matrix.conjTranspose_smul, pauliWord_herm, ← neg_smul]
        congr 1
        simp
        ring
      · exact ih (j + 1) p hp
  intro p hp
  rw [adaptPieces, List.mem_cons] at hp
  rcases hp with rfl | hp
  · exact hadamardAll_unitary n
  · exact hl cs 0 p hp

/-! ### The slopes -/

theorem flatten_set {θ : List (List ℝ)} {r j i : ℕ} (hθ : IsTable θ r n) (hj : j < r) (hi : i < n) (t : ℝ) :
    flatten n (setAngle θ j i t) = Function.update (flatten n θ) (j * n + i) t := by
  have hrow : (θ.getD j []).length = n := by
    rw [List.getD_eq_getElem _ _ (by rw [hθ.1]; exact hj)]
    exact hθ.2 _ (List.getElem_mem _)
  have hself : (θ.set j ((θ.getD j []).set i t)).getD j [] = (θ.getD j []).set i t := by
    rw [List.getD_eq_getElem _ _ (by rw [List.length_set, hθ.1]; exact hj), List.getElem_set_self]
  funext k
  by_cases hk : k = j * n + i
  · subst hk
    rw [Function.update_self, flatten_at _ _ hi, angle, setAngle, hself, List.getD_eq_getElem _ _ (by rw [List.length_set, hrow]; exact hi), List.getElem_set_self]
  · rw [Function.update_of_ne hk, flatten, flatten, angle, angle, setAngle]
    by_cases hd : k / n = j
    · have hne : i ≠ k % n := by
        intro h
        apply hk
        rw [← hd, h, Nat.mul_comm]
        exact (Nat.div_add_mod k n).symm
      rw [hd, hself, List.getD_eq_getElem?_getD, List.getElem?_set_ne hne, ← List.getD_eq_getElem?_getD]
    · have : (θ.set j ((θ.getD j []).set i t)).getD (k / n) [] = θ.getD (k / n) [] := by
        rw [List.getD_eq_getElem?_getD, List.getElem?_set_ne (Ne.symm hd), ← List.getD_eq_getElem?_getD]
      rw [this]

theorem shiftRule_slope (hn : 1 ≤ n) (gs : List (Gate n)) {cs : List (List Letter × LayerKind)} {θ : List (List ℝ)} {r j i : ℕ} (hr : cs.length ≤ r) (hθ : IsTable θ r n) (hj : j < r) (hi : i < n) :
    costSlope (totalObs gs) (adaptPieces n cs) (flatten n θ) (j * n + i) = shiftRule (adaptCost gs cs) θ j i := by
  have hd := (adaptCost_shift gs cs hθ.2 j i).2 (angle θ j i)
  have e : flatten n θ (j * n + i) = angle θ j i := by
    rw [flatten, Nat.mul_comm j n, Nat.mul_add_div (by omega), Nat.div_eq_of_lt hi, Nat.mul_add_mod, Nat.mod_eq_of_lt hi, add_zero]
  rw [costSlope, e]
  have e2 : (fun t => cost (totalObs gs) (ansatz (adaptPieces n cs) (Function.update (flatten n θ) (j * n + i) t))) = fun t => adaptCost gs cs (setAngle θ j i t) := by
    funext t
    rw [← flatten_set hθ hj hi, adapt_ansatz hn (isTable_set hθ j i t) hr]
    rfl
  rw [e2]
  exact hd.deriv

/-- The squared gradient of a function of a table of angles, by the parameter-shift rule. -/
noncomputable def Spec.shiftSq (F : List (List ℝ) → ℝ) (r n : ℕ) (θ : List (List ℝ)) : ℝ := ∑ j ∈ Finset.range r, ∑ i ∈ Finset.range n, shiftRule F θ j i ^ 2

theorem sum_rows (f : ℕ → ℝ) (n : ℕ) : ∀ r, ∑ k ∈ Finset.range (r * n), f k = ∑ j ∈ Finset.range r, ∑ i ∈ Finset.range n, f (j * n + i)
  | 0 => by simp
  | r + 1 => by rw [Nat.add_mul, one_mul, Finset.sum_range_add, sum_rows f n r, Finset.sum_range_succ]

theorem gradSq_table (hn : 1 ≤ n) (gs : List (Gate n)) {cs : List (List Letter × LayerKind)} {θ : List (List ℝ)} {r : ℕ} (hr : cs.length ≤ r) (hθ : IsTable θ r n) :
    gradSq (totalObs gs) (adaptPieces n cs) (r * n) (flatten n θ) = shiftSq (adaptCost gs cs) r n θ := by
  rw [gradSq, sum_rows, shiftSq]
  refine Finset.sum_congr rfl fun j hj => Finset.sum_congr rfl fun i hi => ?_
  rw [shiftRule_slope hn gs hr hθ (Finset.mem_range.1 hj) (Finset.mem_range.1 hi)]

/-- One gradient step on a table of angles. -/
theorem adapt_drop (hn : 1 ≤ n) (gs : List (Gate n)) (hg : ∀ g ∈ gs, g.Aᴴ = g.A) {cs : List (List Letter × LayerKind)} {θ θ' : List (List ℝ)} {r : ℕ} (hr : cs.length ≤ r) (hθ : IsTable θ r n)
    (hθ' : IsTable θ' r n) {e : ℝ} (h0 : 0 ≤ e) (hsmall : ‖totalObs gs‖ * rotations n cs * e ≤ 1)
    (hstep : ∀ j < r, ∀ i < n, angle θ' j i = angle θ j i - e * shiftRule (adaptCost gs cs) θ j i) :
    e / 2 * shiftSq (adaptCost gs cs) r n θ ≤ adaptCost gs cs θ - adaptCost gs cs θ' := by
  obtain ⟨hm, hst⟩ := adapt_stiffness hn hr
  have hb := gradient_step (totalObs_herm gs hg) (adaptPieces_valid cs) hm (flatten n θ) e (flatten n θ') (fun k hk => by
      have hi : k % n < n := Nat.mod_lt _ (by omega)
      have hj : k / n < r := Nat.div_lt_of_lt_mul (by rwa [Nat.mul_comm])
      have hs := shiftRule_slope hn gs hr hθ hj hi
      rw [Nat.mul_comm, Nat.div_add_mod] at hs
      rw [flatten, hstep _ hj _ hi, ← hs]
      rfl) (fun k hk => by
      have hj : r ≤ k / n := (Nat.le_div_iff_mul_le (by omega)).2 hk
      rw [flatten, flatten, angle, angle, List.getD_eq_default θ' _ (by rw [hθ'.1]; exact hj), List.getD_eq_default θ _ (by rw [hθ.1]; exact hj)])
  rw [gradSq_table hn gs hr hθ, adapt_ansatz hn hθ hr, adapt_ansatz hn hθ' hr] at hb
  have h1 := (abs_le.1 hb).2
  change adaptCost gs cs θ' - adaptCost gs cs θ + _ ≤ _ at h1
  have hS : 0 ≤ shiftSq (adaptCost gs cs) r n θ := Finset.sum_nonneg fun _ _ => Finset.sum_nonneg fun _ _ => sq_nonneg _
  have h2 : ‖totalObs gs‖ * stiffness (adaptPieces n cs) (r * n) * e ≤ 1 / 4 := by
    have := mul_le_mul_of_nonneg_right (mul_le_mul_of_nonneg_left hst (norm_nonneg (totalObs gs))) h0
    linarith
  have h3 := mul_le_mul_of_nonneg_right h2 (mul_nonneg h0 hS)
  nlinarith

/-! ### The training of a call -/

/-- A bound for the number of rotations of a layer: one per qubit, or one per second bond. -/
def Spec.layerSize (n : ℕ) : Parity → ℕ
  | .single => n
  | _ => (n + 1) / 2

theorem bonds_count (n : ℕ) : ∀ m : ℕ, ((List.range m).filter (fun i => i % 2 = 0 ∧ i + 1 < n)).length ≤ (min m (n - 1) + 1) / 2 ∧
    ((List.range m).filter (fun i => i % 2 = 1 ∧ i + 1 < n)).length ≤ min m (n - 1) / 2
  | 0 => by simp
  | m + 1 => by
    obtain ⟨h1, h2⟩ := bonds_count n m
    rw [List.range_succ, List.filter_append, List.filter_append, List.length_append, List.length_append, List.filter_singleton, List.filter_singleton]
    constructor
    · by_cases h : m % 2 = 0 ∧ m + 1 < n
      · simp only [h, and_self, decide_true, cond_true, List.length_singleton]
        omega
      · simp only [h, decide_false, cond_false, List.length_nil]
        omega
    · by_cases h : m % 2 = 1 ∧ m + 1 < n
      · simp only [h, and_self, decide_true, cond_true, List.length_singleton]
        omega
      · simp only [h, decide_false, cond_false, List.length_nil]
        omega

theorem sites_size (hn : 1 ≤ n) (k : LayerKind) : (k.sites n).length ≤ layerSize n k.toParity := by
  obtain ⟨h1, h2⟩ := bonds_count n n
  cases k with
  | single => simp [LayerKind.sites, layerSize, LayerKind.toParity]
  | even =>
    simp only [LayerKind.sites, layerSize, LayerKind.toParity, List.length_map]
    omega
  | odd =>
    simp only [LayerKind.sites, layerSize, LayerKind.toParity, List.length_append, List.length_map, List.length_singleton]
    omega

theorem rotations_size (hn : 1 ≤ n) (cs : List (List Letter × LayerKind)) :
    rotations n cs ≤ ((cs.map (fun c => (letterStr c.1, c.2.toParity))).map (fun l => layerSize n l.2)).sum := by
  rw [rotations, List.map_map]
  induction cs with
  | nil => simp
  | cons c cs ih =>
    rw [List.map_cons, List.map_cons, List.sum_cons, List.sum_cons]
    exact Nat.add_le_add (sites_size hn c.2) ih

/-- C142.  In the training that a call of an `AdaptVQELayer` performs, with PennyLane's gradient descent, for Hermitian observables and layers that have
together at most `100 / ‖H‖` rotations: no step raises the cost, each lowers it by 0.005 times the squared gradient at least, so that the circuit returned is
no worse than the one the training begins with (the parameters given, 0.1 for the new layer); if the training stops before the 40th step, the gradient
before the last step is small. -/
theorem C142_training (hn : 2 ≤ n) (E : LayerEnv n) (hgd : ValidGd E.gd) (gs : List (Gate n)) (hg : ∀ g ∈ gs, g.Aᴴ = g.A) (la : LayerArgs) (L L₁ : AdaptLayer n)
    (hL : adaptLayer n (gs.map Gate.obs) la = .ok L) (inputs : List (VqeOptimizer × List (List ℝ) × QMat n)) (h1 : L.runAll inputs = .ok L₁)
    (params params' : List (List ℝ)) (r : ℕ) (hr : L₁.layers.length ≤ r) (hp : IsTable params r n) (U V : QMat n) (L' : AnyLayer n)
    (hsmall : ∀ k, L₁.select U = .ok k → ‖totalObs gs‖ * (((L₁.layers ++ [k]).map (fun l => layerSize n l.2)).sum : ℕ) ≤ 100)
    (h : (AnyLayer.adapt L₁).call E params U = .ok (V, params', L')) :
    ∃ (k : String × Parity) (F : List (List ℝ) → ℝ) (θ : ℕ → List (List ℝ)) (W : ℕ → QMat n) (m : ℕ), L₁.select U = .ok k ∧ m ≤ 40 ∧
      (∀ θ, IsTable θ (r + 1) n → psCost n (circuitVqe n (L₁.layers ++ [k])) (gs.map Gate.obs) θ = .ok (F θ)) ∧
      θ 0 = params ++ [List.replicate n 0.1] ∧ params' = θ m ∧ V = W m ∧
      (∀ j ≤ m, circuitUnitary n (circuitVqe n (L₁.layers ++ [k])) (θ j) = .ok (W j)) ∧
      (∀ j < m, cost (totalObs gs) (W (j + 1)) ≤ cost (totalObs gs) (W j) - 0.005 * shiftSq F (r + 1) n (θ j)) ∧
      cost (totalObs gs) V ≤ cost (totalObs gs) (W 0) - 0.005 * ∑ j ∈ Finset.range m, shiftSq F (r + 1) n (θ j) ∧
      (m < 40 → 4 ≤ m ∧ shiftSq F (r + 1) n (θ (m - 1)) ≤ 0.002 * (1 + |cost (totalObs gs) (W (m - 1))|)) := by
  obtain ⟨hok, cs₁, hcs₁, hl⟩ := reached_layers hn hL h1
  have hinv : AdaptInv gs L₁ := ⟨hok, cs₁, fun c hc => candidate_good (hcs₁ c hc), hl⟩
  obtain ⟨k, θ, W, m, hk, -, hm, h0, hstep, hW, -, hstop, h4, h5⟩ := C78_adapt_step E gs L₁ hok.obs params params' U V L' h
  obtain ⟨k', cs, hk', hcs, e⟩ := adaptInv_select hn hinv U
  rw [hk] at hk'
  obtain rfl := Except.ok.inj hk'
  have hlen := congrArg List.length e
  rw [List.length_append, List.length_singleton, List.length_map] at hlen
  have hT0 : IsTable (θ 0) (r + 1) n := by rw [h0]; exact isTable_append hp 0.1
  have hs := hsmall k hk
  rw [e] at hstep hW hs
  obtain ⟨hT, hA⟩ := inner_tables hn hgd gs hcs (by omega) hT0 0.01 hstep
  have hF : ∀ j ≤ m, cost (totalObs gs) (W j) = adaptCost gs cs (θ j) := by
    intro j hj
    have := hW j hj
    rw [circuitVqe_table hn hcs (by omega) (hT j hj)] at this
    rw [← Except.ok.inj this]
    rfl
  have hrot : (rotations n cs : ℝ) ≤ (((cs.map (fun c => (letterStr c.1, c.2.toParity))).map (fun l => layerSize n l.2)).sum : ℕ) := by
    exact_mod_cast rotations_size (by omega) cs
  have hsm : ‖totalObs gs‖ * rotations n cs * 0.01 ≤ 1 := by
    have := mul_le_mul_of_nonneg_left hrot (norm_nonneg (totalObs gs))
    linarith
  have hdrop : ∀ j < m, cost (totalObs gs) (W (j + 1)) ≤ cost (totalObs gs) (W j) - 0.005 * shiftSq (adaptCost gs cs) (r + 1) n (θ j) := by
    intro j hj
    have := adapt_drop (by omega) gs hg (by omega) (hT j (by omega)) (hT (j + 1) (by omega)) (by norm_num) hsm (hA j hj)
    rw [hF _ (by omega), hF _ (by omega)]
    linarith
  have hsum : ∀ l ≤ m, cost (totalObs gs) (W l) ≤ cost (totalObs gs) (W 0) - 0.005 * ∑ j ∈ Finset.range l, shiftSq (adaptCost gs cs) (r + 1) n (θ j) := by
    intro l
    induction l with
    | zero => intro _; simp
    | succ l ih =>
      intro hl
      have h1 := ih (by omega)
      have h2 := hdrop l (by omega)
      rw [Finset.sum_range_succ]
      linarith
  refine ⟨k, adaptCost gs cs, θ, W, m, hk, hm, fun θ hθ => ?_, h0, h4, h5, ?_, hdrop, ?_, fun hlt => ?_⟩
  · rw [e]; exact psCost_table hn gs hcs (by omega) hθ
  · rw [e]; exact hW
  · rw [h5]; exact hsum m le_rfl
  · rcases hstop with hstop | ⟨j, h3, rfl, hcl⟩
    · omega
    · refine ⟨by omega, ?_⟩
      have h1 := hdrop j (by omega)
      have h2 := (abs_le.1 (hcl _ rfl)).1
      rw [Nat.add_sub_cancel]
      linarith

/-- C142.  For sums of Pauli words (or of other Hermitian involutions) the bound on the size holds as long as the numbers of terms, of qubits and of layers
multiply to at most 100. -/
theorem C142_small {gs : List (Gate n)} (hg : Involutions gs) (hn : 1 ≤ n) (ls : List (String × Parity)) (h : gs.length * n * ls.length ≤ 100) :
    ‖totalObs gs‖ * ((ls.map (fun l => layerSize n l.2)).sum : ℕ) ≤ 100 := by
  have h1 : (ls.map (fun l => layerSize n l.2)).sum ≤ n * ls.length := by
    clear h
    induction ls with
    | nil => simp
    | cons l ls ih =>
      have : layerSize n l.2 ≤ n := by
        cases l.2 <;> simp only [layerSize] <;> omega
      rw [List.map_cons, List.sum_cons, List.length_cons, Nat.mul_add, mul_one]
      omega
  have h2 : (((ls.map (fun l => layerSize n l.2)).sum : ℕ) : ℝ) ≤ (n * ls.length : ℕ) := by exact_mod_cast h1
  have h3 : ((gs.length * n * ls.length : ℕ) : ℝ) ≤ 100 := by exact_mod_cast h
  have h4 := mul_le_mul (totalObs_norm gs hg) h2 (Nat.cast_nonneg _) (Nat.cast_nonneg _)
  push_cast at h3 h4 ⊢
  linarith

/-- Hypotheses of C142 met by a non-trivial case: a call of a new layer for one observable on two qubits, with a table of one row. -/
example : ∃ (E : LayerEnv 2) (L : AdaptLayer 2), ValidGd E.gd ∧ (∀ g ∈ [exObsZ], g.Aᴴ = g.A) ∧ adaptLayer 2 ([exObsZ].map Gate.obs) {} = .ok L ∧ L.layers.length = 0 ∧
    (∀ k, L.select 1 = .ok k → ‖totalObs [exObsZ]‖ * (((L.layers ++ [k]).map (fun l => layerSize 2 l.2)).sum : ℕ) ≤ 100) ∧
    IsTable [[0.3, 0.2]] 1 2 ∧ ∃ V ps L', (AnyLayer.adapt L).call E [[0.3, 0.2]] 1 = .ok (V, ps, L') := by
  obtain ⟨svd, hsvd⟩ := exists_validSvd 2
  obtain ⟨gd, hgd⟩ := exists_validGd
  obtain ⟨L, hL⟩ := exAdapt
  let E : LayerEnv 2 := ⟨svd, ⟨List.reverse, List.reverse_perm⟩, gd⟩
  have hG : ValidGd E.gd := hgd
  have hl : L.layers = [] := (adaptLayer_inv hL).2.2
  obtain ⟨V, ps, L', h, -⟩ := adapt_call_table le_rfl E hG [exObsZ] (adaptInv_fresh hL) (θ := [[0.3, 0.2]]) (r := 1) (by rw [hl]; simp) ⟨rfl, by simp⟩ 1
  refine ⟨E, L, hG, exObsZ_herm, hL, by rw [hl]; rfl, fun k _ => ?_, ⟨rfl, by simp⟩, V, ps, _, h⟩
  refine C142_small (fun g hg => ?_) (by norm_num) _ (by rw [hl]; simp)
  rw [List.mem_singleton] at hg
  subst hg
  exact ⟨pauliWord_herm _, pauliWord_sq _⟩

end Oranssi
