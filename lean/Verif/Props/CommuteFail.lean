import Verif.Props.Commute
import Verif.Props.GreedyMore
import Verif.Props.ApproxTotal

/-! # C74: a call with `commute=True` that raises `KeyError` -/

namespace Oranssi
open scoped Matrix
open Spec

/-- The observable X on qubit 2 of three qubits. -/
noncomputable def obsX2 : Gate 3 := ⟨[2], pauliWord (n := 1) [Letter.X].get, by simp, by simp, by simp⟩

theorem obsX2_total : totalObs [obsX2] = pauliWord (placed 3 [.X] [2]) := by
  rw [← full_placed (w := [Letter.X]) (qs := [2]) rfl (by decide)]
  simp [totalObs, obsX2]

/-- The letters whose expectation in the state `|0⟩` is not zero. -/
def Letter.diag : Letter → Bool
  | .I => true | .X => false | .Y => false | .Z => true

theorem bits_zero (q : Fin 3) : bit 3 ((0 : Fin (2 ^ 3)) : ℕ) q = 0 := by
  simp [bit]

theorem grad_x2 (w : Fin 3 → Letter) : grad (totalObs [obsX2]) 1 (pauliWord w) =
    if (Letter.diag (w 0) && Letter.diag (w 1)) && w 2 = .Y then -2 else 0 := by
  have h1 : ∀ A : QMat 3, star (fun i => (1 : QMat 3) i 0) ⬝ᵥ (A *ᵥ (fun i => (1 : QMat 3) i 0)) = A 0 0 := by
    intro A
    have : (fun i => (1 : QMat 3) i 0) = Pi.single 0 1 := by
      funext i
      rw [Matrix.one_apply, Pi.single_apply]
    rw [this]
    simp
  rw [grad, h1, obsX2_total, pauliWord, pauliWord, tensor_mul, tensor_mul, Matrix.sub_apply]
  simp only [tensor, Fin.prod_univ_three, bits_zero]
  have e0 : placed 3 [.X] [2] 0 = .I := by decide
  have e1 : placed 3 [.X] [2] 1 = .I := by decide
  have e2 : placed 3 [.X] [2] 2 = .X := by decide
  rw [e0, e1, e2]
  generalize w 0 = a
  generalize w 1 = b
  generalize w 2 = c
  cases a <;> cases b <;> cases c <;> simp [Letter.mat, Letter.diag] <;> norm_num

theorem grad_term {w : List Letter} {q : List ℕ} : grad (totalObs [obsX2]) 1 (termOp 3 (letterStr w, q)) =
    if (Letter.diag (placed 3 w q 0) && Letter.diag (placed 3 w q 1)) && placed 3 w q 2 = .Y then -2 else 0 := by
  rw [termOp, lettersOfStr_letterStr, grad_x2]

theorem nonzero_words : ∀ w ∈ allWords [1, 2], ∀ q ∈ combinations (List.range 3) w.length,
    (Letter.diag (placed 3 w q 0) && Letter.diag (placed 3 w q 1)) && placed 3 w q 2 = .Y →
    (w, q) ∈ [([Letter.Y], [2]), ([Letter.Z, .Y], [0, 2]), ([Letter.Z, .Y], [1, 2])] := by decide

theorem grad_cases {k : Key} (hk : IsTerm 3 k) : (k ∈ [("Y", [2]), ("ZY", [0, 2]), ("ZY", [1, 2])] ∧ |grad (totalObs [obsX2]) 1 (termOp 3 k)| = 2) ∨
    (k ∉ [("Y", [2]), ("ZY", [0, 2]), ("ZY", [1, 2])] ∧ grad (totalObs [obsX2]) 1 (termOp 3 k) = 0) := by
  obtain ⟨w, hw, q, hq, rfl⟩ := mem_keys_stdDict.1 (isTerm_iff.1 hk)
  rw [grad_term]
  by_cases h : (Letter.diag (placed 3 w q 0) && Letter.diag (placed 3 w q 1)) && placed 3 w q 2 = .Y
  · left
    rw [if_pos h]
    have := nonzero_words w hw q hq h
    refine ⟨?_, by norm_num⟩
    simp only [List.mem_cons, List.not_mem_nil, or_false, Prod.mk.injEq] at this
    rcases this with ⟨rfl, rfl⟩ | ⟨rfl, rfl⟩ | ⟨rfl, rfl⟩ <;> decide
  · right
    rw [if_neg h]
    refine ⟨?_, rfl⟩
    intro hc
    apply h
    have hl : ∀ u : List Letter, letterStr w = letterStr u → w = u := by
      intro u hu
      have := congrArg lettersOfStr hu
      rwa [lettersOfStr_letterStr, lettersOfStr_letterStr] at this
    simp only [List.mem_cons, List.not_mem_nil, or_false, Prod.mk.injEq] at hc
    rcases hc with ⟨h1, rfl⟩ | ⟨h1, rfl⟩ | ⟨h1, rfl⟩
    · obtain rfl := hl [.Y] h1; decide
    · obtain rfl := hl [.Z, .Y] h1; decide
    · obtain rfl := hl [.Z, .Y] h1; decide

theorem term_zy (a : ℕ) (ha : a < 2) : IsTerm 3 ("ZY", [a, 2]) :=
  ⟨[.Z, .Y], by simp, by simp, (by decide : "ZY" = letterStr [.Z, .Y]), rfl, by simpa using ha, by simp; omega⟩

/-- With Y on qubit 2 excluded, the near-maximal terms are ZY on the bonds (0,2) and (1,2). -/
theorem near_x2 (k : Key) : NearBest (totalObs [obsX2]) 1 ("Y", [2]) k ↔ k = ("ZY", [0, 2]) ∨ k = ("ZY", [1, 2]) := by
  have hle : ∀ c, IsTerm 3 c → |grad (totalObs [obsX2]) 1 (termOp 3 c)| ≤ 2 := by
    intro c hc
    rcases grad_cases hc with ⟨-, h⟩ | ⟨-, h⟩ <;> rw [h] <;> norm_num
  have h02 : |grad (totalObs [obsX2]) 1 (termOp 3 ("ZY", [0, 2]))| = 2 := by
    rcases grad_cases (term_zy 0 (by norm_num)) with ⟨-, h⟩ | ⟨h, -⟩
    · exact h
    · simp at h
  have h12 : |grad (totalObs [obsX2]) 1 (termOp 3 ("ZY", [1, 2]))| = 2 := by
    rcases grad_cases (term_zy 1 (by norm_num)) with ⟨-, h⟩ | ⟨h, -⟩
    · exact h
    · simp at h
  constructor
  · rintro ⟨⟨hk, hk'⟩, b, hb, h1, h2⟩
    have hb2 : |grad (totalObs [obsX2]) 1 (termOp 3 b)| = 2 := le_antisymm (hle b hb.1) (by rw [← h02]; exact h1 _ (term_zy 0 (by norm_num)) (by decide))
    rcases grad_cases hk with ⟨h, -⟩ | ⟨-, h⟩
    · simpa [hk'] using h
    · rw [hb2, h] at h2
      norm_num at h2
  · rintro (rfl | rfl)
    · refine ⟨⟨term_zy 0 (by norm_num), by decide⟩, ("ZY", [0, 2]), ⟨term_zy 0 (by norm_num), by decide⟩, ?_, ?_⟩
      · intro c hc _; rw [h02]; exact hle c hc
      · rw [h02]; norm_num
    · refine ⟨⟨term_zy 1 (by norm_num), by decide⟩, ("ZY", [0, 2]), ⟨term_zy 0 (by norm_num), by decide⟩, ?_, ?_⟩
      · intro c hc _; rw [h02]; exact hle c hc
      · rw [h02, h12]; norm_num

/-- The term of the first call: Y on qubit 2. -/
theorem y2_first : IsFirstMax (fun e : Key × QMat 3 => |grad (totalObs [obsX2]) 1 e.2|)
    ((stdDict 3 (allWords [1, 2])).filter (fun e => e.1 ≠ ("Null", [0]))) (("Y", [2]), pauliWord (placed 3 [.Y] [2])) := by
  have hf : (stdDict 3 (allWords [1, 2])).filter (fun e => e.1 ≠ ("Null", [0])) = stdDict 3 (allWords [1, 2]) := by
    rw [List.filter_eq_self]
    intro e he
    obtain ⟨w, hw, q, -, rfl⟩ := mem_stdDict.1 he
    rw [decide_eq_true_iff]
    intro hc
    replace hc := (Prod.mk.inj hc).1
    have := congrArg (fun s : String => s.toList.length) hc
    simp only [letterStr_length] at this
    have h2 := (mem_allWords.1 hw).1
    rw [this] at h2
    revert h2
    decide
  rw [hf]
  have e1 : allWords [1, 2] = [Letter.X] :: [.Y] :: [.Z] :: wordsXYZ 2 := by decide
  have e2 : combinations (List.range 3) 1 = [[0], [1], [2]] := by decide
  have hY : grad (totalObs [obsX2]) 1 (pauliWord (placed 3 [.Y] [2])) = -2 := by rw [grad_x2]; exact if_pos (by decide)
  refine ⟨stdDict 3 [[.X]] ++ [(("Y", [0]), pauliWord (placed 3 [.Y] [0])), (("Y", [1]), pauliWord (placed 3 [.Y] [1]))], stdDict 3 ([.Z] :: wordsXYZ 2), ?_, ?_, ?_⟩
  · rw [e1, stdDict_cons, stdDict_cons 3 [.Y], stdDict_cons 3 [.X] [], show ([Letter.X] : List Letter).length = 1 from rfl,
      show ([Letter.Y] : List Letter).length = 1 from rfl, e2]
    rfl
  · intro e he
    simp only [hY]
    have h0 : grad (totalObs [obsX2]) 1 e.2 = 0 := by
      rcases List.mem_append.1 he with he | he
      · obtain ⟨w, hw, q, hq, rfl⟩ := mem_stdDict.1 he
        obtain rfl := List.mem_singleton.1 hw
        rw [show ([Letter.X] : List Letter).length = 1 from rfl, e2] at hq
        simp only [List.mem_cons, List.not_mem_nil, or_false] at hq
        simp only [grad_x2]
        rcases hq with rfl | rfl | rfl <;> exact if_neg (by decide)
      · simp only [List.mem_cons, List.not_mem_nil, or_false] at he
        rcases he with rfl | rfl <;> simp only [grad_x2] <;> exact if_neg (by decide)
    rw [h0]
    norm_num
  · intro e he
    obtain ⟨w, hw, q, hq, rfl⟩ := mem_stdDict.1 he
    simp only [hY, grad_x2]
    split <;> norm_num

theorem two_elems {α : Type} {a b : α} (hab : a ≠ b) {l : List α} (hl : l.Nodup) (h : ∀ x, x ∈ l ↔ x = a ∨ x = b) : l = [a, b] ∨ l = [b, a] := by
  have hp : l.Perm [a, b] := by
    rw [List.perm_ext_iff_of_nodup hl (by simpa using hab)]
    intro x
    rw [h]
    simp
  exact List.perm_pair.1 hp

/-- C74 is false: a layer for X on qubit 2 of three qubits, called once and then again with `commute=True` on the circuit `1`, raises
`KeyError` for some random numbers, whatever the optimizer: `networkx` reports the bond (1, 2) as (2, 1), and the dictionary has no such key. -/
theorem C74_reversed_bond_raises : ∃ (L L₁ : SquaredLayer 3) (V : QMat 3), squaredLayer 3 ([obsX2].map Gate.obs) {} = .ok L ∧ L.call 1 = .ok (V, L₁) ∧
    ∃ rs : ℕ → ℕ, ∀ fuel, 1 ≤ fuel → ∀ f : LieOptimizer, (∀ c p, ∃ ps last, f c p = .ok ps ∧ ps.getLast? = some last ∧ p.length ≤ last.length) →
      L₁.callCommute rs fuel (some f) 1 = .error .key := by
  have hex : ∃ L, squaredLayer 3 ([obsX2].map Gate.obs) {} = .ok L := by
    obtain ⟨a, ha, -⟩ := algebraSU4_getAll 3
    rw [squaredLayer, promoteAll_gates, ha]
    simp only [bind, Except.bind]
    rw [show validateEta (Option.getD ({} : LayerArgs).eta (.float 0.1)) = .ok 0.1 from defaultEta_ok']
    exact ⟨_, rfl⟩
  obtain ⟨L, hL⟩ := hex
  obtain ⟨ho, hf, hd, hp⟩ := squaredLayer_inv hL
  obtain ⟨k, P, V, h1, h2, -⟩ := squared_call (by norm_num) ho hf hd 1
  rw [hp] at h2
  have hk := (Prod.mk.inj (IsFirstMax_unique h2 y2_first)).1
  subst hk
  refine ⟨L, _, V, hL, h1, fun _ => 1, ?_⟩
  intro fuel hfuel f hopt
  have hok := squaredOk_call (squaredOk_new hL) h1
  obtain ⟨ks, k₀, hnd, hk₀, hks, hsel⟩ := commuteSelect_eq (by norm_num) hok 1
  have hks' : ∀ x, x ∈ ks ↔ x = ("ZY", [0, 2]) ∨ x = ("ZY", [1, 2]) := fun x => (hks x).trans (near_x2 x)
  have hdir : k₀.1 = "ZY" := by rcases (hks' k₀).1 hk₀ with rfl | rfl <;> rfl
  obtain ⟨m, rfl⟩ : ∃ m, fuel = m + 1 := ⟨fuel - 1, by omega⟩
  have hce : ∃ x, commutingEdges (fun _ => 1) (m + 1) (bondsOf ks "ZY") = .ok [[2, x]] := by
    rcases two_elems (a := ("ZY", [0, 2])) (b := ("ZY", [1, 2])) (by decide) hnd hks' with rfl | rfl
    · exact ⟨1, rfl⟩
    · exact ⟨0, rfl⟩
  obtain ⟨x, hx⟩ := hce
  obtain ⟨ps, last, h3, h4, h5⟩ := hopt (circuitLie 1 "ZY" [[2, x]]) ([[2, x]].map (fun _ => (0.1 : ℝ)))
  simp only [List.map_cons, List.map_nil, List.length_cons, List.length_nil] at h5
  have hg : pyGetItem ps (-1) = .ok last := by
    have hps : ps ≠ [] := by rintro rfl; simp at h4
    have hpos := List.length_pos_iff.2 hps
    have : pyIndex ps.length (-1) = some (ps.length - 1) := by rw [pyIndex, if_neg (by omega), if_pos (by omega)]; congr 1; omega
    rw [List.getLast?_eq_getElem?] at h4
    rw [pyGetItem, this]
    simp only [Option.bind_some, h4]
  have hmiss : dictGet (stdDict 3 (allWords [1, 2])) ("ZY", [2, x]) = .error .key := by
    refine dictGet_missing ?_
    rw [← isTerm_iff]
    rintro ⟨w, -, -, -, -, h6, h7⟩
    simp at h6 h7
    omega
  rw [SquaredLayer.callCommute, hsel, hdir, hx]
  simp only [bind, Except.bind, Except.map]
  rw [h3]
  simp only
  rw [if_neg (by simp), hg]
  simp only
  rw [hok.dict, applyRotations]
  simp only [bind, Except.bind]
  rw [pyGetItem_nat (by omega), hmiss]

/-- On one or two qubits no two terms of the same direction overlap: the call always succeeds with an optimizer that returns enough angles. -/
theorem C74_two_qubits {n : ℕ} (hn : 1 ≤ n) (hn2 : n ≤ 2) (gs : List (Gate n)) (args : LayerArgs) (L : SquaredLayer n)
    (hL : squaredLayer n (gs.map Gate.obs) args = .ok L) (U : QMat n) (rs : ℕ → ℕ) (fuel : ℕ) (f : LieOptimizer)
    (hf : ∀ c p, ∃ ps last, f c p = .ok ps ∧ ps.getLast? = some last ∧ p.length ≤ last.length) :
    ∃ V l, L.callCommute rs fuel (some f) U = .ok (V, l) := by
  obtain ⟨k₀, -, h⟩ := C74_succeeds_partial hn gs L (squaredOk_new hL) U (by
    rintro ⟨d, q⟩ ⟨d', q'⟩ ⟨⟨⟨w, h1, -, h2, h3, h4, h5⟩, -⟩, -⟩ ⟨⟨⟨w', h1', -, h2', h3', h4', h5'⟩, -⟩, -⟩ hdd hne
    simp only at hdd h2 h3 h4 h5 h2' h3' h4' h5' ⊢
    subst hdd
    have hw : w' = w := by
      have := congrArg lettersOfStr (h2'.symm.trans h2)
      rwa [lettersOfStr_letterStr, lettersOfStr_letterStr] at this
    subst hw
    rcases h1 with h1 | h1
    · obtain ⟨a, rfl⟩ := List.length_eq_one_iff.1 (h3.trans h1)
      obtain ⟨b, rfl⟩ := List.length_eq_one_iff.1 (h3'.trans h1)
      simp only [List.disjoint_singleton, List.mem_singleton]
      rintro rfl
      exact hne rfl
    · exfalso
      obtain ⟨a, b, rfl⟩ := List.length_eq_two.1 (h3.trans h1)
      obtain ⟨c, e, rfl⟩ := List.length_eq_two.1 (h3'.trans h1)
      simp at h4 h4' h5 h5'
      apply hne
      rw [show a = c by omega, show b = e by omega])
  obtain ⟨V, l, h6, -⟩ := h rs fuel f hf
  exact ⟨V, l, h6⟩

/-- A concrete case: a squared layer for Z on two qubits, with an optimizer that returns its initial angles. -/
example : ∃ (L : SquaredLayer 2) (V : QMat 2) (l : List (Key × ℝ)), SquaredOk [exObsZ] L ∧
    L.callCommute (fun _ => 0) 7 (some (fun _ p => .ok [p])) 1 = .ok (V, l) := by
  obtain ⟨L, hL⟩ := exSquared
  obtain ⟨V, l, h⟩ := C74_two_qubits (by norm_num) le_rfl [exObsZ] {} L hL 1 (fun _ => 0) 7 (fun _ p => .ok [p]) (fun c p => ⟨[p], p, rfl, rfl, le_rfl⟩)
  exact ⟨L, V, l, squaredOk_new hL, h⟩

end Oranssi
