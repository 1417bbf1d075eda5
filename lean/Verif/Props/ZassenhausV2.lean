import Verif.Lemmas.ZassenhausV2
import Verif.Lemmas.Bch
import Verif.Lemmas.Shift
import Verif.Props.Zassenhaus
import Verif.Props.Commute
import Verif.Props.GreedyMore
import Verif.Spec.ZassenhausV2

/-! # C80, C81: `ZassenhausLayerV2` -/

namespace Oranssi
open scoped Matrix
open Spec

variable {n : ℕ}

/-! ### The constructor -/

/-- What the constructor builds. -/
theorem zassV2Layer_inv {ord : SetOrder SMono} {gs : List (Gate n)} {args : LayerArgs} {b1 b2 : Bool} {L : ZassV2Layer n}
    (hL : zassV2Layer ord n (gs.map Gate.obs) args b1 b2 = .ok L) :
    L.observablesFull = gs.map (fun g => full n g.ws g.A) ∧ L.su2.fullPaulis = stdDict n (allWords [1]) ∧
      L.su4.fullPaulis = stdDict n (allWords (if b1 then [1, 2] else [2])) ∧ L.terms.Perm v2Five ∧ 0 ≤ L.eta ∧ L.eta ≤ 1 := by
  obtain ⟨a0, h0, h1, h2, h3, h4⟩ := algebraSU8_attrs n b1 b2
  have hl2 : (lens8 b1 b2).Nodup := by cases b1 <;> cases b2 <;> simp [lens8]
  have h02 : 0 ∉ lens8 b1 b2 := by cases b1 <;> cases b2 <;> simp [lens8]
  have hne : ∀ w ∈ allWords (lens8 b1 b2), w ≠ [] := fun w hw hc => h02 (by simpa [hc] using (mem_allWords.1 hw).1)
  have ha := getAll8_std (allWords_nodup hl2) hne _ h1 h2 h4 [] (Or.inl rfl) h3
  obtain ⟨k1, k2, k3, k4⟩ := algebraSU4_attrs n b1
  have kl : ∀ w ∈ allWords (if b1 then [1, 2] else [2]), w.length = 1 ∨ w.length = 2 := fun w hw => by
    have := (mem_allWords.1 hw).1; cases b1 <;> simp at this <;> simp [this]
  have ka := getAll_std (allWords_nodup (by cases b1 <;> simp)) kl _ k1 k2 k3 [] (Or.inl rfl) k4
  obtain ⟨j1, j2⟩ := algebraSU2_attrs n
  have jl : ∀ w ∈ allWords [1], w.length = 1 ∨ w.length = 2 := fun w hw => by
    have := (mem_allWords.1 hw).1; simp at this; simp [this]
  have ja := getAll_std (allWords_nodup (by simp)) jl (algebraSU2 n) j1 j2 rfl [] (Or.inl rfl) rfl
  obtain ⟨l, hl, hp⟩ := v2Terms_perm ord
  rw [zassV2Layer, promoteAll_gates, h0] at hL
  simp only [bind, Except.bind] at hL
  split at hL
  · simp at hL
  rename_i eta heta
  split at hL
  · simp at hL
  split at hL
  · simp at hL
  rw [ja, ka, ha, hl] at hL
  rw [← Except.ok.inj hL]
  exact ⟨rfl, rfl, rfl, hp, ((validateEta_iff _ _).1 heta).2⟩

/-- C80 (the constructor): it accepts any number of qubits and any observables, exactly when `eta` is a float between 0 and 1 and the two flags are
Booleans. -/
theorem C80_constructor (ord : SetOrder SMono) (gs : List (Gate n)) (args : LayerArgs) (b1 b2 : Bool) :
    (∃ L, zassV2Layer ord n (gs.map Gate.obs) args b1 b2 = .ok L) ↔
      (∃ e, args.eta.getD (.float 0.1) = .float e ∧ 0 ≤ e ∧ e ≤ 1) ∧ (∃ b, validateBool (args.unitaryErrorCheck.getD (.bool false)) = .ok b) ∧
      ∃ b, validateBool (args.trotterize.getD (.bool false)) = .ok b := by
  obtain ⟨a0, h0, h1, h2, h3, h4⟩ := algebraSU8_attrs n b1 b2
  have hl2 : (lens8 b1 b2).Nodup := by cases b1 <;> cases b2 <;> simp [lens8]
  have h02 : 0 ∉ lens8 b1 b2 := by cases b1 <;> cases b2 <;> simp [lens8]
  have hne : ∀ w ∈ allWords (lens8 b1 b2), w ≠ [] := fun w hw hc => h02 (by simpa [hc] using (mem_allWords.1 hw).1)
  have ha := getAll8_std (allWords_nodup hl2) hne _ h1 h2 h4 [] (Or.inl rfl) h3
  obtain ⟨k1, k2, k3, k4⟩ := algebraSU4_attrs n b1
  have kl : ∀ w ∈ allWords (if b1 then [1, 2] else [2]), w.length = 1 ∨ w.length = 2 := fun w hw => by
    have := (mem_allWords.1 hw).1; cases b1 <;> simp at this <;> simp [this]
  have ka := getAll_std (allWords_nodup (by cases b1 <;> simp)) kl _ k1 k2 k3 [] (Or.inl rfl) k4
  obtain ⟨j1, j2⟩ := algebraSU2_attrs n
  have jl : ∀ w ∈ allWords [1], w.length = 1 ∨ w.length = 2 := fun w hw => by
    have := (mem_allWords.1 hw).1; simp at this; simp [this]
  have ja := getAll_std (allWords_nodup (by simp)) jl (algebraSU2 n) j1 j2 rfl [] (Or.inl rfl) rfl
  obtain ⟨l, hl, -⟩ := v2Terms_perm ord
  rw [zassV2Layer, promoteAll_gates, h0, ja, ka, hl]
  simp only [bind, Except.bind, ha, ← validateEta_iff]
  cases validateEta (args.eta.getD (.float 0.1)) with
  | error e => simp
  | ok e =>
    cases validateBool (args.unitaryErrorCheck.getD (.bool false)) with
    | error e => simp
    | ok b => cases validateBool (args.trotterize.getD (.bool false)) <;> simp

theorem v2Five_cases {t : Key × Sym} (h : t ∈ v2Five) : t.1 = ("ZZ", [0, 1]) ∨ t.1 = ("X", [0]) ∨ t.1 = ("X", [1]) ∨ t.1 = ("YZ", [0, 1]) ∨ t.1 = ("ZY", [0, 1]) := by
  simp only [v2Five, List.mem_cons, List.not_mem_nil, or_false] at h
  rcases h with rfl | rfl | rfl | rfl | rfl <;> simp

/-- The operators of the terms. -/
theorem v2_lookup (hn : 2 ≤ n) {ord : SetOrder SMono} {gs : List (Gate n)} {args : LayerArgs} {b1 b2 : Bool} {L : ZassV2Layer n}
    (hL : zassV2Layer ord n (gs.map Gate.obs) args b1 b2 = .ok L) : ∀ t ∈ L.terms, L.lookup t.1 = .ok (termOp n t.1) := by
  obtain ⟨-, e2, e4, hp, -⟩ := zassV2Layer_inv hL
  have h1 : ∀ w q, IsDirection n 1 w q → L.lookup (letterStr w, q) = .ok (pauliWord (placed n w q)) := fun w q h => by
    have hw : (letterStr w).toList.length = 1 := by rw [← h.letters]; simp [letterStr]
    rw [ZassV2Layer.lookup, if_pos hw, e2]
    exact stdDict_lookup n [1] (by simp) 1 (by simp) _ _ h
  have h2 : ∀ w q, IsDirection n 2 w q → L.lookup (letterStr w, q) = .ok (pauliWord (placed n w q)) := fun w q h => by
    have hw : (letterStr w).toList.length = 2 := by rw [← h.letters]; simp [letterStr]
    rw [ZassV2Layer.lookup, if_neg (by dsimp only; omega), if_pos hw, e4]
    exact stdDict_lookup n _ (by cases b1 <;> simp) 2 (by cases b1 <;> simp) _ _ h
  intro t ht
  rcases v2Five_cases (hp.mem_iff.1 ht) with e | e | e | e | e <;> rw [e]
  · exact h2 [.Z, .Z] [0, 1] ⟨rfl, rfl, by simp, by simp, by simp; omega⟩
  · exact h1 [.X] [0] ⟨rfl, rfl, by simp, by simp, by simp; omega⟩
  · exact h1 [.X] [1] ⟨rfl, rfl, by simp, by simp, by simp; omega⟩
  · exact h2 [.Y, .Z] [0, 1] ⟨rfl, rfl, by simp, by simp, by simp; omega⟩
  · exact h2 [.Z, .Y] [0, 1] ⟨rfl, rfl, by simp, by simp, by simp; omega⟩

/-! ### The terms -/

theorem placed_first (a : Letter) : placed n [a] [0] = placed n [a, .I] [0, 1] := by
  funext q
  simp only [placed, List.idxOf_cons, List.idxOf_nil]
  by_cases h0 : (0 == q.val) = true
  · simp [h0]
  · by_cases h1 : (1 == q.val) = true <;> simp [h0, h1]

theorem placed_second (b : Letter) : placed n [b] [1] = placed n [.I, b] [0, 1] := by
  funext q
  simp only [placed, List.idxOf_cons, List.idxOf_nil]
  by_cases h0 : (0 == q.val) = true
  · have : (1 == q.val) = false := by simp at h0 ⊢; omega
    simp [h0, this]
  · by_cases h1 : (1 == q.val) = true <;> simp [h0, h1]

/-- Two letters on the two qubits. -/
noncomputable def pairWord (a b : Letter) : QMat 2 := pauliWord ([a, b] : List Letter).get

theorem pair_valid (hn : 2 ≤ n) : ValidWires n [0, 1] := ⟨by simp, by intro w hw; simp at hw; omega⟩

theorem pair_mul (hn : 2 ≤ n) (A B : QMat 2) : full n [0, 1] A * full n [0, 1] B = full n [0, 1] (A * B) :=
  (full_mul (ws := [0, 1]) (k := 2) rfl (pair_valid hn) A B).symm

theorem pair_word (hn : 2 ≤ n) (a b : Letter) : pauliWord (placed n [a, b] [0, 1]) = full n [0, 1] (pairWord a b) :=
  (full_placed (w := [a, b]) (qs := [0, 1]) rfl (pair_valid hn)).symm

theorem pairWord_apply (a b : Letter) (i j : Fin (2 ^ 2)) : pairWord a b i j =
    a.mat ⟨i / 2 % 2, Nat.mod_lt _ (by decide)⟩ ⟨j / 2 % 2, Nat.mod_lt _ (by decide)⟩ *
      b.mat ⟨i % 2, Nat.mod_lt _ (by decide)⟩ ⟨j % 2, Nat.mod_lt _ (by decide)⟩ := word2 _ i j

theorem four_cases {P : Fin (2 ^ 2) → Fin (2 ^ 2) → Prop} (h : ∀ i ∈ ([0, 1, 2, 3] : List (Fin (2 ^ 2))), ∀ j ∈ ([0, 1, 2, 3] : List (Fin (2 ^ 2))), P i j) (i j : Fin (2 ^ 2)) : P i j := by
  have : ∀ i : Fin (2 ^ 2), i ∈ ([0, 1, 2, 3] : List (Fin (2 ^ 2))) := by decide
  exact h i (this i) j (this j)

theorem xi_zz : pairWord .X .I * pairWord .Z .Z = (-Complex.I) • pairWord .Y .Z := by
  ext i j
  simp only [Matrix.mul_apply, sum_four]
  revert i j
  refine four_cases ?_
  simp [ pairWord_apply, Letter.mat, Matrix.one_apply]

theorem zz_xi : pairWord .Z .Z * pairWord .X .I = Complex.I • pairWord .Y .Z := by
  ext i j
  simp only [Matrix.mul_apply, sum_four]
  revert i j
  refine four_cases ?_
  simp [ pairWord_apply, Letter.mat, Matrix.one_apply]

theorem ix_zz : pairWord .I .X * pairWord .Z .Z = (-Complex.I) • pairWord .Z .Y := by
  ext i j
  simp only [Matrix.mul_apply, sum_four]
  revert i j
  refine four_cases ?_
  simp [ pairWord_apply, Letter.mat, Matrix.one_apply]

theorem zz_ix : pairWord .Z .Z * pairWord .I .X = Complex.I • pairWord .Z .Y := by
  ext i j
  simp only [Matrix.mul_apply, sum_four]
  revert i j
  refine four_cases ?_
  simp [ pairWord_apply, Letter.mat, Matrix.one_apply]

theorem xi_ix : pairWord .X .I * pairWord .I .X = pairWord .I .X * pairWord .X .I := by
  ext i j
  simp only [Matrix.mul_apply, sum_four]
  revert i j
  refine four_cases ?_
  simp [ pairWord_apply, Letter.mat, Matrix.one_apply]

theorem cnot_sq : cnot * cnot = 1 := by
  ext i j
  simp only [Matrix.mul_apply, sum_four]
  revert i j
  refine four_cases ?_
  simp [ cnot, Matrix.one_apply]

theorem cnot_iz : cnot * pairWord .I .Z * cnot = pairWord .Z .Z := by
  ext i j
  simp only [Matrix.mul_apply, sum_four]
  revert i j
  refine four_cases ?_
  simp [ cnot, pairWord_apply, Letter.mat, Matrix.one_apply]

/-! ### C80 -/

theorem v2Five_sum {M : Type} [AddCommMonoid M] {l : List (Key × Sym)} (h : l.Perm v2Five) (f : Key × Sym → M) :
    (l.map f).sum = f (("ZZ", [0, 1]), ⟨-Complex.I, Pi.single 2 1⟩) + (f (("X", [0]), ⟨-Complex.I, Pi.single 0 1⟩) + (f (("X", [1]), ⟨-Complex.I, Pi.single 1 1⟩) +
      (f (("YZ", [0, 1]), ⟨Complex.I, Pi.single 0 1 + Pi.single 2 1⟩) + f (("ZY", [0, 1]), ⟨Complex.I, Pi.single 1 1 + Pi.single 2 1⟩)))) := by
  rw [(h.map f).sum_eq, v2Five]
  simp

theorem evals (x : Fin 3 → ℝ) : Sym.eval x ⟨-Complex.I, Pi.single 2 1⟩ = -Complex.I * (x 2 : ℂ) ∧ Sym.eval x ⟨-Complex.I, Pi.single 0 1⟩ = -Complex.I * (x 0 : ℂ) ∧
    Sym.eval x ⟨-Complex.I, Pi.single 1 1⟩ = -Complex.I * (x 1 : ℂ) ∧ Sym.eval x ⟨Complex.I, Pi.single 0 1 + Pi.single 2 1⟩ = Complex.I * ((x 0 : ℂ) * (x 2 : ℂ)) ∧
    Sym.eval x ⟨Complex.I, Pi.single 1 1 + Pi.single 2 1⟩ = Complex.I * ((x 1 : ℂ) * (x 2 : ℂ)) := by
  simp [Sym.eval, Pi.single_apply]

theorem bchVector_eq (hn : 2 ≤ n) (x : Fin 3 → ℝ) : bchVector n x =
    (-Complex.I * (x 2 : ℂ)) • termOp n ("ZZ", [0, 1]) + ((-Complex.I * (x 0 : ℂ)) • termOp n ("X", [0]) + ((-Complex.I * (x 1 : ℂ)) • termOp n ("X", [1]) +
      ((Complex.I * ((x 0 : ℂ) * (x 2 : ℂ))) • termOp n ("YZ", [0, 1]) + (Complex.I * ((x 1 : ℂ) * (x 2 : ℂ))) • termOp n ("ZY", [0, 1])))) := by
  have t1 : termOp n ("ZZ", [0, 1]) = full n [0, 1] (pairWord .Z .Z) := pair_word hn .Z .Z
  have t2 : termOp n ("YZ", [0, 1]) = full n [0, 1] (pairWord .Y .Z) := pair_word hn .Y .Z
  have t3 : termOp n ("ZY", [0, 1]) = full n [0, 1] (pairWord .Z .Y) := pair_word hn .Z .Y
  have t4 : termOp n ("X", [0]) = full n [0, 1] (pairWord .X .I) := (congrArg pauliWord (placed_first .X)).trans (pair_word hn .X .I)
  have t5 : termOp n ("X", [1]) = full n [0, 1] (pairWord .I .X) := (congrArg pauliWord (placed_second .X)).trans (pair_word hn .I .X)
  have a : genA n x = (-Complex.I * (x 0 : ℂ)) • full n [0, 1] (pairWord .X .I) := by rw [genA, generator, placed_first, pair_word hn]
  have b : genB n x = (-Complex.I * (x 1 : ℂ)) • full n [0, 1] (pairWord .I .X) := by rw [genB, generator, placed_second, pair_word hn]
  have c : genC n x = (-Complex.I * (x 2 : ℂ)) • full n [0, 1] (pairWord .Z .Z) := by rw [genC, generator, pair_word hn]
  rw [bchVector, a, b, c, t1, t2, t3, t4, t5]
  simp only [smul_mul_assoc, mul_smul_comm, pair_mul hn, xi_ix, xi_zz, zz_xi, ix_zz, zz_ix, full_smul]
  have hI : Complex.I * Complex.I = -1 := Complex.I_mul_I
  match_scalars <;> first
    | ring1
    | linear_combination (-Complex.I * (x 2 : ℂ) * (x 0 : ℂ)) * hI
    | linear_combination (-Complex.I * (x 2 : ℂ) * (x 1 : ℂ)) * hI

/-- C80 (the vector): in whatever order Python walks through its sets, the terms of the layer are the Baker-Campbell-Hausdorff exponent of
`exp A * exp B * exp C` to second order, where `A = -i x₀ X₀`, `B = -i x₁ X₁`, `C = -i x₂ Z₀Z₁`; the operators the layer looks up are those of
the terms. -/
theorem C80_terms (hn : 2 ≤ n) {ord : SetOrder SMono} {gs : List (Gate n)} {args : LayerArgs} {b1 b2 : Bool} {L : ZassV2Layer n}
    (hL : zassV2Layer ord n (gs.map Gate.obs) args b1 b2 = .ok L) :
    (∀ t ∈ L.terms, L.lookup t.1 = .ok (termOp n t.1)) ∧ ∀ x, (L.terms.map (fun t => t.2.eval x • termOp n t.1)).sum = bchVector n x := by
  refine ⟨v2_lookup hn hL, fun x => ?_⟩
  obtain ⟨-, -, -, hp, -⟩ := zassV2Layer_inv hL
  obtain ⟨e1, e2, e3, e4, e5⟩ := evals x
  rw [v2Five_sum hp, e1, e2, e3, e4, e5, bchVector_eq hn]

section
attribute [local instance] Matrix.linftyOpNormedAddCommGroup Matrix.linftyOpNormedSpace Matrix.linftyOpNormedRing Matrix.linftyOpNormedAlgebra

theorem bch_entry (A B C : QMat n) (i j : Fin (2 ^ n)) :
    (fun t : ℝ => (NormedSpace.exp ((t : ℂ) • A) * NormedSpace.exp ((t : ℂ) • B) * NormedSpace.exp ((t : ℂ) • C) -
      NormedSpace.exp ((t : ℂ) • (A + B + C) + ((t : ℂ) ^ 2) • ((1 / 2 : ℂ) • ((A * B - B * A) + (A * C - C * A) + (B * C - C * B))))) i j)
      =O[nhds 0] fun t => t ^ 3 := by
  let ℓ : QMat n →ₗ[ℂ] ℂ := { toFun := fun M => M i j, map_add' := fun _ _ => rfl, map_smul' := fun _ _ => rfl }
  exact ((LinearMap.toContinuousLinearMap ℓ).isBigO_comp _ _).trans (bch_three A B C)

end

/-- C80 (the vector): the exponential of the terms agrees with `exp A * exp B * exp C` up to third order in the parameters. -/
theorem C80_third_order (hn : 2 ≤ n) {ord : SetOrder SMono} {gs : List (Gate n)} {args : LayerArgs} {b1 b2 : Bool} {L : ZassV2Layer n}
    (hL : zassV2Layer ord n (gs.map Gate.obs) args b1 b2 = .ok L) (x : Fin 3 → ℝ) (i j : Fin (2 ^ n)) :
    (fun t : ℝ => (NormedSpace.exp (genA n (t • x)) * NormedSpace.exp (genB n (t • x)) * NormedSpace.exp (genC n (t • x)) -
      NormedSpace.exp (L.terms.map (fun u => u.2.eval (t • x) • termOp n u.1)).sum) i j) =O[nhds 0] fun t => t ^ 3 := by
  have g : ∀ (a t : ℝ) (w : List Letter) (q : List ℕ), generator n (t * a) w q = (t : ℂ) • generator n a w q := fun a t w q => by
    rw [generator, generator, smul_smul]
    congr 1
    push_cast
    ring
  refine (bch_entry (genA n x) (genB n x) (genC n x) i j).congr_left fun t => ?_
  have e1 : genA n (t • x) = (t : ℂ) • genA n x := g _ _ _ _
  have e2 : genB n (t • x) = (t : ℂ) • genB n x := g _ _ _ _
  have e3 : genC n (t • x) = (t : ℂ) • genC n x := g _ _ _ _
  rw [(C80_terms hn hL).2, bchVector, e1, e2, e3]
  have key : ∀ A B C : QMat n, (t : ℂ) • (A + B + C) + ((t : ℂ) ^ 2) • ((1 / 2 : ℂ) • ((A * B - B * A) + (A * C - C * A) + (B * C - C * B))) =
      (t : ℂ) • A + (t : ℂ) • B + (t : ℂ) • C + (1 / 2 : ℂ) • (((t : ℂ) • A * (t : ℂ) • B - (t : ℂ) • B * (t : ℂ) • A) +
        ((t : ℂ) • A * (t : ℂ) • C - (t : ℂ) • C * (t : ℂ) • A) + ((t : ℂ) • B * (t : ℂ) • C - (t : ℂ) • C * (t : ℂ) • B)) := fun A B C => by
    simp only [smul_mul_assoc, mul_smul_comm]
    module
  rw [key]

/-! ### The call -/

theorem v2_omegas (hn : 2 ≤ n) {ord : SetOrder SMono} {gs : List (Gate n)} {args : LayerArgs} {b1 b2 : Bool} {L : ZassV2Layer n}
    (hL : zassV2Layer ord n (gs.map Gate.obs) args b1 b2 = .ok L) (U : QMat n) :
    L.omegas U = .ok (L.terms.map (fun t => grad (totalObs gs) U (termOp n t.1))) := by
  obtain ⟨e, -⟩ := zassV2Layer_inv hL
  rw [ZassV2Layer.omegas]
  refine mapM_ok _ _ _ fun t ht => ?_
  rw [v2_lookup hn hL t ht, e]
  simp only [bind, Except.bind, omegaSum_grad]

theorem v2_misfit {ord : SetOrder SMono} {gs : List (Gate n)} {args : LayerArgs} {b1 b2 : Bool} {L : ZassV2Layer n}
    (hL : zassV2Layer ord n (gs.map Gate.obs) args b1 b2 = .ok L) (U : QMat n) :
    L.misfit (L.terms.map (fun t => grad (totalObs gs) U (termOp n t.1))) = fitness n (totalObs gs) U L.eta := by
  obtain ⟨-, -, -, hp, -⟩ := zassV2Layer_inv hL
  funext x
  obtain ⟨e1, e2, e3, e4, e5⟩ := evals x
  have hz : ∀ (l : List (Key × Sym)) (f : Key × Sym → ℝ → ℝ) (g : Key × Sym → ℝ), List.zipWith f l (l.map g) = l.map (fun t => f t (g t)) := by
    intro l f g
    induction l with
    | nil => rfl
    | cons a l ih => simp [ih]
  have hl : L.terms.length = 5 := hp.length_eq
  rw [ZassV2Layer.misfit, hz, v2Five_sum hp, e1, e2, e3, e4, e5, hl, fitness]
  have t1 : termOp n ("ZZ", [0, 1]) = pauliWord (placed n [.Z, .Z] [0, 1]) := rfl
  have t2 : termOp n ("YZ", [0, 1]) = pauliWord (placed n [.Y, .Z] [0, 1]) := rfl
  have t3 : termOp n ("ZY", [0, 1]) = pauliWord (placed n [.Z, .Y] [0, 1]) := rfl
  have t4 : termOp n ("X", [0]) = pauliWord (placed n [.X] [0]) := rfl
  have t5 : termOp n ("X", [1]) = pauliWord (placed n [.X] [1]) := rfl
  rw [t1, t2, t3, t4, t5]
  have i1 : ∀ a b : ℝ, (-Complex.I * (a : ℂ) - (L.eta : ℂ) * Complex.I * (b : ℂ)).im = -(a + L.eta * b) := fun a b => by
    simp
    ring
  have i2 : ∀ a b c : ℝ, (Complex.I * ((a : ℂ) * (b : ℂ)) - (L.eta : ℂ) * Complex.I * (c : ℂ)).im = a * b - L.eta * c := fun a b c => by
    simp
  simp only [i1, i2]
  push_cast
  ring

theorem conj_cnot (hn : 2 ≤ n) (θ : ℝ) : full n [0, 1] cnot * (rotOp n θ [.Z] [1] * full n [0, 1] cnot) = rotOp n θ [.Z, .Z] [0, 1] := by
  have h1 : full n [0, 1] cnot * full n [0, 1] cnot = 1 := by rw [pair_mul hn, cnot_sq, full_one rfl (pair_valid hn)]
  have h2 : full n [0, 1] cnot * (pauliWord (placed n [.Z] [1]) * full n [0, 1] cnot) = pauliWord (placed n [.Z, .Z] [0, 1]) := by
    rw [placed_second, pair_word hn, pair_word hn, pair_mul hn, pair_mul hn, ← mul_assoc, cnot_iz]
  rw [rotOp, rotOp, sub_mul, mul_sub, smul_mul_assoc, one_mul, mul_smul_comm, h1, smul_mul_assoc, mul_smul_comm, h2]

theorem v2_compile (hn : 2 ≤ n) (x : Fin 3 → ℝ) : compileLoop n (v2Gates x) 1 =
    .ok (NormedSpace.exp (genC n ((1 / 2 : ℝ) • x)) * NormedSpace.exp (genB n ((1 / 2 : ℝ) • x)) * NormedSpace.exp (genA n ((1 / 2 : ℝ) • x)) * hadamardPair n) := by
  have v0 : ValidWires n [0] := ⟨by simp, by intro w hw; simp at hw; omega⟩
  have v1 : ValidWires n [1] := ⟨by simp, by intro w hw; simp at hw; omega⟩
  have r : ∀ (a : ℝ) (w : List Letter) (q : List ℕ), NormedSpace.exp (generator n (1 / 2 * a) w q) = rotOp n a w q := fun a w q => by
    rw [rotOp_exp_half, generator]
    congr 4
    ring
  have e1 : NormedSpace.exp (genA n ((1 / 2 : ℝ) • x)) = rotOp n (x 0) [.X] [0] := r _ _ _
  have e2 : NormedSpace.exp (genB n ((1 / 2 : ℝ) • x)) = rotOp n (x 1) [.X] [1] := r _ _ _
  have e3 : NormedSpace.exp (genC n ((1 / 2 : ℝ) • x)) = rotOp n (x 2) [.Z, .Z] [0, 1] := r _ _ _
  have g1 : ∀ j, ValidWires n [j] → getFullOperator ⟨2, 2, (hadamard : Matrix (Fin (2 ^ 1)) (Fin (2 ^ 1)) ℂ)⟩ [(j : ℤ)] n = .ok (full n [j] hadamard) := fun j hj =>
    getFullOperator_npQ (ws := [j]) rfl (by simp) hj hadamard
  have g2 : getFullOperator ⟨2 ^ 2, 2 ^ 2, cnot⟩ [0, 1] n = .ok (full n [0, 1] cnot) := getFullOperator_npQ (ws := [0, 1]) rfl (by simp) (pair_valid hn) cnot
  have g3 : ∀ (θ : ℝ) (a : Letter) (j : ℕ), ValidWires n [j] → getFullOperator (rotGate θ (letterStr [a]) [j]).1 (rotGate θ (letterStr [a]) [j]).2 n = .ok (rotOp n θ [a] [j]) := fun θ a j hj => by
    rw [rotGate_letterStr, ← full_pauliRot rfl hj]
    exact getFullOperator_npQ (ws := [j]) rfl (by simp) hj _
  rw [e1, e2, e3, ← conj_cnot hn, hadamardPair]
  have hg : v2Gates x = [(⟨2, 2, (hadamard : Matrix (Fin (2 ^ 1)) (Fin (2 ^ 1)) ℂ)⟩, [((0 : ℕ) : ℤ)]), (⟨2, 2, (hadamard : Matrix (Fin (2 ^ 1)) (Fin (2 ^ 1)) ℂ)⟩, [((1 : ℕ) : ℤ)]),
      rotGate (x 0) (letterStr [.X]) [0], rotGate (x 1) (letterStr [.X]) [1], (⟨2 ^ 2, 2 ^ 2, cnot⟩, [0, 1]), rotGate (x 2) (letterStr [.Z]) [1], (⟨2 ^ 2, 2 ^ 2, cnot⟩, [0, 1])] := rfl
  rw [hg]
  rw [compileLoop, g1 0 v0]
  simp only [bind, Except.bind]
  rw [compileLoop, g1 1 v1]
  simp only [bind, Except.bind]
  rw [compileLoop, g3 _ _ _ v0]
  simp only [bind, Except.bind]
  rw [compileLoop, g3 _ _ _ v1]
  simp only [bind, Except.bind]
  rw [compileLoop, g2]
  simp only [bind, Except.bind]
  rw [compileLoop, g3 _ _ _ v1]
  simp only [bind, Except.bind]
  rw [compileLoop, g2]
  simp only [bind, Except.bind]
  rw [compileLoop]
  simp only [mul_assoc, mul_one]

/-- C80 (the call): on at least two qubits every call succeeds.  The minimiser `nm` is asked to minimise the mean square distance of the
coefficients of the five terms from `eta` times the gradients of the circuit, starting from (0.1, 0.2, 0.3).  From its answer `x` the layer builds
`exp(C/2) exp(B/2) exp(A/2)` after Hadamard gates on the qubits 0 and 1. -/
theorem C80_call (hn : 2 ≤ n) (nm : NelderMead) {ord : SetOrder SMono} {gs : List (Gate n)} {args : LayerArgs} {b1 b2 : Bool} {L : ZassV2Layer n}
    (hL : zassV2Layer ord n (gs.map Gate.obs) args b1 b2 = .ok L) (U : QMat n) :
    ∃ x, x = nm (fitness n (totalObs gs) U L.eta) ![0.1, 0.2, 0.3] ∧
      L.call nm U = .ok (NormedSpace.exp (genC n ((1 / 2 : ℝ) • x)) * NormedSpace.exp (genB n ((1 / 2 : ℝ) • x)) * NormedSpace.exp (genA n ((1 / 2 : ℝ) • x)) *
        hadamardPair n, { L with params := L.params + x }) := by
  refine ⟨_, rfl, ?_⟩
  rw [ZassV2Layer.call, v2_omegas hn hL]
  simp only [bind, Except.bind]
  rw [v2_misfit hL, v2_compile hn]

/-- The same with other `params`, which a call does not read. -/
theorem v2_call_any (hn : 2 ≤ n) (nm : NelderMead) {ord : SetOrder SMono} {gs : List (Gate n)} {args : LayerArgs} {b1 b2 : Bool} {L : ZassV2Layer n}
    (hL : zassV2Layer ord n (gs.map Gate.obs) args b1 b2 = .ok L) (p : Fin 3 → ℝ) (U : QMat n) : ({ L with params := p } : ZassV2Layer n).call nm U =
      .ok (NormedSpace.exp (genC n ((1 / 2 : ℝ) • nm (fitness n (totalObs gs) U L.eta) ![0.1, 0.2, 0.3])) *
        NormedSpace.exp (genB n ((1 / 2 : ℝ) • nm (fitness n (totalObs gs) U L.eta) ![0.1, 0.2, 0.3])) *
        NormedSpace.exp (genA n ((1 / 2 : ℝ) • nm (fitness n (totalObs gs) U L.eta) ![0.1, 0.2, 0.3])) * hadamardPair n,
        { L with params := p + nm (fitness n (totalObs gs) U L.eta) ![0.1, 0.2, 0.3] }) := by
  have e1 : ({ L with params := p } : ZassV2Layer n).omegas U = L.omegas U := rfl
  have e2 : ({ L with params := p } : ZassV2Layer n).misfit = L.misfit := rfl
  rw [ZassV2Layer.call, e1, e2, v2_omegas hn hL]
  simp only [bind, Except.bind]
  rw [v2_misfit hL, v2_compile hn]

/-- C80 (one qubit): on fewer than two qubits every call raises `KeyError`. -/
theorem C80_one_qubit (hn : n < 2) (nm : NelderMead) {ord : SetOrder SMono} {gs : List (Gate n)} {args : LayerArgs} {b1 b2 : Bool} {L : ZassV2Layer n}
    (hL : zassV2Layer ord n (gs.map Gate.obs) args b1 b2 = .ok L) (U : QMat n) : L.call nm U = .error .key := by
  obtain ⟨-, -, e4, hp, -⟩ := zassV2Layer_inv hL
  have hk : ∀ k, L.lookup k = .error .key ∨ ∃ P, L.lookup k = .ok P := fun k => by
    have : ∀ d : List (Key × QMat n), dictGet d k = .error .key ∨ ∃ P, dictGet d k = .ok P := fun d => by
      rw [dictGet]
      split
      · exact Or.inr ⟨_, rfl⟩
      · exact Or.inl rfl
    rw [ZassV2Layer.lookup]
    split
    · exact this _
    · split <;> exact this _
  have hz : L.lookup ("ZZ", [0, 1]) = .error .key := by
    rw [ZassV2Layer.lookup, if_neg (by decide), if_pos (by decide), e4]
    refine dictGet_missing fun hm => ?_
    obtain ⟨e, he, hke⟩ := List.mem_map.1 hm
    obtain ⟨w, -, q, hq, rfl⟩ := mem_stdDict.1 he
    have h1 := (mem_combinations_range.1 hq).2.2 1
    have h2 : q = [0, 1] := (Prod.mk.inj hke).2
    rw [h2] at h1
    have := h1 (by simp)
    omega
  have key : ∀ l : List (Key × Sym), (∃ t ∈ l, t.1 = ("ZZ", [0, 1])) → l.mapM (fun t => do
      let p ← L.lookup t.1
      .ok (omegaSum (stateFromUnitary U) L.observablesFull p)) = (.error .key : Py (List ℝ)) := by
    intro l
    induction l with
    | nil => simp
    | cons a l ih =>
      intro h
      rw [List.mapM_cons]
      rcases hk a.1 with ha | ⟨P, ha⟩
      · rw [ha]
        rfl
      · rw [ha]
        obtain ⟨t, ht, h2⟩ := h
        rcases List.mem_cons.1 ht with rfl | ht
        · rw [h2, hz] at ha
          simp at ha
        · have := ih ⟨t, ht, h2⟩
          simp only [bind, Except.bind] at this ⊢
          rw [this]
  rw [ZassV2Layer.call, ZassV2Layer.omegas, key _ ⟨_, hp.mem_iff.2 (List.mem_cons_self ..), rfl⟩]
  rfl

/-! ### C81 -/

theorem v2Gates_good (hn : 2 ≤ n) (x : Fin 3 → ℝ) : ∀ g ∈ v2Gates x, GoodGate n g := by
  have v0 : ValidWires n [0] := ⟨by simp, by intro w hw; simp at hw; omega⟩
  have v1 : ValidWires n [1] := ⟨by simp, by intro w hw; simp at hw; omega⟩
  have hh : ∀ j, ValidWires n [j] → GoodGate n (⟨2, 2, (hadamard : Matrix (Fin (2 ^ 1)) (Fin (2 ^ 1)) ℂ)⟩, [(j : ℤ)]) := fun j hj =>
    ⟨⟨[j], hadamard, by simp, hj⟩, hadamard_unitary, rfl⟩
  have hc : GoodGate n (⟨2 ^ 2, 2 ^ 2, cnot⟩, [0, 1]) := by
    refine ⟨⟨[0, 1], cnot, by simp, pair_valid hn⟩, ?_, rfl⟩
    have : cnotᴴ = cnot := by
      ext i j
      rw [Matrix.conjTranspose_apply]
      revert i j
      refine four_cases ?_
      simp [cnot]
    exact (congrArg (· * cnot) this).trans cnot_sq
  have hr : ∀ (θ : ℝ) (a : Letter) (j : ℕ), ValidWires n [j] → GoodGate n (rotGate θ (letterStr [a]) [j]) := fun θ a j hj =>
    rotGate_good (by simp) rfl hj θ
  intro g hg
  have hg' : g ∈ [((⟨2, 2, (hadamard : Matrix (Fin (2 ^ 1)) (Fin (2 ^ 1)) ℂ)⟩ : NpMat), [((0 : ℕ) : ℤ)]), (⟨2, 2, (hadamard : Matrix (Fin (2 ^ 1)) (Fin (2 ^ 1)) ℂ)⟩, [((1 : ℕ) : ℤ)]),
      rotGate (x 0) (letterStr [.X]) [0], rotGate (x 1) (letterStr [.X]) [1], (⟨2 ^ 2, 2 ^ 2, cnot⟩, [0, 1]), rotGate (x 2) (letterStr [.Z]) [1], (⟨2 ^ 2, 2 ^ 2, cnot⟩, [0, 1])] := hg
  simp only [List.mem_cons, List.not_mem_nil, or_false] at hg'
  rcases hg' with rfl | rfl | rfl | rfl | rfl | rfl | rfl
  exacts [hh 0 v0, hh 1 v1, hr _ _ _ v0, hr _ _ _ v1, hc, hr _ _ _ v1, hc]

theorem v2_unitary (hn : 2 ≤ n) (x : Fin 3 → ℝ) : Unitary (NormedSpace.exp (genC n ((1 / 2 : ℝ) • x)) * NormedSpace.exp (genB n ((1 / 2 : ℝ) • x)) *
    NormedSpace.exp (genA n ((1 / 2 : ℝ) • x)) * hadamardPair n) :=
  compile_unitary (gates := v2Gates x) (U := 1) (v2Gates_good hn x) (by simp [Unitary]) (v2_compile hn x)

/-- What is true of C81: the circuit a call returns is unitary, and the given circuit enters only through its gradients along the five terms. -/
theorem C81_partial (hn : 2 ≤ n) (nm : NelderMead) {ord : SetOrder SMono} {gs : List (Gate n)} {args : LayerArgs} {b1 b2 : Bool} {L : ZassV2Layer n}
    (hL : zassV2Layer ord n (gs.map Gate.obs) args b1 b2 = .ok L) (U W : QMat n)
    (hg : ∀ k ∈ [("X", [0]), ("X", [1]), ("ZZ", [0, 1]), ("YZ", [0, 1]), ("ZY", [0, 1])],
      grad (totalObs gs) U (termOp n k) = grad (totalObs gs) W (termOp n k)) :
    ∃ V L', L.call nm U = .ok (V, L') ∧ Unitary V ∧ L.call nm W = .ok (V, L') := by
  have hf : fitness n (totalObs gs) U L.eta = fitness n (totalObs gs) W L.eta := by
    simp only [List.mem_cons, List.not_mem_nil, or_false, forall_eq_or_imp, forall_eq] at hg
    obtain ⟨h1, h2, h3, h4, h5⟩ := hg
    have h1' : grad (totalObs gs) U (pauliWord (placed n [.X] [0])) = grad (totalObs gs) W (pauliWord (placed n [.X] [0])) := h1
    have h2' : grad (totalObs gs) U (pauliWord (placed n [.X] [1])) = grad (totalObs gs) W (pauliWord (placed n [.X] [1])) := h2
    have h3' : grad (totalObs gs) U (pauliWord (placed n [.Z, .Z] [0, 1])) = grad (totalObs gs) W (pauliWord (placed n [.Z, .Z] [0, 1])) := h3
    have h4' : grad (totalObs gs) U (pauliWord (placed n [.Y, .Z] [0, 1])) = grad (totalObs gs) W (pauliWord (placed n [.Y, .Z] [0, 1])) := h4
    have h5' : grad (totalObs gs) U (pauliWord (placed n [.Z, .Y] [0, 1])) = grad (totalObs gs) W (pauliWord (placed n [.Z, .Y] [0, 1])) := h5
    funext x
    rw [fitness, fitness, h1', h2', h3', h4', h5']
  obtain ⟨x, hx, hc⟩ := C80_call hn nm hL U
  obtain ⟨y, hy, hd⟩ := C80_call hn nm hL W
  rw [hf, ← hy] at hx
  exact ⟨_, _, hc, v2_unitary hn x, by rw [hx]; exact hd⟩

/-- C81 is false, the given circuit is lost: all circuits that prepare an eigenstate of the observable are mapped to the same circuit. -/
theorem C81_discards_circuit (hn : 2 ≤ n) (nm : NelderMead) {ord : SetOrder SMono} {gs : List (Gate n)} {args : LayerArgs} {b1 b2 : Bool} {L : ZassV2Layer n}
    (hL : zassV2Layer ord n (gs.map Gate.obs) args b1 b2 = .ok L) (hH : ∀ g ∈ gs, g.Aᴴ = g.A) {U W : QMat n} {E E' : ℝ}
    (hU : totalObs gs *ᵥ (fun i => U i 0) = (E : ℂ) • (fun i => U i 0)) (hW : totalObs gs *ᵥ (fun i => W i 0) = (E' : ℂ) • (fun i => W i 0)) :
    L.call nm U = L.call nm W := by
  have h := totalObs_herm gs hH
  obtain ⟨V, L', h1, -, h2⟩ := C81_partial hn nm hL U W (fun k _ => by rw [grad_eigen h hU, grad_eigen h hW])
  rw [h1, h2]

/-- C81 is false: whatever the Hermitian observables and the minimiser, there is a circuit for which the state the layer returns is not
that of the circuit followed by `exp A * exp B * exp C` with the fitted parameters, not even up to a factor; nor with any other unitary that is
determined by the fitted parameters. -/
theorem C81_refuted (hn : 2 ≤ n) (nm : NelderMead) {ord : SetOrder SMono} {gs : List (Gate n)} {args : LayerArgs} {b1 b2 : Bool} {L : ZassV2Layer n}
    (hL : zassV2Layer ord n (gs.map Gate.obs) args b1 b2 = .ok L) (hH : ∀ g ∈ gs, g.Aᴴ = g.A) (G : (Fin 3 → ℝ) → QMat n) (hG : ∀ x, Unitary (G x)) :
    ∃ U V L', Unitary U ∧ L.call nm U = .ok (V, L') ∧ ∀ c : ℂ, (fun i => V i 0) ≠ c • fun i => (G (L'.params - L.params) * U) i 0 := by
  have h := totalObs_herm gs hH
  obtain ⟨eigh, he⟩ := exists_validEigh n
  obtain ⟨hX, hs⟩ := he (totalObs gs) h
  obtain ⟨X, eX⟩ : ∃ X, X = (eigh (totalObs gs)).2 := ⟨_, rfl⟩
  obtain ⟨d, ed⟩ : ∃ d, d = (eigh (totalObs gs)).1 := ⟨_, rfl⟩
  rw [← eX] at hX hs
  rw [← ed] at hs
  have hcol : ∀ j, totalObs gs *ᵥ (fun i => X i j) = ((d j : ℝ) : ℂ) • (fun i => X i j) := fun j => by
    have h1 : totalObs gs * X = X * Matrix.diagonal (fun i => ((d i : ℝ) : ℂ)) := by
      conv_lhs => rw [hs, mul_assoc, hX, mul_one]
    funext i
    have h2 := congrFun (congrFun h1 i) j
    rw [Matrix.mul_diagonal] at h2
    rw [Pi.smul_apply, smul_eq_mul, mul_comm]
    exact h2
  have hpos : 1 < 2 ^ n := Nat.one_lt_two_pow (by omega)
  let j : Fin (2 ^ n) := ⟨1, hpos⟩
  have hj : (0 : Fin (2 ^ n)) ≠ j := by
    intro hc
    have := congrArg Fin.val hc
    simp [j] at this
  let W : QMat n := X.submatrix id (Equiv.swap 0 j)
  have hW : Unitary W := by
    have : Wᴴ * W = (Xᴴ * X).submatrix (Equiv.swap 0 j) (Equiv.swap 0 j) := by
      ext a b
      simp [W, Matrix.mul_apply]
    rw [Unitary, this, hX, Matrix.submatrix_one_equiv]
  have hW0 : (fun i => W i 0) = fun i => X i j := by
    funext i
    simp [W]
  by_contra hno
  push Not at hno
  obtain ⟨V, L', c1, hV, -⟩ := C81_partial hn nm hL X X (fun _ _ => rfl)
  have c2 : L.call nm W = .ok (V, L') := by
    rw [← c1]
    exact C81_discards_circuit hn nm hL hH (by rw [hW0]; exact hcol j) (hcol 0)
  obtain ⟨a, ha⟩ := hno X V L' hX c1
  obtain ⟨b, hb⟩ := hno W V L' hW c2
  have g := hG (L'.params - L.params)
  generalize G (L'.params - L.params) = M at g ha hb
  have h1 : star (fun i => V i 0) ⬝ᵥ (fun i => V i 0) = 1 := by
    have := congrFun (congrFun hV 0) 0
    simpa [Matrix.mul_apply, dotProduct, Matrix.conjTranspose_apply] using this
  have h2 : star (fun i => (M * X) i 0) ⬝ᵥ (fun i => (M * W) i 0) = 0 := by
    have e : (M * X)ᴴ * (M * W) = Xᴴ * W := by
      rw [Matrix.conjTranspose_mul, mul_assoc, ← mul_assoc Mᴴ, g, one_mul]
    have e2 := congrFun (congrFun e 0) 0
    have e3 : (Xᴴ * W) 0 0 = (Xᴴ * X) 0 j := by
      simp [W, Matrix.mul_apply]
    rw [e3, hX, Matrix.one_apply_ne hj] at e2
    exact e2
  have h3 : ∀ v u w : Fin (2 ^ n) → ℂ, v = a • u → v = b • w → star u ⬝ᵥ w = 0 → star v ⬝ᵥ v = 0 := fun v u w e1 e2 e3 => by
    have : star v ⬝ᵥ v = star (a • u) ⬝ᵥ (b • w) := by rw [← e1, ← e2]
    rw [this, star_smul, smul_dotProduct, dotProduct_smul, e3, smul_zero, smul_zero]
  rw [h3 _ _ _ ha hb h2] at h1
  exact zero_ne_one h1

/-- C81 is false, the fit is uphill: when the minimiser finds an exact fit, the cost increases to first order along the fitted vector, at the
rate `eta` times the sum of the squares of the gradients. -/
theorem C81_uphill (hn : 2 ≤ n) (H U : QMat n) (eta : ℝ) (x : Fin 3 → ℝ) (hx : fitness n H U eta x = 0) :
    HasDerivAt (fun t : ℝ => cost H (NormedSpace.exp ((t : ℂ) • bchVector n x) * U))
      (eta * (grad H U (termOp n ("X", [0])) ^ 2 + grad H U (termOp n ("X", [1])) ^ 2 + grad H U (termOp n ("ZZ", [0, 1])) ^ 2 +
        grad H U (termOp n ("YZ", [0, 1])) ^ 2 + grad H U (termOp n ("ZY", [0, 1])) ^ 2)) 0 := by
  have hf : fitness n H U eta x = ((x 0 + eta * grad H U (termOp n ("X", [0]))) ^ 2 + (x 1 + eta * grad H U (termOp n ("X", [1]))) ^ 2 +
    (x 2 + eta * grad H U (termOp n ("ZZ", [0, 1]))) ^ 2 + (x 0 * x 2 - eta * grad H U (termOp n ("YZ", [0, 1]))) ^ 2 +
    (x 1 * x 2 - eta * grad H U (termOp n ("ZY", [0, 1]))) ^ 2) / 5 := rfl
  rw [hf] at hx
  have hb := bchVector_eq hn x
  have herm : ∀ k : Key, (termOp n k)ᴴ = termOp n k := fun k => pauliWord_herm _
  have hgr : ∀ P : QMat n, (star (fun i => U i 0) ⬝ᵥ ((P * H - H * P) *ᵥ fun i => U i 0)).im = grad H U P := fun P => rfl
  have h0 := herm ("X", [0])
  have h1 := herm ("X", [1])
  have h2 := herm ("ZZ", [0, 1])
  have h3 := herm ("YZ", [0, 1])
  have h4 := herm ("ZY", [0, 1])
  clear herm hf
  generalize termOp n ("X", [0]) = P0 at *
  generalize termOp n ("X", [1]) = P1 at *
  generalize termOp n ("ZZ", [0, 1]) = P2 at *
  generalize termOp n ("YZ", [0, 1]) = P3 at *
  generalize termOp n ("ZY", [0, 1]) = P4 at *
  have q0 := sq_nonneg (x 0 + eta * grad H U P0)
  have q1 := sq_nonneg (x 1 + eta * grad H U P1)
  have q2 := sq_nonneg (x 2 + eta * grad H U P2)
  have q3 := sq_nonneg (x 0 * x 2 - eta * grad H U P3)
  have q4 := sq_nonneg (x 1 * x 2 - eta * grad H U P4)
  have k0 : x 0 = -(eta * grad H U P0) := by have := pow_eq_zero_iff (n := 2) (by norm_num) |>.1 (show (x 0 + eta * grad H U P0) ^ 2 = 0 by linarith); linarith
  have k1 : x 1 = -(eta * grad H U P1) := by have := pow_eq_zero_iff (n := 2) (by norm_num) |>.1 (show (x 1 + eta * grad H U P1) ^ 2 = 0 by linarith); linarith
  have k2 : x 2 = -(eta * grad H U P2) := by have := pow_eq_zero_iff (n := 2) (by norm_num) |>.1 (show (x 2 + eta * grad H U P2) ^ 2 = 0 by linarith); linarith
  have k3 : x 0 * x 2 = eta * grad H U P3 := by have := pow_eq_zero_iff (n := 2) (by norm_num) |>.1 (show (x 0 * x 2 - eta * grad H U P3) ^ 2 = 0 by linarith); linarith
  have k4 : x 1 * x 2 = eta * grad H U P4 := by have := pow_eq_zero_iff (n := 2) (by norm_num) |>.1 (show (x 1 * x 2 - eta * grad H U P4) ^ 2 = 0 by linarith); linarith
  have hS : bchVector n x = (Complex.I * (eta : ℂ)) • (((grad H U P2 : ℝ) : ℂ) • P2 + ((grad H U P0 : ℝ) : ℂ) • P0 + ((grad H U P1 : ℝ) : ℂ) • P1 +
      ((grad H U P3 : ℝ) : ℂ) • P3 + ((grad H U P4 : ℝ) : ℂ) • P4) := by
    rw [hb, ← Complex.ofReal_mul, ← Complex.ofReal_mul, k3, k4, k0, k1, k2]
    push_cast
    module
  have hA : ([bchVector n x] : List (QMat n)).sumᴴ = -([bchVector n x] : List (QMat n)).sum := by
    rw [List.sum_singleton, hS]
    simp only [Matrix.conjTranspose_smul, Matrix.conjTranspose_add, h0, h1, h2, h3, h4]
    simp only [star_mul', Complex.star_def, Complex.conj_ofReal, Complex.conj_I]
    module
  refine (deriv_cost_exp H U [bchVector n x] hA).congr_deriv ?_
  rw [List.sum_singleton, hS]
  have e : ∀ c : ℂ, ∀ g0 g1 g2 g3 g4 : ℂ, H * (c • (g2 • P2 + g0 • P0 + g1 • P1 + g3 • P3 + g4 • P4)) - (c • (g2 • P2 + g0 • P0 + g1 • P1 + g3 • P3 + g4 • P4)) * H =
      (-c) • (g2 • (P2 * H - H * P2) + g0 • (P0 * H - H * P0) + g1 • (P1 * H - H * P1) + g3 • (P3 * H - H * P3) + g4 • (P4 * H - H * P4)) := by
    intro c g0 g1 g2 g3 g4
    simp only [mul_smul_comm, smul_mul_assoc, mul_add, add_mul]
    module
  rw [e, ← hgr P0, ← hgr P1, ← hgr P2, ← hgr P3, ← hgr P4]
  simp only [Matrix.smul_mulVec, Matrix.add_mulVec, dotProduct_smul, dotProduct_add, smul_eq_mul]
  generalize star (fun i => U i 0) ⬝ᵥ ((P0 * H - H * P0) *ᵥ fun i => U i 0) = z0
  generalize star (fun i => U i 0) ⬝ᵥ ((P1 * H - H * P1) *ᵥ fun i => U i 0) = z1
  generalize star (fun i => U i 0) ⬝ᵥ ((P2 * H - H * P2) *ᵥ fun i => U i 0) = z2
  generalize star (fun i => U i 0) ⬝ᵥ ((P3 * H - H * P3) *ᵥ fun i => U i 0) = z3
  generalize star (fun i => U i 0) ⬝ᵥ ((P4 * H - H * P4) *ᵥ fun i => U i 0) = z4
  simp
  left
  ring

/-! ### Examples -/

/-- The observable Y on qubit 0 of two qubits. -/
noncomputable def exObsY0 : Gate 2 := ⟨[0], pauliWord (n := 1) [Letter.Y].get, by simp, by simp, by simp⟩

theorem exObsY0_total : totalObs [exObsY0] = pairWord .Y .I := by
  have e : totalObs [exObsY0] = pauliWord (placed 2 [.Y] [0]) := by
    rw [← full_placed (w := [Letter.Y]) (qs := [0]) rfl (by decide)]
    simp [totalObs, exObsY0]
  rw [e, placed_first]
  rfl

theorem grad_y0 (a b : Letter) : grad (totalObs [exObsY0]) 1 (pauliWord (placed 2 [a, b] [0, 1])) =
    (∑ k, (pairWord a b 0 k * pairWord .Y .I k 0 - pairWord .Y .I 0 k * pairWord a b k 0)).im := by
  have e : pauliWord (placed 2 [a, b] [0, 1]) = pairWord a b := rfl
  rw [exObsY0_total, grad, e, Finset.sum_sub_distrib, ← Matrix.mul_apply, ← Matrix.mul_apply]
  have h : ∀ M : QMat 2, star (fun i => (1 : QMat 2) i 0) ⬝ᵥ (M *ᵥ fun i => (1 : QMat 2) i 0) = M 0 0 := fun M => by
    simp [dotProduct, Matrix.mulVec, Matrix.one_apply]
  rw [h]
  rfl

/-- Hypotheses of C80 and C81 met: a layer on two qubits with the observable Y on qubit 0. -/
example (ord : SetOrder SMono) : ∃ L, zassV2Layer ord 2 ([exObsY0].map Gate.obs) {} = .ok L ∧ ∀ g ∈ [exObsY0], g.Aᴴ = g.A := by
  obtain ⟨L, hL⟩ := (C80_constructor (n := 2) ord [exObsY0] {} false false).2 ⟨⟨0.1, rfl, by norm_num, by norm_num⟩, ⟨false, rfl⟩, ⟨false, rfl⟩⟩
  refine ⟨L, hL, fun g hg => ?_⟩
  rw [List.mem_singleton.1 hg]
  exact pauliWord_herm _

/-- Hypothesis of `C81_uphill` met with a gradient other than 0: the same observable, the circuit 1. -/
example : fitness 2 (totalObs [exObsY0]) 1 (1 / 10) ![-1 / 5, 0, 0] = 0 ∧ grad (totalObs [exObsY0]) 1 (termOp 2 ("X", [0])) = 2 := by
  have h0 : grad (totalObs [exObsY0]) 1 (pauliWord (placed 2 [.X] [0])) = 2 := by
    rw [placed_first, grad_y0, sum_four]
    simp [pairWord_apply, Letter.mat, Matrix.one_apply]
    norm_num
  have h1 : grad (totalObs [exObsY0]) 1 (pauliWord (placed 2 [.X] [1])) = 0 := by
    rw [placed_second, grad_y0, sum_four]
    simp [pairWord_apply, Letter.mat, Matrix.one_apply]
  have h2 : grad (totalObs [exObsY0]) 1 (pauliWord (placed 2 [.Z, .Z] [0, 1])) = 0 := by
    rw [grad_y0, sum_four]
    simp [pairWord_apply, Letter.mat, Matrix.one_apply]
  have h3 : grad (totalObs [exObsY0]) 1 (pauliWord (placed 2 [.Y, .Z] [0, 1])) = 0 := by
    rw [grad_y0, sum_four]
    simp [pairWord_apply, Letter.mat, Matrix.one_apply]
  have h4 : grad (totalObs [exObsY0]) 1 (pauliWord (placed 2 [.Z, .Y] [0, 1])) = 0 := by
    rw [grad_y0, sum_four]
    simp [pairWord_apply, Letter.mat, Matrix.one_apply]
  refine ⟨?_, h0⟩
  rw [fitness, h0, h1, h2, h3, h4]
  have e : (![-1 / 5, 0, 0] : Fin 3 → ℝ) 2 = 0 := rfl
  rw [e]
  norm_num

end Oranssi
