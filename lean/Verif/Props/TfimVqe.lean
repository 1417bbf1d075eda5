import Verif.Props.ZassenhausV2Params
import Verif.Props.AdaptTfim
import Verif.Props.ToyExample
import Verif.Model.TfimVqe
import Verif.Spec.Qaoa

/-! # The variational circuit of tfim_su4_linesearch.py (C122) -/

namespace Oranssi

open Spec Matrix

variable {n : ℕ}

/-- The gates `l` compile to the operator `F`. -/
def CompilesTo (n : ℕ) (l : List (NpMat × List ℤ)) (F : QMat n) : Prop := ∀ rest U, compileLoop n (l ++ rest) U = compileLoop n rest (F * U)

theorem CompilesTo.append {l₁ l₂ : List (NpMat × List ℤ)} {F₁ F₂ : QMat n} (h₁ : CompilesTo n l₁ F₁) (h₂ : CompilesTo n l₂ F₂) : CompilesTo n (l₁ ++ l₂) (F₂ * F₁) := fun rest U => by
  rw [List.append_assoc, h₁, h₂, mul_assoc]

theorem compilesTo_nil : CompilesTo n [] (1 : QMat n) := fun rest U => by rw [one_mul]; rfl

theorem compilesTo_one {g : NpMat × List ℤ} {F : QMat n} (h : getFullOperator g.1 g.2 n = .ok F) : CompilesTo n [g] F := fun rest U => by
  obtain ⟨A, ws⟩ := g
  rw [List.cons_append, List.nil_append, compileLoop, h]
  rfl

theorem compilesTo_rot (θ : ℝ) (a : Letter) {j : ℕ} (hj : j < n) : CompilesTo n [rotGate θ (letterStr [a]) [j]] (rotOp n θ [a] [j]) := by
  have hv : ValidWires n [j] := ⟨by simp, by simpa using hj⟩
  refine compilesTo_one ?_
  rw [rotGate_letterStr, ← full_pauliRot rfl hv]
  exact getFullOperator_npQ (ws := [j]) rfl (by simp) hv _

theorem placed_I (i : ℕ) : pauliWord (placed n [.I] [i]) = 1 := by
  rw [show placed n [.I] [i] = fun _ => Letter.I from funext fun q => by rw [placed_one]; split <;> rfl, pauliWord]
  exact tensor_one

/-- `RZ` on the target between two `CNOT` gates is a rotation about `ZZ`. -/
theorem conj_cnot_bond {i j : ℕ} (hi : i < n) (hj : j < n) (hij : i ≠ j) (θ : ℝ) :
    full n [i, j] cnot * (rotOp n θ [.Z] [j] * full n [i, j] cnot) = rotOp n θ [.Z, .Z] [i, j] := by
  have hv : ValidWires n [i, j] := ⟨by simpa using hij, by intro w hw; simp at hw; omega⟩
  have hm : ∀ A B : QMat 2, full n [i, j] A * full n [i, j] B = full n [i, j] (A * B) := fun A B => (full_mul (ws := [i, j]) (k := 2) rfl hv A B).symm
  have hw : ∀ a b : Letter, pauliWord (placed n [a, b] [i, j]) = full n [i, j] (pairWord a b) := fun a b => (full_placed (w := [a, b]) (qs := [i, j]) rfl hv).symm
  have hZ : pauliWord (placed n [.Z] [j]) = full n [i, j] (pairWord .I .Z) := by rw [← hw, placed_two i j hi hj hij, placed_I, one_mul]
  have h1 : full n [i, j] cnot * full n [i, j] cnot = 1 := by rw [hm, cnot_sq, full_one rfl hv]
  have h2 : full n [i, j] cnot * (pauliWord (placed n [.Z] [j]) * full n [i, j] cnot) = pauliWord (placed n [.Z, .Z] [i, j]) := by
    rw [hZ, hw, hm, hm, ← mul_assoc, cnot_iz]
  rw [rotOp, rotOp, sub_mul, mul_sub, smul_mul_assoc, one_mul, mul_smul_comm, h1, smul_mul_assoc, mul_smul_comm, h2]

theorem compilesTo_zz (θ : ℝ) {i j : ℕ} (hi : i < n) (hj : j < n) (hij : i ≠ j) : CompilesTo n (zzGates θ i j) (rotOp n θ [.Z, .Z] [i, j]) := by
  have hv : ValidWires n [i, j] := ⟨by simpa using hij, by intro w hw; simp at hw; omega⟩
  have hc : CompilesTo n [((⟨2 ^ 2, 2 ^ 2, Spec.cnot⟩ : NpMat), [i, j].map (Nat.cast : ℕ → ℤ))] (full n [i, j] cnot) := compilesTo_one (getFullOperator_npQ (ws := [i, j]) rfl (by simp) hv cnot)
  have := (hc.append (compilesTo_rot θ .Z hj)).append hc
  rw [conj_cnot_bond hi hj hij] at this
  exact this

/-- Words that agree wherever neither of them is the identity commute. -/
theorem letters_commute {f g : Fin n → Letter} (h : ∀ q, f q = .I ∨ g q = .I ∨ f q = g q) : Commute (pauliWord f) (pauliWord g) := by
  rw [Commute, SemiconjBy, pauliWord_swap, Finset.prod_eq_one, one_smul]
  intro q _
  rcases h q with h | h | h
  · rw [h]; cases g q <;> rfl
  · rw [h]; cases f q <;> rfl
  · rw [h]; cases g q <;> rfl

theorem zz_letter (i j : ℕ) (q : Fin n) : placed n [.Z, .Z] [i, j] q = .I ∨ placed n [.Z, .Z] [i, j] q = .Z := by
  simp only [placed]
  rcases h : [i, j].idxOf q.val with _ | _ | k
  · exact .inr rfl
  · exact .inr rfl
  · exact .inl rfl

theorem zz_commute (i j k l : ℕ) : Commute (pauliWord (n := n) (placed n [.Z, .Z] [i, j])) (pauliWord (placed n [.Z, .Z] [k, l])) := by
  refine letters_commute fun q => ?_
  rcases zz_letter i j q with h | h <;> rcases zz_letter k l q with h' | h' <;> simp [h, h']

theorem x_commute (i j : ℕ) : Commute (pauliWord (placed n [.X] [i])) (pauliWord (placed n [.X] [j])) := by
  refine letters_commute fun q => ?_
  rw [placed_one, placed_one]
  split <;> split <;> simp

/-- Commuting evolutions one after the other are the evolution under the sum. -/
theorem compilesTo_flatMap {α : Type} (c : ℂ) (f : α → List (NpMat × List ℤ)) (A : α → QMat n) : ∀ l : List α, (∀ x ∈ l, CompilesTo n (f x) (NormedSpace.exp (c • A x))) →
    (∀ x ∈ l, ∀ y ∈ l, Commute (A x) (A y)) → CompilesTo n (l.flatMap f) (NormedSpace.exp (c • (l.map A).sum))
  | [], _, _ => by
    rw [List.map_nil, List.sum_nil, smul_zero, NormedSpace.exp_zero]
    exact compilesTo_nil
  | x :: l, h, hc => by
    have ih := compilesTo_flatMap c f A l (fun y hy => h y (by simp [hy])) (fun y hy z hz => hc y (by simp [hy]) z (by simp [hz]))
    have hx : Commute (c • (l.map A).sum) (c • A x) := by
      refine ((Commute.list_sum_left _ _ fun y hy => ?_).smul_left c).smul_right c
      obtain ⟨z, hz, rfl⟩ := List.mem_map.1 hy
      exact hc z (by simp [hz]) x (by simp)
    rw [List.flatMap_cons, List.map_cons, List.sum_cons, add_comm, smul_add, Matrix.exp_add_of_commute _ _ hx]
    exact (h x (by simp)).append ih

theorem pyRange2_sum {M : Type} [AddCommMonoid M] (A : ℕ → M) (m : ℕ) : ((pyRange2 0 m).map A).sum + ((pyRange2 1 m).map A).sum = ∑ i ∈ Finset.range m, A i := by
  have h : ∀ j : ℕ, (∑ k ∈ Finset.range j, A (2 * k)) + (∑ k ∈ Finset.range j, A (1 + 2 * k)) = ∑ i ∈ Finset.range (2 * j), A i := by
    intro j
    induction j with
    | zero => simp
    | succ j ih =>
      rw [Finset.sum_range_succ, Finset.sum_range_succ, show 2 * (j + 1) = 2 * j + 1 + 1 by ring, Finset.sum_range_succ, Finset.sum_range_succ, ← ih, add_comm 1 (2 * j)]
      abel
  have e0 : ((pyRange2 0 m).map A).sum = ∑ k ∈ Finset.range ((m + 1) / 2), A (2 * k) := by
    rw [pyRange2, List.map_map]
    simp only [Nat.sub_zero, Function.comp_def, Nat.zero_add]
    rfl
  have e1 : ((pyRange2 1 m).map A).sum = ∑ k ∈ Finset.range (m / 2), A (1 + 2 * k) := by
    rw [pyRange2, List.map_map, show (m - 1 + 1) / 2 = m / 2 by omega]
    rfl
  rw [e0, e1]
  rcases Nat.even_or_odd' m with ⟨j, rfl | rfl⟩
  · rw [show (2 * j + 1) / 2 = j by omega, show 2 * j / 2 = j by omega, h]
  · rw [show (2 * j + 1 + 1) / 2 = j + 1 by omega, show (2 * j + 1) / 2 = j by omega, Finset.sum_range_succ, Finset.sum_range_succ, ← h]
    abel

theorem mem_pyRange2 {a b x : ℕ} (h : x ∈ pyRange2 a b) : x < b := by
  obtain ⟨k, hk, rfl⟩ := List.mem_map.1 h
  rw [List.mem_range] at hk
  omega

theorem vqeLayer_compile (hn : 2 ≤ n) (a b : ℝ) : CompilesTo n (vqeLayerGates n a b) (qaoaLayer n a b) := by
  let Z : ℕ → QMat n := fun i => pauliWord (placed n [.Z, .Z] [i, i + 1])
  have hz : ∀ i < n - 1, CompilesTo n (zzGates a i (i + 1)) (NormedSpace.exp ((-Complex.I * ((a / 2 : ℝ) : ℂ)) • Z i)) := fun i hi => by
    have := compilesTo_zz (n := n) a (i := i) (j := i + 1) (by omega) (by omega) (by omega)
    rwa [rotOp_exp_half] at this
  have hl : CompilesTo n (zzGates a (n - 1) 0) (NormedSpace.exp ((-Complex.I * ((a / 2 : ℝ) : ℂ)) • pauliWord (placed n [.Z, .Z] [n - 1, 0]))) := by
    have := compilesTo_zz (n := n) a (i := n - 1) (j := 0) (by omega) (by omega) (by omega)
    rwa [rotOp_exp_half] at this
  have hx : ∀ i < n, CompilesTo n [rotGate b "X" [i]] (NormedSpace.exp ((-Complex.I * ((b / 2 : ℝ) : ℂ)) • pauliWord (placed n [.X] [i]))) := fun i hi => by
    have := compilesTo_rot (n := n) b .X hi
    rwa [rotOp_exp_half] at this
  have hZ : ∀ i < n - 1, ∀ j < n - 1, Commute (Z i) (Z j) := fun i _ j _ => zz_commute _ _ _ _
  have hZl : ∀ i < n - 1, Commute (Z i) (pauliWord (placed n [.Z, .Z] [n - 1, 0])) := fun i _ => zz_commute _ _ _ _
  have c1 := compilesTo_flatMap (-Complex.I * ((a / 2 : ℝ) : ℂ)) (fun i => zzGates a i (i + 1)) Z (pyRange2 0 (n - 1)) (fun i hi => hz i (mem_pyRange2 hi))
    (fun i hi j hj => hZ i (mem_pyRange2 hi) j (mem_pyRange2 hj))
  have c2 := compilesTo_flatMap (-Complex.I * ((a / 2 : ℝ) : ℂ)) (fun i => zzGates a i (i + 1)) Z (pyRange2 1 (n - 1)) (fun i hi => hz i (mem_pyRange2 hi))
    (fun i hi j hj => hZ i (mem_pyRange2 hi) j (mem_pyRange2 hj))
  have c3 := compilesTo_flatMap (-Complex.I * ((b / 2 : ℝ) : ℂ)) (fun i => [rotGate b "X" [i]]) (fun i => pauliWord (placed n [.X] [i])) (List.range n)
    (fun i hi => hx i (List.mem_range.1 hi)) (fun i _ j _ => x_commute i j)
  have k12 : Commute ((-Complex.I * ((a / 2 : ℝ) : ℂ)) • ((pyRange2 1 (n - 1)).map Z).sum) ((-Complex.I * ((a / 2 : ℝ) : ℂ)) • ((pyRange2 0 (n - 1)).map Z).sum) := by
    refine ((Commute.list_sum_left _ _ fun y hy => Commute.list_sum_right _ _ fun z hz => ?_).smul_left _).smul_right _
    obtain ⟨i, hi, rfl⟩ := List.mem_map.1 hy
    obtain ⟨j, hj, rfl⟩ := List.mem_map.1 hz
    exact hZ i (mem_pyRange2 hi) j (mem_pyRange2 hj)
  have kl : Commute ((-Complex.I * ((a / 2 : ℝ) : ℂ)) • pauliWord (placed n [.Z, .Z] [n - 1, 0])) ((-Complex.I * ((a / 2 : ℝ) : ℂ)) • ∑ i ∈ Finset.range (n - 1), Z i) := by
    refine ((Commute.sum_right _ _ _ fun i hi => ?_).smul_left _).smul_right _
    exact (hZl i (Finset.mem_range.1 hi)).symm
  have hc := ((c1.append c2).append hl).append c3
  rw [← Matrix.exp_add_of_commute _ _ k12, ← smul_add, add_comm, pyRange2_sum, ← Matrix.exp_add_of_commute _ _ kl, ← smul_add, add_comm] at hc
  have e : (List.range n).flatMap (fun i => [rotGate b "X" [i]]) = (List.range n).map (fun i => rotGate b "X" [i]) := by
    induction List.range n with
    | nil => rfl
    | cons x l ih => rw [List.flatMap_cons, ih]; rfl
  rw [e] at hc
  exact hc

/-- The angle with number `i`. -/
theorem vqe_circuit (params : List ℝ) (h : 2 * (n / 2) ≤ params.length) : tfimVqeCircuit n params =
    .ok (tfimCircuit n ++ ((List.range (n / 2)).map (fun d => vqeLayerGates n (params.getD (2 * d) 0) (params.getD (2 * d + 1) 0))).flatten) := by
  rw [tfimVqeCircuit]
  rw [mapM_ok _ (fun d => vqeLayerGates n (params.getD (2 * d) 0) (params.getD (2 * d + 1) 0))]
  · rfl
  · intro d hd
    rw [List.mem_range] at hd
    rw [show (0 + (d : ℤ) * 2) = ((2 * d : ℕ) : ℤ) by push_cast; ring, show (1 + (d : ℤ) * 2) = ((2 * d + 1 : ℕ) : ℤ) by push_cast; ring,
      pyGetItem_nat (show 2 * d < params.length by omega), pyGetItem_nat (show 2 * d + 1 < params.length by omega)]
    simp only [bind, Except.bind]
    rw [List.getD_eq_getElem _ _ (show 2 * d < params.length by omega), List.getD_eq_getElem _ _ (show 2 * d + 1 < params.length by omega)]

theorem vqe_layers (hn : 2 ≤ n) (p : ℕ → ℝ) (m : ℕ) : compileLoop n (tfimCircuit n ++ ((List.range m).map (fun d => vqeLayerGates n (p (2 * d)) (p (2 * d + 1)))).flatten) 1 =
    .ok (qaoa n p m) := by
  have key : ∀ m rest, compileLoop n (tfimCircuit n ++ ((List.range m).map (fun d => vqeLayerGates n (p (2 * d)) (p (2 * d + 1)))).flatten ++ rest) 1 =
      compileLoop n rest (qaoa n p m) := by
    intro m
    induction m with
    | zero =>
      intro rest
      have := compile_hadamards n (List.range n) (by simp) rest 1
      rw [hadamards_eq] at this
      rw [List.range_zero, List.map_nil, List.flatten_nil, List.append_nil]
      exact this
    | succ m ih =>
      intro rest
      rw [List.range_succ, List.map_append, List.flatten_append, ← List.append_assoc, List.append_assoc, ih, List.map_singleton, List.flatten_singleton,
        vqeLayer_compile hn]
      rfl
  have := key m []
  rw [List.append_nil] at this
  rw [this, compileLoop]

/-- C122 (ansatz): with enough parameters, the circuit is alternating evolution under the couplings of the ring and the transverse field, `n / 2` times. -/
theorem C122_ansatz (hn : 2 ≤ n) (params : List ℝ) (h : 2 * (n / 2) ≤ params.length) :
    circuitUnitary n (tfimVqeCircuit n) params = .ok (qaoa n (fun i => params.getD i 0) (n / 2)) := by
  rw [circuitUnitary, vqe_circuit params h]
  exact vqe_layers hn (fun i => params.getD i 0) (n / 2)

/-- C122 (errors): with fewer parameters the circuit is an `IndexError`; further parameters have no effect. -/
theorem C122_index (params : List ℝ) : (params.length < 2 * (n / 2) → tfimVqeCircuit n params = .error .index) ∧
    (2 * (n / 2) ≤ params.length → tfimVqeCircuit n params = tfimVqeCircuit n (params.take (2 * (n / 2)))) := by
  constructor
  · intro h
    have hnone : ∀ i : ℕ, params.length ≤ i → pyGetItem params (i : ℤ) = .error .index := fun i hi => by
      rw [pyGetItem, pyIndex, if_pos (by omega), if_neg (by simpa using hi)]
      rfl
    have key : ∀ (l : List ℕ), (∃ d ∈ l, params.length < 2 * d + 2) → l.mapM (fun d : ℕ => (do
        let a ← pyGetItem params (0 + (d : ℤ) * 2)
        let b ← pyGetItem params (1 + (d : ℤ) * 2)
        .ok (vqeLayerGates n a b) : Py (List (NpMat × List ℤ)))) = .error .index := by
      intro l
      induction l with
      | nil => rintro ⟨d, hd, -⟩; simp at hd
      | cons d l ih =>
        rintro ⟨d', hd', hlt⟩
        rw [List.mapM_cons, show (0 + (d : ℤ) * 2) = ((2 * d : ℕ) : ℤ) by push_cast; ring, show (1 + (d : ℤ) * 2) = ((2 * d + 1 : ℕ) : ℤ) by push_cast; ring]
        by_cases h0 : 2 * d < params.length
        · rw [pyGetItem_nat h0]
          by_cases h1 : 2 * d + 1 < params.length
          · rw [pyGetItem_nat h1]
            have : d' ∈ l := by
              rcases List.mem_cons.1 hd' with rfl | h
              · omega
              · exact h
            simp only [bind, Except.bind]
            have := ih ⟨d', this, hlt⟩
            simp only [bind, Except.bind] at this
            rw [this]
          · rw [hnone _ (by omega)]
            rfl
        · rw [hnone _ (by omega)]
          rfl
    rw [tfimVqeCircuit, key _ ⟨n / 2 - 1, by rw [List.mem_range]; omega, by omega⟩]
    rfl
  · intro h
    rw [vqe_circuit params h, vqe_circuit _ (by rw [List.length_take]; omega)]
    congr 3
    refine List.map_congr_left fun d hd => ?_
    rw [List.mem_range] at hd
    have : ∀ i < 2 * (n / 2), (params.take (2 * (n / 2))).getD i 0 = params.getD i 0 := fun i hi => by
      rw [List.getD_eq_getElem?_getD, List.getElem?_take_of_lt hi, ← List.getD_eq_getElem?_getD]
    rw [this _ (by omega), this _ (by omega)]

/-- The observables of the script sum to the field plus the couplings. -/
theorem tfim_ringField (hn : 2 ≤ n) : totalObs (tfimGates n hn) = fieldX n + ringZZ n := by
  rw [totalObs, tfimGates, List.map_append, List.map_append, List.sum_append, List.sum_append, List.map_map, List.map_map, fieldX, ringZZ, ← add_assoc]
  simp only [Function.comp_def]
  have hf : ∀ (k : ℕ) (A : ℕ → QMat n) (B : Fin k → QMat n), (∀ i, B i = A i.val) → ((List.finRange k).map B).sum = ∑ i ∈ Finset.range k, A i := by
    intro k A B h
    rw [← Fin.sum_univ_eq_sum_range, ← List.sum_ofFn, List.ofFn_eq_map]
    exact congrArg List.sum (List.map_congr_left fun i _ => h i)
  rw [hf n (fun i => pauliWord (placed n [.X] [i])) _ fun i => siteObs_full ..]
  rw [hf (n - 1) (fun i => pauliWord (placed n [.Z, .Z] [i, i + 1])) _ fun i => bondObs_full ..]
  simp [bondObs_full]

end Oranssi
