import Verif.Props.LieLayers
import Mathlib.Analysis.SpecialFunctions.Trigonometric.DerivHyp

/-! # Properties C30-C34 -/

namespace Oranssi
open Spec
open scoped Matrix

theorem validateEta_float {x : ℝ} (h0 : 0 ≤ x) (h1 : x ≤ 1) : validateEta (.float x) = .ok x := by
  simp [validateEta, PyVal.between, PyVal.isFloat, PyVal.toReal, pyAssert, bind, Except.bind, h0, h1]

theorem defaultEta_ok : validateEta (Option.getD none (PyVal.float 0.1)) = .ok 0.1 := validateEta_float (by norm_num) (by norm_num)

theorem defaultEta_ok' : validateEta (PyVal.float 0.1) = .ok 0.1 := defaultEta_ok

theorem word1 (l : Letter) : (pauliWord (n := 1) (fun _ => l) : QMat 1) = (l.mat : Matrix (Fin 2) (Fin 2) ℂ) := by
  ext i j
  have hi : bit 1 i 0 = i.val := by have := i.2; simp [bit]; omega
  have hj : bit 1 j 0 = j.val := by have := j.2; simp [bit]; omega
  simp [pauliWord, tensor, hi, hj]

theorem full_single (A : QMat 1) : full 1 [0] A = A := by
  ext i j
  have hi : bit 1 i 0 = i.val := by have := i.2; simp [bit]; omega
  have hj : bit 1 j 0 = j.val := by have := j.2; simp [bit]; omega
  simp [full, sub, hi, hj, ent]
  intro hc
  have h1 := i.2
  have h2 := j.2
  omega

theorem localOk_default (n : ℕ) (hn : n % 2 = 0) (D : Option (List String))
    (hD : ∀ D', D = some D' → ∀ d ∈ D', d ∈ (wordsXYZ 2).map letterStr) (stride : Option ℤ) (hs : stride.getD 0 = 0 ∨ stride.getD 0 = 1) :
    LocalOk n 2 {} stride D where
  eta := ⟨0.1, defaultEta_ok⟩
  loc := Or.inr ⟨rfl, hn, hs⟩
  dirs := hD
  check := ⟨false, rfl⟩
  trot := ⟨false, rfl⟩

/-- A concrete layer of the kind C28 and C29 speak about: two qubits, one observable, pair directions XX and ZY. -/
example (g : Gate 2) : ∃ L, localLayer 2 ([g].map Gate.obs) 2 {} none (some ["ZY", "XX"]) = .ok L ∧ L.directions = ["XX", "ZY"] := by
  obtain ⟨k, e, b, t, hk, hk2, -, -, -, h⟩ := localLayer_ok [g] (localOk_default 2 rfl (some ["ZY", "XX"])
    (by rintro _ ⟨⟩; decide) none (Or.inl rfl))
  have : k = 2 := by exact_mod_cast hk2.symm
  subst this
  have hk : (keptWords 2 (some ["ZY", "XX"])).map letterStr = ["XX", "ZY"] := by decide
  exact ⟨_, h, hk⟩

/-! ### C30 -/

/-- C30, what holds: a unitary update is left alone, whatever decomposition `svd` returns. -/
theorem C30_unitary_kept_partial {n : ℕ} (svd : SvdFn n) (hs : ValidSvd svd) (U : QMat n) (hU : Unitary U) : checkUpdate svd true U = U :=
  checkUpdate_unitary hs true hU

/-- C30 is false: with the check on, an update matrix that fails the unitarity test is never projected: it is used as it is. -/
theorem C30_nonunitary_kept {n : ℕ} (svd : SvdFn n) (U : QMat n) (hU : ∃ i j, ‖(U * Uᴴ - 1) i j‖ > 1e-8) : checkUpdate svd true U = U := by
  rw [checkUpdate, if_neg]
  rintro ⟨-, h⟩
  exact h hU

/-- Whereas the projection itself would have produced a unitary matrix. -/
theorem C30_projection_would_help {n : ℕ} (svd : SvdFn n) (hs : ValidSvd svd) (U : QMat n) : Unitary (projectOntoUnitary svd U) :=
  projectOntoUnitary_unitary hs U

/-- The observable of the counterexample: `|1⟩⟨0|`, which is not Hermitian. -/
def lowering : Gate 1 := ⟨[0], !![0, 0; 1, 0], by simp, by simp, by simp⟩

/-- C30 at the level of a layer: with the non-Hermitian observable `|1⟩⟨0|` on one qubit, direction X, step 1 and the check on, the layer
turns the identity into a matrix that is not unitary, for every `svd`. -/
theorem C30_layer_returns_nonunitary (svd : SvdFn 1) : ∃ L, localLayer 1 [lowering.obs] 1 { unitaryErrorCheck := some (.bool true) } none (some ["X"]) = .ok L ∧
    ∃ V, (L.setEta 1).call svd 1 = .ok V ∧ ¬ Unitary V := by
  have hok : LocalOk 1 1 { unitaryErrorCheck := some (.bool true) } none (some ["X"]) :=
    ⟨⟨0.1, defaultEta_ok⟩, Or.inl rfl, by rintro _ ⟨⟩; decide, ⟨true, rfl⟩, ⟨false, rfl⟩⟩
  obtain ⟨k, e, b, t, hk, hk2, -, hb, ht, h⟩ := localLayer_ok [lowering] hok
  have : k = 1 := by exact_mod_cast hk2.symm
  subst this
  have hb' : b = true := (Except.ok.inj hb).symm
  have ht' : t = false := (Except.ok.inj ht).symm
  subst hb' ht'
  refine ⟨_, h, ?_⟩
  have hkw : keptWords 1 (some ["X"]) = [[.X]] := by decide
  have hcomb : combinations (List.range 1) 1 = [[0]] := by decide
  have hpl : placed 1 [.X] [0] = fun _ => .X := by decide
  have hph : stateFromUnitary (1 : QMat 1) = (![1, 0] : Fin 2 → ℂ) := by
    funext i; fin_cases i <;> rfl
  let X2 : Matrix (Fin 2) (Fin 2) ℂ := !![0, 1; 1, 0]
  let O2 : Matrix (Fin 2) (Fin 2) ℂ := !![0, 0; 1, 0]
  have hω : omegaC (n := 1) (![1, 0] : Fin 2 → ℂ) X2 O2 = 1 := by
    show star (![1, 0] : Fin 2 → ℂ) ⬝ᵥ ((X2 * O2 - O2 * X2) *ᵥ (![1, 0] : Fin 2 → ℂ)) = 1
    simp [X2, O2, dotProduct, Matrix.mulVec, Fin.sum_univ_two]
  have hXX : X2 * X2 = 1 := by simp [X2, Matrix.one_fin_two]
  let W : Matrix (Fin 2) (Fin 2) ℂ := NormedSpace.exp ((-((1 : ℝ) / 2 ^ 1 : ℝ) : ℂ) • X2)
  have hW : W = Complex.cosh (1 / 2) • (1 : Matrix (Fin 2) (Fin 2) ℂ) - Complex.sinh (1 / 2) • X2 := by
    have := exp_smul_involution X2 hXX (-((1 : ℝ) / 2 ^ 1 : ℝ) : ℂ)
    show NormedSpace.exp _ = _
    rw [this]
    norm_num [Complex.cosh_neg, Complex.sinh_neg, sub_eq_add_neg]
  have hWh : Wᴴ = W := by
    rw [hW]
    have hX : X2ᴴ = X2 := by ext i j; fin_cases i <;> fin_cases j <;> simp [X2]
    have e1 : star (Complex.cosh (1 / 2)) = Complex.cosh (1 / 2) := by
      rw [show (1 / 2 : ℂ) = ((1 / 2 : ℝ) : ℂ) by push_cast; rfl, ← Complex.ofReal_cosh]; exact Complex.conj_ofReal _
    have e2 : star (Complex.sinh (1 / 2)) = Complex.sinh (1 / 2) := by
      rw [show (1 / 2 : ℂ) = ((1 / 2 : ℝ) : ℂ) by push_cast; rfl, ← Complex.ofReal_sinh]; exact Complex.conj_ofReal _
    rw [Matrix.conjTranspose_sub, Matrix.conjTranspose_smul, Matrix.conjTranspose_smul, hX, Matrix.conjTranspose_one, e1, e2]
  have hWW : (W * W) 0 1 = -(Real.sinh 1 : ℂ) := by
    have h2 : Complex.sinh 1 = 2 * Complex.sinh (1 / 2) * Complex.cosh (1 / 2) := by
      rw [← Complex.sinh_two_mul]; norm_num
    rw [hW, Complex.ofReal_sinh, Complex.ofReal_one, h2]
    simp [X2, Matrix.mul_apply, Fin.sum_univ_two, Matrix.sub_apply]
    ring
  have hpos : 0 < Real.sinh 1 := Real.sinh_pos_iff.2 one_pos
  have hbig : (1e-8 : ℝ) < Real.sinh 1 := by
    have := Real.self_lt_sinh_iff.2 (show (0 : ℝ) < 1 by norm_num)
    linarith [show (1e-8 : ℝ) < 1 by norm_num]
  have hchk : checkUpdate (n := 1) svd true W = W := by
    refine C30_nonunitary_kept svd W ⟨(0 : Fin 2), (1 : Fin 2), ?_⟩
    show ‖(W * Wᴴ - 1) 0 1‖ > 1e-8
    rw [hWh, Matrix.sub_apply, hWW, Matrix.one_apply_ne (by decide), sub_zero, norm_neg, Complex.norm_real, Real.norm_eq_abs,
      abs_of_pos hpos]
    exact hbig
  refine ⟨W, ?_, ?_⟩
  · simp only [LocalLayer.setEta, LocalLayer.call, hkw, hcomb, List.map_cons, List.map_nil, hpl, word1, hph, lowering, full_single,
      obsLoop, groupsLoop, groupStep, bind, Except.bind]
    have e : checkUpdate (n := 1) svd true (NormedSpace.exp ((-((1 : ℝ) / 2 ^ 1 : ℝ) : ℂ) •
        [omegaC (n := 1) (![1, 0] : Fin 2 → ℂ) X2 O2 • X2].sum)) * 1 = W := by
      rw [List.sum_singleton, hω, one_smul, Matrix.mul_one]
      exact hchk
    rw [if_neg (by simp), if_neg (by simp)]
    exact congrArg Except.ok e
  · intro hc
    have h01 := congrFun (congrFun (show Wᴴ * W = 1 from hc) 0) 1
    rw [hWh, hWW, Matrix.one_apply_ne (by decide)] at h01
    have : (Real.sinh 1 : ℂ) = 0 := by simpa using h01
    exact hpos.ne' (by exact_mod_cast this)

/-- A computation succeeds once it is seen to reduce to a result. -/
theorem exists_ok {α : Type*} {e : Py α} (h : e.toBool = true) : ∃ a, e = .ok a := by
  cases e with
  | error x => exact absurd h (by simp [Except.toBool])
  | ok a => exact ⟨a, rfl⟩

/-! ### C31 -/

/-- A valid direction of locality `k`: `k` characters among X, Y, Z. -/
def ValidDirection (k : ℕ) (d : String) : Prop := d.toList.length = k ∧ ∀ c ∈ d.toList, c ∈ ['X', 'Y', 'Z']

theorem validDirection_iff {k : ℕ} {d : String} : ValidDirection k d ↔ d ∈ (wordsXYZ k).map letterStr := by
  rw [List.mem_map]
  constructor
  · rintro ⟨h1, h2⟩
    let f : Char → Letter := fun c => if c = 'X' then .X else if c = 'Y' then .Y else .Z
    refine ⟨d.toList.map f, mem_wordsXYZ.2 ⟨by simpa using h1, ?_⟩, ?_⟩
    · intro a ha
      obtain ⟨c, -, rfl⟩ := List.mem_map.1 ha
      dsimp only [f]
      split
      · simp
      · split <;> simp
    · apply String.toList_injective
      rw [letterStr, String.toList_ofList, List.map_map]
      conv_rhs => rw [← List.map_id d.toList]
      apply List.map_congr_left
      intro c hc
      have := h2 c hc
      simp at this
      rcases this with rfl | rfl | rfl <;> rfl
  · rintro ⟨w, hw, rfl⟩
    obtain ⟨h1, h2⟩ := mem_wordsXYZ.1 hw
    refine ⟨by rw [letterStr_length, h1], ?_⟩
    intro c hc
    simp only [letterStr, String.toList_ofList, List.mem_map] at hc
    obtain ⟨a, ha, rfl⟩ := hc
    have := h2 a ha
    cases a <;> simp_all [Letter.char]

theorem canonical_sorted {k : ℕ} (hk : k = 1 ∨ k = 2) : ((wordsXYZ k).map letterStr).Pairwise (· < ·) := by
  rcases hk with rfl | rfl <;> decide

/-- The operators belonging to a list of directions on the qubits `q`. -/
def OperatorsOn (n : ℕ) (q : List ℕ) (ds : List String) (ops : List (QMat n)) : Prop :=
  List.Forall₂ (fun d M => ∃ w, d = letterStr w ∧ M = pauliWord (placed n w q)) ds ops

/-- C31: with `directions = D` (any list of strings, in any order and with repetitions), for arguments that are otherwise acceptable: if
all of `D` are valid directions of the locality, the layer uses exactly these, each once and in alphabetical order, with the matching
operators on every qubit (pair of qubits); otherwise the constructor raises `AssertionError`. -/
theorem C31_directions {n : ℕ} (gs : List (Gate n)) (k : ℕ) (hk : k = 1 ∨ k = 2) (args : LayerArgs) (stride : Option ℤ) (L0 : LocalLayer n)
    (h0 : localLayer n (gs.map Gate.obs) k args stride none = .ok L0) (D : List String) :
    ((∀ d ∈ D, ValidDirection k d) → ∃ L, localLayer n (gs.map Gate.obs) k args stride (some D) = .ok L ∧
      L.directions.Pairwise (· < ·) ∧ (∀ d, d ∈ L.directions ↔ d ∈ D) ∧
      ∃ tuples : List (List ℕ), tuples.Nodup ∧ (∀ q, q ∈ tuples ↔ q.length = k ∧ q.Pairwise (· < ·) ∧ ∀ x ∈ q, x < n) ∧
        List.Forall₂ (fun q ops => OperatorsOn n q L.directions ops) tuples L.fullPaulis) ∧
    ((¬ ∀ d ∈ D, ValidDirection k d) → localLayer n (gs.map Gate.obs) k args stride (some D) = .error .assertion) := by
  have hok := localLayer_inv gs h0
  constructor
  · intro hD
    have hok' : LocalOk n k args stride (some D) := { hok with
      dirs := by
        intro D' hD' d hd
        cases hD'
        exact validDirection_iff.1 (by simpa using hD d hd) }
    obtain ⟨k', e, b, t, -, hk', -, -, -, h⟩ := localLayer_ok gs hok'
    have : k' = k := by exact_mod_cast hk'.symm
    subst this
    refine ⟨_, h, ?_, ?_, combinations (List.range n) k', combinations_nodup List.nodup_range _, fun q => mem_combinations_range, ?_⟩
    · exact (canonical_sorted hk).sublist (List.filter_sublist.map _)
    · intro d
      simp only [keptWords, List.mem_map, List.mem_filter, decide_eq_true_eq]
      constructor
      · rintro ⟨w, ⟨-, hw⟩, rfl⟩; exact hw
      · intro hd
        obtain ⟨w, hw, rfl⟩ := List.mem_map.1 (validDirection_iff.1 (hD d hd))
        exact ⟨w, ⟨hw, hd⟩, rfl⟩
    · simp only
      rw [List.forall₂_map_right_iff, List.forall₂_same]
      intro q _
      rw [OperatorsOn, List.forall₂_map_left_iff, List.forall₂_map_right_iff, List.forall₂_same]
      intro w _
      exact ⟨w, rfl, rfl⟩
  · intro hD
    have hnd : ¬ ∀ D', some D = some D' → ∀ d ∈ D', d ∈ (wordsXYZ k).map letterStr := by
      intro hc
      exact hD (fun d hd => validDirection_iff.2 (hc D rfl d hd))
    obtain ⟨⟨e, he⟩, hl, -, -, -⟩ := hok
    rcases hk with rfl | rfl
    · simp only [localLayer, promoteAll_gates, he, bind, Except.bind, pyAssert, List.mem_cons, Nat.cast_one, true_or, if_true,
        su2_words, filterDirections_words, if_neg hnd, show ((1 : ℤ) = 2) ↔ False by decide, if_false]
    · have hl' : n % 2 = 0 ∧ (stride.getD 0 = 0 ∨ stride.getD 0 = 1) := by
        rcases hl with h | ⟨-, h⟩
        · exact absurd h (by decide)
        · exact h
      have hst' : stride.getD 0 ∈ [(0 : ℤ), 1] := by simpa using hl'.2
      simp only [localLayer, promoteAll_gates, he, bind, Except.bind, pyAssert, if_pos hst', if_pos hl'.1, Nat.cast_ofNat,
        su4_words, filterDirections_words, if_neg hnd, show (2 : ℤ) ∈ [(1 : ℤ), 2] ↔ True by decide, if_true]

/-! ### C32 -/

/-- C32 is false: layers that differ only in `stride` do the same, on every circuit. -/
theorem C32_stride_ignored {n : ℕ} (gs : List (Gate n)) (locality : ℤ) (args : LayerArgs) (D : Option (List String)) (s s' : Option ℤ)
    (L L' : LocalLayer n) (h : localLayer n (gs.map Gate.obs) locality args s D = .ok L)
    (h' : localLayer n (gs.map Gate.obs) locality args s' D = .ok L') (svd : SvdFn n) (U : QMat n) :
    L.call svd U = L'.call svd U := by
  obtain ⟨k, e, b, t, -, hk, he, hb, ht, h1⟩ := localLayer_ok gs (localLayer_inv gs h)
  obtain ⟨k', e', b', t', -, hk', he', hb', ht', h1'⟩ := localLayer_ok gs (localLayer_inv gs h')
  have hkk : k = k' := by exact_mod_cast hk.symm.trans hk'
  subst hkk
  have e1 : e = e' := Except.ok.inj (he.symm.trans he')
  have e2 : b = b' := Except.ok.inj (hb.symm.trans hb')
  have e3 : t = t' := Except.ok.inj (ht.symm.trans ht')
  subst e1 e2 e3
  rw [h] at h1
  rw [h'] at h1'
  rw [Except.ok.inj h1, Except.ok.inj h1']
  rfl

/-- C32, what holds: for locality 2 a stride other than 0 or 1 is rejected, and both 0 and 1 are accepted. -/
theorem C32_stride_checked_partial {n : ℕ} (gs : List (Gate n)) (args : LayerArgs) (D : Option (List String)) (s : ℤ) (L0 : LocalLayer n)
    (h0 : localLayer n (gs.map Gate.obs) 2 args none D = .ok L0) :
    (∃ L, localLayer n (gs.map Gate.obs) 2 args (some s) D = .ok L) ↔ s = 0 ∨ s = 1 := by
  have hok := localLayer_inv gs h0
  constructor
  · rintro ⟨L, h⟩
    rcases (localLayer_inv gs h).loc with h | ⟨-, -, h⟩
    · exact absurd h (by decide)
    · exact h
  · intro hs
    have hev : n % 2 = 0 := by
      rcases hok.loc with h | ⟨-, h, -⟩
      · exact absurd h (by decide)
      · exact h
    have hok' : LocalOk n 2 args (some s) D := { hok with loc := Or.inr ⟨rfl, hev, hs⟩ }
    obtain ⟨k, e, b, t, -, -, -, -, -, h⟩ := localLayer_ok gs hok'
    exact ⟨_, h⟩

/-! ### C33 -/

/-- C33 is false: without directions the constructor succeeds but every call raises `TypeError`, for every register and every
non-empty list of observables. -/
theorem C33_none_raises {n : ℕ} (hn : 0 < n) (gs : List (Gate n)) (hg : gs ≠ []) (args : LayerArgs) (L : CustomLayer n)
    (hL : customLayer n (gs.map Gate.obs) none args = .ok L) (svd : SvdFn n) (U : QMat n) : L.call svd U = .error .type := by
  obtain ⟨a, ha, hf, hd, -⟩ := algebraSU4_getAll n
  rw [customLayer, promoteAll_gates, ha] at hL
  simp only [bind, Except.bind] at hL
  cases he : validateEta (args.eta.getD (.float 0.1)) with
  | error x => rw [he] at hL; simp at hL
  | ok e =>
    rw [he] at hL
    simp only at hL
    cases hb : validateBool (args.unitaryErrorCheck.getD (.bool false)) with
    | error x => rw [hb] at hL; simp at hL
    | ok b =>
      rw [hb] at hL
      simp only at hL
      cases ht : validateBool (args.trotterize.getD (.bool false)) with
      | error x => rw [ht] at hL; simp at hL
      | ok t =>
        rw [ht] at hL
        have := Except.ok.inj hL
        subst this
        have hnd : ((stdDict n (allWords [1, 2])).map Prod.fst).Nodup := stdDict_nodup (allWords_nodup (by simp))
        have hm : customMatrices (n := n) (dictZip (a.fullPaulis.map Prod.fst) (a.fullPaulis.map (fun e => CustomVal.key e.1))) = .error .type := by
          rw [hf, dictZip_map _ hnd (fun e => CustomVal.key e.1)]
          have hmem : ((letterStr [.X], [0]), pauliWord (placed n [.X] [0])) ∈ stdDict n (allWords [1, 2]) := by
            refine mem_stdDict.2 ⟨[.X], mem_allWords.2 ⟨by simp, by simp⟩, [0], ?_, rfl⟩
            rw [mem_combinations_range]; simpa using hn
          cases hs : stdDict n (allWords [1, 2]) with
          | nil => rw [hs] at hmem; simp at hmem
          | cons e es => rfl
        cases gs with
        | nil => exact absurd rfl hg
        | cons g gs =>
          rw [CustomLayer.call, List.map_cons, customObsLoop, hm]
          rfl

/-- C33: the constructor does accept `directions=None`, so the failure comes only with the first call. -/
theorem C33_none_constructs {n : ℕ} (gs : List (Gate n)) : ∃ L, customLayer n (gs.map Gate.obs) none {} = .ok L := by
  obtain ⟨a, ha, -⟩ := algebraSU4_getAll n
  apply exists_ok
  rw [customLayer, promoteAll_gates, ha]
  simp only [bind, Except.bind, Option.getD_none, defaultEta_ok', validateBool]
  rfl

/-- C33, what holds: listing all directions explicitly gives a layer that performs a step over all of them. -/
theorem C33_explicit_partial {n : ℕ} (hn : 2 ≤ n) (gs : List (Gate n)) (hH : ∀ g ∈ gs, g.Aᴴ = g.A) (D : List String)
    (hD : ∀ d, d ∈ D ↔ ValidDirection 1 d ∨ ValidDirection 2 d) : ∃ L, customLayer n (gs.map Gate.obs) (some D) {} = .ok L ∧
    (∀ d q, (d, q) ∈ L.directions ↔ (ValidDirection 1 d ∨ ValidDirection 2 d) ∧ q.length = d.toList.length ∧ q.Pairwise (· < ·) ∧ ∀ x ∈ q, x < n) ∧
    ∀ svd : SvdFn n, ValidSvd svd → ∀ U, Unitary U → ∃ V, L.call svd U = .ok V ∧ Unitary V := by
  obtain ⟨a, ha, hf, hd, -⟩ := algebraSU4_getAll n
  have hall : ∀ d, d ∈ (allWords [1, 2]).map letterStr ↔ ValidDirection 1 d ∨ ValidDirection 2 d := by
    intro d
    rw [validDirection_iff, validDirection_iff]
    simp [allWords, or_and_right, exists_or]
  have hDv : ∀ d ∈ D, d ∈ (allWords [1, 2]).map letterStr := fun d hd' => (hall d).2 ((hD d).1 hd')
  have hex : ∃ L, customLayer n (gs.map Gate.obs) (some D) {} = .ok L := by
    apply exists_ok
    rw [customLayer, promoteAll_gates, ha]
    simp only [bind, Except.bind, Option.getD_none, defaultEta_ok', validateBool, pyAssert, hd, if_pos hDv]
    rfl
  obtain ⟨L, hL⟩ := hex
  obtain ⟨-, -, -, hdir⟩ := customLayer_some hL
  refine ⟨L, hL, ?_, ?_⟩
  · intro d q
    rw [hdir, customKept, List.mem_map]
    have hspec := (stdDict_spec n (lens := [1, 2]) (by simp) (by simp)).keys d q
    constructor
    · rintro ⟨e, he, hek⟩
      obtain ⟨he1, he2⟩ := List.mem_filter.1 he
      have := hspec.1 (List.mem_map.2 ⟨e, he1, hek⟩)
      obtain ⟨h1, h2, h3, h4, h5⟩ := this
      refine ⟨?_, h3, h4, h5⟩
      simp only [List.mem_cons, List.not_mem_nil, or_false] at h1
      rcases h1 with h1 | h1
      · exact Or.inl ⟨h1, h2⟩
      · exact Or.inr ⟨h1, h2⟩
    · rintro ⟨h1, h3, h4, h5⟩
      have h2 : (d.toList.length ∈ [1, 2]) ∧ ∀ c ∈ d.toList, c ∈ ['X', 'Y', 'Z'] := by
        rcases h1 with h1 | h1 <;> exact ⟨by rw [h1.1]; simp, h1.2⟩
      obtain ⟨e, he, hek⟩ := List.mem_map.1 (hspec.2 ⟨h2.1, h2.2, h3, h4, h5⟩)
      refine ⟨e, List.mem_filter.2 ⟨he, ?_⟩, hek⟩
      rw [hek]
      simpa using (hD d).2 h1
  · intro svd hs U hU
    have hX : "X" ∈ D := (hD "X").2 (Or.inl (by unfold ValidDirection; decide))
    obtain ⟨h1, h2⟩ := C28_custom gs hH D {} L hL svd hs L.eta U hU
    obtain ⟨V, hV⟩ := h2 (Or.inl ⟨"X", hX, by have : "X".toList.length = 1 := rfl; omega⟩)
    exact ⟨V, hV, h1 V hV⟩

/-! ### C34 -/

/-- C34 is false: every call of every `StochasticLieAlgebraLayer` raises `NotImplementedError`. -/
theorem C34_always_raises {n : ℕ} (L : StochasticLayer n) (svd : SvdFn n) (U : QMat n) : L.call svd U = .error .notImplemented := rfl

/-- C34: although the constructor accepts valid arguments. -/
theorem C34_constructs {n : ℕ} (gs : List (Gate n)) : ∃ L, stochasticLayer n (gs.map Gate.obs) {} = .ok L := by
  apply exists_ok
  rw [stochasticLayer, promoteAll_gates]
  simp only [bind, Except.bind, Option.getD_none, defaultEta_ok', validateBool]
  rfl

/-- Every matrix of the identity's kind is a meaningful input: the identity circuit is unitary, and Hermitian observables exist. -/
example : Unitary (1 : QMat 3) ∧ (∀ g ∈ [exObsZ], g.Aᴴ = g.A) := by
  refine ⟨by unfold Unitary; simp, ?_⟩
  intro g hg
  simp only [List.mem_singleton] at hg
  subst hg
  exact pauliWord_herm _

end Oranssi
