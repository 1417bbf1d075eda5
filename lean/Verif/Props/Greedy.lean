import Verif.Lemmas.Greedy
import Verif.Props.Rotosolve
import Verif.Props.LieLayersMore

/-! # C35, C36: the Squared and SU(8) layers -/

namespace Oranssi
open scoped Matrix
open Spec

/-- The angle computed from the costs at the angles 0 and `±π/2`, where the angle `t` stands for the rotation `exp(-i t/2^k P)`. -/
noncomputable def Spec.rotoAngle {n : ℕ} (H P U : QMat n) (k : ℕ) : ℝ :=
  let f : ℝ → ℝ := fun t => cost H (NormedSpace.exp ((-Complex.I * ((t / 2 ^ k : ℝ) : ℂ)) • P) * U);
  -Real.pi / 2 - Complex.arg ⟨f (Real.pi / 2) - f (-(Real.pi / 2)), 2 * f 0 - f (Real.pi / 2) - f (-(Real.pi / 2))⟩

/-- The result of a step along `P` from `U`: a rotation about `P` for the angle computed from three costs, for directions of length 1 the best one (for longer
directions see C38). -/
structure Spec.IsRotoStep {n : ℕ} (H P U V : QMat n) (k : ℕ) : Prop where
  angle : V = NormedSpace.exp ((-Complex.I * ((rotoAngle H P U k / 2 ^ k : ℝ) : ℂ)) • P) * U
  rotation : ∃ η : ℝ, V = NormedSpace.exp ((-Complex.I * (η : ℂ)) • P) * U
  unitary : Unitary U → Unitary V
  best : k = 1 → ∀ t : ℝ, cost H V ≤ cost H (NormedSpace.exp ((-Complex.I * (t : ℂ)) • P) * U)

theorem rotosolve_step {n : ℕ} (P U : QMat n) (hP : P * P = 1) (hP' : Pᴴ = P) (gs : List (Gate n)) (k : ℕ) :
    ∃ V η, rotosolve P (gs.map Gate.obs) U k = .ok (V, η) ∧ IsRotoStep (totalObs gs) P U V k := by
  refine ⟨_, _, rotosolve_ok P U gs k, rfl, ⟨_, rfl⟩, ?_, ?_⟩
  · intro hU
    refine Unitary.mul ?_ hU
    refine (exp_skew_unitary _ ?_).1
    rw [Matrix.conjTranspose_smul, hP', ← neg_smul]
    congr 1
    simp
  · rintro rfl t
    obtain ⟨V, η, h1, h2, h3, -⟩ := C37_rotosolve_optimal P U hP gs
    have h4 := rotosolve_ok P U gs 1
    rw [h1] at h4
    have h5 := (Prod.ext_iff.1 (Except.ok.inj h4)).1
    simp only at h5
    rw [← h5]
    have := h3 (2 * t)
    rwa [mul_div_cancel_left₀ _ (by norm_num : (2 : ℝ) ≠ 0)] at this

/-- What the constructor of the squared layer builds. -/
theorem squaredLayer_inv {n : ℕ} {gs : List (Gate n)} {args : LayerArgs} {L : SquaredLayer n} (hL : squaredLayer n (gs.map Gate.obs) args = .ok L) :
    L.observables = gs.map Gate.obs ∧ L.observablesFull = gs.map (fun g => full n g.ws g.A) ∧ L.lastate.fullPaulis = stdDict n (allWords [1, 2]) ∧
      L.previousPauli = ("Null", [0]) := by
  obtain ⟨a, ha, hf, -⟩ := algebraSU4_getAll n
  rw [squaredLayer, promoteAll_gates, ha] at hL
  simp only [bind, Except.bind] at hL
  split at hL
  · simp at hL
  split at hL
  · simp at hL
  split at hL
  · simp at hL
  rw [← Except.ok.inj hL]
  exact ⟨rfl, rfl, hf, rfl⟩

theorem xy_keys {n : ℕ} (hn : 1 ≤ n) {lens : List ℕ} (h1 : 1 ∈ lens) : ("X", [0]) ∈ (stdDict n (allWords lens)).map Prod.fst ∧ ("Y", [0]) ∈ (stdDict n (allWords lens)).map Prod.fst := by
  have h : [0] ∈ combinations (List.range n) 1 := mem_combinations_range.2 ⟨rfl, by simp, by simp; omega⟩
  exact ⟨mem_keys_stdDict.2 ⟨[.X], mem_allWords.2 ⟨h1, by simp⟩, [0], h, rfl⟩, mem_keys_stdDict.2 ⟨[.Y], mem_allWords.2 ⟨h1, by simp⟩, [0], h, rfl⟩⟩

theorem filter_ne_nil {n : ℕ} (hn : 1 ≤ n) {lens : List ℕ} (h1 : 1 ∈ lens) (k : Key) : (stdDict n (allWords lens)).filter (fun e => e.1 ≠ k) ≠ [] := by
  obtain ⟨hx, hy⟩ := xy_keys hn h1
  obtain ⟨ex, hex, hx⟩ := List.mem_map.1 hx
  obtain ⟨ey, hey, hy⟩ := List.mem_map.1 hy
  by_cases h : ex.1 = k
  · refine List.ne_nil_of_mem (a := ey) (List.mem_filter.2 ⟨hey, ?_⟩)
    rw [hy, ← h, hx]
    decide
  · exact List.ne_nil_of_mem (a := ex) (List.mem_filter.2 ⟨hex, by simpa using h⟩)

/-- One call of the squared layer in any state of the object. -/
theorem squared_call {n : ℕ} (hn : 1 ≤ n) {gs : List (Gate n)} {L : SquaredLayer n} (ho : L.observables = gs.map Gate.obs)
    (hf : L.observablesFull = gs.map (fun g => full n g.ws g.A)) (hd : L.lastate.fullPaulis = stdDict n (allWords [1, 2])) (U : QMat n) :
    ∃ k P V, L.call U = .ok (V, { L with previousPauli := k }) ∧
      IsFirstMax (fun e : Key × QMat n => |grad (totalObs gs) U e.2|) ((stdDict n (allWords [1, 2])).filter (fun e => e.1 ≠ L.previousPauli)) (k, P) ∧
      IsRotoStep (totalObs gs) P U V k.2.length ∧ ∃ η, rotosolve P (gs.map Gate.obs) U k.2.length = .ok (V, η) := by
  obtain ⟨⟨k, P⟩, h1, h2⟩ := argmax_dict U gs _ (filter_ne_nil hn (lens := [1, 2]) (by simp) L.previousPauli)
  have hm := (List.mem_filter.1 h2.mem).1
  have hspec := stdDict_spec n (lens := [1, 2]) (by simp) (by simp)
  have hlen : k.1.toList.length = k.2.length := by
    have := (hspec.keys k.1 k.2).1 (List.mem_map_of_mem hm)
    exact this.2.2.1.symm
  obtain ⟨V, η, h3, h4⟩ := rotosolve_step P U (hspec.unitary _ hm) (hspec.herm _ hm) gs k.1.toList.length
  refine ⟨k, P, V, ?_, h2, hlen ▸ h4, η, hlen ▸ h3⟩
  rw [SquaredLayer.call, SquaredLayer.omegas, hd, hf, h1]
  simp only [bind, Except.bind]
  rw [dictGet_mem hspec.nodup hm, ho]
  simp only
  rw [h3]

theorem squared_run {n : ℕ} (hn : 1 ≤ n) {gs : List (Gate n)} : ∀ (Us : List (QMat n)) {L : SquaredLayer n} (prev : Option Key),
    L.observables = gs.map Gate.obs → L.observablesFull = gs.map (fun g => full n g.ws g.A) → L.lastate.fullPaulis = stdDict n (allWords [1, 2]) →
    (∀ e ∈ stdDict n (allWords [1, 2]), e.1 ≠ L.previousPauli ↔ some e.1 ≠ prev) →
    ∃ res L', L.runAll Us = .ok (res, L') ∧ res.length = Us.length ∧
      ∀ i U r, Us[i]? = some U → res[i]? = some r → ∃ P,
        IsFirstMax (fun e : Key × QMat n => |grad (totalObs gs) U e.2|)
          ((stdDict n (allWords [1, 2])).filter (fun e => some e.1 ≠ (if i = 0 then prev else (res[i - 1]?).map Prod.fst))) (r.1, P) ∧
        IsRotoStep (totalObs gs) P U r.2 r.1.2.length
  | [], L, prev, _, _, _, _ => ⟨[], L, rfl, rfl, by simp⟩
  | U :: Us, L, prev, ho, hf, hd, hp => by
    obtain ⟨k, P, V, h1, h2, h3, -⟩ := squared_call hn ho hf hd U
    obtain ⟨res, L', h4, h5, h6⟩ := squared_run hn (gs := gs) Us (L := { L with previousPauli := k }) (some k) ho hf hd (by
      intro e _; simp)
    refine ⟨(k, V) :: res, L', ?_, by simpa using h5, ?_⟩
    · rw [SquaredLayer.runAll, h1]
      simp only [bind, Except.bind]
      rw [h4]
    · intro i W r hi hr
      cases i with
      | zero =>
        simp only [List.getElem?_cons_zero, Option.some.injEq] at hi hr
        subst hi hr
        refine ⟨P, ?_, h3⟩
        rw [if_pos rfl]
        convert h2 using 1
        apply List.filter_congr
        intro e he
        simp only [decide_eq_decide]
        exact (hp e he).symm
      | succ i =>
        simp only [List.getElem?_cons_succ] at hi hr
        obtain ⟨Q, h7, h8⟩ := h6 i W r hi hr
        refine ⟨Q, ?_, h8⟩
        rw [if_neg (by omega)]
        convert h7 using 4
        cases i with
        | zero => simp
        | succ i => simp

/-- C35: in every history of calls (on any circuits, for any observables and options, `n ≥ 1`), no call fails; every call selects the
first direction with the largest absolute gradient among all one- and two-qubit directions other than the one of the previous call, so
no direction is selected twice in a row; the circuit returned is a rotation about that direction for the angle computed from three costs,
and the best one if the direction has length 1. -/
theorem C35_squared {n : ℕ} (hn : 1 ≤ n) (gs : List (Gate n)) (args : LayerArgs) (L : SquaredLayer n)
    (hL : squaredLayer n (gs.map Gate.obs) args = .ok L) (Us : List (QMat n)) :
    IsPauliDict n [1, 2] L.lastate.fullPaulis ∧ ∃ res L', L.runAll Us = .ok (res, L') ∧ res.length = Us.length ∧
      (∀ i U r, Us[i]? = some U → res[i]? = some r → ∃ P,
        IsFirstMax (fun e : Key × QMat n => |grad (totalObs gs) U e.2|)
          (L.lastate.fullPaulis.filter (fun e => some e.1 ≠ (if i = 0 then none else (res[i - 1]?).map Prod.fst))) (r.1, P) ∧
        IsRotoStep (totalObs gs) P U r.2 r.1.2.length) ∧
      ∀ i r s, res[i]? = some r → res[i + 1]? = some s → r.1 ≠ s.1 := by
  obtain ⟨ho, hf, hd, hp⟩ := squaredLayer_inv hL
  have hspec := stdDict_spec n (lens := [1, 2]) (by simp) (by simp)
  rw [hd]
  refine ⟨hspec, ?_⟩
  obtain ⟨res, L', h1, h2, h3⟩ := squared_run hn (gs := gs) Us none ho hf hd (by
    intro e he
    simp only [ne_eq, reduceCtorEq, not_false_eq_true, iff_true]
    intro h
    have := (hspec.keys e.1.1 e.1.2).1 (List.mem_map_of_mem he)
    rw [h, hp] at this
    exact absurd (this.2.1 'N' (by simp)) (by decide))
  refine ⟨res, L', h1, h2, h3, ?_⟩
  intro i r s hr hs e
  have hi : i + 1 < Us.length := by
    rw [← h2]
    by_contra hc
    rw [List.getElem?_eq_none (by omega)] at hs
    simp at hs
  obtain ⟨P, h4, -⟩ := h3 (i + 1) Us[i + 1] s (List.getElem?_eq_getElem hi) hs
  have h5 := (List.mem_filter.1 h4.mem).2
  rw [if_neg (by omega), Nat.add_sub_cancel, hr] at h5
  simp [e] at h5

/-- The constructor succeeds with default arguments, so C35 is about something. -/
example : ∃ L, squaredLayer 2 ([exObsZ].map Gate.obs) {} = .ok L := by
  obtain ⟨a, ha, -⟩ := algebraSU4_getAll 2
  rw [squaredLayer, promoteAll_gates, ha]
  simp only [bind, Except.bind]
  rw [show validateEta (Option.getD ({} : LayerArgs).eta (.float 0.1)) = .ok 0.1 from defaultEta_ok']
  exact ⟨_, rfl⟩

/-- What the constructor of the SU(8) layer builds. -/
theorem su8Layer_inv {n : ℕ} {gs : List (Gate n)} {args : LayerArgs} {b1 b2 : Bool} {L : SU8Layer n} (hL : su8Layer n (gs.map Gate.obs) args b1 b2 = .ok L) :
    3 ≤ n ∧ L.observables = gs.map Gate.obs ∧ L.observablesFull = gs.map (fun g => full n g.ws g.A) ∧
      L.lastate.fullPaulis = stdDict n (allWords (lens8 b1 b2)) := by
  obtain ⟨a0, h0, h1, h2, h3, h4⟩ := algebraSU8_attrs n b1 b2
  have hl2 : (lens8 b1 b2).Nodup := by cases b1 <;> cases b2 <;> simp [lens8]
  have h02 : 0 ∉ lens8 b1 b2 := by cases b1 <;> cases b2 <;> simp [lens8]
  have hne : ∀ w ∈ allWords (lens8 b1 b2), w ≠ [] := fun w hw hc => h02 (by simpa [hc] using (mem_allWords.1 hw).1)
  have ha := getAll8_std (allWords_nodup hl2) hne _ h1 h2 h4 [] (Or.inl rfl) h3
  rw [su8Layer, promoteAll_gates, h0] at hL
  simp only [bind, Except.bind] at hL
  split at hL
  · simp at hL
  split at hL
  · simp at hL
  rename_i hn
  rw [pyAssert] at hn
  split at hn
  · rename_i hn'
    split at hL
    · simp at hL
    split at hL
    · simp at hL
    rw [ha] at hL
    rw [← Except.ok.inj hL]
    exact ⟨hn', rfl, rfl, rfl⟩
  · simp at hn

/-- C36: for any observables, options and flags, and any circuit, a call of the SU(8) layer succeeds; it selects the first direction (in
dictionary order) with the largest absolute gradient among all directions of the lengths enabled by the flags, and returns a rotation of
the circuit about it for the angle computed from three costs. -/
theorem C36_su8 {n : ℕ} (gs : List (Gate n)) (args : LayerArgs) (b1 b2 : Bool) (L : SU8Layer n)
    (hL : su8Layer n (gs.map Gate.obs) args b1 b2 = .ok L) (U : QMat n) :
    IsPauliDict n ((if b1 then [1] else []) ++ (if b2 then [2] else []) ++ [3]) L.lastate.fullPaulis ∧
    ∃ k P V, L.call U = .ok (V, k) ∧ IsFirstMax (fun e : Key × QMat n => |grad (totalObs gs) U e.2|) L.lastate.fullPaulis (k, P) ∧
      IsRotoStep (totalObs gs) P U V k.2.length := by
  obtain ⟨hn, ho, hf, hd⟩ := su8Layer_inv hL
  have hl2 : (lens8 b1 b2).Nodup := by cases b1 <;> cases b2 <;> simp [lens8]
  have h02 : 0 ∉ lens8 b1 b2 := by cases b1 <;> cases b2 <;> simp [lens8]
  have hspec := stdDict_spec n hl2 h02
  rw [hd]
  refine ⟨hspec, ?_⟩
  have hne : stdDict n (allWords (lens8 b1 b2)) ≠ [] := by
    have : ("XXX", [0, 1, 2]) ∈ (stdDict n (allWords (lens8 b1 b2))).map Prod.fst := (hspec.keys _ _).2
      ⟨by simp [lens8], by simp, rfl, by simp, by simp; omega⟩
    intro h
    rw [h] at this
    simp at this
  obtain ⟨⟨k, P⟩, h1, h2⟩ := argmax_dict U gs _ hne
  have hm := h2.mem
  have hlen : k.1.toList.length = k.2.length := by
    have := (hspec.keys k.1 k.2).1 (List.mem_map_of_mem hm)
    exact this.2.2.1.symm
  obtain ⟨V, η, h3, h4⟩ := rotosolve_step P U (hspec.unitary _ hm) (hspec.herm _ hm) gs k.1.toList.length
  refine ⟨k, P, V, ?_, h2, hlen ▸ h4⟩
  rw [SU8Layer.call, hd, hf, h1]
  simp only [bind, Except.bind]
  rw [dictGet_mem hspec.nodup hm, ho]
  simp only
  rw [h3]

/-- The constructor raises for fewer than three qubits. -/
theorem C36_small {n : ℕ} (hn : n < 3) (gs : List (Gate n)) (args : LayerArgs) (b1 b2 : Bool) (L : SU8Layer n) :
    su8Layer n (gs.map Gate.obs) args b1 b2 ≠ .ok L := fun h => by
  have := (su8Layer_inv h).1
  omega

/-- The constructor succeeds with default arguments on three qubits. -/
example : ∃ L, su8Layer 3 ([] : List Obs) {} = .ok L := by
  obtain ⟨a0, h0, h1, h2, h3, h4⟩ := algebraSU8_attrs 3 true true
  have ha := getAll8_std (allWords_nodup (by decide)) (fun w hw hc => by simpa [hc, lens8] using (mem_allWords.1 hw).1) _ h1 h2 h4 [] (Or.inl rfl) h3
  rw [su8Layer, h0]
  simp only [bind, Except.bind, promoteAll]
  rw [show validateEta (Option.getD ({} : LayerArgs).eta (.float 0.1)) = .ok 0.1 from defaultEta_ok', ha]
  exact ⟨_, rfl⟩

end Oranssi
