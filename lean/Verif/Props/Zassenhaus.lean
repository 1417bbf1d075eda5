import Verif.Lemmas.ZassCands
import Verif.Spec.Zassenhaus

/-! # C41 – C43: `ZassenhausLayer` -/

namespace Oranssi
open scoped Matrix
open Spec

/-! ### C41 -/

/-- What a successful call does to the phase counter. -/
theorem zass_call_phase {n : ℕ} {ord : SetOrder ℕ} {L L' : ZassLayer n} {U V : QMat n} (h : L.call ord U = .ok (V, L')) :
    L'.ratio = L.ratio ∧ L'.eta = L.eta ∧ L'.su4 = L.su4 ∧ L'.su8 = L.su8 ∧ L'.observables = L.observables ∧ L'.observablesFull = L.observablesFull ∧
    (L.phase = .su4 → L.callSu4 U = .ok (V, L') ∧ L'.counter = (if L.counter + 1 ≥ L.ratio.1 then 0 else L.counter + 1) ∧
      L'.phase = if L.counter + 1 ≥ L.ratio.1 then .su8 else .su4) ∧
    (L.phase = .su8 → L.callSu8 ord U = .ok (V, L') ∧ L'.counter = (if L.counter + 1 ≥ L.ratio.2 then 0 else L.counter + 1) ∧
      L'.phase = if L.counter + 1 ≥ L.ratio.2 then .su4 else .su8) := by
  have h0 := h
  rw [ZassLayer.call] at h
  split at h
  · rename_i hp
    have h1 := h
    rw [ZassLayer.callSu4] at h
    simp only [bind, Except.bind] at h
    split at h
    · simp at h
    split at h
    · simp at h
    split at h
    · simp at h
    obtain ⟨rfl, rfl⟩ := Prod.mk.inj (Except.ok.inj h)
    refine ⟨rfl, rfl, rfl, rfl, rfl, rfl, fun _ => ⟨h1, rfl, by simp only [hp]⟩, fun hc => by rw [hp] at hc; simp at hc⟩
  · rename_i hp
    have h1 := h
    rw [ZassLayer.callSu8] at h
    simp only [bind, Except.bind] at h
    iterate 10 (split at h; · simp at h)
    obtain ⟨rfl, rfl⟩ := Prod.mk.inj (Except.ok.inj h)
    refine ⟨rfl, rfl, rfl, rfl, rfl, rfl, fun hc => by rw [hp] at hc; simp at hc, fun _ => ⟨h1, rfl, by simp only [hp]⟩⟩

theorem succ_mod (m t : ℕ) (ht : 0 < t) : (m + 1) % t = if m % t + 1 = t then 0 else m % t + 1 := by
  have hlt := Nat.mod_lt m ht
  rw [← Nat.mod_add_mod]
  split
  · rename_i h; rw [h, Nat.mod_self]
  · exact Nat.mod_eq_of_lt (by omega)

/-- The number of steps of a phase. -/
def stepsOf (r : ℤ) : ℕ := max 1 r.toNat

/-- The phase counter after `m` steps. -/
def ZassAt {n : ℕ} (r : ℤ × ℤ) (m : ℕ) (L : ZassLayer n) : Prop :=
  L.ratio = r ∧ ∃ x : ℕ, x = m % (stepsOf r.1 + stepsOf r.2) ∧
    ((x < stepsOf r.1 ∧ L.phase = .su4 ∧ L.counter = x) ∨ (stepsOf r.1 ≤ x ∧ L.phase = .su8 ∧ L.counter = x - stepsOf r.1))

theorem zassAt_step {n : ℕ} {ord : SetOrder ℕ} {r : ℤ × ℤ} {m : ℕ} {L L' : ZassLayer n} {U V : QMat n} (h : ZassAt r m L) (hc : L.call ord U = .ok (V, L')) :
    ZassAt r (m + 1) L' := by
  obtain ⟨e1, -, -, -, -, -, h4, h8⟩ := zass_call_phase hc
  obtain ⟨hr, x, hx, h⟩ := h
  have ht : 0 < stepsOf r.1 + stepsOf r.2 := by simp only [stepsOf]; omega
  have hlt := Nat.mod_lt m ht
  have hs := succ_mod m _ ht
  have g1 : ∀ c : ℤ, 0 ≤ c → (c + 1 ≥ r.1 ↔ c + 1 ≥ (stepsOf r.1 : ℤ)) := by intro c hc; simp only [stepsOf]; omega
  have g2 : ∀ c : ℤ, 0 ≤ c → (c + 1 ≥ r.2 ↔ c + 1 ≥ (stepsOf r.2 : ℤ)) := by intro c hc; simp only [stepsOf]; omega
  have p1 : 1 ≤ stepsOf r.1 := by simp only [stepsOf]; omega
  have p2 : 1 ≤ stepsOf r.2 := by simp only [stepsOf]; omega
  refine ⟨e1.trans hr, (m + 1) % (stepsOf r.1 + stepsOf r.2), rfl, ?_⟩
  rw [hs, ← hx]
  rw [← hx] at hlt
  rcases h with ⟨h1, h2, h3⟩ | ⟨h1, h2, h3⟩
  · obtain ⟨-, hc', hp'⟩ := h4 h2
    rw [hr, h3] at hc' hp'
    have g := g1 x (by omega)
    rw [if_neg (by omega)]
    by_cases hcase : (x : ℤ) + 1 ≥ r.1
    · rw [if_pos hcase] at hc' hp'
      have := g.1 hcase
      exact Or.inr ⟨by omega, hp', by rw [hc']; push_cast; omega⟩
    · rw [if_neg hcase] at hc' hp'
      have := mt g.2 hcase
      exact Or.inl ⟨by omega, hp', by rw [hc']; push_cast; omega⟩
  · obtain ⟨-, hc', hp'⟩ := h8 h2
    rw [hr, h3] at hc' hp'
    have g := g2 ((x : ℤ) - stepsOf r.1) (by omega)
    by_cases hcase : (x : ℤ) - stepsOf r.1 + 1 ≥ r.2
    · rw [if_pos hcase] at hc' hp'
      have := g.1 hcase
      rw [if_pos (by omega)]
      exact Or.inl ⟨by omega, hp', by rw [hc']; simp⟩
    · rw [if_neg hcase] at hc' hp'
      have := mt g.2 hcase
      rw [if_neg (by omega)]
      exact Or.inr ⟨by omega, hp', by rw [hc']; push_cast; omega⟩

theorem zass_run_at {n : ℕ} {ord : SetOrder ℕ} {r : ℤ × ℤ} : ∀ (Us : List (QMat n)) (m : ℕ) (L L' : ZassLayer n), ZassAt r m L → L.runAll ord Us = .ok L' →
    ZassAt r (m + Us.length) L'
  | [], m, L, L', h, hr => by
    rw [ZassLayer.runAll] at hr
    obtain rfl := Except.ok.inj hr
    exact h
  | U :: Us, m, L, L', h, hr => by
    rw [ZassLayer.runAll] at hr
    simp only [bind, Except.bind] at hr
    split at hr
    · simp at hr
    rename_i x hx
    have := zass_run_at Us (m + 1) x.2 L' (zassAt_step (V := x.1) h hx) hr
    rw [List.length_cons]
    rwa [show m + (Us.length + 1) = m + 1 + Us.length by omega]

theorem zass_run_split {n : ℕ} {ord : SetOrder ℕ} : ∀ (Us Vs : List (QMat n)) (L L' : ZassLayer n), L.runAll ord (Us ++ Vs) = .ok L' →
    ∃ L₁, L.runAll ord Us = .ok L₁ ∧ L₁.runAll ord Vs = .ok L'
  | [], Vs, L, L', h => ⟨L, rfl, h⟩
  | U :: Us, Vs, L, L', h => by
    rw [List.cons_append, ZassLayer.runAll] at h
    simp only [bind, Except.bind] at h
    split at h
    · simp at h
    rename_i x hx
    obtain ⟨L₁, h1, h2⟩ := zass_run_split Us Vs x.2 L' h
    refine ⟨L₁, ?_, h2⟩
    rw [ZassLayer.runAll, hx]
    exact h1

/-- What the constructor builds. -/
theorem zassLayer_inv {n : ℕ} {gs : List (Gate n)} {args : LayerArgs} {b1 b2 : Bool} {r : ℤ × ℤ} {L : ZassLayer n}
    (hL : zassLayer n (gs.map Gate.obs) args b1 b2 r = .ok L) :
    3 ≤ n ∧ L.observables = gs.map Gate.obs ∧ L.observablesFull = gs.map (fun g => full n g.ws g.A) ∧
      L.su4.fullPaulis = stdDict n (allWords (if b1 then [1, 2] else [2])) ∧ L.su8.fullPaulis = stdDict n (allWords (lens8 b1 b2)) ∧
      L.ratio = r ∧ L.counter = 0 ∧ L.phase = .su4 ∧ L.currentPauli = none ∧ L.previousEta = none := by
  obtain ⟨a0, h0, h1, h2, h3, h4⟩ := algebraSU8_attrs n b1 b2
  have hl2 : (lens8 b1 b2).Nodup := by cases b1 <;> cases b2 <;> simp [lens8]
  have h02 : 0 ∉ lens8 b1 b2 := by cases b1 <;> cases b2 <;> simp [lens8]
  have hne : ∀ w ∈ allWords (lens8 b1 b2), w ≠ [] := fun w hw hc => h02 (by simpa [hc] using (mem_allWords.1 hw).1)
  have ha := getAll8_std (allWords_nodup hl2) hne _ h1 h2 h4 [] (Or.inl rfl) h3
  obtain ⟨k1, k2, k3, k4⟩ := algebraSU4_attrs n b1
  have kl : ∀ w ∈ allWords (if b1 then [1, 2] else [2]), w.length = 1 ∨ w.length = 2 := fun w hw => by
    have := (mem_allWords.1 hw).1; cases b1 <;> simp at this <;> simp [this]
  have ka := getAll_std (allWords_nodup (by cases b1 <;> simp)) kl _ k1 k2 k3 [] (Or.inl rfl) k4
  rw [zassLayer, promoteAll_gates, h0] at hL
  simp only [bind, Except.bind] at hL
  split at hL
  · simp at hL
  split at hL
  · simp at hL
  rename_i hn
  rw [pyAssert] at hn
  split at hn
  · rename_i hn'
    split at hL
    · simp at hL
    split at hL
    · simp at hL
    split at hL
    · simp at hL
    rw [ka, ha] at hL
    rw [← Except.ok.inj hL]
    exact ⟨hn', rfl, rfl, rfl, rfl, rfl, rfl, rfl, rfl, rfl⟩
  · simp at hn

/-- C41 (the layer): in every history of successful calls of a layer with ratio `r`, the calls follow the schedule of `r.1` calls on pairs,
then `r.2` calls on triples, repeated (a ratio below 1 acts as 1).  `Lᵢ` is the layer before call `i`; its attribute `su_state` names the
branch the call takes. -/
theorem C41_schedule {n : ℕ} (ord : SetOrder ℕ) (gs : List (Gate n)) (args : LayerArgs) (b1 b2 : Bool) (r : ℤ × ℤ) (L L' : ZassLayer n)
    (hL : zassLayer n (gs.map Gate.obs) args b1 b2 r = .ok L) (Us : List (QMat n)) (h : L.runAll ord Us = .ok L') :
    ∀ i U, Us[i]? = some U → ∃ Lᵢ V Lₙ, L.runAll ord (Us.take i) = .ok Lᵢ ∧ L.runAll ord (Us.take (i + 1)) = .ok Lₙ ∧
      Lᵢ.call ord U = .ok (V, Lₙ) ∧
      (Scheduled (max 1 r.1.toNat) (max 1 r.2.toNat) i → Lᵢ.phase = .su4 ∧ Lᵢ.callSu4 U = .ok (V, Lₙ)) ∧
      (¬ Scheduled (max 1 r.1.toNat) (max 1 r.2.toNat) i → Lᵢ.phase = .su8 ∧ Lᵢ.callSu8 ord U = .ok (V, Lₙ)) := by
  intro i U hi
  obtain ⟨hlt, hU⟩ := List.getElem?_eq_some_iff.1 hi
  obtain ⟨-, -, -, -, -, hr, hc, hp, -⟩ := zassLayer_inv hL
  have h0 : ZassAt r 0 L := by
    have p1 : 1 ≤ stepsOf r.1 := by simp only [stepsOf]; omega
    exact ⟨hr, 0, by simp, Or.inl ⟨by omega, hp, by simpa using hc⟩⟩
  have e : Us = Us.take i ++ U :: Us.drop (i + 1) := by rw [← hU, List.getElem_cons_drop, List.take_append_drop]
  rw [e] at h
  obtain ⟨Lᵢ, h1, h2⟩ := zass_run_split _ _ _ _ h
  have hat := zass_run_at _ 0 _ _ h0 h1
  rw [List.length_take, Nat.zero_add, Nat.min_eq_left hlt.le] at hat
  rw [ZassLayer.runAll] at h2
  simp only [bind, Except.bind] at h2
  split at h2
  · simp at h2
  rename_i x hx
  obtain ⟨V, Lₙ⟩ := x
  obtain ⟨-, -, -, -, -, -, h4, h8⟩ := zass_call_phase hx
  have e2 : Us.take (i + 1) = Us.take i ++ [U] := by rw [List.take_add_one, hi]; rfl
  have run_append : ∀ (As Bs : List (QMat n)) (A B C : ZassLayer n), A.runAll ord As = .ok B → B.runAll ord Bs = .ok C → A.runAll ord (As ++ Bs) = .ok C := by
    intro As Bs
    induction As with
    | nil => intro A B C hA hB; rw [ZassLayer.runAll] at hA; obtain rfl := Except.ok.inj hA; exact hB
    | cons a As ih =>
      intro A B C hA hB
      rw [ZassLayer.runAll] at hA
      simp only [bind, Except.bind] at hA
      split at hA
      · simp at hA
      rename_i y hy
      rw [List.cons_append, ZassLayer.runAll, hy]
      exact ih _ _ _ hA hB
  obtain ⟨-, x, hxm, hcase⟩ := hat
  refine ⟨Lᵢ, V, Lₙ, h1, ?_, hx, ?_, ?_⟩
  · rw [e2]
    refine run_append _ _ _ _ _ h1 ?_
    rw [ZassLayer.runAll, hx]
    rfl
  · intro hS
    have hS' : x < stepsOf r.1 := by rw [hxm]; exact hS
    rcases hcase with ⟨-, hq, -⟩ | ⟨hq, -⟩
    · exact ⟨hq, (h4 hq).1⟩
    · omega
  · intro hS
    have hS' : ¬ x < stepsOf r.1 := by rw [hxm]; exact hS
    rcases hcase with ⟨hq, -⟩ | ⟨-, hq, -⟩
    · omega
    · exact ⟨hq, (h8 hq).1⟩

/-! ### C42 -/

/-- C42: the commutator of the operators of two pair directions that share exactly one qubit, as the layer computes it.  Either the operators
commute and the key contains the letter I, so the pair is skipped, or the key is that of a three-qubit direction in the layer's SU(8)
dictionary, the value there is that direction's operator, and the commutator is `coeff = ±2i` times it. -/
theorem C42_pairs {n : ℕ} (ord : SetOrder ℕ) (gs : List (Gate n)) (args : LayerArgs) (b2 : Bool) (r : ℤ × ℤ) (L : ZassLayer n)
    (hL : zassLayer n (gs.map Gate.obs) args false b2 r = .ok L) (wa wb : List Letter) (qa qb : List ℕ) (ha : IsDirection n 2 wa qa)
    (hb : IsDirection n 2 wb qb) (hs : (qb.filter (fun x => x ∈ qa)).length = 1) :
    ∃ A B a b ab, dictGet L.su4.fullPaulis (letterStr wa, qa) = .ok A ∧ dictGet L.su4.fullPaulis (letterStr wb, qb) = .ok B ∧
      A = pauliWord (placed n wa qa) ∧ B = pauliWord (placed n wb qb) ∧
      monoOfKey (letterStr wa, qa) = .ok a ∧ monoOfKey (letterStr wb, qb) = .ok b ∧ a.commutator ord b = .ok ab ∧
      ((A * B = B * A ∧ 'I' ∈ ab.keyWithI.1.toList) ∨
       (A * B ≠ B * A ∧ 'I' ∉ ab.keyWithI.1.toList ∧ (ab.coeff = 2 * Complex.I ∨ ab.coeff = -(2 * Complex.I)) ∧
        ∃ w q P, IsDirection n 3 w q ∧ ab.keyWithI = (letterStr w, q) ∧ dictGet L.su8.fullPaulis ab.keyWithI = .ok P ∧
          P = pauliWord (placed n w q) ∧ A * B - B * A = ab.coeff • P)) := by
  obtain ⟨-, -, -, e4, e8, -⟩ := zassLayer_inv hL
  have h4 := stdDict_lookup n [2] (by simp) 2 (by simp)
  have h8 := stdDict_lookup n (lens8 false b2) (by cases b2 <;> simp [lens8]) 3 (by cases b2 <;> simp [lens8])
  have e4' : L.su4.fullPaulis = stdDict n (allWords [2]) := e4
  obtain ⟨a, b, ab, m1, m2, m3, hcase⟩ := commutator_candidate ord ha hb hs
  refine ⟨_, _, a, b, ab, by rw [e4']; exact h4 _ _ ha, by rw [e4']; exact h4 _ _ hb, rfl, rfl, m1, m2, m3, ?_⟩
  rcases hcase with ⟨hI, hc⟩ | ⟨hI, w, q, σ, hc, k1, k2⟩
  · exact Or.inl ⟨hc, hI⟩
  · have hσ : Complex.I * (σ : ℂ) ≠ 0 := by
      rcases hc.sign with rfl | rfl <;> simp
    refine Or.inr ⟨?_, hI, ?_, w, q, _, hc.triple, k1, by rw [k1, e8]; exact h8 _ _ hc.triple, rfl, by rw [k2]; exact hc.comm⟩
    · intro he
      have := hc.comm
      rw [he, sub_self] at this
      exact absurd (smul_eq_zero.1 this.symm) (not_or.2 ⟨hσ, pauliWord_ne_zero _⟩)
    · rw [k2]
      rcases hc.sign with rfl | rfl
      · left; push_cast; ring
      · right; push_cast; ring

/-- The layer after calls: its dictionaries, and the direction and angle stored by the previous call. -/
structure ZassGood {n : ℕ} (gs : List (Gate n)) (L : ZassLayer n) : Prop where
  obs : L.observables = gs.map Gate.obs
  obsFull : L.observablesFull = gs.map (fun g => full n g.ws g.A)
  dict4 : L.su4.fullPaulis = stdDict n (allWords [2])
  dict8 : ∃ b2, L.su8.fullPaulis = stdDict n (allWords (lens8 false b2))
  cur : L.phase = .su4 ∨ ∃ wa qa η, IsDirection n 2 wa qa ∧ L.currentPauli = some (letterStr wa, qa) ∧ L.previousEta = some η

/-- Every call in the phase `su8`. -/
theorem su8_call {n : ℕ} (ord : SetOrder ℕ) {gs : List (Gate n)} {L : ZassLayer n} (hg : ZassGood gs L) {wa : List Letter} {qa : List ℕ} {η : ℝ}
    (ha : IsDirection n 2 wa qa) (hc : L.currentPauli = some (letterStr wa, qa)) (hη : L.previousEta = some η) (U : QMat n) :
    (∃ wb qb w q σ, IsCandidate n wa qa wb qb w q σ ∧ |grad (totalObs gs) U (pauliWord (placed n w q))| > 1e-3 ∧
      grad (totalObs gs) U (pauliWord (placed n wb qb)) ≠ 0 ∧
      (η = 0 → L.callSu8 ord U = .error .nonFinite) ∧
      (η ≠ 0 → ∃ L', L.callSu8 ord U = .ok (NormedSpace.exp ((-Complex.I *
            ((L.eta * (-(grad (totalObs gs) U (pauliWord (placed n w q)) * 2 / η) / σ) / 2 ^ n : ℝ) : ℂ)) • pauliWord (placed n wb qb)) * U, L') ∧
          L'.currentPauli = some (letterStr wb, qb) ∧ L'.previousEta = some η)) ∨
    ((∀ wb qb w q σ, IsCandidate n wa qa wb qb w q σ → ¬ (|grad (totalObs gs) U (pauliWord (placed n w q))| > 1e-3 ∧
        grad (totalObs gs) U (pauliWord (placed n wb qb)) ≠ 0)) ∧ L.callSu8 ord U = .error .unboundLocal) := by
  obtain ⟨b2, e8⟩ := hg.dict8
  have h4 := stdDict_lookup n [2] (by simp) 2 (by simp)
  have h8 := stdDict_lookup n (lens8 false b2) (by cases b2 <;> simp [lens8]) 3 (by cases b2 <;> simp [lens8])
  have hG : ∀ P, omegaSum (stateFromUnitary U) (gs.map (fun g => full n g.ws g.A)) P = grad (totalObs gs) U P := fun P => omegaSum_grad U P gs
  obtain ⟨s, hs, hinv⟩ := zassLoop_inv ord (φ := stateFromUnitary U) (os := gs.map (fun g => full n g.ws g.A)) ha h4 h8
    ((stdDict n (allWords [2])).map Prod.fst) [] {} ⟨by simp, by simp⟩ (by
      intro k hk
      obtain ⟨w, hw, q, hq, rfl⟩ := mem_keys_stdDict.1 hk
      have hl : w.length = 2 := by simpa using (mem_allWords.1 hw).1
      rw [hl] at hq
      exact ⟨w, q, isDirection_of_mem hw hq, rfl⟩)
  rw [ZassLayer.callSu8, hc, hη, hg.dict4, e8, hg.obsFull]
  simp only [bind, Except.bind, h4 _ _ ha, hs]
  have hp := zassPick_spec hinv s.su8 (fun _ h => h)
  simp only [hG] at hp
  rcases hp with ⟨wb, qb, w, q, σ, hcand, k1, k2, k3, k4⟩ | ⟨k1, k2⟩
  · left
    refine ⟨wb, qb, w, q, σ, hcand, k1, k2, ?_, ?_⟩
    · intro h0
      simp only [k3, h8 _ _ hcand.triple, k4]
      rw [if_pos (Or.inl h0)]
    · intro h0
      have hσ : σ ≠ 0 := by rcases hcand.sign with rfl | rfl <;> norm_num
      simp only [k3, h8 _ _ hcand.triple, k4, hG]
      rw [if_neg (not_or.2 ⟨h0, hσ⟩), h4 _ _ hcand.pair]
      exact ⟨_, rfl, rfl, rfl⟩
  · right
    refine ⟨?_, by simp only [k1]⟩
    intro wb qb w q σ hcand
    refine k2 wb qb w q σ hcand (hinv.complete _ _ _ _ _ hcand ?_)
    rw [List.nil_append]
    obtain ⟨m1, m2⟩ := hcand.pair.mem
    exact mem_keys_stdDict.2 ⟨wb, m1, qb, by rw [hcand.pair.letters]; exact m2, rfl⟩

theorem key_of_dictGet {K V : Type} [DecidableEq K] {d : List (K × V)} {k : K} {v : V} (h : dictGet d k = .ok v) : k ∈ d.map Prod.fst := by
  by_contra hc
  rw [dictGet_missing hc] at h
  simp at h

theorem zassGood_step {n : ℕ} {ord : SetOrder ℕ} {gs : List (Gate n)} {L L' : ZassLayer n} {U V : QMat n} (hg : ZassGood gs L)
    (hc : L.call ord U = .ok (V, L')) : ZassGood gs L' ∧ ∃ wa qa η, IsDirection n 2 wa qa ∧ L'.currentPauli = some (letterStr wa, qa) ∧ L'.previousEta = some η := by
  obtain ⟨-, -, e4, e8, eo, eof, h4, h8⟩ := zass_call_phase hc
  have key : ∃ wa qa η, IsDirection n 2 wa qa ∧ L'.currentPauli = some (letterStr wa, qa) ∧ L'.previousEta = some η := by
    cases hp : L.phase with
    | su4 =>
      obtain ⟨h, -⟩ := h4 hp
      rw [ZassLayer.callSu4] at h
      simp only [bind, Except.bind] at h
      split at h
      · simp at h
      rename_i k hk
      split at h
      · simp at h
      rename_i p hpk
      split at h
      · simp at h
      obtain ⟨-, rfl⟩ := Prod.mk.inj (Except.ok.inj h)
      rw [hg.dict4] at hpk
      obtain ⟨w, hw, q, hq, rfl⟩ := mem_keys_stdDict.1 (key_of_dictGet hpk)
      have hl : w.length = 2 := by simpa using (mem_allWords.1 hw).1
      rw [hl] at hq
      exact ⟨w, q, _, isDirection_of_mem hw hq, rfl, rfl⟩
    | su8 =>
      obtain ⟨h, -⟩ := h8 hp
      obtain ⟨wa, qa, η, ha, hcur, hη⟩ := hg.cur.resolve_left (by rw [hp]; simp)
      rcases su8_call ord hg ha hcur hη U with ⟨wb, qb, w, q, σ, hcand, -, -, k1, k2⟩ | ⟨-, k⟩
      · by_cases h0 : η = 0
        · rw [k1 h0] at h; simp at h
        · obtain ⟨L'', m1, m2, m3⟩ := k2 h0
          rw [m1] at h
          obtain ⟨-, rfl⟩ := Prod.mk.inj (Except.ok.inj h)
          exact ⟨wb, qb, η, hcand.pair, m2, m3⟩
      · rw [k] at h; simp at h
  exact ⟨⟨eo.trans hg.obs, eof.trans hg.obsFull, (congrArg _ e4).trans hg.dict4, by rw [e8]; exact hg.dict8, Or.inr key⟩, key⟩

theorem zassGood_run {n : ℕ} {ord : SetOrder ℕ} {gs : List (Gate n)} : ∀ (Us : List (QMat n)) (L L' : ZassLayer n), ZassGood gs L →
    L.runAll ord Us = .ok L' → ZassGood gs L'
  | [], L, L', hg, h => by
    rw [ZassLayer.runAll] at h
    obtain rfl := Except.ok.inj h
    exact hg
  | U :: Us, L, L', hg, h => by
    rw [ZassLayer.runAll] at h
    simp only [bind, Except.bind] at h
    split at h
    · simp at h
    rename_i x hx
    exact zassGood_run Us x.2 L' (zassGood_step (V := x.1) hg hx).1 h

theorem zassGood_init {n : ℕ} {gs : List (Gate n)} {args : LayerArgs} {b2 : Bool} {r : ℤ × ℤ} {L : ZassLayer n}
    (hL : zassLayer n (gs.map Gate.obs) args false b2 r = .ok L) : ZassGood gs L := by
  obtain ⟨-, h1, h2, h3, h4, -, -, h5, -⟩ := zassLayer_inv hL
  exact ⟨h1, h2, h3, ⟨b2, h4⟩, Or.inl h5⟩

/-- C42 and C43, a call in the phase `su8` after any history of successful calls.  With `A` the direction and `η` the angle of the previous
call, the call succeeds exactly if `η ≠ 0` and some pair direction `B` sharing one qubit with `A` has gradient different from 0 while the
gradient of the three-qubit direction `[A,B]/(iσ)` exceeds 1/1000 in modulus.  It then applies the exponential of such a `B`.  No dictionary
look-up fails; the only errors are `UnboundLocalError` (no candidate) and a division by `η = 0`. -/
theorem C42_su8_call {n : ℕ} (ord : SetOrder ℕ) (gs : List (Gate n)) (args : LayerArgs) (b2 : Bool) (r : ℤ × ℤ) (L₀ L : ZassLayer n)
    (hL : zassLayer n (gs.map Gate.obs) args false b2 r = .ok L₀) (Us : List (QMat n)) (h : L₀.runAll ord Us = .ok L) (hp : L.phase = .su8)
    (U : QMat n) :
    ∃ wa qa η, IsDirection n 2 wa qa ∧ L.currentPauli = some (letterStr wa, qa) ∧ L.previousEta = some η ∧
    ((∃ wb qb w q σ, IsCandidate n wa qa wb qb w q σ ∧ |grad (totalObs gs) U (pauliWord (placed n w q))| > 1e-3 ∧
      grad (totalObs gs) U (pauliWord (placed n wb qb)) ≠ 0 ∧
      (η = 0 → L.call ord U = .error .nonFinite) ∧
      (η ≠ 0 → ∃ L', L.call ord U = .ok (NormedSpace.exp ((-Complex.I *
            ((L.eta * (-(grad (totalObs gs) U (pauliWord (placed n w q)) * 2 / η) / σ) / 2 ^ n : ℝ) : ℂ)) • pauliWord (placed n wb qb)) * U, L') ∧
          L'.currentPauli = some (letterStr wb, qb) ∧ L'.previousEta = some η)) ∨
    ((∀ wb qb w q σ, IsCandidate n wa qa wb qb w q σ → ¬ (|grad (totalObs gs) U (pauliWord (placed n w q))| > 1e-3 ∧
        grad (totalObs gs) U (pauliWord (placed n wb qb)) ≠ 0)) ∧ L.call ord U = .error .unboundLocal)) := by
  have hg := zassGood_run Us L₀ L (zassGood_init hL) h
  obtain ⟨wa, qa, η, ha, hcur, hη⟩ := hg.cur.resolve_left (by rw [hp]; simp)
  refine ⟨wa, qa, η, ha, hcur, hη, ?_⟩
  have hcall : L.call ord U = L.callSu8 ord U := by rw [ZassLayer.call, hp]
  rw [hcall]
  exact su8_call ord hg ha hcur hη U

/-! ### C43 -/

/-- A state that is an eigenvector of the Hamiltonian has gradient 0 along every Hermitian direction. -/
theorem grad_eigen {n : ℕ} {H U P : QMat n} {E : ℝ} (hH : Hᴴ = H) (hE : H *ᵥ (fun i => U i 0) = (E : ℂ) • (fun i => U i 0)) : grad H U P = 0 := by
  rw [grad, Matrix.sub_mulVec, ← Matrix.mulVec_mulVec, ← Matrix.mulVec_mulVec, hE, dotProduct_sub, Matrix.mulVec_smul, dotProduct_smul]
  have : star (fun i => U i 0) ⬝ᵥ (H *ᵥ (P *ᵥ fun i => U i 0)) = (E : ℂ) • (star (fun i => U i 0) ⬝ᵥ (P *ᵥ fun i => U i 0)) := by
    rw [Matrix.dotProduct_mulVec]
    have h2 : (star (fun i => U i 0)) ᵥ* H = (E : ℂ) • star (fun i => U i 0) := by
      have h3 := congrArg star hE
      rw [Matrix.star_mulVec, hH] at h3
      rw [h3]
      funext i
      simp
    rw [h2, smul_dotProduct]
  rw [this, sub_self, Complex.zero_im]

/-- C43 is false: whatever the number of qubits and the Hermitian observables, a call in the phase `su8` raises `UnboundLocalError` when the
state of the circuit is an eigenstate of the observable, for instance the minimum the optimizer looks for. -/
theorem C43_fails_at_eigenstates {n : ℕ} (ord : SetOrder ℕ) (gs : List (Gate n)) (hH : ∀ g ∈ gs, g.Aᴴ = g.A) (args : LayerArgs) (b2 : Bool)
    (r : ℤ × ℤ) (L₀ L : ZassLayer n) (hL : zassLayer n (gs.map Gate.obs) args false b2 r = .ok L₀) (Us : List (QMat n))
    (h : L₀.runAll ord Us = .ok L) (hp : L.phase = .su8) (U : QMat n) (E : ℝ)
    (hE : totalObs gs *ᵥ (fun i => U i 0) = (E : ℂ) • (fun i => U i 0)) : L.call ord U = .error .unboundLocal := by
  obtain ⟨wa, qa, η, -, -, -, hcase⟩ := C42_su8_call ord gs args b2 r L₀ L hL Us h hp U
  rcases hcase with ⟨wb, qb, w, q, σ, -, hc, -⟩ | ⟨-, hc⟩
  · rw [grad_eigen (totalObs_herm gs hH) hE] at hc
    norm_num at hc
  · exact hc

/-- C43, the true part: a call in the phase `su8` fails in exactly two situations, no candidate or a previous angle 0. -/
theorem C43_succeeds_iff_partial {n : ℕ} (ord : SetOrder ℕ) (gs : List (Gate n)) (args : LayerArgs) (b2 : Bool) (r : ℤ × ℤ) (L₀ L : ZassLayer n)
    (hL : zassLayer n (gs.map Gate.obs) args false b2 r = .ok L₀) (Us : List (QMat n)) (h : L₀.runAll ord Us = .ok L) (hp : L.phase = .su8)
    (U : QMat n) :
    (∃ V L', L.call ord U = .ok (V, L')) ↔ ∃ wa qa η wb qb w q σ, L.currentPauli = some (letterStr wa, qa) ∧ L.previousEta = some η ∧ η ≠ 0 ∧
      IsDirection n 2 wa qa ∧ IsCandidate n wa qa wb qb w q σ ∧ |grad (totalObs gs) U (pauliWord (placed n w q))| > 1e-3 ∧
      grad (totalObs gs) U (pauliWord (placed n wb qb)) ≠ 0 := by
  obtain ⟨wa, qa, η, ha, hcur, hη, hcase⟩ := C42_su8_call ord gs args b2 r L₀ L hL Us h hp U
  constructor
  · rintro ⟨V, L', hok⟩
    rcases hcase with ⟨wb, qb, w, q, σ, k1, k2, k3, k4, -⟩ | ⟨-, k⟩
    · refine ⟨wa, qa, η, wb, qb, w, q, σ, hcur, hη, fun h0 => ?_, ha, k1, k2, k3⟩
      rw [k4 h0] at hok; simp at hok
    · rw [k] at hok; simp at hok
  · rintro ⟨wa', qa', η', wb, qb, w, q, σ, h1, h2, h3, -, h4, h5, h6⟩
    obtain ⟨e1, rfl⟩ := Prod.mk.inj (Option.some.inj (hcur.symm.trans h1))
    obtain rfl := letterStr_injective e1
    obtain rfl := Option.some.inj (hη.symm.trans h2)
    rcases hcase with ⟨wb', qb', w', q', σ', k1, -, -, -, k5⟩ | ⟨k, -⟩
    · obtain ⟨L', m, -⟩ := k5 h3
      exact ⟨_, L', m⟩
    · exact absurd ⟨h5, h6⟩ (k _ _ _ _ _ h4)

/-- A call in the phase `su4` never fails. -/
theorem C43_su4_partial {n : ℕ} (ord : SetOrder ℕ) (gs : List (Gate n)) (args : LayerArgs) (b2 : Bool) (r : ℤ × ℤ) (L₀ L : ZassLayer n)
    (hL : zassLayer n (gs.map Gate.obs) args false b2 r = .ok L₀) (Us : List (QMat n)) (h : L₀.runAll ord Us = .ok L) (hp : L.phase = .su4)
    (U : QMat n) : ∃ V L', L.call ord U = .ok (V, L') := by
  have hg := zassGood_run Us L₀ L (zassGood_init hL) h
  have hn := (zassLayer_inv hL).1
  have hne : stdDict n (allWords [2]) ≠ [] := by
    intro hc
    have h0 : IsDirection n 2 [.X, .X] [0, 1] := ⟨rfl, rfl, by simp, by simp, by simp; omega⟩
    have := key_of_dictGet (stdDict_lookup n [2] (by simp) 2 (by simp) _ _ h0)
    rw [hc] at this
    simp at this
  obtain ⟨e, h1, h2⟩ := argmax_dict U gs (stdDict n (allWords [2])) hne
  have h3 := dictGet_mem (stdDict_nodup (allWords_nodup (by simp))) h2.mem
  rw [ZassLayer.call, hp]
  simp only
  rw [ZassLayer.callSu4, hg.dict4, hg.obsFull, hg.obs, h1]
  simp only [bind, Except.bind, h3]
  have h4 := rotosolve_ok e.2 U gs e.1.1.toList.length
  simp only at h4
  rw [h4]
  exact ⟨_, _, rfl⟩

/-! ### Examples -/

/-- The observable Z on qubit 0 of 3. -/
noncomputable def exObsZ3 : Gate 3 := ⟨[0], pauliWord (n := 1) (fun _ => .Z), by simp, by simp, by simp⟩

theorem exZass (ord : SetOrder ℕ) : ∃ L₀ L, zassLayer 3 ([exObsZ3].map Gate.obs) {} = .ok L₀ ∧ L₀.runAll ord [1] = .ok L ∧ L.phase = .su8 := by
  obtain ⟨a0, h0, h1, h2, h3, h4⟩ := algebraSU8_attrs 3 false false
  have hl2 : (lens8 false false).Nodup := by simp [lens8]
  have h02 : 0 ∉ lens8 false false := by simp [lens8]
  have hne : ∀ w ∈ allWords (lens8 false false), w ≠ [] := fun w hw hc => h02 (by simpa [hc] using (mem_allWords.1 hw).1)
  have ha := getAll8_std (allWords_nodup hl2) hne _ h1 h2 h4 [] (Or.inl rfl) h3
  obtain ⟨k1, k2, k3, k4⟩ := algebraSU4_attrs 3 false
  have kl : ∀ w ∈ allWords (if false then [1, 2] else [2]), w.length = 1 ∨ w.length = 2 := fun w hw => by
    have := (mem_allWords.1 hw).1; simp at this; simp [this]
  have hka := getAll_std (allWords_nodup (by simp)) kl _ k1 k2 k3 [] (Or.inl rfl) k4
  obtain ⟨a2, hk2, -⟩ := C27_su2 3
  have hL : ∃ L, zassLayer 3 ([exObsZ3].map Gate.obs) {} = .ok L := by
    rw [zassLayer, promoteAll_gates, h0, hka, hk2]
    simp only [bind, Except.bind, ha]
    rw [show validateEta (Option.getD ({} : LayerArgs).eta (.float 0.1)) = .ok 0.1 from defaultEta_ok']
    exact ⟨_, rfl⟩
  obtain ⟨L₀, hL⟩ := hL
  obtain ⟨-, -, -, -, -, hr, hc0, hp, -⟩ := zassLayer_inv hL
  obtain ⟨V, L, hc⟩ := C43_su4_partial ord [exObsZ3] {} false (1, 1) L₀ L₀ hL [] rfl hp 1
  obtain ⟨-, -, -, -, -, -, h5, -⟩ := zass_call_phase hc
  refine ⟨L₀, L, hL, ?_, ?_⟩
  · rw [ZassLayer.runAll, hc]
    rfl
  · rw [(h5 hp).2.2, hr, hc0]
    rfl

/-- The state `|000⟩` is an eigenstate of Z on qubit 0. -/
theorem exEigen : totalObs [exObsZ3] *ᵥ (fun i => (1 : QMat 3) i 0) = ((1 : ℝ) : ℂ) • (fun i => (1 : QMat 3) i 0) := by
  have e : totalObs [exObsZ3] = pauliWord (placed 3 [.Z] [0]) := by
    rw [totalObs]
    simp only [List.map_cons, List.map_nil, List.sum_cons, List.sum_nil, add_zero]
    have := full_placed (n := 3) (w := [.Z]) (qs := [0]) rfl ⟨by simp, by simp⟩
    rw [← this]
    rfl
  rw [e]
  have h1 : (pauliWord (placed 3 [.Z] [0])) *ᵥ (fun i => (1 : QMat 3) i 0) = fun i => pauliWord (placed 3 [.Z] [0]) i 0 := by
    funext i
    simp [Matrix.mulVec, dotProduct, Matrix.one_apply]
  rw [h1]
  funext i
  fin_cases i <;>
    simp [pauliWord, tensor, Fin.prod_univ_three, placed, Letter.mat, bit, Matrix.one_apply, List.idxOf, List.findIdx_cons]

/-- Hypotheses of C41 and C42 met: one call of a three-qubit layer. -/
example : ∃ ord L₀ L, zassLayer 3 ([exObsZ3].map Gate.obs) {} = .ok L₀ ∧ L₀.runAll ord [1] = .ok L ∧ L.phase = .su8 ∧
    IsDirection 3 2 [.X, .X] [0, 1] ∧ IsDirection 3 2 [.X, .Y] [1, 2] ∧ (([1, 2] : List ℕ).filter (fun x => x ∈ [0, 1])).length = 1 := by
  obtain ⟨L₀, L, h⟩ := exZass ⟨List.reverse, List.reverse_perm⟩
  exact ⟨_, L₀, L, h.1, h.2.1, h.2.2, ⟨rfl, rfl, by simp, by simp, by simp⟩, ⟨rfl, rfl, by simp, by simp, by simp⟩, by decide⟩

/-- A candidate: `[XX₀₁, YX₁₂] = 2i XZX₀₁₂`. -/
example : IsCandidate 3 [.X, .X] [0, 1] [.Y, .X] [1, 2] [.X, .Z, .X] [0, 1, 2] 2 := by
  refine ⟨⟨rfl, rfl, by simp, by simp, by simp⟩, ⟨rfl, rfl, by simp, by simp, by simp⟩, by decide, Or.inl rfl, ?_⟩
  have h1 : Letter.X.mat * Letter.Y.mat = Complex.I • Letter.Z.mat := by
    ext i j; fin_cases i <;> fin_cases j <;> simp [Letter.mat, Matrix.mul_apply, Fin.sum_univ_two]
  have h2 : Letter.Y.mat * Letter.X.mat = (-Complex.I) • Letter.Z.mat := by
    ext i j; fin_cases i <;> fin_cases j <;> simp [Letter.mat, Matrix.mul_apply, Fin.sum_univ_two]
  have h3 : Letter.I.mat = 1 := by
    ext i j; fin_cases i <;> fin_cases j <;> simp [Letter.mat]
  simp only [pauliWord, tensor_mul]
  ext r c
  simp [tensor, Fin.prod_univ_three, placed, List.idxOf, List.findIdx_cons, h1, h2, h3]
  ring

/-- C43 fails in a concrete run: three qubits, the observable Z on qubit 0, the circuit 1; one call succeeds, the next raises `UnboundLocalError`. -/
theorem C43_refuted (ord : SetOrder ℕ) : ∃ L₀ L, zassLayer 3 ([exObsZ3].map Gate.obs) {} = .ok L₀ ∧ L₀.runAll ord [1] = .ok L ∧ L.phase = .su8 ∧
    L.call ord 1 = .error .unboundLocal := by
  obtain ⟨L₀, L, h1, h2, h3⟩ := exZass ord
  refine ⟨L₀, L, h1, h2, h3, ?_⟩
  refine C43_fails_at_eigenstates ord [exObsZ3] ?_ {} false (1, 1) L₀ L h1 [1] h2 h3 1 1 exEigen
  intro g hg
  rw [List.mem_singleton.1 hg]
  exact pauliWord_herm _

end Oranssi
