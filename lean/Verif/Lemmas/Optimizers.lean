import Verif.Model.Optimizers
import Verif.Spec.Optimizers
import Verif.Lemmas.Rotosolve
import Mathlib.Data.List.GetD

/-! Lemmas on the loops of the optimizers. -/

namespace Oranssi
open Spec
open scoped Matrix

/-- The states a `for` loop with `break` goes through. -/
theorem forRange_trace {σ : Type*} (body : ℕ → σ → Py (σ × Bool)) : ∀ (r k : ℕ) (s t : σ), pyForRange body k r s = .ok t →
    ∃ (S : ℕ → σ) (m : ℕ), m ≤ r ∧ S 0 = s ∧ S m = t ∧
      (∀ j < m, ∃ b, body (k + j) (S j) = .ok (S (j + 1), b) ∧ (b = true → j + 1 = m)) ∧
      (m = r ∨ ∃ j, m = j + 1 ∧ body (k + j) (S j) = .ok (S (j + 1), true))
  | 0, k, s, t, h => by
    simp only [pyForRange] at h
    cases h
    exact ⟨fun _ => s, 0, le_refl _, rfl, rfl, fun j hj => absurd hj (Nat.not_lt_zero _), .inl rfl⟩
  | r + 1, k, s, t, h => by
    rw [pyForRange] at h
    cases hb : body k s with
    | error e => rw [hb] at h; cases h
    | ok x =>
      rw [hb] at h
      simp only [bind, Except.bind] at h
      obtain ⟨x, b⟩ := x
      cases b with
      | true =>
        simp only [if_true] at h
        cases h
        refine ⟨fun j => if j = 0 then s else t, 1, by omega, rfl, rfl, ?_, .inr ⟨0, rfl, by simpa using hb⟩⟩
        intro j hj
        obtain rfl : j = 0 := by omega
        exact ⟨true, by simpa using hb, fun _ => rfl⟩
      | false =>
        simp only [Bool.false_eq_true, if_false] at h
        obtain ⟨S, m, hm, h0, ht, hs, he⟩ := forRange_trace body r (k + 1) x t h
        refine ⟨fun j => match j with | 0 => s | j + 1 => S j, m + 1, by omega, rfl, ht, ?_, ?_⟩
        · intro j hj
          cases j with
          | zero => exact ⟨false, by simpa [h0] using hb, by simp⟩
          | succ j =>
            obtain ⟨b, h1, h2⟩ := hs j (by omega)
            refine ⟨b, ?_, fun hb => by rw [h2 hb]⟩
            rw [← h1]; congr 1; omega
        · rcases he with he | ⟨j, rfl, hj⟩
          · exact .inl (by rw [he])
          · refine .inr ⟨j + 1, rfl, ?_⟩
            rw [← hj]; congr 1; omega

/-- A `for` loop whose body does not raise does not raise. -/
theorem forRange_total {σ : Type*} (body : ℕ → σ → Py (σ × Bool)) (I : ℕ → σ → Prop)
    (hb : ∀ k s, I k s → ∃ x, body k s = .ok x ∧ I (k + 1) x.1) : ∀ (r k : ℕ) (s : σ), I k s → ∃ t, pyForRange body k r s = .ok t
  | 0, _, s, _ => ⟨s, rfl⟩
  | r + 1, k, s, hI => by
    obtain ⟨x, hx, hI'⟩ := hb k s hI
    rw [pyForRange, hx]
    simp only [bind, Except.bind]
    cases x.2
    · simpa using forRange_total body I hb r (k + 1) x.1 hI'
    · exact ⟨x.1, by simp⟩

/-- A list that grows by one element per step. -/
theorem log_append {σ β : Type*} (log : σ → List β) (S : ℕ → σ) (g : ℕ → β) : ∀ m : ℕ,
    (∀ k < m, log (S (k + 1)) = log (S k) ++ [g k]) → log (S m) = log (S 0) ++ (List.range m).map g
  | 0, _ => by simp
  | m + 1, h => by
    rw [h m (by omega), log_append log S g m (fun k hk => h k (by omega)), List.range_succ]
    simp

/-- A list that grows at some steps. -/
theorem log_filter {σ : Type*} (log : σ → List ℕ) (S : ℕ → σ) (p : ℕ → Prop) [DecidablePred p] : ∀ m : ℕ,
    (∀ k < m, log (S (k + 1)) = if p k then log (S k) ++ [k] else log (S k)) → log (S m) = log (S 0) ++ (List.range m).filter p
  | 0, _ => by simp
  | m + 1, h => by
    rw [h m (by omega), log_filter log S p m (fun k hk => h k (by omega)), List.range_succ, List.filter_append]
    by_cases hp : p m <;> simp [hp]

/-- A list that does not change. -/
theorem log_const {σ β : Type*} (log : σ → List β) (S : ℕ → σ) : ∀ m : ℕ,
    (∀ k < m, log (S (k + 1)) = log (S k)) → log (S m) = log (S 0)
  | 0, _ => rfl
  | m + 1, h => by rw [h m (by omega), log_const log S m (fun k hk => h k (by omega))]

/-- The cost of `v` is flat, given the list of the earlier costs. -/
def FlatAt {α : Type*} (R : Rules α) (costs : List ℝ) (k : ℕ) (v : α) : Prop :=
  R.first ≤ k ∧ R.close (R.cost v) ((costs ++ [R.cost v]).getD (k + 1 - R.lag) 0)

/-- What the body of an optimizer loop does in step `k`: it moves on to `v`, appends the cost of `v`, and tests the cost. -/
structure BodyStep {σ α : Type*} (R : Rules α) (proj : σ → α) (costs : σ → List ℝ) (k : ℕ) (s : σ) (v : α) (s' : σ) (b : Bool) : Prop where
  step : R.step k (proj s) v
  logged : costs s' = costs s ++ [R.cost v]
  go : ¬ FlatAt R (costs s) k v → proj s' = v ∧ b = false
  kick : FlatAt R (costs s) k v → ∀ f, R.kick = some f → proj s' = f k v ∧ b = false
  stop : FlatAt R (costs s) k v → R.kick = none → proj s' = v ∧ b = true

theorem costs_get {α : Type*} (c : α → ℝ) (V : ℕ → α) (m i : ℕ) (hi : i < m) : ((List.range m).map (fun j => c (V j))).getD i 0 = c (V i) := by
  rw [List.getD_eq_getElem _ _ (by simpa using hi)]
  simp

/-- The loop of an optimizer performs a run. -/
theorem run_of_loop {σ α : Type*} (R : Rules α) (body : ℕ → σ → Py (σ × Bool)) (proj : σ → α) (costs : σ → List ℝ)
    (I : ℕ → σ → Prop) (L : ℕ → σ → α → σ → Prop) (s0 t : σ) (hinit : costs s0 = [R.cost (proj s0)]) (hI0 : I 0 s0)
    (hbody : ∀ k s s' b, body k s = .ok (s', b) → (costs s).length = k + 1 → I k s → (∃ v, BodyStep R proj costs k s v s' b ∧ L k s v s') ∧ I (k + 1) s')
    (h : pyForRange body 0 R.nsteps s0 = .ok t) :
    ∃ (V : ℕ → α) (S : ℕ → σ) (m : ℕ), R.Run V (fun k => proj (S k)) m ∧ V 0 = proj s0 ∧ S 0 = s0 ∧ S m = t ∧
      (∀ k < m, L k (S k) (V (k + 1)) (S (k + 1)) ∧ (FlatAt R (costs (S k)) k (V (k + 1)) ↔ R.Flat V k)) ∧
      costs t = (List.range (m + 1)).map (fun k => R.cost (V k)) := by
  obtain ⟨S, m, hm, h0, ht, hs, he⟩ := forRange_trace body R.nsteps 0 s0 t h
  have hlen : ∀ k ≤ m, (costs (S k)).length = k + 1 ∧ I k (S k) := by
    intro k
    induction k with
    | zero => intro _; rw [h0, hinit]; exact ⟨rfl, hI0⟩
    | succ k ih =>
      intro hk
      obtain ⟨b, hb, -⟩ := hs k (by omega)
      rw [Nat.zero_add] at hb
      obtain ⟨⟨v, hv, -⟩, hI⟩ := hbody _ _ _ _ hb (ih (by omega)).1 (ih (by omega)).2
      refine ⟨?_, hI⟩
      rw [hv.logged, List.length_append, (ih (by omega)).1]; rfl
  have hex : ∀ k, ∃ v, k < m → ∃ b, body k (S k) = .ok (S (k + 1), b) ∧ (b = true → k + 1 = m) ∧
      BodyStep R proj costs k (S k) v (S (k + 1)) b ∧ L k (S k) v (S (k + 1)) := by
    intro k
    by_cases hk : k < m
    · obtain ⟨b, hb, h2⟩ := hs k hk
      rw [Nat.zero_add] at hb
      obtain ⟨⟨v, hv, hL⟩, -⟩ := hbody _ _ _ _ hb (hlen k hk.le).1 (hlen k hk.le).2
      exact ⟨v, fun _ => ⟨b, hb, h2, hv, hL⟩⟩
    · exact ⟨proj s0, fun h => absurd h hk⟩
  choose v hv using hex
  let V : ℕ → α := fun k => match k with | 0 => proj s0 | k + 1 => v k
  have hcosts : ∀ k ≤ m, costs (S k) = (List.range (k + 1)).map (fun j => R.cost (V j)) := by
    intro k
    induction k with
    | zero => intro _; rw [h0, hinit]; rfl
    | succ k ih =>
      intro hk
      obtain ⟨b, -, -, hB, -⟩ := hv k (by omega)
      rw [hB.logged, ih (by omega), List.range_succ (n := k + 1)]
      simp [V]
  have hflat : ∀ k < m, (FlatAt R (costs (S k)) k (v k) ↔ R.Flat V k) := by
    intro k hk
    have e : costs (S k) ++ [R.cost (v k)] = (List.range (k + 2)).map (fun j => R.cost (V j)) := by
      rw [hcosts k hk.le, List.range_succ (n := k + 1)]; simp [V]
    rw [FlatAt, e, costs_get R.cost V (k + 2) _ (by omega)]
    rfl
  refine ⟨V, S, m, ⟨?_, ?_, ?_, ?_, hm, ?_, ?_⟩, rfl, h0, ht, ?_, ?_⟩
  · exact congrArg proj h0
  · intro k hk
    obtain ⟨b, -, -, hB, -⟩ := hv k hk
    exact hB.step
  · intro k hk hor
    obtain ⟨b, -, -, hB, -⟩ := hv k hk
    by_cases hf : R.Flat V k
    · rcases hor with h | h
      · exact absurd hf h
      · exact (hB.stop ((hflat k hk).mpr hf) h).1
    · exact (hB.go (fun h => hf ((hflat k hk).mp h))).1
  · intro k hk hf f hfe
    obtain ⟨b, -, -, hB, -⟩ := hv k hk
    exact (hB.kick ((hflat k hk).mpr hf) f hfe).1
  · intro hn k hk hf
    obtain ⟨b, -, hbm, hB, -⟩ := hv k (by omega)
    have := hbm (hB.stop ((hflat k (by omega)).mpr hf) hn).2
    omega
  · rcases he with he | ⟨j, rfl, hj⟩
    · exact .inl he
    · refine .inr ?_
      obtain ⟨b, hb, hbm, hB, -⟩ := hv j (by omega)
      rw [Nat.zero_add, hb] at hj
      obtain ⟨-, rfl⟩ := Prod.mk.inj (Except.ok.inj hj)
      by_cases hf : R.Flat V j
      · cases hk : R.kick with
        | none => exact ⟨rfl, j, rfl, hf⟩
        | some f => exact absurd (hB.kick ((hflat j (by omega)).mpr hf) f hk).2 (by simp)
      · exact absurd (hB.go (fun h => hf ((hflat j (by omega)).mp h))).2 (by simp)
  · intro k hk
    obtain ⟨b, -, -, -, hL⟩ := hv k hk
    exact ⟨hL, hflat k hk⟩
  · rw [← ht]; exact hcosts m le_rfl

/-! ### Costs -/

theorem addCosts_gates {n : ℕ} (U : QMat n) : ∀ (gs : List (Gate n)) (pre : List ℝ) (c : ℝ),
    addCosts U (pre.length : ℤ) (gs.map Gate.obs) (pre ++ [c]) = .ok (pre ++ [c + cost (totalObs gs) U])
  | [], pre, c => by simp [addCosts, totalObs, cost_zero]
  | g :: gs, pre, c => by
    have h : totalObs (g :: gs) = full n g.ws g.A + totalObs gs := by simp [totalObs]
    have hi : pyIndex (pre ++ [c]).length (pre.length : ℤ) = some pre.length := by
      simp [pyIndex]
    have hg : pyGetItem (pre ++ [c]) (pre.length : ℤ) = .ok c := by
      rw [pyGetItem, hi]; simp
    have hs : ∀ x, pySetItem (pre ++ [c]) (pre.length : ℤ) x = .ok (pre ++ [x]) := by
      intro x; rw [pySetItem, hi]; simp
    have he : expvalFromUnitary U g.obs = .ok (cost (full n g.ws g.A) U) := by
      rw [expvalFromUnitary, getFullOperator_obs]; rfl
    rw [List.map_cons, addCosts, hg, he]
    simp only [bind, Except.bind]
    rw [hs]
    simp only
    rw [addCosts_gates U gs pre, h, cost_add, add_assoc]

theorem getItem_last {l : List ℝ} {c : ℝ} : pyGetItem (l ++ [c]) (-1) = .ok c := by
  simp [pyGetItem, pyIndex]

/-- `l[-(j+1)]` for the list with one more element. -/
theorem getItem_neg (l : List ℝ) (j : ℕ) (hj : j < l.length) : pyGetItem l (-((j : ℤ) + 1)) = .ok (l.getD (l.length - 1 - j) 0) := by
  have h1 : ¬ (0 : ℤ) ≤ -((j : ℤ) + 1) := by omega
  have h2 : (0 : ℤ) ≤ -((j : ℤ) + 1) + (l.length : ℤ) := by omega
  have h3 : (-((j : ℤ) + 1) + (l.length : ℤ)).toNat = l.length - 1 - j := by omega
  have h4 : l.length - 1 - j < l.length := by omega
  rw [pyGetItem, pyIndex, if_neg h1, if_pos h2, h3]
  simp [h4]

/-- The tolerance as the specification reads it. -/
def Tol.spec : Tol → Option ℝ
  | .fin t => some t
  | .inf => none

theorem isCloseTol_iff (a b : ℝ) (t : Tol) : isCloseTol a b t = true ↔ Close t.spec a b := by
  cases t with
  | fin t => simp [isCloseTol, isCloseTo, Close, Tol.spec]
  | inf => simp [isCloseTol, Close, Tol.spec]

/-! ### Argument checks -/

theorem bind_ok_iff {α β : Type _} {x : Py α} {f : α → Py β} {y : β} : (x >>= f) = .ok y ↔ ∃ a, x = .ok a ∧ f a = .ok y := by
  cases x with
  | error e => simp [bind, Except.bind]
  | ok a => simp [bind, Except.bind]

theorem pyAssert_ok_iff {c : Prop} [Decidable c] {u : Unit} : pyAssert c = .ok u ↔ c := by
  unfold pyAssert; split <;> simp [*]

theorem validateEta_iff (v : PyVal) (e : ℝ) : validateEta v = .ok e ↔ v = .float e ∧ 0 ≤ e ∧ e ≤ 1 := by
  rw [validateEta]
  cases v with
  | float x =>
    simp only [PyVal.between, PyVal.isFloat, PyVal.toReal, bind, Except.bind, pyAssert]
    by_cases h : 0 ≤ x ∧ x ≤ 1
    · simp [h]
      intro h'
      rw [← h']; exact h
    · simp [h]
      intro h'
      rw [← h']; simpa using h
  | nan => simp [PyVal.between, PyVal.isFloat, bind, Except.bind, pyAssert]
  | inf p => simp [PyVal.between, PyVal.isFloat, bind, Except.bind, pyAssert]
  | number x => simp [PyVal.between, PyVal.isFloat, bind, Except.bind, pyAssert]
  | array => simp [PyVal.between, bind, Except.bind]
  | incomparable => simp [PyVal.between, bind, Except.bind]

/-- `v` is the tolerance `t`. -/
def IsTol (v : PyVal) : Tol → Prop
  | .fin x => v = .float x ∧ 0 ≤ x
  | .inf => v = .inf true

theorem validateTol_iff (v : PyVal) (t : Tol) : validateTol v = .ok t ↔ IsTol v t := by
  unfold validateTol
  cases v with
  | float x =>
    by_cases h : 0 ≤ x
    · simp only [PyVal.atLeast, PyVal.isFloat, bind, Except.bind, pyAssert, h, decide_true, Bool.and_self, if_true]
      cases t with
      | fin y => simp [IsTol]; intro h'; rw [← h']; exact h
      | inf => simp [IsTol]
    · simp only [PyVal.atLeast, PyVal.isFloat, bind, Except.bind, pyAssert, h, decide_false, Bool.and_false]
      cases t with
      | fin y => simp [IsTol]; intro h'; rw [← h']; simpa using h
      | inf => simp [IsTol]
  | nan => cases t <;> simp [PyVal.atLeast, PyVal.isFloat, bind, Except.bind, pyAssert, IsTol]
  | inf p => cases p <;> cases t <;> simp [PyVal.atLeast, PyVal.isFloat, bind, Except.bind, pyAssert, IsTol]
  | number x => cases t <;> simp [PyVal.atLeast, PyVal.isFloat, bind, Except.bind, pyAssert, IsTol]
  | array => cases t <;> simp [PyVal.atLeast, bind, Except.bind, IsTol]
  | incomparable => cases t <;> simp [PyVal.atLeast, bind, Except.bind, IsTol]

theorem validateNsteps_iff (a : NArg) (N : ℕ) : validateNsteps a = .ok N ↔ a = .int (N : ℤ) ∧ 1 ≤ N := by
  cases a with
  | int k =>
    rw [validateNsteps, bind_ok_iff]
    simp only [pyAssert_ok_iff, Except.ok.injEq, NArg.int.injEq]
    constructor
    · rintro ⟨-, h, rfl⟩; omega
    · rintro ⟨rfl, h⟩; exact ⟨(), by omega, by simp⟩
  | other v =>
    rw [validateNsteps, bind_ok_iff]
    simp

theorem validateBool_iff (a : BoolArg) (b : Bool) : validateBool a = .ok b ↔ a = .bool b := by
  cases a <;> simp [validateBool]

end Oranssi
