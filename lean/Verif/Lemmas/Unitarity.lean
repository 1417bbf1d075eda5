import Verif.Props.Zassenhaus
import Verif.Props.Adapt
import Verif.Props.LieLayersMore
import Verif.Props.ApproxTotal

/-! # Every layer maps unitary circuits to unitary circuits -/

namespace Oranssi
open Spec
open scoped Matrix

theorem exp_herm_unitary {n : ℕ} {P : QMat n} (hP : Pᴴ = P) (t : ℝ) : Unitary (NormedSpace.exp ((-Complex.I * (t : ℂ)) • P)) := by
  refine (exp_skew_unitary _ ?_).1
  rw [Matrix.conjTranspose_smul, hP, ← neg_smul]
  simp

theorem rotosolve_unitary {n : ℕ} {P U V : QMat n} {os : List Obs} {k : ℕ} {η : ℝ} (hP : Pᴴ = P) (hU : Unitary U)
    (h : rotosolve P os U k = .ok (V, η)) : Unitary V := by
  rw [rotosolve] at h
  simp only [bind, Except.bind] at h
  split at h
  · simp at h
  split at h
  · simp at h
  split at h
  · simp at h
  obtain ⟨rfl, -⟩ := Prod.mk.inj (Except.ok.inj h)
  exact (exp_herm_unitary hP _).mul hU

/-- All matrices of a dictionary are Hermitian. -/
def HermDict {n : ℕ} (d : List (Key × QMat n)) : Prop := ∀ e ∈ d, e.2ᴴ = e.2

theorem stdDict_herm {n : ℕ} (L : List (List Letter)) : HermDict (stdDict n L) := by
  intro e he
  obtain ⟨w, -, q, -, rfl⟩ := mem_stdDict.1 he
  exact pauliWord_herm _

theorem dictGet_value {K V : Type} [DecidableEq K] : ∀ {d : List (K × V)} {k : K} {v : V}, dictGet d k = .ok v → ∃ e ∈ d, e.2 = v
  | d, k, v, h => by
    unfold dictGet at h
    split at h
    · rename_i e he
      obtain rfl := Except.ok.inj h
      exact ⟨e, List.mem_of_find?_eq_some he, rfl⟩
    · simp at h

theorem HermDict.get {n : ℕ} {d : List (Key × QMat n)} (h : HermDict d) {k : Key} {P : QMat n} (hk : dictGet d k = .ok P) : Pᴴ = P := by
  obtain ⟨e, he, rfl⟩ := dictGet_value hk
  exact h e he

theorem squared_unitary {n : ℕ} {L L' : SquaredLayer n} {U V : QMat n} (hd : HermDict L.lastate.fullPaulis) (hU : Unitary U)
    (h : L.call U = .ok (V, L')) : Unitary V ∧ L'.lastate = L.lastate := by
  rw [SquaredLayer.call] at h
  simp only [bind, Except.bind] at h
  split at h
  · simp at h
  split at h
  · simp at h
  rename_i p hp
  split at h
  · simp at h
  rename_i r hr
  obtain ⟨rfl, rfl⟩ := Prod.mk.inj (Except.ok.inj h)
  exact ⟨rotosolve_unitary (hd.get hp) hU hr, rfl⟩

theorem su8_unitary {n : ℕ} {L : SU8Layer n} {k : Key} {U V : QMat n} (hd : HermDict L.lastate.fullPaulis) (hU : Unitary U)
    (h : L.call U = .ok (V, k)) : Unitary V := by
  rw [SU8Layer.call] at h
  simp only [bind, Except.bind] at h
  split at h
  · simp at h
  split at h
  · simp at h
  rename_i p hp
  split at h
  · simp at h
  rename_i r hr
  obtain ⟨rfl, -⟩ := Prod.mk.inj (Except.ok.inj h)
  exact rotosolve_unitary (hd.get hp) hU hr

theorem zass_unitary {n : ℕ} {ord : SetOrder ℕ} {L L' : ZassLayer n} {U V : QMat n} (hd : HermDict L.su4.fullPaulis) (hU : Unitary U)
    (h : L.call ord U = .ok (V, L')) : Unitary V ∧ L'.su4 = L.su4 := by
  refine ⟨?_, (zass_call_phase h).2.2.1⟩
  obtain ⟨-, -, -, -, -, -, h4, h8⟩ := zass_call_phase h
  cases hp : L.phase with
  | su4 =>
    obtain ⟨h, -⟩ := h4 hp
    rw [ZassLayer.callSu4] at h
    simp only [bind, Except.bind] at h
    split at h
    · simp at h
    split at h
    · simp at h
    rename_i p hp
    split at h
    · simp at h
    rename_i r hr
    obtain ⟨rfl, -⟩ := Prod.mk.inj (Except.ok.inj h)
    exact rotosolve_unitary (hd.get hp) hU hr
  | su8 =>
    obtain ⟨h, -⟩ := h8 hp
    rw [ZassLayer.callSu8] at h
    simp only [bind, Except.bind] at h
    repeat' (split at h <;> try (simp at h; done))
    all_goals
      obtain ⟨rfl, -⟩ := Prod.mk.inj (Except.ok.inj h)
      exact (exp_herm_unitary (hd.get (by assumption)) _).mul hU

/-! ### Circuits of unitary gates -/

/-- A recorded gate: a unitary matrix on distinct qubits. -/
def GoodGate (n : ℕ) (g : NpMat × List ℤ) : Prop := ∃ G : Gate n, G.Aᴴ * G.A = 1 ∧ g = (G.np, G.ws.map (Nat.cast : ℕ → ℤ))

theorem compile_unitary {n : ℕ} {gates : List (NpMat × List ℤ)} (hg : ∀ g ∈ gates, GoodGate n g) {U V : QMat n} (hU : Unitary U)
    (h : compileLoop n gates U = .ok V) : Unitary V := by
  obtain ⟨gs, h1, h2⟩ := exists_preimages (fun G : Gate n => G.Aᴴ * G.A = 1) (fun G => (G.np, G.ws.map (Nat.cast : ℕ → ℤ))) gates hg
  rw [h2, compileLoop_gates] at h
  obtain rfl := Except.ok.inj h
  exact foldl_gates_unitary gs h1 U hU

theorem hadamard_unitary : (hadamard : QMat 1)ᴴ * (hadamard : QMat 1) = 1 := by
  have h2 : ((Real.sqrt 2 : ℝ) : ℂ) * ((Real.sqrt 2 : ℝ) : ℂ) = 2 := by
    rw [← Complex.ofReal_mul, Real.mul_self_sqrt (by norm_num)]; norm_num
  have h3 : ((Real.sqrt 2 : ℝ) : ℂ) ≠ 0 := by
    intro hc; rw [hc] at h2; norm_num at h2
  have h4 : ((1 / Real.sqrt 2 : ℝ) : ℂ) * ((1 / Real.sqrt 2 : ℝ) : ℂ) = 1 / 2 := by
    push_cast
    rw [div_mul_div_comm, h2, one_mul]
  have key : ((((1 / Real.sqrt 2 : ℝ) : ℂ) • (!![1, 1; 1, -1] : Matrix (Fin 2) (Fin 2) ℂ))ᴴ *
      (((1 / Real.sqrt 2 : ℝ) : ℂ) • (!![1, 1; 1, -1] : Matrix (Fin 2) (Fin 2) ℂ))) = 1 := by
    rw [Matrix.conjTranspose_smul, Matrix.smul_mul, Matrix.mul_smul, smul_smul, Complex.star_def, Complex.conj_ofReal, h4]
    ext i j
    fin_cases i <;> fin_cases j <;> simp [Matrix.mul_apply, Fin.sum_univ_two, Matrix.conjTranspose_apply] <;> norm_num
  exact key

theorem pauliRot_unitary (θ : ℝ) (w : List Letter) : (pauliRot θ w)ᴴ * pauliRot θ w = 1 := by
  have := exp_herm_unitary (pauliWord_herm (placed w.length w (List.range w.length))) (θ / 2)
  rw [exp_neg_I_smul_involution _ (pauliWord_sq _)] at this
  exact this

theorem rotGate_good {n : ℕ} {w : List Letter} {q : List ℕ} (hw : q ≠ []) (hl : q.length = w.length) (hv : ValidWires n q) (θ : ℝ) :
    GoodGate n (rotGate θ (letterStr w) q) := by
  rw [rotGate_letterStr]
  have : ∀ (k : ℕ) (A : QMat k) (_ : Aᴴ * A = 1) (_ : q.length = k), GoodGate n (npQ A, q.map (Nat.cast : ℕ → ℤ)) := by
    rintro _ A hA rfl
    exact ⟨⟨q, A, hw, hv⟩, hA, rfl⟩
  exact this _ _ (pauliRot_unitary θ w) hl

theorem mapM_mem {α β : Type} {F : α → Py β} : ∀ {l : List α} {r : List β}, l.mapM F = .ok r → ∀ b ∈ r, ∃ a ∈ l, F a = .ok b
  | [], r, h, b, hb => by
    rw [List.mapM_nil] at h
    obtain rfl := Except.ok.inj h
    simp at hb
  | a :: l, r, h, b, hb => by
    rw [List.mapM_cons] at h
    simp only [bind, Except.bind, pure, Except.pure] at h
    split at h
    · simp at h
    rename_i b' hb'
    split at h
    · simp at h
    rename_i r' hr'
    obtain rfl := Except.ok.inj h
    rcases List.mem_cons.1 hb with rfl | hb
    · exact ⟨a, by simp, hb'⟩
    · obtain ⟨a', h1, h2⟩ := mapM_mem hr' b hb
      exact ⟨a', by simp [h1], h2⟩

theorem bonds_good {n start : ℕ} {ps : List ℝ} {w : List Letter} (hw : w.length = 2) {r : List (NpMat × List ℤ)}
    (h : (bondStarts n start).zipIdx.mapM (fun e => do
      let θ ← pyGetItem ps (e.2 : ℤ)
      .ok (rotGate θ (letterStr w) [e.1, e.1 + 1])) = (.ok r : Py _)) : ∀ g ∈ r, GoodGate n g := by
  intro g hg
  obtain ⟨e, he, h1⟩ := mapM_mem h g hg
  simp only [bind, Except.bind] at h1
  split at h1
  · simp at h1
  obtain rfl := Except.ok.inj h1
  have hm : e.1 ∈ bondStarts n start := List.fst_mem_of_mem_zipIdx he
  have hlt : e.1 < n - 1 := by
    have := (List.mem_filter.1 hm).1
    simpa using this
  exact rotGate_good (by simp) (by simp [hw]) ⟨by simp, by simp; omega⟩ _

theorem layerGates_good {n : ℕ} (hn : 2 ≤ n) {c : List Letter × LayerKind} (hc : GoodLayer c) {ps : List ℝ} {r : List (NpMat × List ℤ)}
    (h : layerGates n (letterStr c.1, c.2.toParity) ps = .ok r) : ∀ g ∈ r, GoodGate n g := by
  obtain ⟨w, k⟩ := c
  rw [layerGates, letterStr_length] at h
  split at h
  · rename_i hw
    intro g hg
    obtain ⟨i, hi, h1⟩ := mapM_mem h g hg
    simp only [bind, Except.bind] at h1
    split at h1
    · simp at h1
    obtain rfl := Except.ok.inj h1
    exact rotGate_good (by simp) (by simpa using hw.symm) ⟨by simp, by simpa using hi⟩ _
  · rename_i hw
    have hw2 : w.length = 2 := by
      rw [GoodLayer] at hc
      split at hc
      · exact absurd hc hw
      · exact hc
    split at h
    · exact bonds_good hw2 h
    · simp only [bind, Except.bind] at h
      split at h
      · simp at h
      rename_i gs hgs
      split at h
      · simp at h
      obtain rfl := Except.ok.inj h
      intro g hg
      rcases List.mem_append.1 hg with hg | hg
      · exact bonds_good hw2 hgs g hg
      · rw [List.mem_singleton.1 hg]
        exact rotGate_good (by simp) (by simp [hw2]) ⟨by simp; omega, by simp; omega⟩ _

theorem circuitVqe_good {n : ℕ} (hn : 2 ≤ n) {cs : List (List Letter × LayerKind)} (hcs : ∀ c ∈ cs, GoodLayer c) {ps : List (List ℝ)}
    {gates : List (NpMat × List ℤ)} (h : circuitVqe n (cs.map (fun c => (letterStr c.1, c.2.toParity))) ps = .ok gates) :
    ∀ g ∈ gates, GoodGate n g := by
  rw [circuitVqe] at h
  simp only [bind, Except.bind] at h
  split at h
  · simp at h
  rename_i gs hgs
  obtain rfl := Except.ok.inj h
  intro g hg
  rcases List.mem_append.1 hg with hg | hg
  · obtain ⟨j, hj, rfl⟩ := List.mem_map.1 hg
    exact ⟨⟨[j], hadamard, by simp, ⟨by simp, by simpa using hj⟩⟩, hadamard_unitary, rfl⟩
  · obtain ⟨l, hl, hg⟩ := List.mem_flatten.1 hg
    obtain ⟨e, he, h1⟩ := mapM_mem hgs l hl
    split at h1
    · simp at h1
    have hm := List.fst_mem_of_mem_zipIdx he
    obtain ⟨c, hc, hce⟩ := List.mem_map.1 hm
    rw [← hce] at h1
    exact layerGates_good hn (hcs c hc) h1 g hg

/-- The state of an `AdaptVQELayer` that calls preserve. -/
def AdaptInv {n : ℕ} (gs : List (Gate n)) (L : AdaptLayer n) : Prop :=
  AdaptOk gs L ∧ ∃ cs : List (List Letter × LayerKind), (∀ c ∈ cs, GoodLayer c) ∧ L.layers = cs.map (fun c => (letterStr c.1, c.2.toParity))

theorem adapt_unitary {n : ℕ} (hn : 2 ≤ n) {gs : List (Gate n)} {L L' : AdaptLayer n} (hL : AdaptInv gs L) {opt : VqeOptimizer}
    {params last : List (List ℝ)} {U V : QMat n} (h : L.call opt params U = .ok (V, last, L')) : Unitary V ∧ AdaptInv gs L' := by
  obtain ⟨hok, cs, hcs, hl⟩ := hL
  obtain ⟨k, hk, rfl, gates, hg, hV⟩ := adapt_call_inv h
  obtain ⟨c, hc, hm⟩ := adapt_select hn hok U
  rw [hc] at hk
  obtain rfl := Except.ok.inj hk
  have hgood : ∀ c' ∈ cs ++ [c], GoodLayer c' := by
    intro c' hc'
    rcases List.mem_append.1 hc' with h1 | h1
    · exact hcs c' h1
    · rw [List.mem_singleton.1 h1]
      exact candidate_good (List.mem_filter.1 hm.mem).1
  have he : L.layers ++ [(letterStr c.1, c.2.toParity)] = (cs ++ [c]).map (fun c => (letterStr c.1, c.2.toParity)) := by
    rw [hl, List.map_append]; rfl
  rw [he] at hg
  refine ⟨compile_unitary (circuitVqe_good hn hgood hg) ?_ hV, ⟨hok.obs, hok.obsFull, hok.dict, hok.dirs⟩, cs ++ [c], hgood, he⟩
  simp [Unitary]

end Oranssi
