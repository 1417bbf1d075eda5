import Verif.Lemmas.Optimizers
import Verif.Lemmas.Descent
import Verif.Lemmas.OneQubit
import Verif.Props.LieLayersMore
import Mathlib.Analysis.Matrix.Spectrum

/-! # C44, C45, C47, C49, C52 for `exact_lie_optimizer` -/

namespace Oranssi
open Spec
open scoped Matrix

/-! ### The run -/

/-- The rules of a run of `exact_lie_optimizer` with the observables `gs`. -/
noncomputable def exactRules {n : ℕ} (eigh : EighFn n) (rnd : ℕ → Matrix (Fin (2 ^ n)) (Fin (2 ^ n)) ℝ) (gs : List (Gate n)) (N : ℕ) (e : ℝ) (t : Tol)
    (p : Bool) : Rules (QMat n) where
  nsteps := N
  first := 4
  lag := 1
  close := Close t.spec
  cost := cost (totalObs gs)
  step := fun _ U V => exactUpdates eigh e (gs.map Gate.obs) U = .ok V
  kick := if p then some (fun k V => perturb eigh e (rnd k) V) else none

/-- The values that `exact_lie_optimizer` can return. -/
structure ExactResult (n : ℕ) where
  costs : List ℝ
  states : List (Ket n)
  perturbations : List ℕ
  unitary : QMat n

/-- The documented return value: the costs alone, or the tuple of the costs and what was asked for. -/
def exactOutput {n : ℕ} (r : ExactResult n) (rs rp ru : Bool) : OptOut (ExactItem n) :=
  if rs = false ∧ rp = false ∧ ru = false then .bare r.costs
  else .tuple ([.costs r.costs] ++ (if rs then [.states r.states] else []) ++ (if rp then [.perturbations r.perturbations] else []) ++
    (if ru then [.unitary r.unitary] else []))

/-- The arguments are valid, with the given meaning. -/
structure ExactValid (args : ExactArgs) (N : ℕ) (e : ℝ) (t : Tol) (rs p rp ru : Bool) : Prop where
  nsteps : args.nsteps = .int (N : ℤ)
  pos : 1 ≤ N
  eta : args.eta = .float e
  eta0 : 0 ≤ e
  eta1 : e ≤ 1
  tol : IsTol args.tol t
  flagS : args.returnState = .bool rs
  flagP : args.perturbation = .bool p
  flagR : args.returnPerturbations = .bool rp
  needsP : rp = true → p = true
  flagU : args.returnUnitary = .bool ru

theorem selectOut_exact {n : ℕ} (r : ExactResult n) (rs rp ru : Bool) :
    selectOut r.costs [.costs r.costs, .states r.states, .perturbations r.perturbations, .unitary r.unitary] [true, rs, rp, ru] = exactOutput r rs rp ru := by
  cases rs <;> cases rp <;> cases ru <;> simp [selectOut, exactOutput]

/-- The state of the loop before the first step. -/
noncomputable def exactInit {n : ℕ} (gs : List (Gate n)) (rs : Bool) (U : QMat n) : ExactState n :=
  { U := U, costs := [cost (totalObs gs) U], states := if rs then [stateFromUnitary U] else [], perturbations := [] }

theorem exact_ok_iff {n : ℕ} (eigh : EighFn n) (rnd : ℕ → Matrix (Fin (2 ^ n)) (Fin (2 ^ n)) ℝ) (ret : CircuitRet) (ops : List (NpMat × List ℤ))
    (gs : List (Gate n)) (args : ExactArgs) (out : OptOut (ExactItem n)) :
    exactLieOptimizer eigh rnd ret ops (gs.map Gate.obs) args = .ok out ↔ ret = .state ∧ ∃ N e t rs p rp ru, ExactValid args N e t rs p rp ru ∧
      ∃ U s, compileLoop n ops 1 = .ok U ∧ pyForRange (exactBody eigh rnd (gs.map Gate.obs) e t rs p) 0 N (exactInit gs rs U) = .ok s ∧
        out = exactOutput ⟨s.costs, s.states, s.perturbations, s.U⟩ rs rp ru := by
  have hc : ∀ U : QMat n, addCosts U 0 (gs.map Gate.obs) [0] = .ok [cost (totalObs gs) U] := by
    intro U; simpa using addCosts_gates U gs [] 0
  unfold exactLieOptimizer assertState
  simp only [bind_ok_iff, pyAssert_ok_iff, validateNsteps_iff, validateEta_iff, validateTol_iff, validateBool_iff, hc, Except.ok.injEq]
  constructor
  · rintro ⟨-, hr, N, ⟨hN, hN1⟩, e, ⟨he, he0, he1⟩, t, ht, rs, hrs, p, hp, _, hpp, rp, hrp, ru, hru, U, hU, costs, rfl, s, hs, hout⟩
    refine ⟨hr, N, e, t, rs, p, rp, ru, ⟨hN, hN1, he, he0, he1, ht, hrs, hp, hrp, ?_, hru⟩, U, s, hU, hs, ?_⟩
    · intro h
      subst h
      rw [if_pos hrp] at hpp
      exact pyAssert_ok_iff.mp hpp
    · rw [← hout, ← selectOut_exact]
  · rintro ⟨hr, N, e, t, rs, p, rp, ru, hv, U, s, hU, hs, rfl⟩
    refine ⟨(), hr, N, ⟨hv.nsteps, hv.pos⟩, e, ⟨hv.eta, hv.eta0, hv.eta1⟩, t, hv.tol, rs, hv.flagS, p, hv.flagP, (), ?_, rp, hv.flagR, ru, hv.flagU, U, hU, _, rfl,
      s, hs, ?_⟩
    · split
      · next h =>
        rw [hv.flagR] at h
        exact pyAssert_ok_iff.mpr (hv.needsP (BoolArg.bool.inj h))
      · rfl
    · rw [← selectOut_exact]

/-- What a step of `exact_lie_optimizer` appends to the lists. -/
def exactLog {n : ℕ} (R : Rules (QMat n)) (rs p : Bool) (k : ℕ) (s : ExactState n) (v : QMat n) (s' : ExactState n) : Prop :=
  s'.states = (if rs then s.states ++ [stateFromUnitary v] else s.states) ∧
  (p = true → FlatAt R s.costs k v → s'.perturbations = s.perturbations ++ [k]) ∧ (p = false ∨ ¬ FlatAt R s.costs k v → s'.perturbations = s.perturbations)

theorem exactBody_step {n : ℕ} (eigh : EighFn n) (rnd : ℕ → Matrix (Fin (2 ^ n)) (Fin (2 ^ n)) ℝ) (gs : List (Gate n)) (N : ℕ) (e : ℝ) (t : Tol)
    (rs p : Bool) (k : ℕ) (s s' : ExactState n) (b : Bool) (h : exactBody eigh rnd (gs.map Gate.obs) e t rs p k s = .ok (s', b))
    (hl : s.costs.length = k + 1) :
    ∃ v, BodyStep (exactRules eigh rnd gs N e t p) ExactState.U ExactState.costs k s v s' b ∧ exactLog (exactRules eigh rnd gs N e t p) rs p k s v s' := by
  unfold exactBody at h
  simp only [bind_ok_iff] at h
  obtain ⟨v, hv, costs, hcosts, h⟩ := h
  have hk : ((k : ℤ) + 1) = (s.costs.length : ℤ) := by rw [hl]; push_cast; ring
  rw [hk, addCosts_gates, zero_add] at hcosts
  obtain rfl := Except.ok.inj hcosts
  have hfl : FlatAt (exactRules eigh rnd gs N e t p) s.costs k v ↔ k > 3 ∧ isCloseTol (cost (totalObs gs) v) ((s.costs ++ [cost (totalObs gs) v]).getD k 0) t = true := by
    rw [isCloseTol_iff]; rfl
  have h1 : pyGetItem (s.costs ++ [cost (totalObs gs) v]) (-1) = .ok (cost (totalObs gs) v) := getItem_last
  have h2 : pyGetItem (s.costs ++ [cost (totalObs gs) v]) (-2) = .ok ((s.costs ++ [cost (totalObs gs) v]).getD k 0) := by
    have := getItem_neg (s.costs ++ [cost (totalObs gs) v]) 1 (by simp [hl])
    rw [show (s.costs ++ [cost (totalObs gs) v]).length - 1 - 1 = k by simp [hl]] at this
    exact this
  refine ⟨v, ?_⟩
  by_cases h3 : k > 3
  · rw [if_pos h3] at h
    simp only [bind_ok_iff, h1, h2, Except.ok.injEq] at h
    obtain ⟨a, rfl, b', rfl, h⟩ := h
    by_cases hcl : isCloseTol (cost (totalObs gs) v) ((s.costs ++ [cost (totalObs gs) v]).getD k 0) t = true
    · have hF := hfl.mpr ⟨h3, hcl⟩
      rw [if_pos hcl] at h
      cases p with
      | true =>
        rw [if_pos rfl] at h
        obtain ⟨rfl, rfl⟩ := Prod.mk.inj (Except.ok.inj h)
        refine ⟨⟨hv, rfl, fun hn => absurd hF hn, fun _ f hf => ?_, fun _ hn => ?_⟩, rfl, fun _ _ => rfl, fun hn => ?_⟩
        · simp only [exactRules, if_true, Option.some.injEq] at hf
          subst hf
          exact ⟨rfl, rfl⟩
        · simp [exactRules] at hn
        · simp [hF] at hn
      | false =>
        rw [if_neg (by simp)] at h
        obtain ⟨rfl, rfl⟩ := Prod.mk.inj (Except.ok.inj h)
        refine ⟨⟨hv, rfl, fun hn => absurd hF hn, fun _ f hf => ?_, fun _ hn => ⟨rfl, rfl⟩⟩, rfl, fun hn => by simp at hn, fun _ => rfl⟩
        simp [exactRules] at hf
    · have hF : ¬ FlatAt (exactRules eigh rnd gs N e t p) s.costs k v := fun hF => hcl (hfl.mp hF).2
      rw [if_neg hcl] at h
      obtain ⟨rfl, rfl⟩ := Prod.mk.inj (Except.ok.inj h)
      exact ⟨⟨hv, rfl, fun _ => ⟨rfl, rfl⟩, fun hn => absurd hn hF, fun hn => absurd hn hF⟩, rfl, fun _ hn => absurd hn hF, fun _ => rfl⟩
  · have hF : ¬ FlatAt (exactRules eigh rnd gs N e t p) s.costs k v := fun hF => h3 (hfl.mp hF).1
    rw [if_neg h3] at h
    obtain ⟨rfl, rfl⟩ := Prod.mk.inj (Except.ok.inj h)
    exact ⟨⟨hv, rfl, fun _ => ⟨rfl, rfl⟩, fun hn => absurd hn hF, fun hn => absurd hn hF⟩, rfl, fun _ hn => absurd hn hF, fun _ => rfl⟩

open Classical in
/-- The loop performs a run and logs it. -/
theorem exact_loop {n : ℕ} (eigh : EighFn n) (rnd : ℕ → Matrix (Fin (2 ^ n)) (Fin (2 ^ n)) ℝ) (gs : List (Gate n)) (N : ℕ) (e : ℝ) (t : Tol)
    (rs p : Bool) (U : QMat n) (s : ExactState n) (h : pyForRange (exactBody eigh rnd (gs.map Gate.obs) e t rs p) 0 N (exactInit gs rs U) = .ok s) :
    ∃ V W m, (exactRules eigh rnd gs N e t p).Run V W m ∧ V 0 = U ∧ s.U = W m ∧ s.costs = (List.range (m + 1)).map (fun k => cost (totalObs gs) (V k)) ∧
      s.states = (if rs then (List.range (m + 1)).map (fun k => stateFromUnitary (V k)) else []) ∧
      s.perturbations = (if p then (List.range m).filter (fun k => (exactRules eigh rnd gs N e t p).Flat V k) else []) := by
  obtain ⟨V, S, m, hrun, hV0, hS0, hSm, hL, hcosts⟩ := run_of_loop (exactRules eigh rnd gs N e t p) (exactBody eigh rnd (gs.map Gate.obs) e t rs p)
    ExactState.U ExactState.costs (fun _ _ => True) (exactLog (exactRules eigh rnd gs N e t p) rs p) (exactInit gs rs U) s rfl trivial
    (fun k s s' b hb hl _ => ⟨exactBody_step eigh rnd gs N e t rs p k s s' b hb hl, trivial⟩) h
  refine ⟨V, _, m, hrun, hV0, by rw [hSm], hcosts, ?_, ?_⟩
  · rw [← hSm]
    cases rs with
    | true =>
      rw [log_append ExactState.states S (fun k => stateFromUnitary (V (k + 1))) m (fun k hk => by simpa using (hL k hk).1.1), hS0]
      simp [exactInit, List.range_succ_eq_map, hV0, Function.comp_def]
    | false =>
      rw [log_const ExactState.states S m (fun k hk => by simpa using (hL k hk).1.1), hS0]
      simp [exactInit]
  · rw [← hSm]
    cases p with
    | true =>
      rw [log_filter ExactState.perturbations S ((exactRules eigh rnd gs N e t true).Flat V) m, hS0]
      · simp [exactInit]
      · intro k hk
        obtain ⟨hLk, hF⟩ := hL k hk
        by_cases hf : (exactRules eigh rnd gs N e t true).Flat V k
        · rw [if_pos hf]; exact hLk.2.1 rfl (hF.mpr hf)
        · rw [if_neg hf]; exact hLk.2.2 (.inr (fun h => hf (hF.mp h)))
    | false =>
      rw [log_const ExactState.perturbations S m (fun k hk => (hL k hk).1.2.2 (.inl rfl)), hS0]
      simp [exactInit]

/-! ### The update -/

/-- What `np.linalg.eigh` guarantees: an eigendecomposition of a Hermitian matrix. -/
def ValidEigh {n : ℕ} (eigh : EighFn n) : Prop :=
  ∀ H : QMat n, Hᴴ = H → (eigh H).2ᴴ * (eigh H).2 = 1 ∧ H = (eigh H).2 * Matrix.diagonal (fun i => (((eigh H).1 i : ℝ) : ℂ)) * (eigh H).2ᴴ

/-- The density matrix of the state `U|0…0⟩`. -/
def Spec.density {n : ℕ} (U : QMat n) : QMat n := Matrix.of fun i j => U i 0 * star (U j 0)

/-- The commutator `[ρ, O]` that generates the Riemannian gradient flow of the cost of `O` at the circuit `U`. -/
def Spec.riemannGen {n : ℕ} (O U : QMat n) : QMat n := density U * O - O * density U

theorem density_eq {n : ℕ} (U : QMat n) : Matrix.vecMulVec (stateFromUnitary U) (star (stateFromUnitary U)) = density U := by
  ext i j; simp [Matrix.vecMulVec_apply, stateFromUnitary, density]

theorem density_herm {n : ℕ} (U : QMat n) : (density U)ᴴ = density U := by
  ext i j; simp [density, Matrix.conjTranspose_apply, mul_comm]

theorem eighExp_eq {n : ℕ} {eigh : EighFn n} (he : ValidEigh eigh) (eta : ℝ) {H : QMat n} (hH : Hᴴ = H) :
    eighExp eigh eta H = NormedSpace.exp ((-Complex.I * ((eta / 2 : ℝ) : ℂ)) • H) := by
  obtain ⟨h1, h2⟩ := he H hH
  rw [eighExp]
  have e : (fun i => Complex.exp (-Complex.I * ((eta / 2 * (eigh H).1 i : ℝ) : ℂ))) =
      fun i => Complex.exp ((-Complex.I * ((eta / 2 : ℝ) : ℂ)) * (((eigh H).1 i : ℝ) : ℂ)) := by
    funext i; congr 1; push_cast; ring
  rw [e, eig_exp _ h1]
  rw [← h2]

theorem eighExp_unitary {n : ℕ} {eigh : EighFn n} (he : ValidEigh eigh) (eta : ℝ) {H : QMat n} (hH : Hᴴ = H) :
    (eighExp eigh eta H)ᴴ * eighExp eigh eta H = 1 := by
  rw [eighExp_eq he eta hH]
  refine (exp_skew_unitary _ ?_).1
  rw [Matrix.conjTranspose_smul, hH, ← neg_smul]
  congr 1
  simp

/-- The matrix that `exact_lie_optimizer` diagonalizes for the observable `O`. -/
noncomputable def shiftGen {n : ℕ} (O U : QMat n) : QMat n :=
  paramShiftComm (density U) (fun t => NormedSpace.exp ((-Complex.I * ((t / 2 : ℝ) : ℂ)) • O))

theorem shiftGen_herm {n : ℕ} (O U : QMat n) : (shiftGen O U)ᴴ = shiftGen O U := by
  have h : ∀ G : QMat n, (G * (density U * Gᴴ))ᴴ = G * (density U * Gᴴ) := by
    intro G
    rw [Matrix.conjTranspose_mul, Matrix.conjTranspose_mul, Matrix.conjTranspose_conjTranspose, density_herm, Matrix.mul_assoc]
  rw [shiftGen, paramShiftComm, Matrix.conjTranspose_sub, h, h]

theorem exactUpdate_gate {n : ℕ} (eigh : EighFn n) (e : ℝ) (g : Gate n) (U : QMat n) :
    exactUpdate eigh e g.obs U = .ok (eighExp eigh e (shiftGen (full n g.ws g.A) U) * U) := by
  rw [exactUpdate, getFullOperator_obs, density_eq]
  rfl

theorem exactUpdates_gates {n : ℕ} (eigh : EighFn n) (e : ℝ) : ∀ (gs : List (Gate n)) (U : QMat n),
    exactUpdates eigh e (gs.map Gate.obs) U = .ok (gs.foldl (fun U g => eighExp eigh e (shiftGen (full n g.ws g.A) U) * U) U)
  | [], U => rfl
  | g :: gs, U => by
    rw [List.map_cons, exactUpdates, exactUpdate_gate]
    exact exactUpdates_gates eigh e gs _

/-- C47 (1).  For an involutory observable the update multiplies the circuit by `exp(eta/2 [ρ, O])`, whatever eigendecomposition is used. -/
theorem C47_riemannian_step {n : ℕ} (eigh : EighFn n) (he : ValidEigh eigh) (eta : ℝ) (g : Gate n) (hA : g.Aᴴ = g.A) (hA2 : g.A * g.A = 1) (U : QMat n) :
    exactUpdate eigh eta g.obs U = .ok (NormedSpace.exp (((eta / 2 : ℝ) : ℂ) • riemannGen (full n g.ws g.A) U) * U) := by
  have hO : (full n g.ws g.A)ᴴ = full n g.ws g.A := by rw [← full_conjTranspose rfl g.valid.2, hA]
  have hO2 : full n g.ws g.A * full n g.ws g.A = 1 := by rw [← full_mul rfl g.valid, hA2, full_one rfl g.valid]
  rw [exactUpdate_gate, eighExp_eq he eta (shiftGen_herm _ _), shiftGen, (C07_param_shift_comm _ _ _ hO hO2).1, smul_smul, riemannGen]
  congr 4
  rw [mul_right_comm, neg_mul, Complex.I_mul_I, neg_neg, one_mul]

/-- C47 (2).  For every observable and every eigendecomposition the update multiplies the circuit by a unitary. -/
theorem C47_unitary {n : ℕ} (eigh : EighFn n) (he : ValidEigh eigh) (eta : ℝ) (g : Gate n) (U : QMat n) :
    ∃ Q : QMat n, Qᴴ * Q = 1 ∧ exactUpdate eigh eta g.obs U = .ok (Q * U) :=
  ⟨_, eighExp_unitary he eta (shiftGen_herm _ _), exactUpdate_gate eigh eta g U⟩

theorem riemannGen_skew {n : ℕ} (O U : QMat n) (hO : Oᴴ = O) : (riemannGen O U)ᴴ = -riemannGen O U := by
  rw [riemannGen, Matrix.conjTranspose_sub, Matrix.conjTranspose_mul, Matrix.conjTranspose_mul, hO, density_herm, neg_sub]

theorem frobenius_trace {n : ℕ} (K : QMat n) (hK : Kᴴ = -K) : (K * K).trace = -((∑ i, ∑ j, ‖K i j‖ ^ 2 : ℝ) : ℂ) := by
  have h : ∀ i j, K j i = -star (K i j) := by
    intro i j
    have := congrFun (congrFun hK j) i
    rw [Matrix.conjTranspose_apply, Matrix.neg_apply] at this
    rw [this, neg_neg]
  simp only [Matrix.trace, Matrix.diag_apply, Matrix.mul_apply]
  push_cast
  rw [← Finset.sum_neg_distrib]
  refine Finset.sum_congr rfl fun i _ => ?_
  rw [← Finset.sum_neg_distrib]
  refine Finset.sum_congr rfl fun j _ => ?_
  rw [h i j, mul_neg]
  congr 1
  rw [← Complex.ofReal_pow, ← Complex.normSq_eq_norm_sq, ← Complex.mul_conj]
  rfl

theorem expect_trace {n : ℕ} (U M : QMat n) : star (fun i => U i 0) ⬝ᵥ (M *ᵥ (fun i => U i 0)) = (density U * M).trace := by
  simp only [dotProduct, Matrix.mulVec, Matrix.trace, Matrix.diag_apply, Matrix.mul_apply, density, Matrix.of_apply, Pi.star_apply, Finset.mul_sum]
  rw [Finset.sum_comm]
  refine Finset.sum_congr rfl fun i _ => Finset.sum_congr rfl fun j _ => by ring

/-- C47 (3).  The derivative at `eta = 0` of the observable's cost is minus half the squared Frobenius norm of `[ρ, O]`. -/
theorem C47_derivative {n : ℕ} (eigh : EighFn n) (he : ValidEigh eigh) (g : Gate n) (hA : g.Aᴴ = g.A) (hA2 : g.A * g.A = 1) (U : QMat n) :
    ∃ V : ℝ → QMat n, (∀ eta, exactUpdate eigh eta g.obs U = .ok (V eta)) ∧
      HasDerivAt (fun eta => cost (full n g.ws g.A) (V eta)) (-(1 / 2) * ∑ i, ∑ j, ‖riemannGen (full n g.ws g.A) U i j‖ ^ 2) 0 ∧
      -(1 / 2) * ∑ i, ∑ j, ‖riemannGen (full n g.ws g.A) U i j‖ ^ 2 ≤ 0 := by
  have hO : (full n g.ws g.A)ᴴ = full n g.ws g.A := by rw [← full_conjTranspose rfl g.valid.2, hA]
  set O := full n g.ws g.A with hOdef
  set K := riemannGen O U with hK
  have hKs : Kᴴ = -K := riemannGen_skew O U hO
  refine ⟨_, fun eta => C47_riemannian_step eigh he eta g hA hA2 U, ?_, ?_⟩
  · have h := deriv_cost_exp O U [(1 / 2 : ℂ) • K] (by
      simp only [List.sum_cons, List.sum_nil, add_zero, Matrix.conjTranspose_smul, hKs, smul_neg]
      congr 2
      simp)
    convert h using 1
    · funext eta
      rw [← hOdef, ← hK]
      simp only [List.map_cons, List.map_nil, List.foldl_cons, List.foldl_nil, smul_smul]
      congr 4
      push_cast; ring
    · have ht : (density U * (O * K - K * O)).trace = (K * K).trace := by
        rw [Matrix.mul_sub, Matrix.trace_sub, ← Matrix.mul_assoc, ← Matrix.mul_assoc, Matrix.trace_mul_comm (density U * K) O, ← Matrix.mul_assoc,
          ← Matrix.trace_sub, ← Matrix.sub_mul]
        rfl
      simp only [List.sum_cons, List.sum_nil, add_zero, Matrix.mul_smul, Matrix.smul_mul, ← smul_sub]
      rw [Matrix.smul_mulVec, dotProduct_smul, expect_trace, ht, frobenius_trace K hKs]
      rw [smul_eq_mul, mul_neg, Complex.neg_re, show (1 / 2 : ℂ) = ((1 / 2 : ℝ) : ℂ) by push_cast; rfl, Complex.re_ofReal_mul, Complex.ofReal_re]
      ring
  · have : 0 ≤ ∑ i, ∑ j, ‖K i j‖ ^ 2 := Finset.sum_nonneg fun i _ => Finset.sum_nonneg fun j _ => by positivity
    linarith

/-- There is a function with the contract of `eigh`. -/
theorem exists_validEigh (n : ℕ) : ∃ eigh : EighFn n, ValidEigh eigh := by
  classical
  refine ⟨fun H => if h : H.IsHermitian then (h.eigenvalues, (h.eigenvectorUnitary : QMat n)) else (0, 0), fun H hH => ?_⟩
  have h : H.IsHermitian := hH
  simp only [dif_pos h]
  refine ⟨(Matrix.mem_unitaryGroup_iff'.mp h.eigenvectorUnitary.2), ?_⟩
  have := h.spectral_theorem
  rw [Unitary.conjStarAlgAut_apply] at this
  exact this

/-- The flow of Z at a rotated state. -/
theorem riemannGen_rot (a : ℝ) : riemannGen matZ (rot a) = ((Real.sin (2 * a) : ℝ) : ℂ) • genJ := by
  have hd : density (rot a) = (!![((Real.cos a * Real.cos a : ℝ) : ℂ), ((Real.cos a * Real.sin a : ℝ) : ℂ);
      ((Real.sin a * Real.cos a : ℝ) : ℂ), ((Real.sin a * Real.sin a : ℝ) : ℂ)] : Matrix (Fin 2) (Fin 2) ℂ) := by
    funext i j
    change (rot a i 0) * star (rot a j 0) = _
    revert i j
    change ∀ i j : Fin 2, (!![((Real.cos a : ℝ) : ℂ), -((Real.sin a : ℝ) : ℂ); ((Real.sin a : ℝ) : ℂ), ((Real.cos a : ℝ) : ℂ)] : Matrix (Fin 2) (Fin 2) ℂ) i 0 *
      star ((!![((Real.cos a : ℝ) : ℂ), -((Real.sin a : ℝ) : ℂ); ((Real.sin a : ℝ) : ℂ), ((Real.cos a : ℝ) : ℂ)] : Matrix (Fin 2) (Fin 2) ℂ) j 0) =
      (!![((Real.cos a * Real.cos a : ℝ) : ℂ), ((Real.cos a * Real.sin a : ℝ) : ℂ);
      ((Real.sin a * Real.cos a : ℝ) : ℂ), ((Real.sin a * Real.sin a : ℝ) : ℂ)] : Matrix (Fin 2) (Fin 2) ℂ) i j
    intro i j
    fin_cases i <;> fin_cases j <;> simp [-Complex.ofReal_cos, -Complex.ofReal_sin, Complex.conj_ofReal]
  rw [riemannGen, hd]
  change (!![((Real.cos a * Real.cos a : ℝ) : ℂ), ((Real.cos a * Real.sin a : ℝ) : ℂ);
      ((Real.sin a * Real.cos a : ℝ) : ℂ), ((Real.sin a * Real.sin a : ℝ) : ℂ)] : Matrix (Fin 2) (Fin 2) ℂ) * (!![1, 0; 0, -1] : Matrix (Fin 2) (Fin 2) ℂ) -
      (!![1, 0; 0, -1] : Matrix (Fin 2) (Fin 2) ℂ) * (!![((Real.cos a * Real.cos a : ℝ) : ℂ), ((Real.cos a * Real.sin a : ℝ) : ℂ);
      ((Real.sin a * Real.cos a : ℝ) : ℂ), ((Real.sin a * Real.sin a : ℝ) : ℂ)] : Matrix (Fin 2) (Fin 2) ℂ) =
      ((Real.sin (2 * a) : ℝ) : ℂ) • (!![0, -1; 1, 0] : Matrix (Fin 2) (Fin 2) ℂ)
  rw [Real.sin_two_mul]
  ext i j
  fin_cases i <;> fin_cases j <;> simp [-Complex.ofReal_cos, -Complex.ofReal_sin] <;> ring

/-- The hypotheses of C47 are met, and the commutator need not vanish. -/
example : ∃ (eigh : EighFn 1) (g : Gate 1) (U : QMat 1), ValidEigh eigh ∧ g.Aᴴ = g.A ∧ g.A * g.A = 1 ∧ riemannGen (full 1 g.ws g.A) U ≠ 0 := by
  obtain ⟨eigh, he⟩ := exists_validEigh 1
  refine ⟨eigh, gateZ, rot (Real.pi / 4), he, gateZ_herm, gateZ_sq, fun h => ?_⟩
  rw [full_gateZ, riemannGen_rot, show 2 * (Real.pi / 4) = Real.pi / 2 by ring, Real.sin_pi_div_two] at h
  have h1 : (((1 : ℝ) : ℂ) • genJ) (1 : Fin 2) (0 : Fin 2) = 0 := congrFun (congrFun h _) _
  have h2 : genJ (1 : Fin 2) (0 : Fin 2) = 1 := rfl
  rw [Matrix.smul_apply, h2] at h1
  simp at h1

/-! ### Reading the output -/

/-- The list of costs in the output. -/
def exactCosts {n : ℕ} : OptOut (ExactItem n) → List ℝ
  | .bare c => c
  | .tuple (.costs c :: _) => c
  | .tuple _ => []

/-- The list of states in the output. -/
def exactStates {n : ℕ} : OptOut (ExactItem n) → Option (List (Ket n))
  | .bare _ => none
  | .tuple l => l.findSome? (fun x => match x with | .states s => some s | _ => none)

/-- The list of perturbed steps in the output. -/
def exactPerturbations {n : ℕ} : OptOut (ExactItem n) → Option (List ℕ)
  | .bare _ => none
  | .tuple l => l.findSome? (fun x => match x with | .perturbations s => some s | _ => none)

/-- The unitary in the output. -/
def exactUnitary {n : ℕ} : OptOut (ExactItem n) → Option (QMat n)
  | .bare _ => none
  | .tuple l => l.findSome? (fun x => match x with | .unitary s => some s | _ => none)

theorem exactOutput_costs {n : ℕ} (r : ExactResult n) (rs rp ru : Bool) : exactCosts (exactOutput r rs rp ru) = r.costs := by
  cases rs <;> cases rp <;> cases ru <;> rfl

theorem exactOutput_states {n : ℕ} (r : ExactResult n) (rs rp ru : Bool) : exactStates (exactOutput r rs rp ru) = if rs then some r.states else none := by
  cases rs <;> cases rp <;> cases ru <;> rfl

theorem exactOutput_perturbations {n : ℕ} (r : ExactResult n) (rs rp ru : Bool) :
    exactPerturbations (exactOutput r rs rp ru) = if rp then some r.perturbations else none := by
  cases rs <;> cases rp <;> cases ru <;> rfl

theorem exactOutput_unitary {n : ℕ} (r : ExactResult n) (rs rp ru : Bool) : exactUnitary (exactOutput r rs rp ru) = if ru then some r.unitary else none := by
  cases rs <;> cases rp <;> cases ru <;> rfl

end Oranssi
