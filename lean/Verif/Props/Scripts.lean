import Verif.Model.Scripts
import Verif.Props.TfimVqePeriod
import Verif.Props.AdaptSymmetry
import Verif.Props.ZassenhausSymmetry
import Verif.Props.Plot

/-! # What the Ising scripts have written when they end (C126) -/

namespace Oranssi
open scoped Matrix
open Spec

variable {n : ℕ}

/-- `uni_0`, `uni_1`, … in the directory `dir`: the matrices of the list, in its order. -/
def uniFiles (dir : String) (l : List (QMat n)) : List OutFile := l.mapIdx (fun i U => .uni dir i U)

/-! ### The steps of a script -/

theorem Script.bind_eq {α β : Type} (x : Script α) (f : α → Script β) (fs : List OutFile) : (x >>= f) fs = match x fs with
    | (.ok a, fs') => f a fs'
    | (.error e, fs') => (.error e, fs') := rfl

theorem Script.bind_ok {α β : Type} {x : Script α} {f : α → Script β} {fs fs' : List OutFile} {a : α} (h : x fs = (.ok a, fs')) : (x >>= f) fs = f a fs' := by
  rw [Script.bind_eq, h]

theorem Script.bind_error {α β : Type} {x : Script α} {f : α → Script β} {fs fs' : List OutFile} {e : PyErr} (h : x fs = (.error e, fs')) :
    (x >>= f) fs = (.error e, fs') := by
  rw [Script.bind_eq, h]

theorem Script.call_ok {α : Type} {x : Py α} {a : α} (h : x = .ok a) (fs : List OutFile) : Script.call x fs = (.ok a, fs) := by rw [Script.call, h]

theorem Script.call_error {α : Type} {x : Py α} {e : PyErr} (h : x = .error e) (fs : List OutFile) : Script.call x fs = (.error e, fs) := by rw [Script.call, h]

theorem Script.write_ok (f : OutFile) (fs : List OutFile) : Script.write f fs = (.ok (), fs ++ [f]) := rfl

theorem saveLoop_ok (dir : String) (gs : List (Gate n)) (l : List (QMat n)) (k : ℕ) (fs : List OutFile) :
    saveLoop dir (gs.map Gate.obs) k l fs = (.ok (), fs ++ l.mapIdx (fun i U => .uni dir (k + i) U)) := by
  induction l generalizing k fs with
  | nil => simp [saveLoop, pure]
  | cons U Us ih =>
    rw [saveLoop, Script.bind_ok (Script.write_ok _ _), Script.bind_ok (Script.call_ok (getAllSuNDirections_eq U gs) _), ih]
    simp [List.mapIdx_cons, Nat.add_assoc, Nat.add_comm 1]

/-- What a run with `return_unitary=True` returns (`z`: with `return_zassenhaus=True` as well). -/
theorem run_tuple {m : ℕ} {E : LayerEnv n} {eigh : EighFn n} {rnd : ℕ → Matrix (Fin (2 ^ n)) (Fin (2 ^ n)) ℝ} {ret : CircuitRet} {ops : List (NpMat × List ℤ)}
    {params : List (List ℝ)} {gs : List (Gate n)} {objs : Fin m → AnyLayer n} {layers : List (Fin m)} {args : ApproxArgs}
    {out : OptOut (ApproxItem n) × (Fin m → AnyLayer n)} {N : ℕ} {e : ℝ} {t : Option Tol} {z : Bool}
    (h : approximateLieOptimizer E eigh rnd ret ops params (gs.map Gate.obs) objs layers args = .ok out)
    (hv : ApproxValid args N e t ⟨false, false, true, false, false, false, z⟩) :
    ∃ l, approxUnitaries out.1 = some l ∧ 2 ≤ l.length ∧ l.length ≤ N + 1 ∧ l.length = (approxCosts out.1).length ∧
      ∃ c x, out.1 = .tuple ([.costs c, .unitaries l] ++ if z then [.zassenhaus x] else []) := by
  obtain ⟨-, N', e', t', F, hv', V, W, j, r, -, -, -, -, hout, -⟩ := approx_outcome _ _ _ _ _ _ _ _ _ _ _ h
  have hF : F = ⟨false, false, true, false, false, false, z⟩ := by
    obtain ⟨a, b, c, d, p, e, f⟩ := F
    have h1 := hv'.flagS; have h2 := hv'.flagO; have h3 := hv'.flagU; have h4 := hv'.flagG; have h5 := hv'.flagP; have h6 := hv'.flagR; have h7 := hv'.flagZ
    rw [hv.flagS] at h1; rw [hv.flagO] at h2; rw [hv.flagU] at h3; rw [hv.flagG] at h4; rw [hv.flagP] at h5; rw [hv.flagR] at h6; rw [hv.flagZ] at h7
    simp only [BoolArg.bool.injEq] at h1 h2 h3 h4 h5 h6 h7
    simp [← h1, ← h2, ← h3, ← h4, ← h5, ← h6, ← h7]
  obtain ⟨N2, hN2, e2, -, V2, W2, j2, hj1, hj2, -, -, -, -, -, -, -, -, -, hc, -, -, hu, -⟩ := C50_trace _ _ _ _ _ _ _ _ _ _ _ h
  obtain ⟨l, hl, hll, -⟩ := hu hv.flagU
  have hNN : N2 = N := by have := hN2.symm.trans hv.nsteps; simpa using this
  have h1 := (approxOutput_read r F).2.2.2.1
  have ho : out.1 = approxOutput r F := by rw [hout]
  rw [← ho, hl, hF] at h1
  simp at h1
  refine ⟨l, hl, by omega, by omega, by omega, r.costs, r.zassenhaus, ?_⟩
  rw [ho, hF, h1]
  cases z <;> rfl

/-! ### `tfim_su8_linesearch.py` -/

theorem su8Layer_default (hn : 3 ≤ n) (gs : List (Gate n)) (b1 b2 : Bool) : ∃ L, su8Layer n (gs.map Gate.obs) {} b1 b2 = .ok L := by
  obtain ⟨a0, h0, h1, h2, h3, h4⟩ := algebraSU8_attrs n b1 b2
  have hl2 : (lens8 b1 b2).Nodup := by cases b1 <;> cases b2 <;> simp [lens8]
  have h02 : 0 ∉ lens8 b1 b2 := by cases b1 <;> cases b2 <;> simp [lens8]
  have hne : ∀ w ∈ allWords (lens8 b1 b2), w ≠ [] := fun w hw hc => h02 (by simpa [hc] using (mem_allWords.1 hw).1)
  have ha := getAll8_std (allWords_nodup hl2) hne _ h1 h2 h4 [] (Or.inl rfl) h3
  rw [su8Layer, promoteAll_gates, h0]
  simp only [bind, Except.bind, ha]
  rw [show validateEta (Option.getD ({} : LayerArgs).eta (.float 0.1)) = .ok 0.1 from defaultEta_ok', show pyAssert (n ≥ 3) = .ok () from by simp [pyAssert, hn]]
  exact ⟨_, rfl⟩

/-- The arguments of the run. -/
noncomputable def su8Args : ApproxArgs := { nsteps := .int 30, eta := .float 1, escapeTol := .float 1e-5, returnUnitary := .bool true }

theorem su8Args_valid : ApproxValid su8Args 30 1 (some (.fin 1e-3)) ⟨false, false, true, false, false, false, false⟩ :=
  ⟨rfl, by norm_num, rfl, by norm_num, by norm_num, ⟨rfl, by norm_num⟩, rfl, rfl, rfl, rfl, rfl, rfl, rfl, rfl⟩

/-- C126 (SU(8) script).  For three or more qubits the run succeeds, and every circuit of the run is saved.  For four qubits the figure is saved as well; for every other number,
the six qubits of the script among them, the script then ends with a `KeyError` and the figure is not saved. -/
theorem C126_su8 (hn : 3 ≤ n) (E : LayerEnv n) (hs : ValidSvd E.svd) (eigh : EighFn n) (rnd : ℕ → Matrix (Fin (2 ^ n)) (Fin (2 ^ n)) ℝ) (fs : List OutFile) :
    ∃ L out l, su8Layer n (tfimObservables n) {} true true = .ok L ∧
      approximateLieOptimizer E eigh rnd .state (tfimCircuit n) [] (tfimObservables n) (fun _ : Fin 1 => .su8 L) [0] su8Args = .ok out ∧
      approxUnitaries out.1 = some l ∧ 2 ≤ l.length ∧ l.length ≤ 31 ∧ l.length = (approxCosts out.1).length ∧
      (n ≠ 4 → tfimSu8Script n E eigh rnd fs = (.error .key, fs ++ uniFiles "tfim_su8" l)) ∧
      (n = 4 → tfimSu8Script n E eigh rnd fs = (.ok (), fs ++ uniFiles "tfim_su8" l ++ [.figure "su8_optimizer_tfim_4"])) := by
  have h2 : 2 ≤ n := by omega
  obtain ⟨L, hL⟩ := su8Layer_default hn (tfimGates n h2) true true
  obtain ⟨out, hout⟩ := (C50_total_layers E hs eigh rnd .state (tfimOps n) [] (tfimGates n h2) (fun _ : Fin 1 => .su8 L) [0] su8Args (by simp)
    (fun _ => .su8 _ _ _ _ _ hL) rfl).2 ⟨rfl, _, _, _, _, su8Args_valid⟩
  obtain ⟨l, hl, hl2, hl31, hlc, c, x, hx⟩ := run_tuple hout su8Args_valid
  rw [← tfimOps_eq] at hout
  have hout' := hout
  unfold su8Args at hout'
  have hne : l ≠ [] := by rintro rfl; simp at hl2
  have key : ∀ fs, tfimSu8Script n E eigh rnd fs = (Script.call (plotSu16Directions l (tfimObservables n)) >>= fun _ =>
      Script.write (.figure s!"su8_optimizer_tfim_{n}")) (fs ++ uniFiles "tfim_su8" l) := by
    intro fs
    rw [tfimSu8Script, tfimGates_obs h2]
    rw [Script.bind_ok (Script.call_ok (C08_hamiltonian_default n _) _), Script.bind_ok (Script.call_ok hL _), Script.bind_ok (Script.call_ok hout' _)]
    obtain ⟨o1, o2⟩ := out
    obtain rfl : o1 = _ := hx
    refine (Script.bind_ok (Script.call_ok (rfl : unpackPair _ = .ok (_, ApproxItem.unitaries l)) _)).trans ?_
    refine (Script.bind_ok (Script.call_ok (rfl : asUnitaries _ = .ok l) _)).trans ?_
    rw [Script.bind_ok (saveLoop_ok _ _ _ _ _)]
    simp [uniFiles]
  refine ⟨L, out, l, by rw [tfimGates_obs h2]; exact hL, by rw [tfimGates_obs h2]; exact hout, hl, hl2, hl31, hlc, fun h => ?_, ?_⟩
  · rw [key, tfimGates_obs h2, Script.bind_error (Script.call_error ((C65_other_calls l _).2 hne h) _)]
  · rintro rfl
    obtain ⟨⟨cv, hcv, -⟩, -⟩ := C65_locality_curves l (tfimGates 4 h2) hne
    rw [key, tfimGates_obs h2, Script.bind_ok (Script.call_ok hcv _)]
    rfl

/-! ### `tfim_su4_adapt_vqe.py` -/

/-- The arguments of the run. -/
noncomputable def adaptArgs : ApproxArgs := { nsteps := .int 15, eta := .float 1, escapeTol := .float 1e-5, returnUnitary := .bool true }

theorem adaptArgs_valid : ApproxValid adaptArgs 15 1 (some (.fin 1e-3)) ⟨false, false, true, false, false, false, false⟩ :=
  ⟨rfl, by norm_num, rfl, by norm_num, by norm_num, ⟨rfl, by norm_num⟩, rfl, rfl, rfl, rfl, rfl, rfl, rfl, rfl⟩

/-- C126 (AdaptVQE script).  The run succeeds and the figure of the costs is saved; the next statement raises a `TypeError`, for the four qubits of the script as for every other
number.  The two figures of the directions, the second of which could be drawn, are not saved. -/
theorem C126_adapt (hn : 2 ≤ n) (E : LayerEnv n) (hs : ValidSvd E.svd) (hgd : ValidGd E.gd) (eigh : EighFn n) (rnd : ℕ → Matrix (Fin (2 ^ n)) (Fin (2 ^ n)) ℝ) (fs : List OutFile) :
    (∃ L out, adaptLayer n (tfimObservables n) {} = .ok L ∧
      approximateLieOptimizer E eigh rnd .state (tfimCircuit n) [] (tfimObservables n) (fun _ : Fin 1 => .adapt L) [0] adaptArgs = .ok out ∧
      ∃ l, approxUnitaries out.1 = some l ∧ (n = 4 → ∃ curves, plotSu16Directions l (tfimObservables n) = .ok curves)) ∧
    adaptScript n E eigh rnd fs = (.error .type, fs ++ [.figure "cost_su4_optimizer_tfim"]) := by
  obtain ⟨L, hL⟩ := tfim_adapt n hn
  rw [tfimGates_obs hn] at hL
  obtain ⟨out, hout⟩ := (C79_runs_succeed hn E hs hgd eigh rnd .state (tfimOps n) [] (tfimGates n hn) (fun _ : Fin 1 => .adapt L) [0] adaptArgs (by simp)
    (fun _ => .inr ⟨_, _, L, hL, rfl⟩) (by simp) rfl).2 ⟨rfl, _, _, _, _, adaptArgs_valid⟩
  obtain ⟨l, hl, hl2, -, -, c, x, hx⟩ := run_tuple hout adaptArgs_valid
  rw [← tfimOps_eq] at hout
  have hout' := hout
  unfold adaptArgs at hout'
  have hne : l ≠ [] := by rintro rfl; simp at hl2
  refine ⟨⟨L, out, by rw [tfimGates_obs hn]; exact hL, by rw [tfimGates_obs hn]; exact hout, l, hl, ?_⟩, ?_⟩
  · rintro rfl
    obtain ⟨⟨cv, hcv, -⟩, -⟩ := C65_locality_curves l (tfimGates 4 hn) hne
    exact ⟨cv, by rw [tfimGates_obs hn]; exact hcv⟩
  · rw [adaptScript, tfimGates_obs hn]
    rw [Script.bind_ok (Script.call_ok (C08_hamiltonian_default n _) _), Script.bind_ok (Script.call_ok hL _), Script.bind_ok (Script.call_ok hout' _)]
    obtain ⟨o1, o2⟩ := out
    obtain rfl : o1 = _ := hx
    refine (Script.bind_ok (Script.call_ok (rfl : unpackPair _ = .ok (_, ApproxItem.unitaries l)) _)).trans ?_
    refine (Script.bind_ok (Script.call_ok (rfl : asUnitaries _ = .ok l) _)).trans ?_
    rw [Script.bind_ok (Script.call_ok (directions_all l _) _), Script.bind_ok (Script.write_ok _ _)]
    obtain ⟨U, l', rfl⟩ := List.exists_cons_of_ne_nil hne
    rfl

/-! ### `tfim_su4_linesearch.py` -/

/-- The arguments of the run with the squared layer. -/
noncomputable def su4Args : ApproxArgs := { nsteps := .int 50, eta := .float 0.1, tol := some (.float 1e-6), returnUnitary := .bool true }

theorem su4Args_valid : ApproxValid su4Args 50 0.1 (some (.fin 1e-6)) ⟨false, false, true, false, false, false, false⟩ :=
  ⟨rfl, by norm_num, rfl, by norm_num, by norm_num, ⟨rfl, by norm_num⟩, rfl, rfl, rfl, rfl, rfl, rfl, rfl, rfl⟩

theorem tfim_vqe_pair (hn : 2 ≤ n) (h5 : n ≤ 5) {gd : ℝ → (List ℝ → Py ℝ) → List ℝ → Py (List ℝ)} (hgd : ValidGdList gd) :
    ∃ c p, parameterShiftOptimizer (n := n) gd .nothing (tfimVqeCircuit n) [0.1, 0.1, 0.1, 0.1] (tfimObservables n)
      { nsteps := .int 100, eta := .float 0.01, tol := .float 1e-5, returnParams := .int 1 } = .ok (.tuple [.costs c, .params p]) := by
  have hv : PsValid { nsteps := .int 100, eta := .float 0.01, tol := .float 1e-5, returnParams := .int 1 } 100 0.01 (.fin 1e-5) false :=
    ⟨rfl, by norm_num, rfl, by norm_num, by norm_num, ⟨rfl, by norm_num⟩, rfl⟩
  obtain ⟨out, hout⟩ := C123_succeeds hn hgd [0.1, 0.1, 0.1, 0.1] (by simp; omega) hv true rfl
  obtain ⟨-, N, e, t, rs, hv', V, m, r, -, -, ho, -⟩ := ps_outcome _ _ _ _ _ _ _ true rfl hout
  have : rs = false := by have := hv'.flagS.symm.trans hv.flagS; simpa using this
  subst this
  exact ⟨_, _, hout.trans (congrArg _ ho)⟩

/-- C126 (SU(4) script).  For up to five qubits both runs succeed and the comparison and the circuits are saved.  With the four qubits of the script the last figure is saved as well and
the script ends normally; with two, three or five it ends with a `KeyError`.  With six or more it ends with an `IndexError` before anything is written. -/
theorem C126_su4 (hn : 2 ≤ n) (E : LayerEnv n) (hs : ValidSvd E.svd) {gd : ℝ → (List ℝ → Py ℝ) → List ℝ → Py (List ℝ)} (hgd : ValidGdList gd) (eigh : EighFn n)
    (rnd : ℕ → Matrix (Fin (2 ^ n)) (Fin (2 ^ n)) ℝ) (fs : List OutFile) :
    (n ≤ 5 → ∃ L out l, squaredLayer n (tfimObservables n) {} = .ok L ∧
      approximateLieOptimizer E eigh rnd .state (tfimCircuit n) [] (tfimObservables n) (fun _ : Fin 1 => .squared L) [0] su4Args = .ok out ∧
      approxUnitaries out.1 = some l ∧ 2 ≤ l.length ∧ l.length ≤ 51 ∧ l.length = (approxCosts out.1).length ∧
      (n = 4 → tfimSu4Script n E gd eigh rnd fs =
        (.ok (), fs ++ [.figure "tfim_su4_linesearch_comparison"] ++ uniFiles "tfim_su4" l ++ [.figure "su4_linesearch_optimizer_tfim_4"])) ∧
      (n ≠ 4 → tfimSu4Script n E gd eigh rnd fs = (.error .key, fs ++ [.figure "tfim_su4_linesearch_comparison"] ++ uniFiles "tfim_su4" l))) ∧
    (6 ≤ n → tfimSu4Script n E gd eigh rnd fs = (.error .index, fs)) := by
  refine ⟨fun h5 => ?_, fun h6 => ?_⟩
  · obtain ⟨L, hL⟩ := squaredLayer_default (tfimGates n hn)
    obtain ⟨out, hout⟩ := (C50_total_layers E hs eigh rnd .state (tfimOps n) [] (tfimGates n hn) (fun _ : Fin 1 => .squared L) [0] su4Args (by simp)
      (fun _ => .squared (by omega) _ _ _ hL) rfl).2 ⟨rfl, _, _, _, _, su4Args_valid⟩
    obtain ⟨l, hl, hl2, hl31, hlc, c, x, hx⟩ := run_tuple hout su4Args_valid
    rw [← tfimOps_eq] at hout
    have hout' := hout
    unfold su4Args at hout'
    have hne : l ≠ [] := by rintro rfl; simp at hl2
    obtain ⟨c', p', hps⟩ := tfim_vqe_pair hn h5 hgd
    rw [tfimGates_obs hn] at hps
    have key : ∀ fs, tfimSu4Script n E gd eigh rnd fs = (Script.call (plotSu16Directions l (tfimObservables n)) >>= fun _ =>
        Script.write (.figure s!"su4_linesearch_optimizer_tfim_{n}")) (fs ++ [.figure "tfim_su4_linesearch_comparison"] ++ uniFiles "tfim_su4" l) := by
      intro fs
      rw [tfimSu4Script, tfimGates_obs hn]
      rw [Script.bind_ok (Script.call_ok hps _)]
      refine (Script.bind_ok (Script.call_ok (rfl : unpackPs _ = .ok _) _)).trans ?_
      rw [Script.bind_ok (Script.call_ok (C08_hamiltonian_default n _) _), Script.bind_ok (Script.call_ok hL _), Script.bind_ok (Script.call_ok hout' _)]
      obtain ⟨o1, o2⟩ := out
      obtain rfl : o1 = _ := hx
      refine (Script.bind_ok (Script.call_ok (rfl : unpackPair _ = .ok (_, ApproxItem.unitaries l)) _)).trans ?_
      refine (Script.bind_ok (Script.call_ok (rfl : asUnitaries _ = .ok l) _)).trans ?_
      rw [Script.bind_ok (Script.write_ok _ _), Script.bind_ok (saveLoop_ok _ _ _ _ _)]
      simp [uniFiles]
    refine ⟨L, out, l, by rw [tfimGates_obs hn]; exact hL, by rw [tfimGates_obs hn]; exact hout, hl, hl2, hl31, hlc, ?_, fun h => ?_⟩
    · rintro rfl
      obtain ⟨⟨cv, hcv, -⟩, -⟩ := C65_locality_curves l (tfimGates 4 hn) hne
      rw [key, tfimGates_obs hn, Script.bind_ok (Script.call_ok hcv _)]
      rfl
    · rw [key, tfimGates_obs hn, Script.bind_error (Script.call_error ((C65_other_calls l _).2 hne h) _)]
  · have : parameterShiftOptimizer (n := n) gd .nothing (tfimVqeCircuit n) [0.1, 0.1, 0.1, 0.1] (tfimObservables n)
        { nsteps := .int 100, eta := .float 0.01, tol := .float 1e-5, returnParams := .int 1 } = .error .index := by
      rw [parameterShiftOptimizer, (C122_index _).1 (by simp; omega)]
      rfl
    rw [tfimSu4Script, Script.bind_error (Script.call_error this _)]

/-! ### `tfim_zassenhaus` -/

/-- The arguments of the run. -/
noncomputable def zassArgs : ApproxArgs := { nsteps := .int 50, eta := .float 0.5, tol := none, returnUnitary := .bool true, returnZassenhaus := .bool true }

theorem zassArgs_valid : ApproxValid zassArgs 50 0.5 none ⟨false, false, true, false, false, false, true⟩ :=
  ⟨rfl, by norm_num, rfl, by norm_num, by norm_num, trivial, rfl, rfl, rfl, rfl, rfl, rfl, rfl, rfl⟩

/-- C126 (`tfim_zassenhaus`).  If the run raises (C43: it may) nothing is written.  Otherwise the figure of the costs is saved, and:
for three qubits the circuits, then the function ends with a `KeyError`; for four the circuits and the figure of the directions; for more nothing else.  All 50 steps are made. -/
theorem C126_zass (hn : 3 ≤ n) (E : LayerEnv n) (eigh : EighFn n) (rnd : ℕ → Matrix (Fin (2 ^ n)) (Fin (2 ^ n)) ℝ) (fs : List OutFile) :
    ∃ L, zassLayer n (tfimObservables n) {} (ratio := (4, 2)) = .ok L ∧
      (∀ e, approximateLieOptimizer E eigh rnd .state (tfimCircuit n) [] (tfimObservables n) (fun _ : Fin 1 => .zass L) [0] zassArgs = .error e →
        tfimZassScript n E eigh rnd fs = (.error e, fs)) ∧
      ∀ out, approximateLieOptimizer E eigh rnd .state (tfimCircuit n) [] (tfimObservables n) (fun _ : Fin 1 => .zass L) [0] zassArgs = .ok out →
        ∃ l, approxUnitaries out.1 = some l ∧ l.length = 51 ∧ (approxCosts out.1).length = 51 ∧
          (n = 3 → tfimZassScript n E eigh rnd fs = (.error .key, fs ++ [.figure "su8_zass_optimizer_tfim_3"] ++ uniFiles "tfim_su8_zass" l)) ∧
          (n = 4 → tfimZassScript n E eigh rnd fs =
            (.ok (), fs ++ [.figure "su8_zass_optimizer_tfim_4"] ++ uniFiles "tfim_su8_zass" l ++ [.figure "su8_directions_zass_optimizer_tfim_4"])) ∧
          (4 < n → tfimZassScript n E eigh rnd fs = (.ok (), fs ++ [.figure s!"su8_zass_optimizer_tfim_{n}"])) := by
  have h2 : 2 ≤ n := by omega
  obtain ⟨L, hL⟩ := zassLayer_default hn (tfimGates n h2) (4, 2)
  refine ⟨L, by rw [tfimGates_obs h2]; exact hL, fun e he => ?_, fun out hout => ?_⟩
  · rw [tfimGates_obs h2] at he
    unfold zassArgs at he
    rw [tfimZassScript, tfimGates_obs h2]
    rw [Script.bind_ok (Script.call_ok (C08_hamiltonian_default n _) _), Script.bind_ok (Script.call_ok hL _), Script.bind_error (Script.call_error he _)]
  · rw [tfimGates_obs h2] at hout
    have hout' := hout
    unfold zassArgs at hout'
    obtain ⟨l, hl, hl2, hl51, hlc, c, x, hx⟩ := run_tuple hout zassArgs_valid
    have hne : l ≠ [] := by rintro rfl; simp at hl2
    have key : ∀ fs, tfimZassScript n E eigh rnd fs = (if n ≤ 4 then (do
        saveLoop "tfim_su8_zass" (tfimObservables n) 0 l
        let _ ← Script.call (plotSu16Directions l (tfimObservables n))
        Script.write (.figure s!"su8_directions_zass_optimizer_tfim_{n}")) else pure () : Script Unit) (fs ++ [.figure s!"su8_zass_optimizer_tfim_{n}"]) := by
      intro fs
      rw [tfimZassScript, tfimGates_obs h2]
      rw [Script.bind_ok (Script.call_ok (C08_hamiltonian_default n _) _), Script.bind_ok (Script.call_ok hL _), Script.bind_ok (Script.call_ok hout' _)]
      obtain ⟨o1, o2⟩ := out
      obtain rfl : o1 = _ := hx
      refine (Script.bind_ok (Script.call_ok (rfl : unpackTriple _ = .ok (_, ApproxItem.unitaries l, _)) _)).trans ?_
      refine (Script.bind_ok (Script.call_ok (rfl : asUnitaries _ = .ok l) _)).trans ?_
      rw [Script.bind_ok (Script.write_ok _ _)]
    have small : n ≤ 4 → tfimZassScript n E eigh rnd fs = (Script.call (plotSu16Directions l (tfimObservables n)) >>= fun _ =>
        Script.write (.figure s!"su8_directions_zass_optimizer_tfim_{n}")) (fs ++ [.figure s!"su8_zass_optimizer_tfim_{n}"] ++ uniFiles "tfim_su8_zass" l) := by
      intro h
      rw [key, if_pos h, tfimGates_obs h2, Script.bind_ok (saveLoop_ok _ _ _ _ _)]
      simp [uniFiles]
    obtain ⟨N, hN, h51⟩ := C51_no_tolerance _ _ _ _ _ _ _ _ _ _ _ hout rfl
    obtain rfl : N = 50 := by have := hN.symm.trans zassArgs_valid.nsteps; simp at this; exact_mod_cast this
    have hc := h51.1
    refine ⟨l, hl, by omega, by omega, ?_, ?_, fun h => ?_⟩
    · rintro rfl
      rw [small (by norm_num), tfimGates_obs h2, Script.bind_error (Script.call_error ((C65_other_calls l _).2 hne (by norm_num)) _)]
      rfl
    · rintro rfl
      obtain ⟨⟨cv, hcv, -⟩, -⟩ := C65_locality_curves l (tfimGates 4 h2) hne
      rw [small le_rfl, tfimGates_obs h2, Script.bind_ok (Script.call_ok hcv _)]
      rfl
    · rw [key, if_neg (by omega)]
      rfl

/-! ### Examples -/

/-- The external functions that C126 asks for exist, for the six qubits of the SU(8) script: it ends with a `KeyError`, and no figure is among the files. -/
example : ∃ (E : LayerEnv 6) (eigh : EighFn 6) (rnd : _) (l : List (QMat 6)), 2 ≤ l.length ∧
    tfimSu8Script 6 E eigh rnd [] = (.error .key, uniFiles "tfim_su8" l) ∧ ∀ name, OutFile.figure name ∉ uniFiles "tfim_su8" l := by
  obtain ⟨svd, hs⟩ := exists_validSvd 6
  obtain ⟨gd, hgd⟩ := exists_validGd
  obtain ⟨eigh, -⟩ := exists_validEigh 6
  obtain ⟨L, out, l, -, -, -, h2, -, -, h, -⟩ := C126_su8 (n := 6) (by norm_num) ⟨svd, ⟨List.reverse, List.reverse_perm⟩, gd⟩ hs eigh (fun _ => 0) []
  refine ⟨_, eigh, _, l, h2, h (by norm_num), fun name hm => ?_⟩
  obtain ⟨i, hi, h⟩ := List.mem_mapIdx.1 hm
  simp at h

/-- The AdaptVQE script, four qubits. -/
example : ∃ (E : LayerEnv 4) (eigh : EighFn 4) (rnd : _), adaptScript 4 E eigh rnd [] = (.error .type, [.figure "cost_su4_optimizer_tfim"]) := by
  obtain ⟨svd, hs⟩ := exists_validSvd 4
  obtain ⟨gd, hgd⟩ := exists_validGd
  obtain ⟨eigh, -⟩ := exists_validEigh 4
  exact ⟨⟨svd, ⟨List.reverse, List.reverse_perm⟩, gd⟩, eigh, fun _ => 0, (C126_adapt (n := 4) (by norm_num) ⟨svd, ⟨List.reverse, List.reverse_perm⟩, gd⟩ hs hgd eigh (fun _ => 0) []).2⟩

/-- The SU(4) script, four qubits: it ends normally, and both figures are written. -/
example : ∃ (E : LayerEnv 4) (gd : _) (eigh : EighFn 4) (rnd : _) (l : List (QMat 4)), tfimSu4Script 4 E gd eigh rnd [] =
    (.ok (), [.figure "tfim_su4_linesearch_comparison"] ++ uniFiles "tfim_su4" l ++ [.figure "su4_linesearch_optimizer_tfim_4"]) := by
  obtain ⟨svd, hs⟩ := exists_validSvd 4
  obtain ⟨gd, hgd⟩ := exists_validGd
  obtain ⟨gd', hgd'⟩ := exists_validGdList
  obtain ⟨eigh, -⟩ := exists_validEigh 4
  obtain ⟨L, out, l, -, -, -, -, -, -, h, -⟩ := (C126_su4 (n := 4) (by norm_num) ⟨svd, ⟨List.reverse, List.reverse_perm⟩, gd⟩ hs hgd' eigh (fun _ => 0) []).1 (by norm_num)
  exact ⟨_, gd', eigh, _, l, h rfl⟩

end Oranssi
