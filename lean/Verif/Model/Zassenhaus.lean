import Verif.Model.Greedy
import Verif.Model.Pauli

/-! # Model of `ZassenhausLayer` (oranssi/opt_tools.py:684-893)

The `print` calls are left out. -/

namespace Oranssi

/-- The attribute `su_state`. -/
inductive Phase where
  | su4 | su8
  deriving DecidableEq

/-- The attributes of a `ZassenhausLayer` that its calls read or write; `ratio` is a pair of integers. -/
structure ZassLayer (n : ℕ) where
  eta : ℝ
  su2 : Algebra n
  su4 : Algebra n
  su8 : Algebra8 n
  observables : List Obs
  observablesFull : List (Matrix (Fin (2 ^ n)) (Fin (2 ^ n)) ℂ)
  check : Bool
  trotterize : Bool
  /-- initially `None` -/
  currentPauli : Option Key
  /-- not set by the constructor -/
  previousEta : Option ℝ
  ratio : ℤ × ℤ
  counter : ℤ
  phase : Phase

/-- opt_tools.py:685-737 `ZassenhausLayer.__init__`. -/
noncomputable def zassLayer (n : ℕ) (observables : List Obs) (args : LayerArgs) (addSu2 : Bool := false) (addSu4 : Bool := false)
    (ratio : ℤ × ℤ := (1, 1)) : Py (ZassLayer n) := do
  let _ ← promoteAll n observables
  let eta ← validateEta (args.eta.getD (.float 0.1))
  pyAssert (n ≥ 3)
  let l8 ← algebraSU8 n addSu2 addSu4
  let obsFull ← promoteAll n observables
  let check ← validateBool (args.unitaryErrorCheck.getD (.bool false))
  let trotterize ← validateBool (args.trotterize.getD (.bool false))
  let a2 ← (algebraSU2 n).getAll
  let a4 ← (algebraSU4 n addSu2).getAll
  let a8 ← l8.getAll
  .ok { eta := eta, su2 := a2, su4 := a4, su8 := a8, observables := observables, observablesFull := obsFull, check := check,
        trotterize := trotterize, currentPauli := none, previousEta := none, ratio := ratio, counter := 0, phase := .su4 }

/-- The dictionaries `omegas_su8`, `omegas_su8_k`, `omegas_su8_signs` and `omegas_su4`. -/
structure ZassCands where
  su8 : List (Key × ℝ) := []
  su8k : List (Key × Key) := []
  signs : List (Key × ℝ) := []
  su4 : List (Key × ℝ) := []

/-- opt_tools.py:791-793: the key `AB` of a monomial (with the letters `I`). -/
def Mono.keyWithI (m : Mono) : Key := (String.ofList (m.monomial.map (fun p => pauliInt2Str p.gamma)), m.monomial.map (·.alpha))

/-- opt_tools.py:785-811: the body of the loop over the SU(4) dictionary, for the entry with key `k`. -/
noncomputable def zassStep {n : ℕ} (ord : SetOrder ℕ) (phi : Ket n) (obsFull : List (Matrix (Fin (2 ^ n)) (Fin (2 ^ n)) ℂ))
    (d4 d8 : List (Key × Matrix (Fin (2 ^ n)) (Fin (2 ^ n)) ℂ)) (cur k : Key) (s : ZassCands) : Py ZassCands :=
  if (k.2.filter (fun ki => ki ∈ cur.2)).length = 1 then do
    let a ← monoOfKey cur
    let b ← monoOfKey k
    let ab ← a.commutator ord b
    if 'I' ∈ ab.keyWithI.1.toList then .ok s
    else do
      let p8 ← dictGet d8 ab.keyWithI
      let p4 ← dictGet d4 k
      .ok { su8 := dictSet s.su8 ab.keyWithI |omegaSum phi obsFull p8|,
            su8k := dictSet s.su8k ab.keyWithI k,
            signs := dictSet s.signs ab.keyWithI ab.coeff.im,
            su4 := dictSet s.su4 k (omegaSum phi obsFull p4) }
  else .ok s

/-- opt_tools.py:785-811: the loop over the keys of the SU(4) dictionary. -/
noncomputable def zassLoop {n : ℕ} (ord : SetOrder ℕ) (phi : Ket n) (obsFull : List (Matrix (Fin (2 ^ n)) (Fin (2 ^ n)) ℂ))
    (d4 d8 : List (Key × Matrix (Fin (2 ^ n)) (Fin (2 ^ n)) ℂ)) (cur : Key) : List Key → ZassCands → Py ZassCands
  | [], s => .ok s
  | k :: ks, s => do
    let s' ← zassStep ord phi obsFull d4 d8 cur k s
    zassLoop ord phi obsFull d4 d8 cur ks s'

open Classical in
/-- opt_tools.py:816-825: the first candidate; `none` when `B` and `k_max` are never assigned. -/
noncomputable def zassPick (s : ZassCands) : List (Key × ℝ) → Py (Option (Key × Key))
  | [] => .ok none
  | e :: es =>
    if |e.2| > 1e-3 then do
      let b ← dictGet s.su8k e.1
      let w ← dictGet s.su4 b
      if |w| > 0 then .ok (some (b, e.1)) else zassPick s es
    else zassPick s es

/-- opt_tools.py:747-773: a call in the state `'su4'`. -/
noncomputable def ZassLayer.callSu4 {n : ℕ} (L : ZassLayer n) (U : Matrix (Fin (2 ^ n)) (Fin (2 ^ n)) ℂ) :
    Py (Matrix (Fin (2 ^ n)) (Fin (2 ^ n)) ℂ × ZassLayer n) := do
  let k ← pyArgmax (absOmegas (stateFromUnitary U) L.observablesFull L.su4.fullPaulis)
  let p ← dictGet L.su4.fullPaulis k
  let r ← rotosolve p L.observables U k.1.toList.length
  let c := L.counter + 1
  .ok (r.1, { L with currentPauli := some k, previousEta := some r.2, counter := if c ≥ L.ratio.1 then 0 else c,
                     phase := if c ≥ L.ratio.1 then .su8 else L.phase })

open Classical in
/-- opt_tools.py:776-882: a call in the state `'su8'`.  When no candidate is found `k_max` is unbound. -/
noncomputable def ZassLayer.callSu8 {n : ℕ} (ord : SetOrder ℕ) (L : ZassLayer n) (U : Matrix (Fin (2 ^ n)) (Fin (2 ^ n)) ℂ) :
    Py (Matrix (Fin (2 ^ n)) (Fin (2 ^ n)) ℂ × ZassLayer n) := do
  let phi := stateFromUnitary U
  let cur ← (match L.currentPauli with | some k => .ok k | none => .error .key : Py Key)
  let _ ← dictGet L.su4.fullPaulis cur
  let wA ← (match L.previousEta with | some e => .ok e | none => .error .attribute : Py ℝ)
  let s ← zassLoop ord phi L.observablesFull L.su4.fullPaulis L.su8.fullPaulis cur (L.su4.fullPaulis.map Prod.fst) {}
  let pick ← zassPick s s.su8
  let bk ← (match pick with | some bk => .ok bk | none => .error .unboundLocal : Py (Key × Key))
  let p8 ← dictGet L.su8.fullPaulis bk.2
  let wAB := omegaSum phi L.observablesFull p8
  let sign ← dictGet s.signs bk.2
  let wB ← (if wA = 0 ∨ sign = 0 then .error .nonFinite else .ok (-((wAB * 2) / wA) / sign) : Py ℝ)
  let pB ← dictGet L.su4.fullPaulis bk.1
  let c := L.counter + 1
  .ok (NormedSpace.exp ((-Complex.I * ((L.eta * wB / 2 ^ n : ℝ) : ℂ)) • pB) * U,
       { L with currentPauli := some bk.1, counter := if c ≥ L.ratio.2 then 0 else c, phase := if c ≥ L.ratio.2 then .su4 else L.phase })

/-- opt_tools.py:744-884 `ZassenhausLayer.__call__(circuit_unitary)`: the new circuit and the layer's new state. -/
noncomputable def ZassLayer.call {n : ℕ} (ord : SetOrder ℕ) (L : ZassLayer n) (U : Matrix (Fin (2 ^ n)) (Fin (2 ^ n)) ℂ) :
    Py (Matrix (Fin (2 ^ n)) (Fin (2 ^ n)) ℂ × ZassLayer n) :=
  match L.phase with
  | .su4 => L.callSu4 U
  | .su8 => L.callSu8 ord U

/-- A history of successful calls of the same `ZassenhausLayer` object, each with its own circuit. -/
noncomputable def ZassLayer.runAll {n : ℕ} (ord : SetOrder ℕ) (L : ZassLayer n) : List (Matrix (Fin (2 ^ n)) (Fin (2 ^ n)) ℂ) → Py (ZassLayer n)
  | [] => .ok L
  | U :: Us => do
    let r ← L.call ord U
    r.2.runAll ord Us

end Oranssi
