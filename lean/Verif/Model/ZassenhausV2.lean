import Verif.Model.Zassenhaus

/-! # Model of `ZassenhausLayerV2` (oranssi/opt_tools.py:896-1027)

The constructor works with monomials whose coefficients are sympy expressions.  All that occur are complex numbers times products of the symbols
`x0`, `x1`, `z12`, and sums and differences are only formed of multiples of the same product; this is what `Sym` models.  All monomials are on the
sites 0 and 1.  The `print` calls are left out. -/

namespace Oranssi

/-- A sympy expression `c * x0^e0 * x1^e1 * z12^e2`. -/
structure Sym where
  c : ℂ
  e : Fin 3 → ℕ

/-- opt_tools.py:948 `sp.symbols('x0,x1,z12')`. -/
def Sym.symbol (i : Fin 3) : Sym := ⟨1, Pi.single i 1⟩

/-- A number as an expression. -/
def Sym.const (c : ℂ) : Sym := ⟨c, 0⟩

def Sym.mul (a b : Sym) : Sym := ⟨a.c * b.c, a.e + b.e⟩

/-- The difference of two multiples of the same product. -/
def Sym.sub (a b : Sym) : Py Sym := if a.e = b.e then .ok ⟨a.c - b.c, a.e⟩ else .error .type

/-- opt_tools.py:994 `lambdify(self.symbols, f)`: the value of an expression. -/
def Sym.eval (x : Fin 3 → ℝ) (a : Sym) : ℂ := a.c * ((x 0 : ℂ) ^ a.e 0 * (x 1 : ℂ) ^ a.e 1 * (x 2 : ℂ) ^ a.e 2)

/-- pauli.py:13-37 for symbolic coefficients. -/
structure SPauli where
  alpha : ℕ
  gamma : Fin 4
  coeff : Sym

/-- pauli.py:38-55 `Pauli.__mul__` for symbolic coefficients. -/
noncomputable def SPauli.mul (p q : SPauli) : Py SPauli := do
  pyAssert (p.alpha = q.alpha)
  if p.gamma = q.gamma then .ok ⟨p.alpha, 0, p.coeff.mul q.coeff⟩
  else if p.gamma = 0 then .ok ⟨p.alpha, q.gamma, p.coeff.mul q.coeff⟩
  else if q.gamma = 0 then .ok ⟨p.alpha, p.gamma, p.coeff.mul q.coeff⟩
  else do
    let newGamma ← pyGetItem (([1, 2, 3] : List (Fin 4)).filter (fun x => x ∉ [p.gamma, q.gamma])) 0
    .ok ⟨p.alpha, newGamma, ((Sym.const (Complex.I * leviCivita p.gamma q.gamma newGamma)).mul p.coeff).mul q.coeff⟩

/-- pauli.py:99-118 for symbolic coefficients. -/
structure SMono where
  monomial : List SPauli
  coeff : Sym

/-- pauli.py:100-118 `PauliMonomial.__init__` for Paulis listed by site. -/
def SMono.new (ps : List SPauli) : SMono := ⟨ps, ps.foldl (fun c p => c.mul p.coeff) (Sym.const 1)⟩

/-- pauli.py:124-145 `PauliMonomial.__mul__` for monomials on the same sites. -/
noncomputable def SMono.mul (a b : SMono) : Py SMono := do
  let ps ← (a.monomial.zip b.monomial).mapM (fun pq => pq.1.mul pq.2)
  .ok (SMono.new ps)

/-- pauli.py:234-243 `PauliMonomial.commutator`. -/
noncomputable def SMono.commutator (a b : SMono) : Py SMono := do
  let l ← a.mul b
  let r ← b.mul a
  let c ← l.coeff.sub r.coeff
  .ok { l with coeff := c }

/-- pauli.py:245-248 `PauliMonomial.to_oranssi`. -/
def SMono.toOranssi (m : SMono) : Key :=
  (String.ofList ((m.monomial.filter (fun p => p.gamma ≠ 0)).map (fun p => pauliInt2Str p.gamma)), (m.monomial.filter (fun p => p.gamma ≠ 0)).map (·.alpha))

/-- `set.add`.  Monomials are compared by their Paulis (pauli.py:147-158). -/
def setAdd (s : List SMono) (t : SMono) : List SMono :=
  if s.any (fun u => u.monomial.map (fun p => (p.alpha, p.gamma)) = t.monomial.map (fun p => (p.alpha, p.gamma))) then s else s ++ [t]

open Classical in
/-- opt_tools.py:962-968: the loop over the terms of the next generator.  `comm.coeff.args[0]` is the number in front of the symbols. -/
noncomputable def bchInner (ti : SMono) : List SMono → List SMono → Py (List SMono)
  | [], acc => .ok acc
  | tj :: ts, acc => do
    let comm ← ti.commutator tj
    let comm := { comm with coeff := comm.coeff.mul (Sym.const 0.5) }
    if comm.coeff.c = 0 then bchInner ti ts acc
    else if isCloseTo ‖comm.coeff.c‖ 0 1e-8 then bchInner ti ts acc
    else bchInner ti ts (setAdd acc comm)

/-- opt_tools.py:959-968: the loop over the terms collected so far. -/
noncomputable def bchOuter (ord : SetOrder SMono) (next : List SMono) : List SMono → List SMono → Py (List SMono)
  | [], acc => .ok acc
  | ti :: ts, acc => do
    let acc' ← bchInner ti (ord.run next) (setAdd acc ti)
    bchOuter ord next ts acc'

/-- opt_tools.py:957-969: one pass of the loop over `i`: the new value of `bch_terms[i + 1]`. -/
noncomputable def bchRound (ord : SetOrder SMono) (cur next : List SMono) : Py (List SMono) := do
  let new ← bchOuter ord next (ord.run cur) []
  .ok ((ord.run new).foldl setAdd next)

/-- opt_tools.py:952-954: the generators. -/
noncomputable def v2Circuit : List SMono :=
  [SMono.new [⟨0, 1, (Sym.const (-Complex.I)).mul (.symbol 0)⟩, ⟨1, 0, .const 1⟩],
   SMono.new [⟨0, 0, .const 1⟩, ⟨1, 1, (Sym.const (-Complex.I)).mul (.symbol 1)⟩],
   SMono.new [⟨0, 3, (Sym.const (-Complex.I)).mul (.symbol 2)⟩, ⟨1, 3, .const 1⟩]]

/-- opt_tools.py:955-969: the loop over the generators after the first; `cur` is `bch_terms[i]`. -/
noncomputable def bchLoop (ord : SetOrder SMono) : List SMono → List SMono → Py (List SMono)
  | [], cur => .ok cur
  | g :: gs, cur => do
    let next ← bchRound ord cur (setAdd [] g)
    bchLoop ord gs next

/-- opt_tools.py:952-975: `lie_algebra_vector` with `lie_algebra_polynomial`. -/
noncomputable def v2Terms (ord : SetOrder SMono) : Py (List (Key × Sym)) :=
  match v2Circuit with
  | [] => .ok []
  | g :: gs => do
    let ts ← bchLoop ord gs (setAdd [] g)
    .ok ((ord.run ts).map (fun t => (t.toOranssi, t.coeff)))

/-- The attributes of a `ZassenhausLayerV2` that its calls read or write. -/
structure ZassV2Layer (n : ℕ) where
  eta : ℝ
  su2 : Algebra n
  su4 : Algebra n
  su8 : Algebra8 n
  observables : List Obs
  observablesFull : List (Matrix (Fin (2 ^ n)) (Fin (2 ^ n)) ℂ)
  check : Bool
  trotterize : Bool
  terms : List (Key × Sym)
  /-- written, and printed, but not read -/
  params : Fin 3 → ℝ

/-- opt_tools.py:897-976 `ZassenhausLayerV2.__init__`. -/
noncomputable def zassV2Layer (ord : SetOrder SMono) (n : ℕ) (observables : List Obs) (args : LayerArgs) (addSu2 : Bool := false) (addSu4 : Bool := false) :
    Py (ZassV2Layer n) := do
  let _ ← promoteAll n observables
  let eta ← validateEta (args.eta.getD (.float 0.1))
  let l8 ← algebraSU8 n addSu2 addSu4
  let obsFull ← promoteAll n observables
  let check ← validateBool (args.unitaryErrorCheck.getD (.bool false))
  let trotterize ← validateBool (args.trotterize.getD (.bool false))
  let a2 ← (algebraSU2 n).getAll
  let a4 ← (algebraSU4 n addSu2).getAll
  let a8 ← l8.getAll
  let terms ← v2Terms ord
  .ok { eta := eta, su2 := a2, su4 := a4, su8 := a8, observables := observables, observablesFull := obsFull, check := check,
        trotterize := trotterize, terms := terms, params := ![0.1, 1.2, 0.6] }

/-- opt_tools.py:982-987: the operator of a term. -/
noncomputable def ZassV2Layer.lookup {n : ℕ} (L : ZassV2Layer n) (k : Key) : Py (Matrix (Fin (2 ^ n)) (Fin (2 ^ n)) ℂ) :=
  if k.1.toList.length = 1 then dictGet L.su2.fullPaulis k
  else if k.1.toList.length = 2 then dictGet L.su4.fullPaulis k
  else dictGet L.su8.fullPaulis k

/-- opt_tools.py:979-990: the gradients along the terms. -/
noncomputable def ZassV2Layer.omegas {n : ℕ} (L : ZassV2Layer n) (U : Matrix (Fin (2 ^ n)) (Fin (2 ^ n)) ℂ) : Py (List ℝ) :=
  L.terms.mapM (fun t => do
    let p ← L.lookup t.1
    .ok (omegaSum (stateFromUnitary U) L.observablesFull p))

/-- opt_tools.py:991-997: the function `cost`, for the gradients `ws`. -/
noncomputable def ZassV2Layer.misfit {n : ℕ} (L : ZassV2Layer n) (ws : List ℝ) (x : Fin 3 → ℝ) : ℝ :=
  (List.zipWith (fun t w => (t.2.eval x - ((L.eta : ℝ) : ℂ) * Complex.I * ((w : ℝ) : ℂ)).im ^ 2) L.terms ws).sum / (L.terms.length : ℝ)

/-- The type of `scipy.optimize.minimize(cost, x0, method='Nelder-Mead').x`. -/
abbrev NelderMead := ((Fin 3 → ℝ) → ℝ) → (Fin 3 → ℝ) → (Fin 3 → ℝ)

/-- opt_tools.py:1003-1011 `circuit(params)`: the gates in the order in which they are applied. -/
noncomputable def v2Gates (x : Fin 3 → ℝ) : List (NpMat × List ℤ) :=
  [(⟨2, 2, (Spec.hadamard : Matrix (Fin (2 ^ 1)) (Fin (2 ^ 1)) ℂ)⟩, [0]), (⟨2, 2, (Spec.hadamard : Matrix (Fin (2 ^ 1)) (Fin (2 ^ 1)) ℂ)⟩, [1]),
   rotGate (x 0) "X" [0], rotGate (x 1) "X" [1], (⟨2 ^ 2, 2 ^ 2, Spec.cnot⟩, [0, 1]), rotGate (x 2) "Z" [1], (⟨2 ^ 2, 2 ^ 2, Spec.cnot⟩, [0, 1])]

/-- opt_tools.py:977-1018 `ZassenhausLayerV2.__call__(circuit_unitary)`: the new circuit and the layer's new state. -/
noncomputable def ZassV2Layer.call {n : ℕ} (nm : NelderMead) (L : ZassV2Layer n) (U : Matrix (Fin (2 ^ n)) (Fin (2 ^ n)) ℂ) :
    Py (Matrix (Fin (2 ^ n)) (Fin (2 ^ n)) ℂ × ZassV2Layer n) := do
  let ws ← L.omegas U
  let x := nm (L.misfit ws) ![0.1, 0.2, 0.3]
  let V ← compileLoop n (v2Gates x) 1
  .ok (V, { L with params := L.params + x })

/-- optimizers.py:339-348: `k` steps of the loop with this layer alone; costs, returned lists and early stopping are left out. -/
noncomputable def v2Run {n : ℕ} (nm : NelderMead) : ℕ → ZassV2Layer n → Matrix (Fin (2 ^ n)) (Fin (2 ^ n)) ℂ →
    Py (Matrix (Fin (2 ^ n)) (Fin (2 ^ n)) ℂ × ZassV2Layer n)
  | 0, L, U => .ok (U, L)
  | k + 1, L, U => do
    let r ← v2Run nm k L U
    r.2.call nm r.1

end Oranssi
