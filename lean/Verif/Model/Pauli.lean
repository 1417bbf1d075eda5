import Mathlib.Data.Complex.Basic
import Mathlib.Analysis.Complex.Norm
import Verif.Model.Py

/-! # Model of oranssi/pauli.py

Simplifications: coefficients are exact complex numbers (sympy symbols are not modelled); a `Pauli` inside a monomial is a
value (no two monomials share a `Pauli` object; `PauliMonomial.__mul__` itself takes care of that, pauli.py:137);
`PauliMonomial` objects live at addresses of an explicit heap wherever the code mutates or shares them (`PauliSum`). -/

namespace Oranssi

/-- pauli.py:13-37, the attributes of a `Pauli`: site `alpha`, index `gamma` and coefficient. -/
structure Pauli where
  alpha : ℕ
  gamma : Fin 4
  coeff : ℂ

instance : Inhabited Pauli := ⟨⟨0, 0, 1⟩⟩

/-- pauli.py:8 `pauli_idx_str2int_map`. -/
def pauliStr2Int (s : String) : Option (Fin 4) :=
  if s = "I" then some 0 else if s = "X" then some 1 else if s = "Y" then some 2 else if s = "Z" then some 3 else none

/-- pauli.py:9-10 `pauli_idx_int2str_map`. -/
def pauliInt2Str (g : Fin 4) : Char := ['I', 'X', 'Y', 'Z'].get g

/-- pauli.py:14-37 `Pauli.__init__`; `gamma` is an integer or a string. -/
def Pauli.new (alpha : ℤ) (gamma : ℤ ⊕ String) (coeff : ℂ) : Py Pauli := do
  pyAssert (0 ≤ alpha)
  match gamma with
  | .inr s =>
    match pauliStr2Int s with
    | some g => .ok ⟨alpha.toNat, g, coeff⟩
    | none => .error .assertion
  | .inl g =>
    if h : 0 ≤ g ∧ g < 4 then .ok ⟨alpha.toNat, ⟨g.toNat, by omega⟩, coeff⟩
    else .error .assertion

/-- pauli.py:7 `levicevita`. -/
noncomputable def leviCivita (i j k : ℤ) : ℂ := (((i - j) * (j - k) * (k - i) : ℤ) : ℂ) / 2

/-- pauli.py:38-55 `Pauli.__mul__`. -/
noncomputable def Pauli.mul (p q : Pauli) : Py Pauli := do
  pyAssert (p.alpha = q.alpha)
  if p.gamma = q.gamma then .ok ⟨p.alpha, 0, p.coeff * q.coeff⟩
  else if p.gamma = 0 then .ok ⟨p.alpha, q.gamma, p.coeff * q.coeff⟩
  else if q.gamma = 0 then .ok ⟨p.alpha, p.gamma, p.coeff * q.coeff⟩
  else do
    let newGamma ← pyGetItem (([1, 2, 3] : List (Fin 4)).filter (fun x => x ∉ [p.gamma, q.gamma])) 0
    .ok ⟨p.alpha, newGamma, Complex.I * leviCivita p.gamma q.gamma newGamma * p.coeff * q.coeff⟩

/-- pauli.py:57-60 `Pauli.__eq__`. -/
def Pauli.eqv (p q : Pauli) : Bool := p.alpha = q.alpha && p.gamma = q.gamma

/-- pauli.py:93-96 `Pauli.conj` (in place; the result is the new value). -/
def Pauli.conj (p : Pauli) : Pauli := { p with coeff := star p.coeff }

/-- pauli.py:75-83 `Pauli.__repr__(coeff=False)`. -/
def Pauli.reprBare (p : Pauli) : String := s!"S({p.alpha},{p.gamma.val})"

open Classical in
/-- pauli.py:75-83 `Pauli.__repr__`, `fmt` being Python's formatting of complex numbers. -/
noncomputable def Pauli.repr (fmt : ℂ → String) (p : Pauli) : String :=
  if p.coeff = 1 then p.reprBare else fmt p.coeff ++ " * " ++ p.reprBare

/-- pauli.py:85-87 `Pauli.__hash__`: Python's `hash` of the representation. -/
noncomputable def Pauli.hash (fmt : ℂ → String) (pyHash : String → ℤ) (p : Pauli) : ℤ := pyHash (p.repr fmt)

/-- pauli.py:99-118, the attributes of a `PauliMonomial`; `locations` (set once in the constructor) is derived. -/
structure Mono where
  monomial : List Pauli
  coeff : ℂ

/-- pauli.py:115 `self.locations`. -/
def Mono.locations (m : Mono) : List ℕ := m.monomial.map (·.alpha)

/-- pauli.py:100-118 `PauliMonomial.__init__`: stable sort by site, reject repeated sites, total coefficient. -/
noncomputable def Mono.new (ps : List Pauli) : Py Mono := do
  let ps := ps.mergeSort (fun p q => p.alpha ≤ q.alpha)
  pyAssert ((ps.map (·.alpha)).Nodup)
  .ok ⟨ps, (ps.map (·.coeff)).prod⟩

/-- pauli.py:136, 139, 142 `self[self.locations.index(i)]`. -/
def Mono.atSite (m : Mono) (i : ℕ) : Py Pauli :=
  match m.monomial.find? (fun p => p.alpha = i) with
  | some p => .ok p
  | none => .error .value

/-- The unknown iteration order of a Python set: any function that permutes the elements. -/
structure SetOrder (α : Type) where
  run : List α → List α
  perm : ∀ l, (run l).Perm l

/-- pauli.py:124-145 `PauliMonomial.__mul__`. -/
noncomputable def Mono.mul (ord : SetOrder ℕ) (a b : Mono) : Py Mono := do
  let common := a.locations.filter (· ∈ b.locations)
  let ua := a.locations.filter (· ∉ common)
  let ub := b.locations.filter (· ∉ common)
  let l1 ← (ord.run common).mapM (fun i => do
    let p ← a.atSite i
    let q ← b.atSite i
    p.mul q)
  let l2 ← (ord.run ua).mapM (fun j => do
    let p ← a.atSite j
    Pauli.new p.alpha (.inl p.gamma) p.coeff)
  let l3 ← (ord.run ub).mapM (fun k => do
    let p ← b.atSite k
    Pauli.new p.alpha (.inl p.gamma) p.coeff)
  Mono.new (l1 ++ l2 ++ l3)

/-- numpy's `np.isreal`. -/
noncomputable def isReal (z : ℂ) : Bool := decide (z.im = 0)

/-- pauli.py:154-158, the comparison when the lengths agree. -/
noncomputable def Mono.eqCore (a b : Mono) : Bool :=
  if (isReal a.coeff && isReal b.coeff) || (!isReal a.coeff && !isReal b.coeff) then
    (a.monomial.zip b.monomial).all (fun pq => pq.1.eqv pq.2)
  else false

/-- pauli.py:147-158 `PauliMonomial.__eq__`. -/
noncomputable def Mono.eq (a b : Mono) : Py Bool :=
  if a.monomial.length ≠ b.monomial.length then .error .assertion else .ok (a.eqCore b)

/-- Python's `<` on lists of small integers. -/
def listLt : List (Fin 4) → List (Fin 4) → Bool
  | [], [] => false
  | [], _ :: _ => true
  | _ :: _, [] => false
  | x :: xs, y :: ys => if x < y then true else if x = y then listLt xs ys else false

/-- pauli.py:163-186 `PauliMonomial.__lt__`. -/
noncomputable def Mono.lt (a b : Mono) : Bool :=
  let ga := a.monomial.map (·.gamma)
  let gb := b.monomial.map (·.gamma)
  if ga = gb then
    if !isReal a.coeff && isReal b.coeff then true
    else if isReal a.coeff && !isReal b.coeff then true
    else decide (a.coeff.re + a.coeff.im < b.coeff.re + b.coeff.im)
  else listLt ga gb

/-- pauli.py:195-203, the representation without the coefficient. -/
def Mono.reprBare (m : Mono) : String := " ".intercalate (m.monomial.map Pauli.reprBare)

/-- pauli.py:205-208 `PauliMonomial.__hash__`. -/
noncomputable def Mono.hash (pyHash : String → ℤ) (m : Mono) : ℤ :=
  pyHash ((if isReal m.coeff then "re" else "im") ++ m.reprBare)

/-- pauli.py:217-221 `PauliMonomial.conj` (in place; the result is the new value): the Paulis are conjugated, the
attribute `coeff` is left alone. -/
def Mono.conj (m : Mono) : Mono := { m with monomial := m.monomial.map Pauli.conj }

open Classical in
/-- pauli.py:223-232 `PauliMonomial.commutes_with`. -/
noncomputable def Mono.commutesWith (ord : SetOrder ℕ) (a b : Mono) : Py Bool := do
  let l ← a.mul ord b
  let r ← b.mul ord a
  .ok (decide (r.coeff = l.coeff))

/-- pauli.py:234-243 `PauliMonomial.commutator`. -/
noncomputable def Mono.commutator (ord : SetOrder ℕ) (a b : Mono) : Py Mono := do
  let l ← a.mul ord b
  let r ← b.mul ord a
  .ok { l with coeff := l.coeff - r.coeff }

/-- pauli.py:245-248 `PauliMonomial.to_oranssi`: the key `(direction, *qubits)`. -/
def Mono.toOranssi (m : Mono) : String × List ℕ :=
  (String.ofList ((m.monomial.filter (·.gamma ≠ 0)).map (fun p => pauliInt2Str p.gamma)),
    (m.monomial.filter (·.gamma ≠ 0)).map (·.alpha))

/-- opt_tools.py:787-789 `PauliMonomial([Pauli(loc, pauli) for pauli, loc in zip(k[0], k[1:])])`. -/
noncomputable def monoOfKey (k : String × List ℕ) : Py Mono := do
  let ps ← (k.1.toList.zip k.2).mapM (fun cl => Pauli.new cl.2 (.inr (String.singleton cl.1)) 1)
  Mono.new ps

/-! ### PauliSum -/

/-- The heap of `PauliMonomial` objects; addresses below `next` are in use. -/
structure Heap where
  get : ℕ → Mono
  next : ℕ

/-- Assign the attribute `coeff` of the object at address `a`. -/
def Heap.setCoeff (h : Heap) (a : ℕ) (c : ℂ) : Heap :=
  { h with get := fun b => if b = a then { h.get a with coeff := c } else h.get b }

/-- Create an object. -/
def Heap.alloc (h : Heap) (m : Mono) : Heap × ℕ :=
  (⟨fun b => if b = h.next then m else h.get b, h.next + 1⟩, h.next)

/-- `==` of the objects at two addresses.  All monomials of a `PauliSum` have one length (pauli.py:258), so `==` does not
raise there. -/
noncomputable def Heap.eqv (h : Heap) (a b : ℕ) : Bool := (h.get a).eqCore (h.get b)

/-- Building a Python set from a list: an element equal to one already present is not added. -/
def pySetOf {α : Type} (eq : α → α → Bool) (l : List α) : List α :=
  l.foldl (fun acc a => if acc.any (fun b => eq b a) then acc else acc ++ [a]) []

/-- pauli.py:276-286, the body of the loop of `simplify` for one duplicate. -/
noncomputable def simplifyStep (h : Heap) (ps : List ℕ) (dup : ℕ) : Py (Heap × List ℕ) := do
  let removeIdx : List ℕ := (ps.zipIdx.filter (fun aj => h.eqv aj.1 dup)).map (·.2)
  let coeff := ((ps.filter (fun a => h.eqv a dup)).map (fun a => (h.get a).coeff)).sum
  let ps' := if removeIdx.length > 1 then (ps.zipIdx.filter (fun aj => aj.2 ∉ removeIdx.tail)).map (·.1) else ps
  let j0 ← pyGetItem removeIdx 0
  let a0 ← pyGetItem ps' (j0 : ℤ)
  .ok (h.setCoeff a0 coeff, ps')

/-- pauli.py:275-286, the loop of `simplify`. -/
noncomputable def simplifyLoop : List ℕ → Heap → List ℕ → Py (Heap × List ℕ)
  | [], h, ps => .ok (h, ps)
  | d :: ds, h, ps => do
    let (h', ps') ← simplifyStep h ps d
    simplifyLoop ds h' ps'

/-- pauli.py:287 `~np.isclose(ps.coeff, 0.0)` (absolute tolerance 1e-8, the relative part vanishes). -/
noncomputable def keepCoeff (c : ℂ) : Bool := !decide (‖c‖ ≤ 1 / 10 ^ 8)

/-- pauli.py:270 the set of duplicated monomials. -/
noncomputable def duplicates (h : Heap) (ps : List ℕ) : List ℕ :=
  pySetOf h.eqv (ps.filter (fun i => ps.countP (fun b => h.eqv b i) > 1))

/-- pauli.py:269-287 `PauliSum.simplify`. -/
noncomputable def simplify (ord : SetOrder ℕ) (h : Heap) (ps : List ℕ) : Py (Heap × List ℕ) := do
  let dups := duplicates h ps
  if dups.length = 0 then .ok (h, ps)
  else do
    let (h', ps') ← simplifyLoop (ord.run dups) h ps
    .ok (h', ps'.filter (fun a => keepCoeff (h'.get a).coeff))

/-- pauli.py:251-263 `PauliSum.__init__`; a `PauliSum` is its list `pauli_sum` of addresses. -/
noncomputable def PauliSum.new (ord : SetOrder ℕ) (h : Heap) (ps : List ℕ) : Py (Heap × List ℕ) := do
  pyAssert (∀ a ∈ ps, (h.get a).monomial.length = (h.get (ps.headD 0)).monomial.length)
  simplify ord h ps

/-- pauli.py:299-302 `PauliSum.__add__`: the lists are copied, the monomials are shared. -/
noncomputable def PauliSum.add (ord : SetOrder ℕ) (h : Heap) (a b : List ℕ) : Py (Heap × List ℕ) :=
  PauliSum.new ord h (a ++ b)

/-- pauli.py:311-314 `PauliSum.scalar_mul`, in place on every listed object (an object listed twice is scaled twice). -/
noncomputable def PauliSum.scalarMul (h : Heap) (ps : List ℕ) (s : ℂ) : Heap :=
  ps.foldl (fun h a => h.setCoeff a ((h.get a).coeff * s)) h

/-- pauli.py:304-309 `PauliSum.__sub__`: `copy.copy(other)` is shallow, so `scalar_mul(-1)` acts on `other`'s own
monomials. -/
noncomputable def PauliSum.sub (ord : SetOrder ℕ) (h : Heap) (a b : List ℕ) : Py (Heap × List ℕ) :=
  PauliSum.new ord (PauliSum.scalarMul h b (-1)) (a ++ b)

/-- pauli.py:293-296, the double loop of `PauliSum.__mul__`, over the list of pairs. -/
noncomputable def mulLoop (ord : SetOrder ℕ) : List (ℕ × ℕ) → Heap → List ℕ → Py (Heap × List ℕ)
  | [], h, acc => .ok (h, acc)
  | (i, j) :: rest, h, acc => do
    let m ← (h.get i).mul ord (h.get j)
    let (h', addr) := h.alloc m
    mulLoop ord rest h' (acc ++ [addr])

/-- pauli.py:291-297 `PauliSum.__mul__`. -/
noncomputable def PauliSum.mul (ord : SetOrder ℕ) (h : Heap) (a b : List ℕ) : Py (Heap × List ℕ) := do
  let (h', ps) ← mulLoop ord (a.flatMap (fun i => b.map (fun j => (i, j)))) h []
  PauliSum.new ord h' ps

end Oranssi
