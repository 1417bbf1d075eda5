import Verif.Model.ZassenhausV2
import Verif.Lemmas.PauliOp

/-! # The terms of `ZassenhausLayerV2` -/

namespace Oranssi

theorem sym_ext {a b : Sym} (h1 : a.c = b.c) (h2 : a.e = b.e) : a = b := by
  cases a; cases b; simp_all

/-- The generators and the halves of their commutators. -/
noncomputable def v2A : SMono := SMono.new [⟨0, 1, (Sym.const (-Complex.I)).mul (.symbol 0)⟩, ⟨1, 0, .const 1⟩]
noncomputable def v2B : SMono := SMono.new [⟨0, 0, .const 1⟩, ⟨1, 1, (Sym.const (-Complex.I)).mul (.symbol 1)⟩]
noncomputable def v2C : SMono := SMono.new [⟨0, 3, (Sym.const (-Complex.I)).mul (.symbol 2)⟩, ⟨1, 3, .const 1⟩]

theorem levi132 : leviCivita (1 : Fin 4) (3 : Fin 4) (2 : Fin 4) = -1 := by
  rw [leviCivita]; norm_num

theorem levi312 : leviCivita (3 : Fin 4) (1 : Fin 4) (2 : Fin 4) = 1 := by
  rw [leviCivita]; norm_num

theorem comm_AB : ∃ m, v2A.commutator v2B = .ok m ∧ m.coeff.c = 0 := by
  simp [SMono.commutator, SMono.mul, SPauli.mul, v2A, v2B, SMono.new, pyAssert, Sym.mul, Sym.const, Sym.symbol, Sym.sub, bind, Except.bind, pure, Except.pure]

theorem other13 : pyGetItem (([1, 2, 3] : List (Fin 4)).filter (fun x => x ∉ [(1 : Fin 4), 3])) 0 = .ok 2 := rfl
theorem other31 : pyGetItem (([1, 2, 3] : List (Fin 4)).filter (fun x => x ∉ [(3 : Fin 4), 1])) 0 = .ok 2 := rfl

/-- A monomial of the given Paulis whose coefficient is half that of the commutator. -/
structure IsHalf (m : SMono) (word : List (ℕ × Fin 4)) (c : Sym) : Prop where
  word : m.monomial.map (fun p => (p.alpha, p.gamma)) = word
  coeff : m.coeff.mul (Sym.const 0.5) = c

theorem comm_AC : ∃ m, v2A.commutator v2C = .ok m ∧ IsHalf m [(0, 2), (1, 3)] ⟨Complex.I, Pi.single 0 1 + Pi.single 2 1⟩ := by
  have e1 : v2A.mul v2C = .ok (SMono.new [⟨0, 2, ((Sym.const (Complex.I * leviCivita (1 : Fin 4) (3 : Fin 4) (2 : Fin 4))).mul ((Sym.const (-Complex.I)).mul (.symbol 0))).mul
      ((Sym.const (-Complex.I)).mul (.symbol 2))⟩, ⟨1, 3, (Sym.const 1).mul (Sym.const 1)⟩]) := rfl
  have e2 : v2C.mul v2A = .ok (SMono.new [⟨0, 2, ((Sym.const (Complex.I * leviCivita (3 : Fin 4) (1 : Fin 4) (2 : Fin 4))).mul ((Sym.const (-Complex.I)).mul (.symbol 2))).mul
      ((Sym.const (-Complex.I)).mul (.symbol 0))⟩, ⟨1, 3, (Sym.const 1).mul (Sym.const 1)⟩]) := rfl
  rw [SMono.commutator, e1, e2, levi132, levi312]
  simp only [bind, Except.bind, SMono.new, List.foldl, Sym.mul, Sym.const, Sym.symbol, Sym.sub, zero_add, add_zero]
  rw [if_pos (by rw [add_comm])]
  refine ⟨_, rfl, ⟨rfl, ?_⟩⟩
  refine sym_ext ?_ ?_
  · simp only [Sym.mul, Sym.const]
    linear_combination (-Complex.I) * Complex.I_mul_I
  · simp [Sym.mul, Sym.const]

theorem comm_BC : ∃ m, v2B.commutator v2C = .ok m ∧ IsHalf m [(0, 3), (1, 2)] ⟨Complex.I, Pi.single 1 1 + Pi.single 2 1⟩ := by
  have e1 : v2B.mul v2C = .ok (SMono.new [⟨0, 3, (Sym.const 1).mul ((Sym.const (-Complex.I)).mul (.symbol 2))⟩,
      ⟨1, 2, ((Sym.const (Complex.I * leviCivita (1 : Fin 4) (3 : Fin 4) (2 : Fin 4))).mul ((Sym.const (-Complex.I)).mul (.symbol 1))).mul (Sym.const 1)⟩]) := rfl
  have e2 : v2C.mul v2B = .ok (SMono.new [⟨0, 3, ((Sym.const (-Complex.I)).mul (.symbol 2)).mul (Sym.const 1)⟩,
      ⟨1, 2, ((Sym.const (Complex.I * leviCivita (3 : Fin 4) (1 : Fin 4) (2 : Fin 4))).mul (Sym.const 1)).mul ((Sym.const (-Complex.I)).mul (.symbol 1))⟩]) := rfl
  rw [SMono.commutator, e1, e2, levi132, levi312]
  simp only [bind, Except.bind, SMono.new, List.foldl, Sym.mul, Sym.const, Sym.symbol, Sym.sub, zero_add, add_zero]
  rw [if_true]
  refine ⟨_, rfl, ⟨rfl, ?_⟩⟩
  refine sym_ext ?_ ?_
  · simp only [Sym.mul, Sym.const]
    linear_combination (-Complex.I) * Complex.I_mul_I
  · simp [Sym.mul, Sym.const, add_comm]

/-- The Paulis of a monomial. -/
def SMono.word (m : SMono) : List (ℕ × Fin 4) := m.monomial.map (fun p => (p.alpha, p.gamma))

theorem setAdd_new {s : List SMono} {t : SMono} (h : t.word ∉ s.map SMono.word) : setAdd s t = s ++ [t] := by
  rw [setAdd, if_neg]
  simp only [List.any_eq_true, not_exists, not_and, decide_eq_true_eq]
  intro u hu e
  exact h (List.mem_map.2 ⟨u, hu, e⟩)

theorem foldl_setAdd : ∀ (l s : List SMono), (s.map SMono.word ++ l.map SMono.word).Nodup → l.foldl setAdd s = s ++ l
  | [], s, _ => by simp
  | t :: l, s, h => by
    have h1 : t.word ∉ s.map SMono.word := fun hm => by
      have := (List.nodup_append.1 h).2.2 _ hm t.word (by simp)
      exact this rfl
    rw [List.foldl_cons, setAdd_new h1, foldl_setAdd l _ (by simpa using h)]
    simp

theorem bchInner_comm {ti tj m : SMono} (h : ti.commutator tj = .ok m) {acc : List SMono} {word : List (ℕ × Fin 4)} {c : Sym} (hm : IsHalf m word c) (hc : ‖c.c‖ = 1) :
    bchInner ti [tj] acc = .ok (setAdd acc { m with coeff := c }) := by
  rw [bchInner, h]
  simp only [bind, Except.bind]
  rw [hm.coeff, if_neg (by intro h0; rw [h0] at hc; simp at hc), if_neg, bchInner]
  rw [hc, isCloseTo]
  norm_num

theorem bchInner_zero {ti tj m : SMono} (h : ti.commutator tj = .ok m) {acc : List SMono} (hm : m.coeff.c = 0) : bchInner ti [tj] acc = .ok acc := by
  rw [bchInner, h]
  simp only [bind, Except.bind]
  rw [if_pos (by simp [Sym.mul, hm]), bchInner]

theorem run_one (ord : SetOrder SMono) (t : SMono) : ord.run [t] = [t] := List.perm_singleton.1 (ord.perm [t])

theorem toOranssi_word (t : SMono) : t.toOranssi = (String.ofList ((t.word.filter (fun p => p.2 ≠ 0)).map (fun p => pauliInt2Str p.2)), (t.word.filter (fun p => p.2 ≠ 0)).map Prod.fst) := by
  simp only [SMono.toOranssi, SMono.word, List.filter_map, List.map_map]
  rfl

/-- The five terms. -/
noncomputable def v2Five : List (Key × Sym) :=
  [(("ZZ", [0, 1]), ⟨-Complex.I, Pi.single 2 1⟩), (("X", [0]), ⟨-Complex.I, Pi.single 0 1⟩), (("X", [1]), ⟨-Complex.I, Pi.single 1 1⟩),
   (("YZ", [0, 1]), ⟨Complex.I, Pi.single 0 1 + Pi.single 2 1⟩), (("ZY", [0, 1]), ⟨Complex.I, Pi.single 1 1 + Pi.single 2 1⟩)]

theorem v2Terms_perm (ord : SetOrder SMono) : ∃ l, v2Terms ord = .ok l ∧ l.Perm v2Five := by
  obtain ⟨m0, h0, hz⟩ := comm_AB
  obtain ⟨m1, h1, hw1⟩ := comm_AC
  obtain ⟨m2, h2, hw2⟩ := comm_BC
  have e : v2Circuit = [v2A, v2B, v2C] := rfl
  have hA : v2A.word = [(0, 1), (1, 0)] := rfl
  have hB : v2B.word = [(0, 0), (1, 1)] := rfl
  have hC : v2C.word = [(0, 3), (1, 3)] := rfl
  set D : SMono := { m1 with coeff := ⟨Complex.I, Pi.single 0 1 + Pi.single 2 1⟩ } with hDdef
  set F : SMono := { m2 with coeff := ⟨Complex.I, Pi.single 1 1 + Pi.single 2 1⟩ } with hFdef
  have hD : D.word = [(0, 2), (1, 3)] := hw1.word
  have hF : F.word = [(0, 3), (1, 2)] := hw2.word
  have r1 : bchRound ord [v2A] [v2B] = .ok [v2B, v2A] := by
    rw [bchRound, run_one, bchOuter, run_one, bchInner_zero h0 hz]
    simp only [bind, Except.bind]
    rw [bchOuter, setAdd_new (by simp)]
    dsimp only
    rw [List.nil_append, run_one, List.foldl_cons, List.foldl_nil, setAdd_new (by simp [hA, hB])]
    rfl
  have r2 : ∃ l, bchRound ord [v2B, v2A] [v2C] = .ok ([v2C] ++ l) ∧ l.Perm [v2A, v2B, D, F] := by
    have hin1 : ∀ acc, bchInner v2A [v2C] acc = .ok (setAdd acc D) := fun acc => bchInner_comm h1 hw1 (by simp)
    have hin2 : ∀ acc, bchInner v2B [v2C] acc = .ok (setAdd acc F) := fun acc => bchInner_comm h2 hw2 (by simp)
    have hnew : ∃ new, bchOuter ord [v2C] (ord.run [v2B, v2A]) [] = .ok new ∧ new.Perm [v2A, v2B, D, F] := by
      rcases List.perm_pair.1 (ord.perm [v2B, v2A]) with h | h
      · rw [h, bchOuter, run_one, hin2]
        simp only [bind, Except.bind]
        rw [bchOuter, run_one, hin1]
        simp only [bind, Except.bind]
        rw [bchOuter, setAdd_new (s := []) (by simp), setAdd_new (t := F) (by simp [hB, hF]), setAdd_new (t := v2A) (by simp [hA, hB, hF]),
          setAdd_new (t := D) (by simp [hA, hB, hF, hD])]
        refine ⟨_, rfl, ?_⟩
        simp only [List.nil_append, List.cons_append]
        exact ((List.Perm.swap F v2B _).trans (((List.Perm.swap v2A v2B _).cons F).trans (List.Perm.swap v2A F _))).trans
          (((List.Perm.swap v2B F _).cons v2A).trans (((List.Perm.swap D F _).cons v2B).cons v2A))
      · rw [h, bchOuter, run_one, hin1]
        simp only [bind, Except.bind]
        rw [bchOuter, run_one, hin2]
        simp only [bind, Except.bind]
        rw [bchOuter, setAdd_new (s := []) (by simp), setAdd_new (t := D) (by simp [hA, hD]), setAdd_new (t := v2B) (by simp [hA, hB, hD]),
          setAdd_new (t := F) (by simp [hA, hB, hF, hD])]
        refine ⟨_, rfl, ?_⟩
        simp only [List.nil_append, List.cons_append]
        exact (List.Perm.swap v2B D _).cons v2A
    obtain ⟨new, hn, hp⟩ := hnew
    rw [bchRound, hn]
    simp only [bind, Except.bind]
    refine ⟨ord.run new, ?_, (ord.perm new).trans hp⟩
    rw [foldl_setAdd]
    have := ((ord.perm new).trans hp).map SMono.word
    refine (List.Perm.nodup_iff (List.Perm.append_left _ this)).2 ?_
    simp [hA, hB, hC, hD, hF]
  obtain ⟨l, r2, hl⟩ := r2
  rw [v2Terms, e]
  dsimp only
  rw [bchLoop, setAdd_new (by simp), setAdd_new (by simp)]
  simp only [bind, Except.bind, List.nil_append]
  rw [r1]
  dsimp only
  rw [bchLoop, setAdd_new (by simp)]
  simp only [bind, Except.bind, List.nil_append]
  rw [r2]
  dsimp only
  rw [bchLoop]
  refine ⟨_, rfl, ?_⟩
  refine ((ord.perm _).map _).trans ?_
  refine ((List.Perm.append_left _ hl).map _).trans ?_
  refine List.Perm.of_eq ?_
  have c0 : v2A.coeff = ⟨-Complex.I, Pi.single 0 1⟩ := sym_ext (by simp [v2A, SMono.new, Sym.mul, Sym.const, Sym.symbol]) (by simp [v2A, SMono.new, Sym.mul, Sym.const, Sym.symbol])
  have c1 : v2B.coeff = ⟨-Complex.I, Pi.single 1 1⟩ := sym_ext (by simp [v2B, SMono.new, Sym.mul, Sym.const, Sym.symbol]) (by simp [v2B, SMono.new, Sym.mul, Sym.const, Sym.symbol])
  have c2 : v2C.coeff = ⟨-Complex.I, Pi.single 2 1⟩ := sym_ext (by simp [v2C, SMono.new, Sym.mul, Sym.const, Sym.symbol]) (by simp [v2C, SMono.new, Sym.mul, Sym.const, Sym.symbol])
  simp only [List.map_append, List.map_cons, List.map_nil, toOranssi_word, hA, hB, hC, hD, hF, c0, c1, c2, v2Five]
  rfl

end Oranssi
