import Verif.Model.Printing
import Verif.Spec.Printing
import Verif.Props.Greedy
import Verif.Props.Tfim
import Verif.Props.CommutatorStepEx

/-! # C145: the table of layers that `approximate_lie_optimizer` prints -/

namespace Oranssi
open Spec

variable {n : ℕ}

theorem dropWhile_spaces (a : ℕ) (s : List Char) (h : s.head? ≠ some ' ') : (List.replicate a ' ' ++ s).dropWhile (· = ' ') = s := by
  induction a with
  | zero =>
    cases s with
    | nil => rfl
    | cons c s => simp only [List.head?_cons, ne_eq, Option.some.injEq] at h; simp [h]
  | succ a ih => rw [List.replicate_succ, List.cons_append, List.dropWhile_cons_of_pos (by simp), ih]

/-- Text that a cell shows as it is: no bar, no space at the ends. -/
structure Plain (s : List Char) : Prop where
  bar : '|' ∉ s
  first : s.head? ≠ some ' '
  last : s.getLast? ≠ some ' '
  ne : s ≠ []

theorem strip_spaces {s : List Char} (h : Plain s) (a b : ℕ) : strip (List.replicate a ' ' ++ s ++ List.replicate b ' ') = s := by
  rw [strip, List.append_assoc, dropWhile_spaces, List.reverse_append, List.reverse_replicate, dropWhile_spaces, List.reverse_reverse]
  · rw [List.head?_reverse]; exact h.last
  · obtain ⟨c, s, rfl⟩ := List.exists_cons_of_ne_nil h.ne
    simpa using h.first

theorem strip_center {s : List Char} (h : Plain s) (w : ℕ) : strip (pyCenter w s) = s := strip_spaces h _ _

theorem strip_center' {s : List Char} (h : Plain s) (w : ℕ) : strip (' ' :: pyCenter w s) = s := by
  have := strip_spaces h ((w - s.length) / 2 + 1) (w - s.length - (w - s.length) / 2)
  rwa [List.replicate_succ] at this

theorem center_bar {s : List Char} (h : '|' ∉ s) (w : ℕ) : '|' ∉ pyCenter w s := by
  simp [pyCenter, h]

theorem center_length (w : ℕ) (s : List Char) : (pyCenter w s).length = max w s.length := by
  simp only [pyCenter, List.length_append, List.length_replicate]
  omega

theorem plain_digits (k : ℕ) : ∀ c ∈ Nat.toDigits 10 k, c ≠ '|' ∧ c ≠ ' ' := by
  intro c hc
  have := Nat.isDigit_of_mem_toDigits (by omega) (by omega) hc
  constructor <;> rintro rfl <;> exact absurd this (by decide)

theorem plain_of {s : List Char} (hne : s ≠ []) (h : ∀ c ∈ s, c ≠ '|' ∧ c ≠ ' ') : Plain s :=
  ⟨fun hc => (h _ hc).1 rfl, fun hc => (h _ (List.mem_of_mem_head? hc)).2 rfl, fun hc => (h _ (List.mem_of_getLast? hc)).2 rfl, hne⟩

theorem plain_int (i : ℤ) : Plain (pyInt i) := by
  rw [pyInt]
  split
  · refine plain_of (by simp) fun c hc => ?_
    rcases List.mem_cons.1 hc with rfl | hc
    · decide
    · exact plain_digits _ c hc
  · exact plain_of Nat.toDigits_ne_nil (plain_digits _)

theorem plain_bool (b : Bool) : Plain (pyBool b) := by
  cases b <;> exact plain_of (by simp [pyBool]) (by simp [pyBool])

theorem plain_su {pre : String} (hb : '|' ∉ pre.toList) (hf : pre.toList.head? ≠ some ' ') (hn : pre.toList ≠ []) (k : ℕ) : Plain (suName pre k) := by
  refine ⟨?_, ?_, ?_, ?_⟩
  · simp only [suName, List.mem_append, not_or]
    exact ⟨hb, by decide, fun hc => (plain_digits _ _ hc).1 rfl, by decide⟩
  · obtain ⟨c, s, h⟩ := List.exists_cons_of_ne_nil hn
    rw [h] at hf
    rw [suName, h]
    simpa using hf
  · rw [suName, ← List.append_assoc, ← List.append_assoc, List.getLast?_append]
    simp
  · simp [suName]

/-- The cells of a row. -/
theorem row_cells {name stride text : List Char} {t : Bool} (h1 : Plain name) (h2 : Plain stride) :
    cells (layerRow name stride t text) =
      [] :: (' ' :: pyCenter 25 name) :: pyCenter 25 stride :: pyCenter 25 (pyBool t) :: cells (" directions -> ".toList ++ text) := by
  have e1 : '|' ∉ (' ' :: pyCenter 25 name) := by
    simp only [List.mem_cons, not_or]; exact ⟨by decide, center_bar h1.bar 25⟩
  have e : layerRow name stride t text = [] ++ '|' :: ((' ' :: pyCenter 25 name) ++ '|' :: (pyCenter 25 stride ++ '|' :: (pyCenter 25 (pyBool t) ++ '|' ::
      (" directions -> ".toList ++ text)))) := by
    simp only [layerRow, rowFormat, List.append_assoc, List.cons_append, List.nil_append]
  rw [cells, e, List.splitOn_append_cons_self_of_not_mem (by simp), List.splitOn_append_cons_self_of_not_mem e1,
    List.splitOn_append_cons_self_of_not_mem (center_bar h2.bar 25), List.splitOn_append_cons_self_of_not_mem (center_bar (plain_bool t).bar 25)]
  rfl

theorem header_cells : ((cells tableHeader).take 4).map List.length = [0, 26, 25, 25] := by
  have e : tableHeader = [] ++ '|' :: ((' ' :: pyCenter 25 "name".toList) ++ '|' :: (pyCenter 25 "stride".toList ++ '|' :: (pyCenter 25 "Trotterize".toList ++ '|' :: []))) := by
    simp only [tableHeader, rowFormat, List.cons_append, List.nil_append]
  have e1 : '|' ∉ (' ' :: pyCenter 25 "name".toList) := by
    simp only [List.mem_cons, not_or]; exact ⟨by decide, center_bar (by decide) 25⟩
  rw [cells, e, List.splitOn_append_cons_self_of_not_mem (by simp), List.splitOn_append_cons_self_of_not_mem e1,
    List.splitOn_append_cons_self_of_not_mem (center_bar (by decide) 25), List.splitOn_append_cons_self_of_not_mem (center_bar (by decide) 25)]
  simp [center_length]

theorem row_aligned {name stride text : List Char} {t : Bool} (h1 : Plain name) (h2 : Plain stride) (hs : stride.length ≤ 25) :
    Aligned (layerRow name stride t text) tableHeader ↔ name.length ≤ 25 := by
  rw [Aligned, header_cells, row_cells h1 h2]
  simp only [List.take_succ_cons, List.take_zero, List.map_cons, List.map_nil, List.length_nil, List.length_cons, center_length]
  have : (pyBool t).length = 1 := by cases t <;> rfl
  rw [this]
  simp
  omega

/-! ### The list of directions -/

theorem join_cons (d e : String) (ds : List String) : pyJoin (d :: e :: ds) = d.toList ++ ',' :: (' ' :: pyJoin (e :: ds)) := by
  simp [pyJoin, List.intercalate]

theorem join_split : ∀ (d : String) (ds : List String), (∀ e ∈ d :: ds, ',' ∉ e.toList) → (pyJoin (d :: ds)).splitOn ',' = d.toList :: ds.map (fun e => ' ' :: e.toList)
  | d, [], h => by
    rw [show pyJoin [d] = d.toList by simp [pyJoin, List.intercalate], List.splitOn_eq_singleton (h d (by simp))]
    rfl
  | d, e :: ds, h => by
    rw [join_cons, List.splitOn_append_cons_self_of_not_mem (h d (by simp)), List.splitOn_cons_eq_if_modifyHead, if_neg (by decide),
      join_split e ds (fun x hx => h x (List.mem_cons_of_mem _ hx))]
    rfl

theorem plain_word {w : List Letter} (hw : w ≠ []) : Plain (letterStr w).toList ∧ ',' ∉ (letterStr w).toList := by
  have h : ∀ c ∈ (letterStr w).toList, c ≠ '|' ∧ c ≠ ' ' ∧ c ≠ ',' := by
    intro c hc
    rw [letterStr, String.toList_ofList, List.mem_map] at hc
    obtain ⟨a, -, rfl⟩ := hc
    cases a <;> decide
  exact ⟨plain_of (by rw [letterStr, String.toList_ofList]; simpa using hw) (fun c hc => ⟨(h c hc).1, (h c hc).2.1⟩), fun hc => (h _ hc).2.2 rfl⟩

theorem join_bar {ds : List String} (h : ∀ d ∈ ds, '|' ∉ d.toList) : '|' ∉ pyJoin ds := by
  induction ds with
  | nil => simp [pyJoin]
  | cons d ds ih =>
    cases ds with
    | nil => simpa [pyJoin, List.intercalate] using h d (by simp)
    | cons e ds =>
      rw [join_cons]
      simp only [List.mem_append, List.mem_cons, not_or]
      exact ⟨h d (by simp), by decide, by decide, ih (fun x hx => h x (List.mem_cons_of_mem _ hx))⟩

theorem read_words {name stride : List Char} {t : Bool} (h1 : Plain name) (h2 : Plain stride) {ws : List (List Letter)} (hw : ∀ w ∈ ws, w ≠ []) (hne : ws ≠ []) :
    readDirections (layerRow name stride t (pyJoin (ws.map letterStr))) = (ws.map letterStr).map String.toList := by
  have hb : '|' ∉ " directions -> ".toList ++ pyJoin (ws.map letterStr) := by
    rw [List.mem_append, not_or]
    refine ⟨by decide, join_bar fun d hd => ?_⟩
    obtain ⟨w, hw', rfl⟩ := List.mem_map.1 hd
    exact (plain_word (hw w hw')).1.bar
  rw [readDirections, row_cells h1 h2]
  simp only [List.getD_cons_succ]
  rw [cells, List.splitOn_eq_singleton hb, List.getD_cons_zero, List.drop_left]
  obtain ⟨w, ws, rfl⟩ := List.exists_cons_of_ne_nil hne
  rw [List.map_cons, join_split]
  · rw [List.map_cons, List.map_map, List.map_cons]
    congr 1
    · have := strip_spaces (plain_word (hw w (by simp))).1 0 0
      simpa using this
    · rw [List.map_map, List.map_map]
      refine List.map_congr_left fun v hv => ?_
      have := strip_spaces (plain_word (hw v (List.mem_cons_of_mem _ hv))).1 1 0
      simpa using this
  · intro e he
    obtain ⟨v, hv, rfl⟩ := List.mem_map.1 (show e ∈ (w :: ws).map letterStr from he)
    exact (plain_word (hw v hv)).2

theorem read_none {name stride : List Char} {t : Bool} (h1 : Plain name) (h2 : Plain stride) :
    readDirections (layerRow name stride t (pyJoin [])) = [[]] := by
  rw [readDirections, row_cells h1 h2]
  simp only [List.getD_cons_succ]
  rw [cells, List.splitOn_eq_singleton (xs := " directions -> ".toList ++ pyJoin []) (by decide), List.getD_cons_zero, List.drop_left]
  simp [pyJoin, strip]

theorem plain_local (k : ℕ) : Plain (suName "Local Lie Algebra Layer " k) := plain_su (by decide) (by decide) (by decide) k

/-! ### What a row says -/

/-- C145: whoever reads the row of a `LocalLieAlgebraLayer` at the bars finds its group, its stride, its flag as a number, and, if it has
any, its directions in their order. -/
theorem C145_reads (gs : List (Gate n)) {locality : ℤ} {args : LayerArgs} {stride : Option ℤ} {D : Option (List String)} {L : LocalLayer n}
    (h : localLayer n (gs.map Gate.obs) locality args stride D = .ok L) :
    ((cells L.repr).take 4).map strip = [[], if locality = 1 then "Local Lie Algebra Layer SU(2)".toList else "Local Lie Algebra Layer SU(4)".toList,
      if L.stride = 0 then ['0'] else ['1'], if L.trotterize then ['1'] else ['0']] ∧
    (L.directions ≠ [] → readDirections L.repr = L.directions.map String.toList) := by
  have hi := localLayer_inv gs h
  obtain ⟨k, e, b, t, hk, hk', -, -, -, h1⟩ := localLayer_ok gs hi
  obtain rfl := Except.ok.inj (h.symm.trans h1)
  constructor
  · rw [LocalLayer.repr, row_cells (plain_local _) (plain_int _)]
    simp only [List.take_succ_cons, List.take_zero, List.map_cons, List.map_nil]
    rw [strip_center' (plain_local _), strip_center (plain_int _), strip_center (plain_bool _)]
    have es : (if k = 2 then stride.getD 0 else 0) = 0 ∨ (if k = 2 then stride.getD 0 else 0) = 1 := by
      rcases hk with rfl | rfl
      · simp
      · rcases hi.loc with hl | ⟨-, -, hl⟩
        · rw [hk'] at hl; exact absurd hl (by decide)
        · simpa using hl
    have e1 : pyInt (if k = 2 then stride.getD 0 else 0) = if (if k = 2 then stride.getD 0 else 0) = 0 then ['0'] else ['1'] := by
      rcases es with es | es <;> rw [es] <;> decide
    have e2 : suName "Local Lie Algebra Layer " (k : ℤ).toNat = if locality = 1 then "Local Lie Algebra Layer SU(2)".toList else "Local Lie Algebra Layer SU(4)".toList := by
      rcases hk with rfl | rfl <;> subst hk' <;> decide
    rw [e1, e2]
    rfl
  · intro hne
    exact read_words (plain_local _) (plain_int _) (fun w hw => by
      have := keptWords_length hw
      rintro rfl
      simp at this; omega) (by simpa using hne)

/-- C145: rows of `LocalLieAlgebraLayer`s tell the layers apart, up to the step size and the unitarity check. -/
theorem C145_faithful (gs : List (Gate n)) {l l' : ℤ} {args args' : LayerArgs} {s s' : Option ℤ} {D D' : Option (List String)} {L L' : LocalLayer n}
    (h : localLayer n (gs.map Gate.obs) l args s D = .ok L) (h' : localLayer n (gs.map Gate.obs) l' args' s' D' = .ok L')
    (he : L.eta = L'.eta) (hc : L.check = L'.check) (hr : L.repr = L'.repr) : L = L' := by
  have r := C145_reads gs h
  have r' := C145_reads gs h'
  have hi := localLayer_inv gs h
  have hi' := localLayer_inv gs h'
  obtain ⟨k, e, b, t, hk, hk1, -, -, -, h1⟩ := localLayer_ok gs hi
  obtain ⟨k', e', b', t', hk', hk1', -, -, -, h1'⟩ := localLayer_ok gs hi'
  have E := Except.ok.inj (h.symm.trans h1)
  have E' := Except.ok.inj (h'.symm.trans h1')
  have q := r.1.symm.trans ((congrArg (fun x => ((cells x).take 4).map strip) hr).trans r'.1)
  simp only [List.cons.injEq, true_and, and_true] at q
  obtain ⟨q1, q2, q3⟩ := q
  have hkk : k = k' := by
    rcases hk with rfl | rfl <;> rcases hk' with rfl | rfl <;> subst hk1 hk1'
    · rfl
    · exact absurd q1 (by decide)
    · exact absurd q1 (by decide)
    · rfl
  subst hkk
  have ht : L.trotterize = L'.trotterize := by
    revert q3
    cases L.trotterize <;> cases L'.trotterize <;> simp
  have hst : L.stride = L'.stride := by
    have a : ∀ {l : ℤ} {a : LayerArgs} {s : Option ℤ} {D : Option (List String)} {M : LocalLayer n}, localLayer n (gs.map Gate.obs) l a s D = .ok M → M.stride = 0 ∨ M.stride = 1 := by
      intro l a s D M hM
      have hi := localLayer_inv gs hM
      obtain ⟨k, e, b, t, hk, hk1, -, -, -, h1⟩ := localLayer_ok gs hi
      rw [Except.ok.inj (hM.symm.trans h1)]
      rcases hk with rfl | rfl
      · simp
      · rcases hi.loc with hl | ⟨-, -, hl⟩
        · rw [hk1] at hl; exact absurd hl (by decide)
        · simpa using hl
    rcases a h with x | x <;> rcases a h' with x' | x' <;> rw [x, x'] at q2 ⊢ <;> simp at q2
  have hd : L.directions = L'.directions := by
    have z : ∀ {l : ℤ} {a : LayerArgs} {s : Option ℤ} {D : Option (List String)} {M : LocalLayer n}, localLayer n (gs.map Gate.obs) l a s D = .ok M →
        M.directions = [] → readDirections M.repr = [[]] := by
      intro l a s D M _ hM
      rw [LocalLayer.repr, hM]
      exact read_none (plain_local _) (plain_int _)
    have ne : ∀ {l : ℤ} {a : LayerArgs} {s : Option ℤ} {D : Option (List String)} {M : LocalLayer n}, localLayer n (gs.map Gate.obs) l a s D = .ok M →
        M.directions ≠ [] → readDirections M.repr ≠ [[]] := by
      intro l a s D M hM hne hc
      have hi := localLayer_inv gs hM
      obtain ⟨k, e, b, t, hk, hk1, -, -, -, h1⟩ := localLayer_ok gs hi
      rw [(C145_reads gs hM).2 hne, Except.ok.inj (hM.symm.trans h1)] at hc
      have m : ([] : List Char) ∈ ((keptWords k D).map letterStr).map String.toList := by
        rw [show ((keptWords k D).map letterStr).map String.toList = [[]] from hc]; simp
      obtain ⟨d, hd, hd0⟩ := List.mem_map.1 m
      obtain ⟨w, hw, rfl⟩ := List.mem_map.1 hd
      have hl := keptWords_length hw
      exact (plain_word (w := w) (by rintro rfl; simp at hl; omega)).1.ne hd0
    by_cases c : L.directions = []
    · by_cases c' : L'.directions = []
      · rw [c, c']
      · exact absurd (hr ▸ z h c) (ne h' c')
    · by_cases c' : L'.directions = []
      · exact absurd (hr.symm ▸ z h' c') (ne h c)
      · have := (r.2 c).symm.trans ((congrArg readDirections hr).trans (r'.2 c'))
        exact (List.map_injective_iff.2 (fun a b hab => String.toList_inj.1 hab)) this
  have hw : keptWords k D = keptWords k D' := by
    rw [E, E'] at hd
    exact (List.map_injective_iff.2 letterStr_injective) hd
  rw [E, E'] at he hc ht hst
  simp only at he hc ht hst
  rw [E, E', he, hc, ht, hst, hw]

/-- A row: two qubits, directions XX and ZY, stride 1. -/
example (g : Gate 2) : ∃ L, localLayer 2 ([g].map Gate.obs) 2 {} (some 1) (some ["ZY", "XX"]) = .ok L ∧
    ((cells L.repr).take 4).map strip = [[], "Local Lie Algebra Layer SU(4)".toList, ['1'], ['0']] ∧ readDirections L.repr = [['X', 'X'], ['Z', 'Y']] := by
  obtain ⟨k, e, b, t, hk, hk2, -, -, ht, h⟩ := localLayer_ok [g] (localOk_default 2 rfl (some ["ZY", "XX"])
    (by rintro _ ⟨⟩; decide) (some 1) (Or.inr rfl))
  have : k = 2 := by exact_mod_cast hk2.symm
  subst this
  obtain rfl : false = t := Except.ok.inj ht
  have hk : (keptWords 2 (some ["ZY", "XX"])).map letterStr = ["XX", "ZY"] := by decide
  obtain ⟨r1, r2⟩ := C145_reads [g] h
  refine ⟨_, h, r1.trans (by simp), (r2 (by simp only [hk]; simp)).trans ?_⟩
  simp only [hk]
  decide

/-- C145, with C32: the two strides are printed, and the rows differ, but the layers act alike. -/
theorem C145_stride (gs : List (Gate n)) (args : LayerArgs) (D : Option (List String)) {L L' : LocalLayer n}
    (h : localLayer n (gs.map Gate.obs) 2 args (some 0) D = .ok L) (h' : localLayer n (gs.map Gate.obs) 2 args (some 1) D = .ok L') :
    L.repr ≠ L'.repr ∧ ∀ (svd : SvdFn n) (U : QMat n), L.call svd U = L'.call svd U := by
  refine ⟨fun hr => ?_, fun svd U => C32_stride_ignored gs 2 args D _ _ L L' h h' svd U⟩
  have q := (C145_reads gs h).1.symm.trans ((congrArg (fun x => ((cells x).take 4).map strip) hr).trans (C145_reads gs h').1)
  obtain ⟨k, e, b, t, hk, hk1, -, -, -, h1⟩ := localLayer_ok gs (localLayer_inv gs h)
  obtain ⟨k', e', b', t', hk', hk1', -, -, -, h1'⟩ := localLayer_ok gs (localLayer_inv gs h')
  have e2 : k = 2 := by exact_mod_cast hk1.symm
  have e2' : k' = 2 := by exact_mod_cast hk1'.symm
  rw [Except.ok.inj (h.symm.trans h1), Except.ok.inj (h'.symm.trans h1')] at q
  simp [e2, e2'] at q

example (g : Gate 2) : ∃ L L', localLayer 2 ([g].map Gate.obs) 2 {} (some 0) none = .ok L ∧ localLayer 2 ([g].map Gate.obs) 2 {} (some 1) none = .ok L' := by
  obtain ⟨_, _, _, _, -, -, -, -, -, h⟩ := localLayer_ok [g] (localOk_default 2 rfl none (by rintro _ ⟨⟩) (some 0) (Or.inl rfl))
  obtain ⟨_, _, _, _, -, -, -, -, -, h'⟩ := localLayer_ok [g] (localOk_default 2 rfl none (by rintro _ ⟨⟩) (some 1) (Or.inr rfl))
  exact ⟨_, _, h, h'⟩

/-- C145: the row of a `SquaredLieAlgebraLayer` is the row of the `StochasticLieAlgebraLayer` made from the same arguments. -/
theorem C145_same (gs : List (Gate n)) {args : LayerArgs} {L : StochasticLayer n} {L' : SquaredLayer n}
    (h : stochasticLayer n (gs.map Gate.obs) args = .ok L) (h' : squaredLayer n (gs.map Gate.obs) args = .ok L') : L.repr = L'.repr := by
  obtain ⟨a, ha, hf, hd, -⟩ := algebraSU4_getAll n
  rw [stochasticLayer, promoteAll_gates] at h
  rw [squaredLayer, promoteAll_gates, ha] at h'
  simp only [bind, Except.bind] at h h'
  cases he : validateEta (args.eta.getD (.float 0.1)) with
  | error x => rw [he] at h; simp at h
  | ok e =>
    cases hb : validateBool (args.unitaryErrorCheck.getD (.bool false)) with
    | error x => rw [he, hb] at h; simp at h
    | ok b =>
      cases ht : validateBool (args.trotterize.getD (.bool false)) with
      | error x => rw [he, hb, ht] at h; simp at h
      | ok t =>
        rw [he, hb, ht] at h h'
        obtain rfl := Except.ok.inj h
        obtain rfl := Except.ok.inj h'
        rw [StochasticLayer.repr, SquaredLayer.repr]
        simp only [hd, (algebraSU4_attrs n true).1, if_true]

example (gs : List (Gate n)) : ∃ L L', stochasticLayer n (gs.map Gate.obs) {} = .ok L ∧ squaredLayer n (gs.map Gate.obs) {} = .ok L' ∧ L.repr = L'.repr := by
  obtain ⟨L, h⟩ := C34_constructs gs
  obtain ⟨L', h'⟩ := squaredLayer_default gs
  exact ⟨L, L', h, h', C145_same gs h h'⟩

theorem rows_at (a b : List Char) : ∀ (layers : List (AnyLayer n)) (j : ℕ), (layers.flatMap (fun l => [a, l.repr, b]))[3 * j + 1]? = (layers[j]?).map AnyLayer.repr
  | [], j => by simp
  | l :: layers, 0 => by simp
  | l :: layers, j + 1 => by
    rw [List.flatMap_cons, show 3 * (j + 1) + 1 = 3 * j + 1 + 1 + 1 + 1 by ring]
    simpa using rows_at a b layers j

/-- C145: below the header the table has one row for every layer, in the order of the list, and nothing else but lines of dashes. -/
theorem C145_table (layers : List (AnyLayer n)) : (layerTable layers)[1]? = some tableHeader ∧
    (∀ j, (layerTable layers)[3 * j + 3]? = (layers[j]?).map AnyLayer.repr) ∧
    (layerTable layers).filter (fun r => r.head? ≠ some '-') = tableHeader :: layers.map AnyLayer.repr := by
  refine ⟨rfl, fun j => ?_, ?_⟩
  · have := rows_at (List.replicate 80 '-') (List.replicate 80 '-') layers j
    rw [layerTable, List.getElem?_append_right (by simp)]
    exact this
  · have hr : ∀ l : AnyLayer n, l.repr.head? = some '|' := fun l => by cases l <;> rfl
    have e : ∀ l : AnyLayer n, [List.replicate 80 '-', l.repr, List.replicate 80 '-'].filter (fun r => decide (r.head? ≠ some '-')) = [l.repr] := by
      intro l
      rw [List.filter_cons_of_neg (by decide), List.filter_cons_of_pos (by rw [hr l]; decide), List.filter_cons_of_neg (by decide)]
      rfl
    rw [layerTable, List.filter_append, List.filter_flatMap]
    simp only [e]
    rw [List.filter_cons_of_neg (by decide), List.filter_cons_of_pos (by decide)]
    simp [List.map_eq_flatMap]

example (L : SquaredLayer n) (L' : AdaptLayer n) : (layerTable [.squared L, .adapt L'])[6]? = some L'.repr := (C145_table [.squared L, .adapt L']).2.1 1

theorem plain_nan : Plain "NaN".toList := plain_of (by decide) (by decide)

/-- C145: the other rows show the name, no stride, and the flag as a number. -/
theorem C145_flags :
    (∀ L : CustomLayer n, ((cells (AnyLayer.custom L).repr).take 4).map strip =
      [[], ("Lie Algebra Layer SU(" ++ (2 ^ n).repr ++ ")").toList, "NaN".toList, if L.trotterize then ['1'] else ['0']]) ∧
    (∀ L : StochasticLayer n, ((cells (AnyLayer.stochastic L).repr).take 4).map strip =
      [[], ("Stoch. Algebra Layer SU(" ++ (2 ^ n).repr ++ ")").toList, "NaN".toList, if L.trotterize then ['1'] else ['0']]) ∧
    (∀ L : SquaredLayer n, ((cells (AnyLayer.squared L).repr).take 4).map strip =
      [[], ("Stoch. Algebra Layer SU(" ++ (2 ^ n).repr ++ ")").toList, "NaN".toList, if L.trotterize then ['1'] else ['0']]) ∧
    (∀ L : AdaptLayer n, ((cells (AnyLayer.adapt L).repr).take 4).map strip =
      [[], "Adapt VQE Layer".toList, "NaN".toList, if L.trotterize then ['1'] else ['0']]) ∧
    (∀ L : SU8Layer n, ((cells (AnyLayer.su8 L).repr).take 4).map strip =
      [[], ("SU(8) Layer SU(" ++ (2 ^ n).repr ++ ")").toList, "NaN".toList, if L.trotterize then ['1'] else ['0']]) ∧
    (∀ L : ZassLayer n, ((cells (AnyLayer.zass L).repr).take 4).map strip =
      [[], ("Zassenhaus Layer SU(" ++ (2 ^ n).repr ++ ")").toList, "NaN".toList, if L.trotterize then ['1'] else ['0']]) ∧
    (∀ (nm : NelderMead) (L : ZassV2Layer n), ((cells (AnyLayer.v2 nm L).repr).take 4).map strip =
      [[], ("Zassenhaus Layer SU(" ++ (2 ^ n).repr ++ ")").toList, "NaN".toList, if L.trotterize then ['1'] else ['0']]) := by
  have key : ∀ (name text : List Char) (t : Bool), Plain name → ((cells (layerRow name "NaN".toList t text)).take 4).map strip =
      [[], name, "NaN".toList, if t then ['1'] else ['0']] := by
    intro name text t hp
    rw [row_cells hp plain_nan]
    simp only [List.take_succ_cons, List.take_zero, List.map_cons, List.map_nil]
    rw [strip_center' hp, strip_center plain_nan, strip_center (plain_bool _)]
    rfl
  have nm : ∀ (pre pre' : String), pre'.toList = pre.toList ++ "SU(".toList → (pre' ++ (2 ^ n).repr ++ ")").toList = suName pre n := by
    intro pre pre' h
    rw [String.toList_append, String.toList_append, Nat.toList_repr, h, suName, List.append_assoc, List.append_assoc]
    rfl
  refine ⟨fun L => ?_, fun L => ?_, fun L => ?_, fun L => ?_, fun L => ?_, fun L => ?_, fun _ L => ?_⟩
  · rw [nm "Lie Algebra Layer " _ (by decide)]; exact key _ _ _ (plain_su (by decide) (by decide) (by decide) n)
  · rw [nm "Stoch. Algebra Layer " _ (by decide)]; exact key _ _ _ (plain_su (by decide) (by decide) (by decide) n)
  · rw [nm "Stoch. Algebra Layer " _ (by decide)]; exact key _ _ _ (plain_su (by decide) (by decide) (by decide) n)
  · exact key _ _ _ ⟨by decide, by decide, by decide, by decide⟩
  · rw [nm "SU(8) Layer " _ (by decide)]; exact key _ _ _ (plain_su (by decide) (by decide) (by decide) n)
  · rw [nm "Zassenhaus Layer " _ (by decide)]; exact key _ _ _ (plain_su (by decide) (by decide) (by decide) n)
  · rw [nm "Zassenhaus Layer " _ (by decide)]; exact key _ _ _ (plain_su (by decide) (by decide) (by decide) n)

theorem words_ne {lens : List ℕ} (h : 0 ∉ lens) : ∀ w ∈ allWords lens, w ≠ [] := fun w hw hc => h (by simpa [hc] using (mem_allWords.1 hw).1)

/-- C145: the row of a `CustomDirectionLieAlgebraLayer` names a direction once for every operator of this direction. -/
theorem C145_operators (gs : List (Gate n)) {args : LayerArgs} {D : List String} {L : CustomLayer n}
    (h : customLayer n (gs.map Gate.obs) (some D) args = .ok L) (hne : L.directions ≠ []) :
    readDirections (AnyLayer.custom L).repr = L.directions.map (fun k => k.1.toList) := by
  obtain ⟨-, -, -, hd⟩ := customLayer_some h
  obtain ⟨ws, hw, e⟩ : ∃ ws : List (List Letter), (∀ w ∈ ws, w ≠ []) ∧ L.directions.map Prod.fst = ws.map letterStr := by
    have : ∀ l : List (Key × QMat n), (∀ x ∈ l, ∃ w ∈ allWords [1, 2], x.1.1 = letterStr w) →
        ∃ ws : List (List Letter), (∀ w ∈ ws, w ≠ []) ∧ (l.map Prod.fst).map Prod.fst = ws.map letterStr := by
      intro l
      induction l with
      | nil => intro _; exact ⟨[], by simp, rfl⟩
      | cons x l ih =>
        intro hx
        obtain ⟨w, hw, hxw⟩ := hx x (by simp)
        obtain ⟨ws, h1, h2⟩ := ih (fun y hy => hx y (List.mem_cons_of_mem _ hy))
        refine ⟨w :: ws, ?_, ?_⟩
        · intro v hv
          rcases List.mem_cons.1 hv with rfl | hv
          · exact words_ne (by simp) _ hw
          · exact h1 v hv
        · rw [List.map_cons, List.map_cons, List.map_cons, h2, hxw]
    rw [hd]
    refine this _ fun x hx => ?_
    obtain ⟨w, hw, q, -, rfl⟩ := mem_stdDict.1 (List.mem_filter.1 hx).1
    exact ⟨w, hw, rfl⟩
  have hws : ws ≠ [] := by
    rintro rfl
    exact hne (by simpa using e)
  rw [AnyLayer.repr, CustomLayer.repr, e, read_words (plain_su (by decide) (by decide) (by decide) n) plain_nan hw hws, ← e, List.map_map]
  rfl

example (g : Gate 2) : ∃ L, customLayer 2 ([g].map Gate.obs) (some ["ZZ", "X"]) {} = .ok L ∧ L.directions ≠ [] := by
  obtain ⟨L, h, -⟩ := customLayer_default [g] ["ZZ", "X"] (by decide)
  refine ⟨L, h, ?_⟩
  rw [(customLayer_some h).2.2.2]
  have m : ((letterStr [.X], [0]), pauliWord (placed 2 [.X] [0])) ∈ customKept 2 ["ZZ", "X"] :=
    List.mem_filter.2 ⟨mem_stdDict.2 ⟨[.X], by decide, [0], by decide, rfl⟩, by decide⟩
  exact fun hc => by simpa [hc] using List.mem_map_of_mem (f := Prod.fst) m

/-- C145: the rows of the layers that choose a direction list all the directions, in the order of `itertools.product`, single letters first. -/
theorem C145_choices (gs : List (Gate n)) {args : LayerArgs} :
    (∀ L, stochasticLayer n (gs.map Gate.obs) args = .ok L → readDirections (AnyLayer.stochastic L).repr = (allWords [1, 2]).map (fun w => w.map Letter.char)) ∧
    (∀ L, squaredLayer n (gs.map Gate.obs) args = .ok L → readDirections (AnyLayer.squared L).repr = (allWords [1, 2]).map (fun w => w.map Letter.char)) ∧
    (∀ L, adaptLayer n (gs.map Gate.obs) args = .ok L → readDirections (AnyLayer.adapt L).repr = (allWords [1, 2]).map (fun w => w.map Letter.char)) := by
  have key : ∀ (name : List Char) (t : Bool), Plain name → readDirections (layerRow name "NaN".toList t (pyJoin ((allWords [1, 2]).map letterStr))) =
      (allWords [1, 2]).map (fun w => w.map Letter.char) := by
    intro name t hp
    rw [read_words hp plain_nan (words_ne (by simp)) (by decide), List.map_map]
    refine List.map_congr_left fun w _ => ?_
    simp [letterStr]
  have sp : Plain (suName "Stoch. Algebra Layer " n) := plain_su (by decide) (by decide) (by decide) n
  have st : ∀ L, stochasticLayer n (gs.map Gate.obs) args = .ok L → L.lastate.directions = (allWords [1, 2]).map letterStr := by
    intro L h
    rw [stochasticLayer, promoteAll_gates] at h
    obtain ⟨-, -, h⟩ := bind_ok_iff.1 h
    obtain ⟨e, -, h⟩ := bind_ok_iff.1 h
    obtain ⟨os, -, h⟩ := bind_ok_iff.1 h
    obtain ⟨b, -, h⟩ := bind_ok_iff.1 h
    obtain ⟨t, -, h⟩ := bind_ok_iff.1 h
    obtain rfl := Except.ok.inj h
    simpa using (algebraSU4_attrs n true).1
  refine ⟨fun L h => ?_, fun L h => ?_, fun L h => ?_⟩
  · rw [AnyLayer.repr, StochasticLayer.repr, st L h]; exact key _ _ sp
  · obtain ⟨a, ha, hf, hd, -⟩ := algebraSU4_getAll n
    rw [squaredLayer, promoteAll_gates, ha] at h
    obtain ⟨-, -, h⟩ := bind_ok_iff.1 h
    obtain ⟨e, -, h⟩ := bind_ok_iff.1 h
    obtain ⟨os, -, h⟩ := bind_ok_iff.1 h
    obtain ⟨b, -, h⟩ := bind_ok_iff.1 h
    obtain ⟨t, -, h⟩ := bind_ok_iff.1 h
    obtain ⟨a', ha', h⟩ := bind_ok_iff.1 h
    obtain rfl := Except.ok.inj ha'
    obtain rfl := Except.ok.inj h
    rw [AnyLayer.repr, SquaredLayer.repr]
    simp only [hd]
    exact key _ _ sp
  · rw [AnyLayer.repr, AdaptLayer.repr, (adaptLayer_inv h).1.dirs]
    exact key _ _ ⟨by decide, by decide, by decide, by decide⟩

/-! ### The columns -/

theorem su_length (pre : String) (k : ℕ) : (suName pre k).length = pre.toList.length + 4 + (Nat.toDigits 10 (2 ^ k)).length := by
  simp only [suName, List.length_append, List.length_cons, List.length_nil]
  rw [show "SU(".toList.length = 3 by decide]
  omega

/-- C145: the rows of the local, the stochastic and the squared layers never fit below the header. -/
theorem C145_shifted :
    (∀ L : LocalLayer n, ¬ Aligned (AnyLayer.loc L).repr tableHeader) ∧
    (∀ L : StochasticLayer n, ¬ Aligned (AnyLayer.stochastic L).repr tableHeader) ∧ (∀ L : SquaredLayer n, ¬ Aligned (AnyLayer.squared L).repr tableHeader) := by
  have st : ¬ (suName "Stoch. Algebra Layer " n).length ≤ 25 := by
    rw [su_length]
    have := Nat.length_toDigits_pos (b := 10) (n := 2 ^ n)
    have : "Stoch. Algebra Layer ".toList.length = 21 := by decide
    omega
  have sp : Plain (suName "Stoch. Algebra Layer " n) := plain_su (by decide) (by decide) (by decide) n
  refine ⟨fun L => ?_, fun L => ?_, fun L => ?_⟩
  · intro ha
    rw [AnyLayer.repr, LocalLayer.repr] at ha
    rw [Aligned, header_cells, row_cells (plain_local _) (plain_int _)] at ha
    simp only [List.take_succ_cons, List.take_zero, List.map_cons, List.map_nil, List.length_nil, List.length_cons, center_length, su_length,
      List.cons.injEq] at ha
    have : "Local Lie Algebra Layer ".toList.length = 24 := by decide
    omega
  · rw [AnyLayer.repr, StochasticLayer.repr, row_aligned sp plain_nan (by decide)]; exact st
  · rw [AnyLayer.repr, SquaredLayer.repr, row_aligned sp plain_nan (by decide)]; exact st

theorem digits_le {k j : ℕ} (hj : 0 < j) : (Nat.toDigits 10 (2 ^ k)).length ≤ j ↔ 2 ^ k < 10 ^ j := Nat.length_toDigits_le_iff (by omega) hj

theorem pow_lt {k a b : ℕ} (h1 : 2 ^ a < b) (h2 : b ≤ 2 ^ (a + 1)) : 2 ^ k < b ↔ k ≤ a := by
  constructor
  · intro h
    have := (Nat.pow_lt_pow_iff_right (a := 2) (by omega)).1 (h.trans_le h2)
    omega
  · intro h
    exact (Nat.pow_le_pow_right (by omega) h).trans_lt h1

/-- C145: the other rows fit for few qubits: up to 9 for the layer of all directions, up to 13 for the Zassenhaus layers, up to 29 for the layer
of `SU(8)`, always for `AdaptVQELayer`. -/
theorem C145_fits :
    (∀ L : CustomLayer n, Aligned (AnyLayer.custom L).repr tableHeader ↔ n ≤ 9) ∧
    (∀ L : AdaptLayer n, Aligned (AnyLayer.adapt L).repr tableHeader) ∧
    (∀ L : SU8Layer n, Aligned (AnyLayer.su8 L).repr tableHeader ↔ n ≤ 29) ∧
    (∀ L : ZassLayer n, Aligned (AnyLayer.zass L).repr tableHeader ↔ n ≤ 13) ∧
    (∀ (nm : NelderMead) (L : ZassV2Layer n), Aligned (AnyLayer.v2 nm L).repr tableHeader ↔ n ≤ 13) := by
  refine ⟨fun L => ?_, fun L => ?_, fun L => ?_, fun L => ?_, fun nm L => ?_⟩
  · rw [AnyLayer.repr, CustomLayer.repr, row_aligned (plain_su (by decide) (by decide) (by decide) n) plain_nan (by decide), su_length,
      ← pow_lt (k := n) (a := 9) (b := 10 ^ 3) (by norm_num) (by norm_num), ← digits_le (by omega), show "Lie Algebra Layer ".toList.length = 18 by decide]
    omega
  · rw [AnyLayer.repr, AdaptLayer.repr, row_aligned ⟨by decide, by decide, by decide, by decide⟩ plain_nan (by decide)]
    decide
  · rw [AnyLayer.repr, SU8Layer.repr, row_aligned (plain_su (by decide) (by decide) (by decide) n) plain_nan (by decide), su_length,
      ← pow_lt (k := n) (a := 29) (b := 10 ^ 9) (by norm_num) (by norm_num), ← digits_le (by omega), show "SU(8) Layer ".toList.length = 12 by decide]
    omega
  · rw [AnyLayer.repr, ZassLayer.repr, row_aligned (plain_su (by decide) (by decide) (by decide) n) plain_nan (by decide), su_length,
      ← pow_lt (k := n) (a := 13) (b := 10 ^ 4) (by norm_num) (by norm_num), ← digits_le (by omega), show "Zassenhaus Layer ".toList.length = 17 by decide]
    omega
  · rw [AnyLayer.repr, ZassV2Layer.repr, row_aligned (plain_su (by decide) (by decide) (by decide) n) plain_nan (by decide), su_length,
      ← pow_lt (k := n) (a := 13) (b := 10 ^ 4) (by norm_num) (by norm_num), ← digits_le (by omega), show "Zassenhaus Layer ".toList.length = 17 by decide]
    omega

end Oranssi
