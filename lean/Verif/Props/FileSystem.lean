import Verif.Model.FileSystem

/-! # C66: `save_path_creator` -/

namespace Oranssi

namespace Spec

/-- A file system is a tree: the root is a directory and so is the parent of everything that exists. -/
structure IsTree (fs : FS) : Prop where
  root : fs [] = some .dir
  parent : ∀ x r, fs (x :: r) ≠ none → fs r = some .dir

/-- No file is in the way of the directory `q`. -/
def NoFile (fs : FS) (q : Loc) : Prop := ∀ r, r <:+ q → fs r ≠ some .file

/-- `fs` with the directory `q` and the directories above it. -/
def withDir (fs : FS) (q : Loc) : FS := fun r => if r <:+ q then some .dir else fs r

/-- Where a path leads, seen from the directory `base` (names from the first to the last). -/
def seenFrom (base : List String) (p : PyPath) : List String := if p.absolute then p.names else base ++ p.names

end Spec
open Spec

theorem Spec.IsTree.above {fs : FS} (h : IsTree fs) {q : Loc} (hq : fs q = some .dir) : ∀ r, r <:+ q → fs r = some .dir := by
  induction q with
  | nil => intro r hr; rw [List.suffix_nil.mp hr]; exact hq
  | cons x q ih =>
    intro r hr
    rcases List.suffix_cons_iff.mp hr with rfl | hr
    · exact hq
    · exact ih (h.parent x q (by rw [hq]; simp)) r hr

theorem cons_not_suffix (x : String) (r : Loc) : ¬ (x :: r <:+ r) := fun h => by
  have := h.length_le
  rw [List.length_cons] at this
  omega

theorem mkdir_new {fs : FS} {x : String} {r : Loc} (h1 : fs (x :: r) = none) (h2 : fs r = some .dir) :
    mkdir fs (x :: r) = (Function.update fs (x :: r) (some .dir), none) := by
  rw [mkdir, h1, h2]

theorem mkdir_old {fs : FS} {q : Loc} (h1 : fs q ≠ none) : mkdir fs q = (fs, some .fileExists) := by
  cases q with
  | nil => rfl
  | cons x r =>
    obtain ⟨k, hk⟩ := Option.ne_none_iff_exists'.mp h1
    rw [mkdir, hk]

/-! ## One caller -/

theorem run_bind {α β : Type} (p : Prog α) (f : α → Prog β) : ∀ fs, (p.bind f).run fs = (f (p.run fs).2).run (p.run fs).1 := by
  induction p with
  | ret a => intro fs; rfl
  | existsCall q k ih => intro fs; exact ih _ fs
  | mkdirCall q k ih => intro fs; exact ih _ _

theorem makedirs_run {fs : FS} (h : IsTree fs) : ∀ (q : Loc), NoFile fs q → fs q = none → (makedirs q).run fs = (withDir fs q, none)
  | [], _, h0 => by rw [h.root] at h0; cases h0
  | x :: r, hn, h0 => by
    have hr : fs r ≠ some .file := hn r (List.suffix_cons _ _)
    have hn' : NoFile fs r := fun s hs => hn s (hs.trans (List.suffix_cons _ _))
    rw [makedirs]
    simp only [Prog.run]
    cases hfr : fs r with
    | none =>
      simp only [Option.isSome_none, Bool.false_eq_true, if_false]
      rw [run_bind, makedirs_run h r hn' hfr]
      simp only [Prog.run]
      have h1 : withDir fs r (x :: r) = none := by rw [withDir, if_neg (cons_not_suffix x r), h0]
      have h2 : withDir fs r r = some .dir := by rw [withDir, if_pos List.suffix_rfl]
      rw [mkdir_new h1 h2, Prod.mk.injEq]
      refine ⟨?_, rfl⟩
      funext s
      dsimp only
      by_cases hs : s = x :: r
      · subst hs; rw [Function.update_self, withDir, if_pos List.suffix_rfl]
      · rw [Function.update_of_ne hs, withDir, withDir]
        simp only [List.suffix_cons_iff, hs, false_or]
    | some k =>
      have hk : k = .dir := by cases k with
        | dir => rfl
        | file => exact absurd hfr hr
      subst hk
      simp only [Option.isSome_some, if_true, Prog.run]
      rw [mkdir_new h0 hfr, Prod.mk.injEq]
      refine ⟨?_, rfl⟩
      funext s
      dsimp only
      by_cases hs : s = x :: r
      · subst hs; rw [Function.update_self, withDir, if_pos List.suffix_rfl]
      · rw [Function.update_of_ne hs, withDir]
        simp only [List.suffix_cons_iff, hs, false_or]
        by_cases hsr : s <:+ r
        · rw [if_pos hsr, h.above hfr s hsr]
        · rw [if_neg hsr]

theorem withDir_of_dir {fs : FS} (h : IsTree fs) {q : Loc} (hq : fs q = some .dir) : withDir fs q = fs := by
  funext s
  rw [withDir]
  by_cases hs : s <:+ q
  · rw [if_pos hs, h.above hq s hs]
  · rw [if_neg hs]

theorem makedirs_blocked {fs : FS} (h : IsTree fs) : ∀ (q : Loc), fs q = none → (∃ r, r <:+ q ∧ fs r = some .file) → (makedirs q).run fs = (fs, some .notADirectory)
  | [], h0, _ => by rw [h.root] at h0; cases h0
  | x :: r, h0, ⟨s, hs, hf⟩ => by
    have hsr : s <:+ r := by
      rcases List.suffix_cons_iff.mp hs with rfl | hs
      · rw [h0] at hf; cases hf
      · exact hs
    rw [makedirs]
    simp only [Prog.run]
    cases hfr : fs r with
    | none =>
      simp only [Option.isSome_none, Bool.false_eq_true, if_false]
      rw [run_bind, makedirs_blocked h r hfr ⟨s, hsr, hf⟩]
      rfl
    | some k =>
      have hk : k = .file := by cases k with
        | file => rfl
        | dir => rw [h.above hfr s hsr] at hf; cases hf
      subst hk
      simp only [Option.isSome_some, if_true, Prog.run]
      rw [mkdir, h0, hfr]

/-- C66, the path.  The joined path leads to where `experiment_name` leads from the directory `path`; in particular an absolute `experiment_name` is used as
it is. -/
theorem C66_joined (cwd : List String) (path name : PyPath) : ((path.join name).loc cwd).reverse = seenFrom (seenFrom cwd path) name ∧
    ((path.join name).absolute = true ↔ path.absolute = true ∨ name.absolute = true) := by
  obtain ⟨a, l⟩ := path
  obtain ⟨b, k⟩ := name
  cases a <;> cases b <;> simp [PyPath.join, PyPath.loc, seenFrom]

/-- C66, one caller.  If no file is in the way, the joined path is returned, the directory and those above it exist afterwards, and nothing else changes;
a second call changes nothing.  If a file is in the way further up, `NotADirectoryError` is raised and nothing changes. -/
theorem C66_sequential_partial (fs : FS) (h : IsTree fs) (cwd : List String) (path name : PyPath) :
    let save := path.join name
    let q := save.loc cwd
    (NoFile fs q → (savePathCreator cwd path name).run fs = (withDir fs q, .ok save) ∧ withDir fs q q = some .dir ∧
      (savePathCreator cwd path name).run (withDir fs q) = (withDir fs q, .ok save)) ∧
    ((∃ r, r <:+ q ∧ r ≠ q ∧ fs r = some .file) → (savePathCreator cwd path name).run fs = (fs, .error .notADirectory)) := by
  intro save q
  have hrun : ∀ fs, (savePathCreator cwd path name).run fs = (if (fs q).isSome then (fs, .ok save) else
      (((makedirs q).run fs).1, match ((makedirs q).run fs).2 with | none => .ok save | some e => .error e)) := by
    intro fs
    rw [savePathCreator, run_bind, ensureDir]
    simp only [Prog.run]
    by_cases hq : (fs q).isSome
    · rw [if_pos hq, if_pos hq]; rfl
    · rw [if_neg hq, if_neg hq]
      cases ((makedirs q).run fs).2 <;> rfl
  have hself : ∀ fs : FS, withDir fs q q = some .dir := fun fs => by rw [withDir, if_pos List.suffix_rfl]
  refine ⟨fun hn => ⟨?_, hself fs, ?_⟩, fun ⟨r, hr, hne, hf⟩ => ?_⟩
  · rw [hrun]
    cases hq : fs q with
    | none => simp [makedirs_run h q hn hq]
    | some k =>
      have hk : k = .dir := by cases k with
        | dir => rfl
        | file => exact absurd hq (hn q List.suffix_rfl)
      subst hk
      rw [Option.isSome_some, if_pos rfl, withDir_of_dir h hq]
  · rw [hrun, hself]; rfl
  · rw [hrun]
    have hq : fs q = none := by
      by_contra hc
      obtain ⟨x, t, hq⟩ : ∃ x t, q = x :: t := by
        cases hq : q with
        | nil => rw [hq] at hr hne; exact absurd (List.suffix_nil.mp hr) hne
        | cons x t => exact ⟨x, t, rfl⟩
      rw [hq] at hc hr hne
      rcases List.suffix_cons_iff.mp hr with hr | hr
      · exact hne hr
      · have := h.above (h.parent x t hc) r hr
        rw [hf] at this
        cases this
    rw [hq, makedirs_blocked h q hq ⟨r, hr, hf⟩]
    rfl

/-- C66 is false when a file has the name of the directory: the path is returned, but it is no directory. -/
theorem C66_refuted_file (fs : FS) (cwd : List String) (path name : PyPath) (hf : fs ((path.join name).loc cwd) = some .file) :
    (savePathCreator cwd path name).run fs = (fs, .ok (path.join name)) ∧ fs ((path.join name).loc cwd) ≠ some .dir := by
  rw [savePathCreator, run_bind, ensureDir]
  simp only [Prog.run, hf]
  exact ⟨rfl, by simp⟩

/-! ## Several callers -/

namespace Spec

/-- What other processes may do between two calls: make directories at locations in `D`. -/
structure Grow (D : Loc → Prop) (fs fs' : FS) : Prop where
  tree : IsTree fs'
  change : ∀ q, fs' q = fs q ∨ (fs q = none ∧ fs' q = some .dir ∧ D q)

/-- The program makes directories only at locations in `S`, and if the others only make directories in `D`, its result satisfies `Post`. -/
def Safe {α : Type} (D S : Loc → Prop) (Post : FS → α → Prop) : Prog α → FS → Prop
  | .ret a, fs => ∀ fs', Grow D fs fs' → Post fs' a
  | .existsCall q k, fs => ∀ fs', Grow D fs fs' → Safe D S Post (k (fs' q).isSome) fs'
  | .mkdirCall q k, fs => S q ∧ ∀ fs', Grow D fs fs' → Safe D S Post (k (mkdir fs' q).2) (mkdir fs' q).1

end Spec

section
variable {D S : Loc → Prop}

theorem Spec.Grow.refl {fs : FS} (h : IsTree fs) : Grow D fs fs := ⟨h, fun _ => Or.inl rfl⟩

theorem Spec.Grow.trans {a b c : FS} (h1 : Grow D a b) (h2 : Grow D b c) : Grow D a c := by
  refine ⟨h2.tree, fun q => ?_⟩
  rcases h2.change q with h | ⟨h, h', hd⟩
  · rw [h]; exact h1.change q
  · rcases h1.change q with g | ⟨-, g, -⟩
    · exact Or.inr ⟨g ▸ h, h', hd⟩
    · rw [g] at h; cases h

theorem Spec.Grow.dir {a b : FS} (h : Grow D a b) {q : Loc} (hq : a q = some .dir) : b q = some .dir := by
  rcases h.change q with g | ⟨-, g, -⟩
  · rw [g, hq]
  · exact g

theorem Spec.Grow.noFile {a b : FS} (h : Grow D a b) {q : Loc} (hq : NoFile a q) : NoFile b q := by
  intro r hr hc
  rcases h.change r with g | ⟨-, g, -⟩
  · exact hq r hr (g ▸ hc)
  · rw [g] at hc; cases hc

theorem mkdir_grow {fs : FS} (h : IsTree fs) (q : Loc) (hq : D q) : Grow D fs (mkdir fs q).1 := by
  cases q with
  | nil => exact .refl h
  | cons x r =>
    cases h1 : fs (x :: r) with
    | some k => rw [mkdir_old (by rw [h1]; simp)]; exact .refl h
    | none =>
      cases h2 : fs r with
      | none => rw [mkdir, h1, h2]; exact .refl h
      | some k =>
        cases k with
        | file => rw [mkdir, h1, h2]; exact .refl h
        | dir =>
          rw [mkdir_new h1 h2]
          refine ⟨⟨?_, ?_⟩, fun q => ?_⟩
          · dsimp only
            rw [Function.update_of_ne (by simp)]; exact h.root
          · intro y t hy
            dsimp only at hy ⊢
            have key : fs t = some .dir := by
              by_cases hyt : y :: t = x :: r
              · obtain ⟨rfl, rfl⟩ := List.cons.inj hyt; exact h2
              · rw [Function.update_of_ne hyt] at hy; exact h.parent y t hy
            rw [Function.update_apply]
            split
            · rfl
            · exact key
          · dsimp only
            by_cases hx : q = x :: r
            · subst hx; rw [Function.update_self]; exact Or.inr ⟨h1, rfl, hq⟩
            · rw [Function.update_of_ne hx]; exact Or.inl rfl

theorem safe_grow {α : Type} {Post : FS → α → Prop} {p : Prog α} {a b : FS} (h : Safe D S Post p a) (hg : Grow D a b) : Safe D S Post p b := by
  cases p with
  | ret x => exact fun fs' hf => h fs' (hg.trans hf)
  | existsCall q k => exact fun fs' hf => h fs' (hg.trans hf)
  | mkdirCall q k => exact ⟨h.1, fun fs' hf => h.2 fs' (hg.trans hf)⟩

theorem safe_bind {α β : Type} {Post : FS → α → Prop} {Post' : FS → β → Prop} (f : α → Prog β) (hf : ∀ fs a, IsTree fs → Post fs a → Safe D S Post' (f a) fs) :
    ∀ (p : Prog α) (fs : FS), IsTree fs → Safe D S Post p fs → Safe D S Post' (p.bind f) fs
  | .ret a, fs, ht, h => hf fs a ht (h fs (.refl ht))
  | .existsCall q k, fs, ht, h => fun fs' hg => safe_bind f hf (k _) fs' hg.tree (h fs' hg)
  | .mkdirCall q k, fs, ht, h => ⟨h.1, fun fs' hg => safe_bind f hf (k _) _ (mkdir_grow (D := fun _ => True) hg.tree q trivial).tree (h.2 fs' hg)⟩

theorem safe_and {α : Type} {P Q : FS → α → Prop} : ∀ (p : Prog α) (fs : FS), Safe D S P p fs → Safe D S Q p fs → Safe D S (fun fs a => P fs a ∧ Q fs a) p fs
  | .ret _, _, h1, h2 => fun fs' hg => ⟨h1 fs' hg, h2 fs' hg⟩
  | .existsCall q k, _, h1, h2 => fun fs' hg => safe_and (k (fs' q).isSome) fs' (h1 fs' hg) (h2 fs' hg)
  | .mkdirCall q k, _, h1, h2 => ⟨h1.1, fun fs' hg => safe_and (k (mkdir fs' q).2) (mkdir fs' q).1 (h1.2 fs' hg) (h2.2 fs' hg)⟩

theorem safe_mono {α : Type} {P Q : FS → α → Prop} : ∀ (p : Prog α) (fs : FS) (_ : ∀ fs a, P fs a → Q fs a), Safe D S P p fs → Safe D S Q p fs
  | .ret _, _, h, h1 => fun fs' hg => h _ _ (h1 fs' hg)
  | .existsCall q k, _, h, h1 => fun fs' hg => safe_mono (k (fs' q).isSome) fs' h (h1 fs' hg)
  | .mkdirCall q k, _, h, h1 => ⟨h1.1, fun fs' hg => safe_mono (k (mkdir fs' q).2) (mkdir fs' q).1 h (h1.2 fs' hg)⟩

/-- What a caller knows about its location before it makes it. -/
def Spec.Pre (D : Loc → Prop) (q : Loc) (fs : FS) : Prop := fs q = none ∨ (fs q = some .dir ∧ D q)

/-- The outcome for the location. -/
def Spec.Made (D : Loc → Prop) (q : Loc) (fs : FS) (e : Option OsErr) : Prop := fs q = some .dir ∧ (e = none ∨ (e = some .fileExists ∧ D q))

theorem pre_grow {a b : FS} (h : Grow D a b) {q : Loc} (hq : Pre D q a) : Pre D q b := by
  rcases hq with hq | ⟨hq, hd⟩
  · rcases h.change q with g | ⟨-, g, hd⟩
    · exact Or.inl (g.trans hq)
    · exact Or.inr ⟨g, hd⟩
  · exact Or.inr ⟨h.dir hq, hd⟩

/-- The outcome with the frame: other locations stay as the caller knew them. -/
def MadeFrame (D : Loc → Prop) (q : Loc) (t : Loc) (fs : FS) (e : Option OsErr) : Prop := Made D q fs e ∧ Pre D t fs

theorem mkdir_safe {x : String} {r t : Loc} {fs : FS} (hS : S (x :: r)) (hr : fs r = some .dir) (hp : Pre D (x :: r) fs) (ht : t ≠ x :: r) (hpt : Pre D t fs) :
    Safe D S (MadeFrame D (x :: r) t) (.mkdirCall (x :: r) .ret) fs := by
  refine ⟨hS, fun fs1 h1 fs2 h2 => ?_⟩
  rcases pre_grow h1 hp with h | ⟨h, hd⟩
  · rw [mkdir_new h (h1.dir hr)] at h2 ⊢
    refine ⟨⟨h2.dir (Function.update_self _ _ _), Or.inl rfl⟩, pre_grow h2 ?_⟩
    have := pre_grow h1 hpt
    unfold Pre
    dsimp only
    rw [Function.update_of_ne ht]
    exact this
  · rw [mkdir_old (by rw [h]; simp)] at h2 ⊢
    exact ⟨⟨h2.dir h, Or.inr ⟨rfl, hd⟩⟩, pre_grow h2 (pre_grow h1 hpt)⟩

theorem makedirs_safe : ∀ (q t : Loc) (fs : FS), (∀ r, r <:+ q → S r) → NoFile fs q → Pre D q fs → ¬ t <:+ q → Pre D t fs →
    Safe D S (MadeFrame D q t) (makedirs q) fs
  | [], t, fs, hS, _, hp, _, hpt => by
    refine ⟨hS _ List.suffix_rfl, fun fs1 h1 fs2 h2 => ?_⟩
    rcases pre_grow h1 hp with h | ⟨h, hd⟩
    · rw [h1.tree.root] at h; cases h
    · exact ⟨⟨h2.tree.root, Or.inr ⟨rfl, hd⟩⟩, pre_grow h2 (pre_grow h1 hpt)⟩
  | x :: r, t, fs, hS, hn, hp, ht, hpt => by
    intro fs1 h1
    dsimp only
    have hn1 := h1.noFile hn
    have hp1 := pre_grow h1 hp
    have hpt1 := pre_grow h1 hpt
    have hSx := hS _ List.suffix_rfl
    have htx : t ≠ x :: r := fun h => ht (h ▸ List.suffix_rfl)
    have htr : ¬ t <:+ r := fun h => ht (h.trans (List.suffix_cons _ _))
    by_cases hb : (fs1 r).isSome
    · rw [if_pos hb]
      refine mkdir_safe hSx ?_ hp1 htx hpt1
      obtain ⟨k, hk⟩ := Option.isSome_iff_exists.mp hb
      cases k with
      | dir => exact hk
      | file => exact absurd hk (hn1 r (List.suffix_cons _ _))
    · rw [if_neg hb]
      have h0 : fs1 r = none := by simpa using hb
      have hsub : ∀ s, s <:+ r → s <:+ x :: r := fun s hs => hs.trans (List.suffix_cons _ _)
      have ih1 := makedirs_safe r t fs1 (fun s hs => hS s (hsub s hs)) (fun s hs => hn1 s (hsub s hs)) (Or.inl h0) htr hpt1
      have ih2 := makedirs_safe r (x :: r) fs1 (fun s hs => hS s (hsub s hs)) (fun s hs => hn1 s (hsub s hs)) (Or.inl h0) (cons_not_suffix x r) hp1
      have ih := safe_and _ _ ih1 ih2
      refine safe_bind _ ?_ _ fs1 h1.tree ih
      rintro fs2 e _ ⟨⟨⟨hd, he⟩, hpt2⟩, -, hp2⟩
      rcases he with rfl | ⟨rfl, -⟩
      · exact mkdir_safe hSx hd hp2 htx hpt2
      · exact mkdir_safe hSx hd hp2 htx hpt2

theorem ensureDir_safe (q : Loc) (fs : FS) (hS : ∀ r, r <:+ q → S r) (hn : NoFile fs q) : Safe D S (Made D q) (ensureDir q) fs := by
  intro fs1 h1
  dsimp only
  have hn1 := h1.noFile hn
  by_cases hb : (fs1 q).isSome
  · rw [if_pos hb]
    obtain ⟨k, hk⟩ := Option.isSome_iff_exists.mp hb
    cases k with
    | dir => exact fun fs2 h2 => ⟨h2.dir hk, Or.inl rfl⟩
    | file => exact absurd hk (hn1 q List.suffix_rfl)
  · rw [if_neg hb]
    have h0 : fs1 q = none := by simpa using hb
    have ht : fs1 ("" :: q) = none := by
      by_contra hc
      rw [h1.tree.parent _ _ hc] at h0
      cases h0
    exact safe_mono _ _ (fun _ _ h => h.1) (makedirs_safe q ("" :: q) fs1 hS hn1 (Or.inl h0) (cons_not_suffix _ _) (Or.inl ht))

/-- The outcome of a call. -/
def Spec.Saved (D : Loc → Prop) (save : PyPath) (q : Loc) (fs : FS) (r : Except OsErr PyPath) : Prop :=
  fs q = some .dir ∧ (r = .ok save ∨ (r = .error .fileExists ∧ D q))

theorem savePathCreator_safe (cwd : List String) (path name : PyPath) (fs : FS) (ht : IsTree fs) (hS : ∀ r, r <:+ (path.join name).loc cwd → S r)
    (hn : NoFile fs ((path.join name).loc cwd)) : Safe D S (Saved D (path.join name) ((path.join name).loc cwd)) (savePathCreator cwd path name) fs := by
  refine safe_bind _ ?_ _ fs ht (ensureDir_safe _ fs hS hn)
  rintro fs1 e _ ⟨hd, he⟩
  rcases he with rfl | ⟨rfl, hD⟩
  · exact fun fs2 h2 => ⟨h2.dir hd, Or.inl rfl⟩
  · exact fun fs2 h2 => ⟨h2.dir hd, Or.inr ⟨rfl, hD⟩⟩
end

theorem grow_weaken {D D' : Loc → Prop} {a b : FS} (h : Grow D a b) (hD : ∀ q, a q = none → D q → D' q) : Grow D' a b := by
  refine ⟨h.tree, fun q => ?_⟩
  rcases h.change q with g | ⟨g, g', hd⟩
  · exact Or.inl g
  · exact Or.inr ⟨g, g', hD q g hd⟩

/-- One call of the caller `i`: every other caller sees a permitted change, and the caller itself stays safe. -/
theorem step_safe {α : Type} {D S : Loc → Prop} {Post : FS → α → Prop} {p : Prog α} {fs : FS} (ht : IsTree fs) (h : Safe D S Post p fs) :
    Grow S fs (p.step fs).1 ∧ Safe D S Post (p.step fs).2 (p.step fs).1 := by
  cases p with
  | ret a => exact ⟨.refl ht, h⟩
  | existsCall q k => exact ⟨.refl ht, h fs (.refl ht)⟩
  | mkdirCall q k => exact ⟨mkdir_grow ht q h.1, h.2 fs (.refl ht)⟩

theorem schedule_safe {α : Type} {m : ℕ} {q : Fin m → Loc} {fs0 : FS} {Post : (Fin m) → FS → α → Prop} : ∀ (is : List (Fin m)) (fs : FS) (ps : Fin m → Prog α),
    Grow (fun r => ∃ i, r <:+ q i) fs0 fs →
    (∀ i, Safe (fun r => fs0 r = none ∧ ∃ j, j ≠ i ∧ r <:+ q j) (fun r => r <:+ q i) (Post i) (ps i) fs) →
    Grow (fun r => ∃ i, r <:+ q i) fs0 (runSchedule is fs ps).1 ∧
    ∀ i, Safe (fun r => fs0 r = none ∧ ∃ j, j ≠ i ∧ r <:+ q j) (fun r => r <:+ q i) (Post i) ((runSchedule is fs ps).2 i) (runSchedule is fs ps).1
  | [], fs, ps, hg, hs => ⟨hg, hs⟩
  | i :: is, fs, ps, hg, hs => by
    obtain ⟨h1, h2⟩ := step_safe hg.tree (hs i)
    have h0 : ∀ r, fs r = none → fs0 r = none := by
      intro r hr
      rcases hg.change r with g | ⟨g, -, -⟩
      · exact g ▸ hr
      · exact g
    refine schedule_safe is _ _ (hg.trans (grow_weaken h1 (fun r _ hr => ⟨i, hr⟩))) (fun j => ?_)
    by_cases hj : j = i
    · subst hj; rw [Function.update_self]; exact h2
    · rw [Function.update_of_ne hj]
      exact safe_grow (hs j) (grow_weaken h1 (fun r hr hq => ⟨h0 r hr, i, fun h => hj h.symm, hq⟩))

/-- C66, several callers, in every order of their system calls.  If no file is in the way, only directories at and above the locations of the callers
appear, and when a caller has finished its directory exists; it has returned its path, or it got `FileExistsError` because the directory was missing at first
and is at or above the location of another caller. -/
theorem C66_concurrent_partial {m : ℕ} (fs : FS) (ht : IsTree fs) (cwd : List String) (path name : Fin m → PyPath)
    (hn : ∀ i, NoFile fs (((path i).join (name i)).loc cwd)) (is : List (Fin m)) :
    let q := fun i => ((path i).join (name i)).loc cwd
    let out := runSchedule is fs (fun i => savePathCreator cwd (path i) (name i))
    (∀ r, out.1 r = fs r ∨ (fs r = none ∧ out.1 r = some .dir ∧ ∃ i, r <:+ q i)) ∧
    ∀ i res, out.2 i = .ret res → out.1 (q i) = some .dir ∧
      (res = .ok ((path i).join (name i)) ∨ (res = .error .fileExists ∧ fs (q i) = none ∧ ∃ j, j ≠ i ∧ q i <:+ q j)) := by
  intro q out
  obtain ⟨h1, h2⟩ := schedule_safe (q := q) (fs0 := fs)
    (Post := fun i => Saved (fun r => fs r = none ∧ ∃ j, j ≠ i ∧ r <:+ q j) ((path i).join (name i)) (q i)) is fs
    (fun i => savePathCreator cwd (path i) (name i)) (.refl ht) (fun i => savePathCreator_safe cwd _ _ fs ht (fun r hr => hr) (hn i))
  refine ⟨h1.change, fun i res hres => ?_⟩
  have := h2 i
  rw [show (runSchedule is fs (fun i => savePathCreator cwd (path i) (name i))).2 i = .ret res from hres] at this
  exact this _ (.refl h1.tree)

/-! ## Callers of the same path: one of them succeeds -/

/-- A successful `mkdir` at `p` is the last call of the program. -/
def Spec.LastMkdir {α : Type} (p : Loc) (r : α) : Prog α → Prop
  | .ret _ => True
  | .existsCall _ k => ∀ b, LastMkdir p r (k b)
  | .mkdirCall q k => (q = p → k none = .ret r) ∧ ∀ e, LastMkdir p r (k e)

theorem lastMkdir_bind {α β : Type} {p : Loc} {a : α} {b : β} (f : α → Prog β) (hf : ∀ a, LastMkdir p b (f a)) (hb : f a = .ret b) : ∀ (g : Prog α), LastMkdir p a g → LastMkdir p b (g.bind f)
  | .ret x, _ => hf x
  | .existsCall q k, h => fun c => lastMkdir_bind f hf hb (k c) (h c)
  | .mkdirCall q k, h => ⟨fun hq => by dsimp only; rw [h.1 hq]; exact hb, fun e => lastMkdir_bind f hf hb (k e) (h.2 e)⟩

/-- The program never makes `p`. -/
def NeverMkdir {α : Type} (p : Loc) : Prog α → Prop
  | .ret _ => True
  | .existsCall _ k => ∀ b, NeverMkdir p (k b)
  | .mkdirCall q k => q ≠ p ∧ ∀ e, NeverMkdir p (k e)

theorem neverMkdir_bind {α β : Type} {p : Loc} (f : α → Prog β) (hf : ∀ a, NeverMkdir p (f a)) : ∀ (g : Prog α), NeverMkdir p g → NeverMkdir p (g.bind f)
  | .ret x, _ => hf x
  | .existsCall q k, h => fun c => neverMkdir_bind f hf (k c) (h c)
  | .mkdirCall q k, h => ⟨h.1, fun e => neverMkdir_bind f hf (k e) (h.2 e)⟩

theorem lastMkdir_bind_never {α β : Type} {p : Loc} {b : β} (f : α → Prog β) (hf : ∀ a, LastMkdir p b (f a)) : ∀ (g : Prog α), NeverMkdir p g → LastMkdir p b (g.bind f)
  | .ret x, _ => hf x
  | .existsCall q k, h => fun c => lastMkdir_bind_never f hf (k c) (h c)
  | .mkdirCall q k, h => ⟨fun hq => absurd hq h.1, fun e => lastMkdir_bind_never f hf (k e) (h.2 e)⟩

theorem makedirs_never {p : Loc} : ∀ (q : Loc), ¬ p <:+ q → NeverMkdir p (makedirs q)
  | [], h => ⟨fun hq => h (hq ▸ List.suffix_rfl), fun _ => trivial⟩
  | x :: r, h => by
    have hmk : NeverMkdir p (.mkdirCall (x :: r) .ret : Prog (Option OsErr)) := ⟨fun hq => h (hq ▸ List.suffix_rfl), fun _ => trivial⟩
    intro b
    dsimp only
    by_cases hb : b = true
    · rw [if_pos hb]; exact hmk
    · rw [if_neg hb]
      refine neverMkdir_bind _ ?_ _ (makedirs_never r (fun hc => h (hc.trans (List.suffix_cons _ _))))
      rintro (_ | _ | _ | _)
      · exact hmk
      · exact hmk
      · exact trivial
      · exact trivial

theorem makedirs_last : ∀ (q : Loc), LastMkdir q none (makedirs q)
  | [] => ⟨fun _ => rfl, fun _ => trivial⟩
  | x :: r => by
    have hmk : LastMkdir (x :: r) none (.mkdirCall (x :: r) .ret : Prog (Option OsErr)) := ⟨fun _ => rfl, fun _ => trivial⟩
    intro b
    dsimp only
    by_cases hb : b = true
    · rw [if_pos hb]; exact hmk
    · rw [if_neg hb]
      refine lastMkdir_bind_never _ ?_ _ (makedirs_never r (cons_not_suffix x r))
      rintro (_ | _ | _ | _)
      · exact hmk
      · exact hmk
      · exact trivial
      · exact trivial

theorem savePathCreator_last (cwd : List String) (path name : PyPath) :
    LastMkdir ((path.join name).loc cwd) (.ok (path.join name)) (savePathCreator cwd path name) := by
  unfold savePathCreator
  refine lastMkdir_bind (a := none) _ ?_ ?_ _ ?_
  rotate_left
  · rfl
  rotate_left
  · rintro (_ | _) <;> exact trivial
  · intro b
    dsimp only
    by_cases hb : b = true
    · rw [if_pos hb]; exact trivial
    · rw [if_neg hb]; exact makedirs_last _

theorem mkdir_fresh {fs : FS} {q p : Loc} (h0 : fs p = none) (h1 : (mkdir fs q).1 p ≠ none) : q = p ∧ (mkdir fs q).2 = none := by
  cases q with
  | nil => exact absurd h0 h1
  | cons x r =>
    cases h2 : fs (x :: r) with
    | some k => rw [mkdir, h2] at h1; exact absurd h0 h1
    | none =>
      cases h3 : fs r with
      | none => rw [mkdir, h2, h3] at h1; exact absurd h0 h1
      | some k =>
        cases k with
        | file => rw [mkdir, h2, h3] at h1; exact absurd h0 h1
        | dir =>
          rw [mkdir_new h2 h3] at h1 ⊢
          refine ⟨?_, rfl⟩
          by_contra hne
          dsimp only at h1
          rw [Function.update_of_ne (fun h => hne h.symm)] at h1
          exact h1 h0

theorem schedule_last {α : Type} {m : ℕ} {p : Loc} {r : α} : ∀ (is : List (Fin m)) (fs : FS) (ps : Fin m → Prog α), (∀ i, LastMkdir p r (ps i)) →
    (fs p = none ∨ ∃ i, ps i = .ret r) → (runSchedule is fs ps).1 p = none ∨ ∃ i, (runSchedule is fs ps).2 i = .ret r
  | [], fs, ps, _, h => h
  | i :: is, fs, ps, hl, h => by
    refine schedule_last is _ _ (fun j => ?_) ?_
    · by_cases hj : j = i
      · subst hj
        rw [Function.update_self]
        have := hl j
        cases hp : ps j with
        | ret a => exact trivial
        | existsCall q k => rw [hp] at this; exact this _
        | mkdirCall q k => rw [hp] at this; exact this.2 _
      · rw [Function.update_of_ne hj]; exact hl j
    · rcases h with h | ⟨j, hj⟩
      · by_cases hc : ((ps i).step fs).1 p = none
        · exact Or.inl hc
        · refine Or.inr ⟨i, ?_⟩
          rw [Function.update_self]
          have := hl i
          cases hp : ps i with
          | ret a => rw [hp] at hc; exact absurd h hc
          | existsCall q k => rw [hp] at hc; exact absurd h hc
          | mkdirCall q k =>
            rw [hp] at hc this
            obtain ⟨rfl, he⟩ := mkdir_fresh h hc
            simp only [Prog.step]
            rw [he]
            exact this.1 rfl
      · refine Or.inr ⟨j, ?_⟩
        by_cases hji : j = i
        · subst hji; rw [Function.update_self, hj]; rfl
        · rw [Function.update_of_ne hji, hj]

/-- C66, several callers of the same path: as soon as one of them has finished, one of them has succeeded. -/
theorem C66_one_succeeds_partial {m : ℕ} (fs : FS) (ht : IsTree fs) (cwd : List String) (path name : PyPath) (hn : NoFile fs ((path.join name).loc cwd)) (is : List (Fin m)) :
    let out := runSchedule is fs (fun _ => savePathCreator cwd path name)
    (∃ i res, out.2 i = .ret res) → ∃ i, out.2 i = .ret (.ok (path.join name)) := by
  rintro out ⟨i, res, hres⟩
  obtain ⟨-, h⟩ := C66_concurrent_partial fs ht cwd (fun _ : Fin m => path) (fun _ => name) (fun _ => hn) is
  obtain ⟨hd, hr⟩ := h i res hres
  rcases hr with rfl | ⟨-, h0, -⟩
  · exact ⟨i, hres⟩
  · rcases schedule_last (p := (path.join name).loc cwd) (r := .ok (path.join name)) is fs (fun _ => savePathCreator cwd path name)
      (fun _ => savePathCreator_last cwd path name) (Or.inl h0) with hc | hc
    · have hd' : (runSchedule is fs (fun _ => savePathCreator cwd path name)).1 ((path.join name).loc cwd) = some .dir := hd
      rw [hc] at hd'
      cases hd'
    · exact hc

/-- An empty file system. -/
def exFS : FS := fun q => if q = [] then some .dir else none

theorem exFS_tree : IsTree exFS := ⟨rfl, fun x r h => by simp [exFS] at h⟩

/-- C66 is false for two concurrent callers: in this order both find the directory missing, and the second `mkdir` raises `FileExistsError`. -/
theorem C66_refuted_concurrent : ∃ (fs : FS) (_ : IsTree fs) (path name : PyPath) (_ : NoFile fs ((path.join name).loc [])) (is : List (Fin 2)),
    (runSchedule is fs (fun _ => savePathCreator [] path name)).2 0 = .ret (.ok (path.join name)) ∧
    (runSchedule is fs (fun _ => savePathCreator [] path name)).2 1 = .ret (.error .fileExists) := by
  refine ⟨exFS, exFS_tree, ⟨true, []⟩, ⟨false, ["run"]⟩, ?_, [0, 1, 0, 0, 1, 1], ?_, ?_⟩
  · intro r _ h
    simp only [exFS] at h
    split at h <;> cases h
  · rfl
  · rfl

/-- The hypotheses for one and for several callers: an empty file system, and one with a file in the way. -/
example : IsTree exFS ∧ NoFile exFS ((PyPath.join ⟨true, ["data"]⟩ ⟨false, ["run", "one"]⟩).loc []) := by
  refine ⟨exFS_tree, fun r _ h => ?_⟩
  simp only [exFS] at h
  split at h <;> cases h

example : let fs : FS := fun q => if q = [] then some .dir else if q = ["data"] then some .file else none
    IsTree fs ∧ ∃ r, r <:+ (PyPath.join ⟨true, ["data"]⟩ ⟨false, ["run"]⟩).loc [] ∧ r ≠ (PyPath.join ⟨true, ["data"]⟩ ⟨false, ["run"]⟩).loc [] ∧ fs r = some .file := by
  intro fs
  refine ⟨⟨rfl, fun x r h => ?_⟩, ["data"], ?_, by decide, by simp [fs]⟩
  · by_cases hx : x :: r = ["data"]
    · obtain ⟨-, rfl⟩ := List.cons.inj hx; rfl
    · simp [fs, hx] at h
  · exact ⟨["run"], rfl⟩

end Oranssi
