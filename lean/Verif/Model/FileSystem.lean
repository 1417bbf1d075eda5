import Mathlib.Data.List.Basic

/-! # Model of `save_path_creator` (oranssi/utils.py:118-122) with its file system calls

A program is a sequence of the system calls `os.path.exists` and `os.mkdir`; other processes may act between two calls.  Simplifications: a path
consists of ordinary names (no `.`, `..`, no symbolic links), permissions and full disks are left out, and nothing is ever deleted. -/

namespace Oranssi

/-- What is found at a path. -/
inductive Kind where
  | dir | file
  deriving DecidableEq

/-- A location: the names from the last to the first, `[]` is the root.  The parent of `x :: r` is `r`. -/
abbrev Loc := List String

/-- A file system: what is at which location. -/
abbrev FS := Loc → Option Kind

/-- The exceptions of `os.mkdir`. -/
inductive OsErr where
  | fileExists | notFound | notADirectory
  deriving DecidableEq

/-- `os.mkdir`: the new file system and the exception. -/
def mkdir (fs : FS) : Loc → FS × Option OsErr
  | [] => (fs, some .fileExists)
  | x :: r =>
    match fs (x :: r), fs r with
    | some _, _ => (fs, some .fileExists)
    | none, none => (fs, some .notFound)
    | none, some .file => (fs, some .notADirectory)
    | none, some .dir => (Function.update fs (x :: r) (some .dir), none)

/-- Programs with the two system calls. -/
inductive Prog (α : Type) where
  | ret (a : α)
  | existsCall (q : Loc) (k : Bool → Prog α)
  | mkdirCall (q : Loc) (k : Option OsErr → Prog α)

/-- Sequential composition. -/
def Prog.bind {α β : Type} : Prog α → (α → Prog β) → Prog β
  | .ret a, f => f a
  | .existsCall q k, f => .existsCall q (fun b => (k b).bind f)
  | .mkdirCall q k, f => .mkdirCall q (fun e => (k e).bind f)

/-- `os.makedirs(name)` of the Python library (`exist_ok=False`): if the parent does not exist it is made first, where a `FileExistsError` is ignored
(another process was faster); then the directory itself is made.  The result is the exception.  The case of a one-component relative path, whose
parent is not tested, is covered because the working directory always exists. -/
def makedirs : Loc → Prog (Option OsErr)
  | [] => .mkdirCall [] .ret
  | x :: r => .existsCall r (fun b =>
      if b then .mkdirCall (x :: r) .ret
      else (makedirs r).bind (fun e =>
        match e with
        | none => .mkdirCall (x :: r) .ret
        | some .fileExists => .mkdirCall (x :: r) .ret
        | some e => .ret (some e)))

/-- A path as it is passed: absolute or not, the names from first to last. -/
structure PyPath where
  absolute : Bool
  names : List String
  deriving DecidableEq

/-- `os.path.join(a, b)`. -/
def PyPath.join (a b : PyPath) : PyPath := if b.absolute then b else ⟨a.absolute, a.names ++ b.names⟩

/-- The location of a path, with the working directory `cwd`. -/
def PyPath.loc (cwd : List String) (p : PyPath) : Loc := ((if p.absolute then [] else cwd) ++ p.names).reverse

/-- The program at the location of the joined path. -/
def ensureDir (q : Loc) : Prog (Option OsErr) := .existsCall q (fun b => if b then .ret none else makedirs q)

/-- utils.py:118-122 `save_path_creator(path, experiment_name)`. -/
def savePathCreator (cwd : List String) (path name : PyPath) : Prog (Except OsErr PyPath) :=
  let save := path.join name
  (ensureDir (save.loc cwd)).bind (fun e =>
    match e with
    | none => .ret (.ok save)
    | some e => .ret (.error e))

/-- One system call of a program. -/
def Prog.step {α : Type} (fs : FS) : Prog α → FS × Prog α
  | .ret a => (fs, .ret a)
  | .existsCall q k => (fs, k (fs q).isSome)
  | .mkdirCall q k => ((mkdir fs q).1, k (mkdir fs q).2)

/-- A run without other processes. -/
def Prog.run {α : Type} : Prog α → FS → FS × α
  | .ret a, fs => (fs, a)
  | .existsCall q k, fs => (k (fs q).isSome).run fs
  | .mkdirCall q k, fs => (k (mkdir fs q).2).run (mkdir fs q).1

/-- `m` callers on one file system.  The schedule says which caller makes its next system call. -/
def runSchedule {α : Type} {m : ℕ} : List (Fin m) → FS → (Fin m → Prog α) → FS × (Fin m → Prog α)
  | [], fs, ps => (fs, ps)
  | i :: is, fs, ps => runSchedule is ((ps i).step fs).1 (Function.update ps i ((ps i).step fs).2)

end Oranssi
