import Mathlib.Data.List.Basic
import Mathlib.Data.List.Infix
/-!
# Saving and loading: core.py 91-121

A file system is a map from paths to contents plus the set of directories. A save is the sequence of atomic effects it
performs; the process may be killed between any two of them, so the crash states are the states in the trace. Other processes are not
modelled.
-/
namespace Mocat.Files

abbrev Name := List Char

/-- A path: directory components and the last component. -/
structure Path where
  parent : List Name
  name : Name
  deriving DecidableEq

variable {B C : Type}

/-- Regular files and directories. -/
structure FS (B : Type) where
  file : Path → Option (List B)
  dir : List Name → Bool

/-- pathlib `PurePath.suffix`/`stem` of the last component: split at the last dot, unless the name starts or
ends with it. -/
def splitSuffix (n : Name) : Name × Name :=
  match n.reverse.dropWhile (· ≠ '.') with
  | [] => (n, [])
  | _ :: s =>
    let ext := n.reverse.takeWhile (· ≠ '.')
    if s = [] ∨ ext = [] then (n, []) else (s.reverse, '.' :: ext.reverse)

/-- `'.cdict'` -/
def cdictSuffix : Name := ['.', 'c', 'd', 'i', 'c', 't']

inductive Err
  | runtimeError   -- core.py 101
  | valueError     -- core.py 110, 112; pathlib `with_suffix` on an empty name
  | osError        -- mkdir below a regular file, unlink or open of a directory
  | pickleError    -- pickle.dump raised part way, or pickle.load could not read the bytes
  deriving DecidableEq

/-- core.py 94-96: the path written to. -/
def target (p : Path) : Except Err Path :=
  if (splitSuffix p.name).2 = cdictSuffix then .ok p
  else if p.name = [] then .error .valueError
  else .ok { p with name := (splitSuffix p.name).1 ++ cdictSuffix }

/-- Directory components as a path, for the clash with a regular file. -/
def dirPath (l : List Name) : Option Path :=
  match l.reverse with
  | [] => none
  | n :: r => some ⟨r.reverse, n⟩

/-- `Path.mkdir(parents=True, exist_ok=True)`: fails if a prefix of the directory is a regular file. (Simplification: it creates all missing
directories at once; they contain no files.) -/
def mkdir (fs : FS B) (d : List Name) : Except Err (FS B) :=
  if d.inits.any (fun l => ((dirPath l).bind fs.file).isSome) then .error .osError
  else .ok { fs with dir := fun l => fs.dir l || decide (l <+: d) }

/-- Is the path a directory? -/
def FS.isDir (fs : FS B) (p : Path) : Bool := fs.dir (p.parent ++ [p.name])

/-- `path.exists()` -/
def FS.exists' (fs : FS B) (p : Path) : Bool := (fs.file p).isSome || fs.isDir p

/-- set or remove one file -/
def FS.setFile (fs : FS B) (p : Path) (o : Option (List B)) : FS B :=
  { fs with file := fun q => if q = p then o else fs.file q }

/-- core.py 103-104: `open(path, 'wb')` creates an empty file, `pickle.dump` writes the bytes; after any number of them
the process may be killed. -/
def writeStates (fs : FS B) (p : Path) (bytes : List B) : List (FS B) :=
  bytes.inits.map fun pre => fs.setFile p (some pre)

/-- core.py 91-104: all states passed through (the first is the state before the call), and the outcome. `dump c` is the bytes
pickle writes and whether it finished without raising. -/
def save (dump : C → List B × Bool) (fs : FS B) (c : C) (path : Path) (overwrite : Bool) :
    List (FS B) × Except Err Unit :=
  match target path with
  | .error e => ([fs], .error e)
  | .ok p =>
    match mkdir fs p.parent with
    | .error e => ([fs], .error e)
    | .ok fs1 =>
      let out : Except Err Unit := if (dump c).2 then .ok () else .error .pickleError
      if fs1.exists' p then
        if overwrite then
          if fs1.isDir p then ([fs, fs1], .error .osError)
          else
            let fs2 := fs1.setFile p none
            ([fs, fs1, fs2] ++ writeStates fs2 p (dump c).1, out)
        else ([fs, fs1], .error .runtimeError)
      else ([fs, fs1] ++ writeStates fs1 p (dump c).1, out)

/-- State after the call. -/
def after (fs : FS B) (r : List (FS B) × Except Err Unit) : FS B := r.1.getLast?.getD fs

/-- core.py 107-121. (The conversion of arrays in lines 116-119 does not change their values.) -/
def load (undump : List B → Option C) (fs : FS B) (path : Path) : Except Err C :=
  match fs.file path with
  | none => .error .valueError
  | some bytes =>
    if (splitSuffix path.name).2 ≠ cdictSuffix then .error .valueError
    else match undump bytes with
      | none => .error .pickleError
      | some c => .ok c

end Mocat.Files
