import Mathlib.Data.List.Basic
import Mathlib.Logic.Function.Basic
import Mathlib.Data.List.Forall2

/-!
# Hash formats and signature databases (C113)

Models `set_hash_format`, `hash_signature`, `hash_file_signature` (SCons/Util/hashes.py 150-242, 299-347), the choice of the signature database (`current_sconsign_filename`, `Get_DataBase`, `File`, `DirFile.__init__`:
SCons/SConsign.py 61-110, 338, 425-438; `SConsignFile`: SCons/Environment.py 2861-2896; `Dir.sconsign`: SCons/Node/FS.py 72-77), when they are called (`SetOption`: SCons/Script/SConsOptions.py 148-223;
SCons/Script/Main.py 1112-1213), and `get_csig` with `get_max_drift_csig` (FS.py 3222-3281), in a history of runs with different options.

Simplifications: no repositories; `max_drift` is not 0 (C20); a task is decided by the content signatures of its dependencies (C18), the action does not change, and the dependencies of a target are a fixed list (C17, C19 for the rest);
tasks are carried out one after the other (C15) and the database is updated at once (C22-C25); actions that fail, and runs that are killed, end the run (the remaining tasks are not carried out).
A configure check asks for the signatures of files that exist, when the scripts are read; what else it does is left out (C70).
-/

namespace Verif.Hash

abbrev Str := List Char
abbrev Bytes := List Nat

/-- `DEFAULT_HASH_FORMATS` (hashes.py 20). -/
inductive Alg where
  | md5 | sha1 | sha256
  deriving DecidableEq, Repr

def Alg.name : Alg → Str
  | .md5 => "md5".toList
  | .sha1 => "sha1".toList
  | .sha256 => "sha256".toList

/-- `_HASH_FORMAT` and `_HASH_FUNCTION`. -/
structure Globals where
  format : Option Str
  func : Alg
  deriving DecidableEq

/-- `ALLOWED_HASH_FORMATS` (hashes.py 66-110): what hashlib can make. -/
def allowed (avail : Alg → Bool) : List Alg := [Alg.md5, .sha1, .sha256].filter avail

/-- `set_hash_format` (hashes.py 150-242); `none` is the UserError. -/
def setHashFormat (avail : Alg → Bool) (fmt : Option Str) : Option Globals :=
  match fmt with
  | none => (allowed avail).head?.map fun a => ⟨fmt, a⟩
  | some s => if s = [] then (allowed avail).head?.map fun a => ⟨fmt, a⟩ else ((allowed avail).find? fun a => a.name = s.map Char.toLower).map fun a => ⟨fmt, a⟩

/-- `current_sconsign_filename` (SConsign.py 61-73). -/
def filename (g : Globals) : Str := if g.format = none ∧ g.func = .md5 then ".sconsign".toList else ".sconsign_".toList ++ g.func.name

/-- The loop of `hash_file_signature` (hashes.py 332-340): what has been fed to the hash object; `read(n)` reads everything if `n` is negative.  The first argument bounds the number of rounds. -/
def readLoop (chunk : Int) : Nat → Bytes → Bytes
  | 0, _ => []
  | k + 1, rest =>
    let blck := if chunk < 0 then rest else rest.take chunk.toNat
    if blck = [] then [] else blck ++ readLoop chunk k (if chunk < 0 then [] else rest.drop chunk.toNat)

/-- `File.hash_chunksize` after the options were read (Main.py 1211-1212; FS.py 2704). -/
def chunkSize (opt : Int) : Int := if opt ≠ 0 then opt * 1024 else 65536

/-- What is hashed for a file with these contents (`get_csig`, FS.py 3262-3274, and `get_content_hash` 2776-2788): small files at once, others chunk by chunk. -/
def hashed (chunk : Int) (c : Bytes) : Bytes := if (c.length : Int) < chunk then c else readLoop chunk (c.length + 1) c

/-! ## One run -/

/-- Which database: the one of the project, or the one of a directory. -/
inductive DbId (D : Type) where
  | project (name : Str)
  | dir (d : D) (name : Str)
  deriving DecidableEq

/-- What is recorded for a file. -/
structure Entry (F : Type) where
  csig : Option Str := none
  stamp : Option Nat := none
  deps : Option (List (F × Str)) := none

/-- The project. -/
structure Project (F D : Type) where
  dirOf : F → D
  deps : F → List F
  act : F → List Bytes → Bytes
  /-- `hexdigest()` -/
  dig : Alg → Bytes → Str
  avail : Alg → Bool

/-- What is on the disk.  `last` and `seen` are not there, they are kept for the statements: the database used by the run that made the file as it is now (`none` if the user made it), and all contents that files ever had. -/
structure World (F D : Type) where
  files : F → Option Bytes
  mtime : F → Nat
  clock : Nat
  db : DbId D → F → Entry F
  last : F → Option (DbId D)
  seen : Bytes → Prop

/-- What SCons holds in memory. -/
structure Mem (F D : Type) where
  g : Globals
  /-- `__SConscript_settings__['hash_format']` -/
  setting : Option Str
  /-- `DB_Name` -/
  dbName : Option Str
  /-- `ForDirectory` is `DirFile` -/
  perDir : Bool
  /-- `DataBase[top]`, once it is open -/
  opened : Option Str
  /-- `dir._sconsign` -/
  sconsigns : D → Option (DbId D)
  /-- `ninfo.csig` -/
  csigs : F → Option Str
  chunk : Int

variable {F D : Type} [DecidableEq F] [DecidableEq D]

/-- `dir.sconsign()` (FS.py 72-77) with `DB.__init__`, `Get_DataBase` (SConsign.py 75-110) and `DirFile.__init__` (338). -/
def sconsign (M : Mem F D) (d : D) : Mem F D × DbId D :=
  match M.sconsigns d with
  | some x => (M, x)
  | none =>
    if M.perDir then ({ M with sconsigns := Function.update M.sconsigns d (some (.dir d (filename M.g))) }, .dir d (filename M.g))
    else
      let name := M.dbName.getD (filename M.g)
      let n := M.opened.getD name
      ({ M with dbName := some name, opened := some n, sconsigns := Function.update M.sconsigns d (some (.project n)) }, .project n)

/-- `get_max_drift_csig` (FS.py 3222-3246), for `max_drift` > 0, with the entry of the file; `old` says that the file is older than `max_drift`. -/
def driftCsig (e : Entry F) (old : Bool) (mtime : Nat) : Option Str :=
  match e.csig with
  | some k => if old ∧ e.stamp = some mtime ∧ k ≠ [] then some k else none
  | none => none

/-- `get_csig` of a file with contents `c` (FS.py 3248-3281). -/
def getCsig (P : Project F D) (W : World F D) (old : F → Bool) (M : Mem F D) (f : F) (c : Bytes) : Mem F D × Str :=
  match M.csigs f with
  | some k => (M, k)
  | none =>
    let (M1, x) := sconsign M (P.dirOf f)
    let k := (driftCsig (W.db x f) (old f) (W.mtime f)).getD (P.dig M1.g.func (hashed M1.chunk c))
    ({ M1 with csigs := Function.update M1.csigs f (some k) }, k)

/-- The signatures of some files; the files are recorded as visited (`File.visited`, FS.py 3031-3055: signature and time). `none`: one does not exist. -/
def visit (P : Project F D) (old : F → Bool) : World F D → Mem F D → List F → Option (World F D × Mem F D × List (F × Str) × List Bytes)
  | W, M, [] => some (W, M, [], [])
  | W, M, f :: fs =>
    match W.files f with
    | none => none
    | some c =>
      let (M1, k) := getCsig P W old M f c
      let (M2, x) := sconsign M1 (P.dirOf f)
      let W1 := { W with db := Function.update W.db x (Function.update (W.db x) f { W.db x f with csig := some k, stamp := some (W.mtime f) }) }
      match visit P old W1 M2 fs with
      | none => none
      | some (W2, M3, ks, cs) => some (W2, M3, (f, k) :: ks, c :: cs)

/-- What a script does, as far as it matters here. -/
inductive Ev (F : Type) where
  /-- `SetOption('hash_format', ...)`: kept until the scripts are read -/
  | setOption (fmt : Str)
  /-- `SConsignFile(name)`; the empty name stands for the default -/
  | sconsignFile (name : Option Str)
  /-- a configure check -/
  | check (fs : List F)

/-- The script is read.  A check of files that do not exist does nothing. -/
def script (P : Project F D) (old : F → Bool) : World F D → Mem F D → List (Ev F) → World F D × Mem F D
  | W, M, [] => (W, M)
  | W, M, .setOption s :: es => script P old W { M with setting := some s } es
  | W, M, .sconsignFile none :: es => script P old W { M with perDir := true } es
  | W, M, .sconsignFile (some n) :: es => script P old W { M with perDir := false, dbName := some (if n = [] then filename M.g else n) } es
  | W, M, .check fs :: es => match visit P old W M fs with
    | none => script P old W M es
    | some (W', M', _, _) => script P old W' M' es

/-- One task: up to date if the target exists and what is recorded for its dependencies is what they have now; otherwise it is built.  `none`: a source is missing. -/
def task (P : Project F D) (old : F → Bool) (W : World F D) (M : Mem F D) (t : F) : Option (World F D × Mem F D × Bool) :=
  match visit P old W M (P.deps t) with
  | none => none
  | some (W1, M1, ks, cs) =>
    let (M2, x) := sconsign M1 (P.dirOf t)
    if (W1.files t).isSome ∧ (W1.db x t).deps = some ks then some (W1, M2, false)
    else
      let c := P.act t cs
      some ({ W1 with
          files := Function.update W1.files t (some c)
          mtime := Function.update W1.mtime t (W1.clock + 1)
          clock := W1.clock + 1
          db := Function.update W1.db x (Function.update (W1.db x) t ⟨some (P.dig M2.g.func (hashed M2.chunk c)), some (W1.clock + 1), some ks⟩)
          last := Function.update W1.last t (some x)
          seen := fun b => W1.seen b ∨ b = c },
        { M2 with csigs := Function.update M2.csigs t (some (P.dig M2.g.func (hashed M2.chunk c))) }, true)

/-- The tasks, up to the first that cannot be carried out; what was visited, and what was executed. -/
def tasks (P : Project F D) (old : F → Bool) : World F D → Mem F D → List F → World F D × Mem F D × List F × List F
  | W, M, [] => (W, M, [], [])
  | W, M, t :: ts => match task P old W M t with
    | none => (W, M, [], [])
    | some (W1, M1, b) =>
      let (W2, M2, done, ex) := tasks P old W1 M1 ts
      (W2, M2, t :: done, if b then t :: ex else ex)

/-- The options and the script of a run. -/
structure Run (F : Type) where
  /-- `--hash-format` -/
  cmdline : Option Str
  /-- `--hash-chunksize` -/
  chunk : Int
  events : List (Ev F)
  targets : List F
  old : F → Bool

/-- Memory at the start: `set_hash_format(None)` at the import of the module (hashes.py 249). -/
def start (P : Project F D) : Option (Mem F D) :=
  (setHashFormat P.avail none).map fun g => ⟨g, none, none, false, none, fun _ => none, fun _ => none, 65536⟩

/-- The memory after the scripts were read, when the build begins (Main.py 1112-1213): now the format is set. -/
def ready (P : Project F D) (W : World F D) (r : Run F) : Option (World F D × Mem F D) :=
  match start P with
  | none => none
  | some M =>
    let (W1, M1) := script P r.old W M r.events
    (setHashFormat P.avail (match r.cmdline with | some s => some s | none => M1.setting)).map fun g => (W1, { M1 with g := g, chunk := chunkSize r.chunk })

/-- A run; `none`: it ends with an error before anything is built. -/
def run (P : Project F D) (W : World F D) (r : Run F) : Option (World F D × Mem F D × List F × List F) :=
  (ready P W r).map fun p => tasks P r.old p.1 p.2 r.targets

/-- The user changes (or removes) a file. -/
def edit (W : World F D) (f : F) (c : Option Bytes) : World F D :=
  { W with files := Function.update W.files f c, mtime := Function.update W.mtime f (W.clock + 1), clock := W.clock + 1, last := Function.update W.last f none, seen := fun b => W.seen b ∨ c = some b }

/-- Histories. -/
inductive Hist (P : Project F D) (ok : World F D → Run F → Prop) : World F D → Prop
  | new (files : F → Option Bytes) (mtime : F → Nat) (clock : Nat) : (∀ f, mtime f ≤ clock) → Hist P ok ⟨files, mtime, clock, fun _ _ => {}, fun _ => none, fun b => ∃ f, files f = some b⟩
  | edit {W : World F D} (f : F) (c : Option Bytes) : Hist P ok W → Hist P ok (edit W f c)
  | run {W W' : World F D} {M : Mem F D} {done ex : List F} (r : Run F) : Hist P ok W → ok W r → run P W r = some (W', M, done, ex) → Hist P ok W'

end Verif.Hash
