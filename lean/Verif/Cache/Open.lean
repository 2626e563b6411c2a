/-!
# Opening a cache directory

`CacheDir.__init__`, `_add_config`, `_mkdir_atomic`, `_readconfig` (`SCons/CacheDir.py` 144–262) together with
`FileLock` (`SCons/Util/filelock.py` 103–163), run by any number of processes on one directory, step by step, in any
order; each may die between any two steps.

A temporary directory is seen by its own process only, so that making it, with its configuration, is one
step (200–229).  `CACHEDIR.TAG` is not used by SCons: it counts among the other files.  The path is not a file of
another kind; the parent directory exists.  File descriptors are not 0 (C30).  `json` writes what it reads;
the file is empty, that is `partly`, until it is written and closed.
-/

namespace Verif.Cache.Open

/-- The file `config`. -/
inductive Conf where
  /-- opened for writing, not complete -/
  | partly
  /-- a configuration with this prefix length -/
  | full (n : Nat)
deriving DecidableEq, Repr

/-- Why opening a cache directory fails. -/
inductive Why where
  /-- `FileExistsError` from `open(config_file, "x")`, 177–179: caught nowhere -/
  | exists
  /-- `LockTimeoutError`, `filelock.py` 134–137 -/
  | timeout
  /-- `SConsEnvironmentError`: the configuration cannot be read, 259–261 -/
  | bad
  /-- `SConsEnvironmentError`: the directory cannot be made, 212–214 -/
  | noDir
  /-- `FileNotFoundError` from `open(config_file)` -/
  | missing
deriving DecidableEq, Repr

/-- Where a process is. -/
inductive PC where
  /-- before `os.path.exists(directory)`, 208 -/
  | idle
  /-- has a temporary directory with a configuration, 229; before `os.replace`, 231 -/
  | temp
  /-- before `os.path.isfile(config_file)`, 250 -/
  | check
  /-- in `acquire_lock` of the writer, 177 -/
  | wantWrite
  /-- has the lock; before `open(config_file, "x")`, 178 -/
  | gotWrite
  /-- has the lock; `config` is open -/
  | writing
  /-- `config` is closed; before `release_lock` -/
  | written
  /-- `open` raised; before `release_lock` -/
  | unwinding
  /-- in `acquire_lock` of the reader, 254 -/
  | wantRead
  /-- the reader has the lock, and gives it back at once, `filelock.py` 139–141 -/
  | gotRead
  /-- before `open(config_file)` and `json.load`, 254–257 -/
  | reading
  /-- the prefix length found -/
  | done (n : Nat)
  | failed (w : Why)
  /-- the process died -/
  | dead
deriving DecidableEq, Repr

/-- The cache directory and the processes. -/
structure St (P : Type) where
  /-- is the directory there? -/
  made : Bool
  /-- its file `config` -/
  config : Option Conf
  /-- its file `config.lock` -/
  lock : Bool
  /-- are there other files in it? -/
  other : Bool
  pc : P → PC

variable {P : Type} [DecidableEq P]

def St.at (s : St P) (p : P) (c : PC) : St P := { s with pc := fun q => if q = p then c else s.pc q }

/-- `CACHE_PREFIX_LEN`, `CacheDir.py` 41. -/
def prefixLen : Nat := 2

/-- What happens. -/
inductive Lab (P : Type) where
  /-- a process goes on -/
  | go (p : P)
  /-- a process gives up waiting for the lock -/
  | timeout (p : P)
  /-- a process dies -/
  | crash (p : P)
  /-- some process puts a file into the cache -/
  | push
deriving DecidableEq

/-- One step. `wr p`: may `p` write into the directory, and make it? -/
inductive Step (wr : P → Bool) : St P → Lab P → St P → Prop
  /-- 208: the directory is there -/
  | found {s : St P} {p : P} (h : s.pc p = .idle) (hd : s.made = true) : Step wr s (.go p) (s.at p .check)
  /-- 211–229: it is not -/
  | notFound {s : St P} {p : P} (h : s.pc p = .idle) (hd : s.made = false) (hw : wr p = true) : Step wr s (.go p) (s.at p .temp)
  /-- 212–214 -/
  | cannotMake {s : St P} {p : P} (h : s.pc p = .idle) (hd : s.made = false) (hw : wr p = false) :
      Step wr s (.go p) (s.at p (.failed .noDir))
  /-- 231–232: `os.replace` gives the temporary directory its name, unless there is one with files in it -/
  | replace {s : St P} {p : P} (h : s.pc p = .temp) (hd : s.made = false ∨ s.config = none ∧ s.lock = false ∧ s.other = false) :
      Step wr s (.go p) ({ s with made := true, config := some (.full prefixLen), lock := false, other := true }.at p .wantRead)
  /-- 233–240: somebody else was first -/
  | second {s : St P} {p : P} (h : s.pc p = .temp) (hd : s.made = true)
      (he : s.config.isSome = true ∨ s.lock = true ∨ s.other = true) : Step wr s (.go p) (s.at p .check)
  /-- 250: there is a configuration -/
  | configured {s : St P} {p : P} (h : s.pc p = .check) (hc : s.config.isSome = true) : Step wr s (.go p) (s.at p .wantRead)
  /-- 250–252: there is none -/
  | unconfigured {s : St P} {p : P} (h : s.pc p = .check) (hc : s.config = none) : Step wr s (.go p) (s.at p .wantWrite)
  /-- `filelock.py` 128: the lock file is made -/
  | lockWrite {s : St P} {p : P} (h : s.pc p = .wantWrite) (hl : s.lock = false) (hw : wr p = true) :
      Step wr s (.go p) ({ s with lock := true }.at p .gotWrite)
  /-- 178: `open(config_file, "x")` -/
  | create {s : St P} {p : P} (h : s.pc p = .gotWrite) (hc : s.config = none) :
      Step wr s (.go p) ({ s with config := some .partly }.at p .writing)
  | createFails {s : St P} {p : P} (h : s.pc p = .gotWrite) (hc : s.config.isSome = true) : Step wr s (.go p) (s.at p .unwinding)
  /-- 181 -/
  | dump {s : St P} {p : P} (h : s.pc p = .writing) :
      Step wr s (.go p) ({ s with config := some (.full prefixLen) }.at p .written)
  /-- `filelock.py` 145–150 -/
  | unlockWrite {s : St P} {p : P} (h : s.pc p = .written) : Step wr s (.go p) ({ s with lock := false }.at p .wantRead)
  | unlockFail {s : St P} {p : P} (h : s.pc p = .unwinding) : Step wr s (.go p) ({ s with lock := false }.at p (.failed .exists))
  | lockRead {s : St P} {p : P} (h : s.pc p = .wantRead) (hl : s.lock = false) (hw : wr p = true) :
      Step wr s (.go p) ({ s with lock := true }.at p .gotRead)
  | unlockRead {s : St P} {p : P} (h : s.pc p = .gotRead) : Step wr s (.go p) ({ s with lock := false }.at p .reading)
  /-- 257 -/
  | load {s : St P} {p : P} {n : Nat} (h : s.pc p = .reading) (hc : s.config = some (.full n)) :
      Step wr s (.go p) (s.at p (.done n))
  | loadBad {s : St P} {p : P} (h : s.pc p = .reading) (hc : s.config = some .partly) :
      Step wr s (.go p) (s.at p (.failed .bad))
  | loadMissing {s : St P} {p : P} (h : s.pc p = .reading) (hc : s.config = none) :
      Step wr s (.go p) (s.at p (.failed .missing))
  /-- `filelock.py` 134–137, while the lock is taken or may not be made -/
  | giveUp {s : St P} {p : P} (h : s.pc p = .wantWrite ∨ s.pc p = .wantRead)
      (hl : s.lock = true ∨ wr p = false) : Step wr s (.timeout p) (s.at p (.failed .timeout))
  | crash {s : St P} {p : P} : Step wr s (.crash p) (s.at p .dead)
  | push {s : St P} (hd : s.made = true) : Step wr s .push { s with other := true }

/-- What is there when the first process starts. -/
inductive Before where
  /-- nothing -/
  | nothing
  /-- a directory that is not a cache directory yet; `other`: with files in it -/
  | plain (other : Bool)
  /-- a cache directory -/
  | cache (n : Nat) (other : Bool)
deriving DecidableEq, Repr

/-- The start: processes that are about to open the directory. -/
def start : Before → St P
  | .nothing => ⟨false, none, false, false, fun _ => .idle⟩
  | .plain o => ⟨true, none, false, o, fun _ => .idle⟩
  | .cache n o => ⟨true, some (.full n), false, o, fun _ => .idle⟩

inductive Run (wr : P → Bool) : St P → List (Lab P) → St P → Prop
  | nil (s : St P) : Run wr s [] s
  | snoc {s t u : St P} {tr : List (Lab P)} {l : Lab P} : Run wr s tr t → Step wr t l u → Run wr s (tr ++ [l]) u

end Verif.Cache.Open
