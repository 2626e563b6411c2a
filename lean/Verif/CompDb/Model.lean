import Verif.Shell.Props
import Verif.Attrs.More

/-!
# The compilation database (C114): the model

Models SCons/Tool/compilation_db.py 40-208 (the list of entries, `write_compilation_db`, the emitters and `generate`), SCons/Tool/__init__.py 444-482 (`createObjBuilders`), the parts of
SCons/Tool/cc.py 36-38 and 68-79, SCons/Tool/cxx.py 38-40 and 53-75 and SCons/Tool/asm.py 39-62 that register actions and emitters, SCons/Builder.py 187-208 (`DictEmitter`, `ListEmitter`), 709-717
(`add_emitter`) and 896-898 (`add_action`), SCons/Environment.py 1797-1802 (the builders of a clone), SCons/Action.py 752-760 (`_string_from_cmd_list`), 1007-1042 (`process`, `strfunction`) and
1087-1105 (what `execute` runs), and `json.dump` with `indent=4` of Python's library.

Simplified: POSIX (suffixes with the case that counts); the keys of the emitters are suffixes without variables, so that `Selector.__call__` (Util/__init__.py 929-957) is a lookup; what a command
variable expands to is given (`World.words`; the rules of expansion are the subject of C31-C35), for the database with `TEMPFILE` replaced by something that gives the command itself; texts are sequences of
Unicode scalar values, so that no lone surrogate (a byte of a name that is not UTF-8) occurs. Not modelled: a source found in a repository, which is named by its place there in the command that is run
(Action.py 1091) and by its local place in the database.
-/

namespace Verif.CompDb
open Verif.Shell (Word)

abbrev Str := List Char
abbrev Path := Verif.Attrs.Path

/-! ## The builders and their emitters -/

/-- The construction variables with the commands. -/
inductive Cmd where
  | cccom | shcccom | cxxcom | shcxxcom | ascom | asppcom
  deriving DecidableEq, Repr

/-- cc.py 36-38, cxx.py 38-40, asm.py 39-44, where the case of a suffix counts. -/
def cSuffixes : List Str := [".c", ".m"].map String.toList
def cxxSuffixes : List Str := [".cpp", ".cc", ".cxx", ".c++", ".C++", ".mm", ".C"].map String.toList
def asSuffixes : List Str := [".s", ".asm", ".ASM"].map String.toList
def asppSuffixes : List Str := [".spp", ".SPP", ".sx", ".S"].map String.toList

/-- The emitters in the dictionaries: `StaticObjectEmitter` or `SharedObjectEmitter`, or one of the database's (compilation_db.py 155-164). -/
inductive Emitter where
  | object
  | entry (c : Cmd)
  deriving DecidableEq, Repr

/-- The two builders made by `createObjBuilders`; the first argument tells whether it is the one for shared objects. -/
structure Table where
  action : Bool → Str → Option Cmd
  emitter : Bool → Str → List Emitter     -- [] when the dictionary has no such key

def Table.empty : Table := ⟨fun _ _ => none, fun _ _ => []⟩

/-- The tools. -/
inductive Tool where
  | cc | cxx | as | compdb
  deriving DecidableEq, Repr

/-- `add_action` and `add_emitter` for each suffix of a list (cc.py 74-78 and the like); `c false` is the command of static objects and `c true` the one of shared objects. -/
def register (T : Table) (sufs : List Str) (c : Bool → Cmd) : Table where
  action sh suf := if suf ∈ sufs then some (c sh) else T.action sh suf
  emitter sh suf := if suf ∈ sufs then [.object] else T.emitter sh suf

/-- Lines 183-187 of compilation_db.py for each suffix of a list. -/
def watch (T : Table) (sufs : List Str) (c : Bool → Cmd) : Table where
  action := T.action
  emitter sh suf := if suf ∈ sufs then (if T.emitter sh suf = [] then [] else T.emitter sh suf ++ [.entry (c sh)]) else T.emitter sh suf

/-- `generate` of the tools on the builders. -/
def generate (T : Table) : Tool → Table
  | .cc => register T cSuffixes fun sh => if sh then .shcccom else .cccom
  | .cxx => register T cxxSuffixes fun sh => if sh then .shcxxcom else .cxxcom
  | .as => register (register T asSuffixes fun _ => .ascom) asppSuffixes fun _ => .asppcom
  | .compdb =>
    let T := watch T cSuffixes fun sh => if sh then .shcccom else .cccom
    let T := watch T cxxSuffixes fun sh => if sh then .shcxxcom else .cxxcom
    let T := watch T asSuffixes fun _ => .ascom
    watch T asppSuffixes fun _ => .asppcom

/-! ## The SConscript files -/

/-- The environment given to a builder: its number, and the overrides of the call (a text stands for them). -/
structure CallEnv where
  env : Nat
  overrides : Str
  deriving DecidableEq, Repr

/-- An entry of `__COMPILATION_DB_ENTRIES`; also a compilation that has been set up. -/
structure Entry where
  target : Path
  source : Path
  env : CallEnv
  cmd : Cmd
  deriving DecidableEq, Repr

/-- What a SConscript file does: `Environment(tools=[])`, `env.Clone()`, `env.Tool(t)`, and `env.Object(target, source, overrides…)` or `env.SharedObject(…)`, called by the user or for a source of a `Program`. -/
inductive Ev where
  | newEnv
  | clone (e : Nat)
  | tool (e : Nat) (t : Tool)
  | compile (shared : Bool) (target source : Path) (suffix : Str) (env : CallEnv)
  deriving DecidableEq, Repr

/-- The builders that exist, the ones each environment has, the entries, and the compilations that have been set up. -/
structure State where
  tables : List Table
  envs : List (Option Nat)
  entries : List Entry
  compiles : List Entry

def State.init : State := ⟨[], [], [], []⟩

/-- The builders of an environment. -/
def State.tableOf (s : State) (e : Nat) : Option Nat := (s.envs[e]?).getD none

/-- The emitters of the list, one after the other (Builder.py 205-208, compilation_db.py 159-161). -/
def emit (t : Path) (src : Path) (env : CallEnv) : List Emitter → List Entry
  | [] => []
  | .object :: es => emit t src env es
  | .entry c :: es => ⟨t, src, env, c⟩ :: emit t src env es

/-- One step; `createObjBuilders` makes builders where the environment has none, and a clone has the builders of the environment it was made from. -/
def step (s : State) : Ev → State
  | .newEnv => { s with envs := s.envs ++ [none] }
  | .clone e => { s with envs := s.envs ++ [s.tableOf e] }
  | .tool e t =>
    if e < s.envs.length then
      match s.tableOf e with
      | some i => { s with tables := s.tables.modify i (generate · t) }
      | none => { s with tables := s.tables ++ [generate .empty t], envs := s.envs.set e (some s.tables.length) }
    else s
  | .compile sh t src suf ce =>
    match s.tableOf ce.env with
    | none => s
    | some i =>
      match s.tables[i]? with
      | none => s
      | some T =>
        match T.action sh suf with
        | none => s                     -- the user's error "While building … Don't know how to build …"
        | some c => { s with entries := s.entries ++ emit t src ce (T.emitter sh suf), compiles := s.compiles ++ [⟨t, src, ce, c⟩] }

def run (evs : List Ev) : State := evs.foldl step .init

/-! ## The commands -/

/-- The loop of `process` (Action.py 1014-1020) over the first word: the rest, `ignore` and `silent`. -/
def prefixes : Str → Bool → Bool → Str × Bool × Bool
  | '@' :: r, ig, _ => prefixes r ig true
  | '-' :: r, _, si => prefixes r true si
  | s, ig, si => (s, ig, si)

/-- `process` (Action.py 1007-1026); a word that is cut is no literal any more. -/
def process : List (List Word) → List (List Word) × Bool × Bool
  | (w :: ws) :: ls =>
    let p := prefixes w.data false false
    let w' : Word := if p.1 = w.data then w else ⟨p.1, false⟩
    ((if w'.data = [] then ws else w' :: ws) :: ls, p.2.1, p.2.2)
  | r => (r, false, false)

/-- `_string_from_cmd_list` (Action.py 752-760). -/
def stringFromCmdList (ws : List Word) : Str :=
  [' '].intercalate (ws.map fun w => if ' ' ∈ w.data ∨ '\t' ∈ w.data then '"' :: w.data ++ ['"'] else w.data)

/-- `strfunction` of an action without a `cmdstr` (Action.py 1039-1042). -/
def strfunction (ls : List (List Word)) : Str :=
  let p := process ls
  if p.2.2 then [] else stringFromCmdList (p.1.headD [])

/-- The lines `execute` gives to the shell (Action.py 1091-1096). -/
def executed (ls : List (List Word)) : List Str := ((process ls).1.filter (fun l => !l.isEmpty)).map Verif.Shell.commandLine

/-! ## The file -/

/-- What the build knows: the nodes, and what the commands expand to. -/
structure World where
  nodes : Verif.Attrs.World
  words : CallEnv → Cmd → Path → Path → List (List Word)

/-- `COMPILATIONDB_USE_ABSPATH` and `COMPILATIONDB_PATH_FILTER`: none, or `fnmatch` with the pattern, which is given. -/
structure Settings where
  useAbspath : Bool
  filter : Option (Str → Bool)

/-- A record of the file, its keys in order. -/
structure Record where
  command : Str
  directory : Str
  file : Str
  output : Str
  deriving DecidableEq, Repr

/-- The body of the loop (compilation_db.py 69-93) without the filter. -/
def record (W : World) (S : Settings) (e : Entry) : Record :=
  let src := if W.nodes.derived e.source then e.source else Verif.Attrs.srcnode W.nodes e.source
  { command := strfunction (W.words e.env e.cmd e.target e.source)
    directory := Verif.Attrs.abspath W.nodes.sconstruct
    file := if S.useAbspath then Verif.Attrs.abspath src else Verif.Attrs.getPath W.nodes.cwd src
    output := if S.useAbspath then Verif.Attrs.abspath e.target else Verif.Attrs.getPath W.nodes.cwd e.target }

/-- The loop. -/
def records (W : World) (S : Settings) : List Entry → List Record
  | [] => []
  | e :: es =>
    let r := record W S e
    match S.filter with
    | some f => if f r.output then r :: records W S es else records W S es
    | none => r :: records W S es

def hexDigit (n : Nat) : Char := "0123456789abcdef".toList.getD n '0'

/-- `'\\u{0:04x}'.format(n)`. -/
def unicodeEscape (n : Nat) : Str := ['\\', 'u', hexDigit (n / 4096 % 16), hexDigit (n / 256 % 16), hexDigit (n / 16 % 16), hexDigit (n % 16)]

/-- A character in a text written by `json.dump` (json/encoder.py, `py_encode_basestring_ascii`). -/
def jsonChar (c : Char) : Str :=
  if c = '"' then ['\\', '"']
  else if c = '\\' then ['\\', '\\']
  else if c = '\n' then ['\\', 'n']
  else if c = '\r' then ['\\', 'r']
  else if c = '\t' then ['\\', 't']
  else if c = '\x08' then ['\\', 'b']
  else if c = '\x0c' then ['\\', 'f']
  else if 32 ≤ c.toNat ∧ c.toNat ≤ 126 then [c]
  else if c.toNat < 65536 then unicodeEscape c.toNat
  else unicodeEscape (0xd800 + (c.toNat - 65536) / 1024) ++ unicodeEscape (0xdc00 + (c.toNat - 65536) % 1024)

def jsonStr (s : Str) : Str := '"' :: s.flatMap jsonChar ++ ['"']

def spaces (n : Nat) : Str := List.replicate n ' '

/-- A key and its value, with the indentation before it. -/
def jsonField (k v : Str) : Str := '\n' :: spaces 8 ++ jsonStr k ++ [':', ' '] ++ jsonStr v

def jsonRecord (r : Record) : Str :=
  '\n' :: spaces 4 ++ ['{'] ++ jsonField "command".toList r.command ++ [','] ++ jsonField "directory".toList r.directory ++ [','] ++ jsonField "file".toList r.file ++ [','] ++
    jsonField "output".toList r.output ++ '\n' :: spaces 4 ++ ['}']

/-- `json.dump(entries, f, sort_keys=True, indent=4)` and the newline (compilation_db.py 95-97). -/
def fileText : List Record → Str
  | [] => ['[', ']', '\n']
  | rs => '[' :: [','].intercalate (rs.map jsonRecord) ++ ['\n', ']', '\n']

/-- The file that the database's builder writes. -/
def database (W : World) (S : Settings) (evs : List Ev) : Str := fileText (records W S (run evs).entries)

end Verif.CompDb
