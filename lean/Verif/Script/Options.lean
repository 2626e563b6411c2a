import Mathlib.Data.List.Basic
import Mathlib.Logic.Function.Basic

/-!
# C78: options

Options come from the command line (`SCONSFLAGS` first), from `SetOption()` in the scripts and from defaults; `AddOption()` declares more of them while the scripts are read, after the command line
was parsed.  Modelled: `SCons/Script/SConsOptions.py` 71-233 (`SConsValues`: `__getattr__`, `set_option`), 236-272 (`SConsOption.convert_value`, `process`), 335-470 (`_process_long_opt`,
`_process_short_opts`), 473-535 (`reparse_local_options`), 537-583 (`add_local_option`), 912-918, 1026-1038, 1171-1175 (callbacks that set, also set, or extend);
`SCons/Script/Main.py` 519-575 (`AddOption`, `GetOption`, `SetOption`), 1041-1043, 1082-1095, 1148, 1175-1176, 1200-1212, 1234-1243, 1374 (where options take effect), 1419-1423 (`_exec_main`);
of Python's `optparse`: `parse_args`, `_process_args`, `Values.ensure_value`, `Option.take_action` for store, store_const, append, count.

Simplifications: an error (exit with status 2, or an exception) is `none`, and everything after it is not modelled; conversion of texts is a function of the option; the texts `int()` accepts are
given by a function; help texts, `choices`, and the identity of list objects (two options sharing one default list) are left out.
-/

namespace Verif.Options

abbrev Text := List Char

/-- Values of options. -/
inductive Val
  | none
  | bool (b : Bool)
  | int (i : Int)
  | str (s : Text)
  | strs (l : List Text)
  deriving DecidableEq

abbrev Dict := Text → Option Val

/-! ## Values (SConsOptions.py 71-233) -/

/-- `SConsValues`: the instance's own dictionary (command line), the settings of the scripts, the defaults. -/
structure Values where
  cmd : Dict
  settings : Dict
  defaults : Dict

/-- `__getattr__` (107-125); `none`: AttributeError. -/
def Values.get (v : Values) (d : Text) : Option Val := (v.cmd d).or ((v.settings d).or (v.defaults d))

/-- `setattr(values, dest, value)`. -/
def Values.put (v : Values) (d : Text) (x : Val) : Values := { v with cmd := Function.update v.cmd d (some x) }

/-- Change the list object that `getattr` gives, in place. -/
def Values.mutate (v : Values) (d : Text) (f : Val → Val) : Values :=
  match v.cmd d with
  | some x => { v with cmd := Function.update v.cmd d (some (f x)) }
  | none => match v.settings d with
    | some x => { v with settings := Function.update v.settings d (some (f x)) }
    | none => match v.defaults d with
      | some x => { v with defaults := Function.update v.defaults d (some (f x)) }
      | none => v

/-- `ensure_value` (optparse): a missing or `None` value is set. -/
def Values.ensure (v : Values) (d : Text) (x : Val) : Values :=
  match v.get d with
  | none => v.put d x
  | some .none => v.put d x
  | some _ => v

/-- `list.extend` of texts. -/
def extendBy (xs : List Text) : Val → Val
  | .strs l => .strs (l ++ xs)
  | x => x

/-! ## Options -/

inductive Nargs
  | zero
  /-- this many, at least one -/
  | many (n : Nat)
  /-- `nargs='?'` with its `const` -/
  | opt (const : Option Text)
  deriving DecidableEq

inductive Action
  | store
  | const (x : Val)
  /-- a callback that sets two options to true (1026-1028) -/
  | both (other : Text)
  | append
  | count
  /-- a callback that extends the list with the parts of its argument (1171-1175, `--warn`, `--debug`) -/
  | extend
  deriving DecidableEq

structure Opt where
  longs : List Text
  shorts : List Char
  dest : Text
  nargs : Nargs
  action : Action
  default : Val
  settable : Bool
  /-- the type's conversion; `none` if the text is not valid -/
  conv : Text → Option Val

/-- `text.split(',')`. -/
def splitComma : Text → List Text
  | [] => [[]]
  | c :: cs => if c = ',' then [] :: splitComma cs else match splitComma cs with
    | [] => [[c]]
    | w :: ws => (c :: w) :: ws

/-- The text of a value, as an element of a list. -/
def Val.text : Val → Text
  | .str s => s
  | _ => []

/-- `take_action` (optparse) and the callbacks. -/
def act (o : Opt) (x : Val) (v : Values) : Values :=
  match o.action with
  | .store => v.put o.dest x
  | .const y => v.put o.dest y
  | .both other => (v.put other (.bool true)).put o.dest (.bool true)
  | .append => (v.ensure o.dest (.strs [])).mutate o.dest (extendBy [x.text])
  | .count => v.put o.dest (match (v.ensure o.dest (.int 0)).get o.dest with
    | some (.int i) => .int (i + 1)
    | _ => .int 1)
  | .extend => v.mutate o.dest (extendBy (splitComma x.text))

/-- `convert_value` of the arguments (249-254), then `take_action`. -/
def process (o : Opt) (xs : List Text) (v : Values) : Option Values :=
  match xs with
  | [] => some (act o .none v)
  | [x] => (o.conv x).map fun y => act o y v
  | xs => (xs.mapM o.conv).map fun ys => act o (.strs (ys.map Val.text)) v

def findLong (tbl : List Opt) (name : Text) : Option Opt := tbl.find? fun o => decide (name ∈ o.longs)

def findShort (tbl : List Opt) (c : Char) : Option Opt := tbl.find? fun o => decide (c ∈ o.shorts)

/-- `arg.split("=", 1)`, if there is an equals sign. -/
def splitEq : Text → Text × Option Text
  | [] => ([], none)
  | c :: cs => if c = '=' then ([], some cs) else ((c :: (splitEq cs).1), (splitEq cs).2)

/-- An option with this many arguments takes them from the arguments that are available (385-402, 446-461). -/
def takeArgs (o : Opt) (n : Nat) (avail : List Text) (v : Values) (largs : List Text) : Option (Values × List Text × List Text) :=
  if avail.length < n then none else (process o (avail.take n) v).map fun v' => (v', largs, avail.drop n)

/-- `_process_long_opt` (352-412): the values, the leftover arguments, and those to come. -/
def processLong (preserve : Bool) (tbl : List Opt) (arg : Text) (rest : List Text) (v : Values) (largs : List Text) : Option (Values × List Text × List Text) :=
  let name := (splitEq arg).1
  let explicit := (splitEq arg).2
  match findLong tbl name with
  | none => if preserve then some (v, largs ++ [arg], rest) else none
  | some o =>
    match o.nargs with
    | .zero => if explicit.isSome then none else (process o [] v).map fun v' => (v', largs, rest)
    | .opt const =>
      match explicit with
      | some x => (process o [x] v).map fun v' => (v', largs, rest)
      | none => match const with
        | some x => (process o [x] v).map fun v' => (v', largs, rest)
        | none => some (act o .none v, largs, rest)
    | .many n => takeArgs o n (explicit.toList ++ rest) v largs

/-- `_process_short_opts` (415-470): the letters of one argument. -/
def processShort (preserve : Bool) (tbl : List Opt) (arg : Text) : List Char → List Text → Values → List Text → Option (Values × List Text × List Text)
  | [], rest, v, largs => some (v, largs, rest)
  | c :: cs, rest, v, largs =>
    match findShort tbl c with
    | none => if preserve then some (v, largs ++ [arg], rest) else none
    | some o =>
      match o.nargs with
      | .zero => (process o [] v).bind fun v' => processShort preserve tbl arg cs rest v' largs
      | .opt _ => none
      | .many n => takeArgs o n (if cs = [] then rest else cs :: rest) v largs

def isLong (a : Text) : Bool := match a with
  | '-' :: '-' :: _ :: _ => true
  | _ => false

def isShort (a : Text) : Bool := match a with
  | '-' :: c :: _ => decide (c ≠ '-')
  | _ => false

/-- `_process_args` (optparse): one argument after the other, until `--`.  The first argument bounds the number of rounds. -/
def parseLoop (preserve : Bool) (tbl : List Opt) : Nat → List Text → Values → List Text → Option (Values × List Text × List Text)
  | 0, rest, v, largs => some (v, largs, rest)
  | _ + 1, [], v, largs => some (v, largs, [])
  | n + 1, arg :: rest, v, largs =>
    if arg = ['-', '-'] then some (v, largs, rest)
    else if isLong arg then (processLong preserve tbl arg rest v largs).bind fun r => parseLoop preserve tbl n r.2.2 r.1 r.2.1
    else if isShort arg then (processShort preserve tbl arg (arg.drop 1) rest v largs).bind fun r => parseLoop preserve tbl n r.2.2 r.1 r.2.1
    else parseLoop preserve tbl n rest v (largs ++ [arg])

/-! ## The parser while the scripts are read -/

/-- `OptionsParser` with its values; what `SetOption` has put in force at once: the duplication style, the disk checks, the progress display. -/
structure Parser where
  tbl : List Opt
  vals : Values
  largs : List Text
  rargs : List Text
  settable : List Text
  duplicate : Val
  diskcheck : Option Val
  progress : Bool

/-- `parse_args(args, values)`. -/
def Parser.parse (p : Parser) (preserve : Bool) (args : List Text) : Option Parser :=
  (parseLoop preserve p.tbl (args.length + 1) args p.vals []).map fun r => { p with vals := r.1, largs := r.2.1, rargs := r.2.2 }

/-- The division of the leftover arguments in `reparse_local_options` (499-526): to be parsed, and kept back. -/
def divide (tbl : List Opt) : List Text → List Text × List Text
  | [] => ([], [])
  | a :: as =>
    if isLong a then
      if (findLong tbl (splitEq a).1).isSome then (a :: (divide tbl as).1, (divide tbl as).2) else ((divide tbl as).1, a :: (divide tbl as).2)
    else if a = ['-', '-'] ∨ a = ['-'] then ([], a :: as)
    else (a :: (divide tbl as).1, (divide tbl as).2)

/-- `reparse_local_options` (473-535). -/
def Parser.reparse (p : Parser) : Option Parser :=
  (p.parse true (divide p.tbl p.largs).1).map fun q => { q with largs := q.largs ++ (divide p.tbl p.largs).2 }

/-- `AddOption` (Main.py 530-559, SConsOptions.py 537-583); a name that is taken is an error. -/
def Parser.addOption (p : Parser) (o : Opt) : Option Parser :=
  if (o.longs.any fun n => (findLong p.tbl n).isSome) ∨ (o.shorts.any fun c => (findShort p.tbl c).isSome) then none
  else
    ({ p with tbl := p.tbl ++ [o], vals := { p.vals with defaults := Function.update p.vals.defaults o.dest (some o.default) } } : Parser).reparse.map fun q =>
      { q with settable := if o.settable then q.settable ++ [o.dest] else q.settable }

/-- `int(value)`; `intOf` says which texts are numbers. -/
def toInt (intOf : Text → Option Int) : Val → Option Int
  | .bool b => some (if b then 1 else 0)
  | .int i => some i
  | .str s => intOf s
  | _ => none

/-- A value as a list of texts: `[value]` for a text. -/
def toStrs : Val → Option (List Text)
  | .str s => some [s]
  | .strs l => some l
  | _ => none

/-- Is the value true, in a condition? -/
def Val.truthy : Val → Bool
  | .none => false
  | .bool b => b
  | .int i => i ≠ 0
  | .str s => s ≠ []
  | .strs l => l ≠ []

/-- `FS.Valid_Duplicates`. -/
def validDuplicates : List Text := ["hard-soft-copy", "soft-hard-copy", "hard-copy", "soft-copy", "copy"].map String.toList

def t (s : String) : Text := s.toList

/-- `__SConscript_settings__[name] = value`. -/
def Parser.setting (p : Parser) (name : Text) (x : Val) : Parser := { p with vals := { p.vals with settings := Function.update p.vals.settings name (some x) } }

/-- What the scripts have set so far, `[]` if nothing. -/
def Parser.soFar (p : Parser) (name : Text) : List Text := ((p.vals.settings name).bind toStrs).getD []

/-- `set_option` (SConsOptions.py 150-233); `diskOf` is `diskcheck_convert`. -/
def Parser.setOption (intOf : Text → Option Int) (diskOf : Val → Option Val) (p : Parser) (name : Text) (x : Val) : Option Parser :=
  if name ∉ p.settable then none
  else if name = t "num_jobs" then (toInt intOf x).bind fun i => if i < 1 then none else some (p.setting name (.int i))
  else if name = t "max_drift" ∨ name = t "stack_size" then (toInt intOf x).map fun i => p.setting name (.int i)
  else if name = t "duplicate" then
    match x with
    | .str s => if s ∈ validDuplicates then some { p.setting name x with duplicate := x } else none
    | _ => none
  else if name = t "diskcheck" then
    (diskOf x).map fun y => { p.setting name y with diskcheck := if (p.vals.cmd name).isSome then p.diskcheck else some y }
  else if name = t "md5_chunksize" ∨ name = t "hash_chunksize" then (toInt intOf x).map fun i => p.setting (t "md5_chunksize") (.int i)
  else if name = t "warn" ∨ name = t "experimental" then (toStrs x).map fun l => p.setting name (.strs (p.soFar name ++ l))
  else if name = t "no_progress" then some { p.setting name x with progress := false }
  else if name = t "implicit_deps_changed" ∨ name = t "implicit_deps_unchanged" then
    some ((if x.truthy then p.setting (t "implicit_cache") (.bool true) else p).setting name x)
  else some (p.setting name x)

/-! ## A run -/

/-- What scripts do with options. -/
inductive Cmd
  | add (o : Opt)
  | set (name : Text) (x : Val)

/-- `_exec_main` (Main.py 1419-1423): the first parse. -/
def start (tbl : List Opt) (settable : List Text) (defaults : Dict) (flags argv : List Text) : Option Parser :=
  ({ tbl := tbl, vals := ⟨fun _ => none, fun _ => none, defaults⟩, largs := [], rargs := [], settable := settable, duplicate := .str (t "hard-soft-copy"), diskcheck := none,
     progress := true } : Parser).parse true (flags ++ argv)

/-- Targets and `name=value` arguments (Main.py 1082-1095), before the scripts are read. -/
def Parser.words (p : Parser) : List Text × List Text :=
  let ws := p.largs.filter fun a => !(a.head? = some '-' ∨ a = [] ∨ a = t "\"\"" ∨ a = t "''")
  ((ws.filter fun a => !a.contains '=') ++ p.rargs, ws.filter fun a => a.contains '=')

def step (intOf : Text → Option Int) (diskOf : Val → Option Val) (p : Parser) : Cmd → Option Parser
  | .add o => p.addOption o
  | .set n x => p.setOption intOf diskOf n x

/-- Reading the scripts. -/
def readScripts (intOf : Text → Option Int) (diskOf : Val → Option Val) (p : Parser) (cs : List Cmd) : Option Parser := cs.foldlM (step intOf diskOf) p

/-- The last parse (Main.py 1175-1176): what is still unknown is an error. -/
def Parser.finish (p : Parser) : Option Parser := p.parse false p.largs

/-- What is in force when targets are built, from the parser before the scripts are read and at the end: `implicit_deps_changed` and `implicit_deps_unchanged` are looked at only before
(Main.py 1041-1043), all others at the end (1202-1212, 1234-1243, 1374). -/
def inForce (before after : Parser) (name : Text) : Option Val :=
  if name = t "implicit_deps_changed" ∨ name = t "implicit_deps_unchanged" then before.vals.get name else after.vals.get name

end Verif.Options
