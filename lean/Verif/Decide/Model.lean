/-!
# C95: which function decides

Models how a decision function is chosen for a target and one of its dependencies:
/repo/SCons/Node/__init__.py `_decider_map` 296-321, `Node.Decider` 1448-1457, the call in
`changed` 1517, `get_build_env` 641-650, `get_executor` 660-679; /repo/SCons/Executor.py
`get_build_env` 338-362, `NullEnvironment` 566-580; /repo/SCons/Environment.py
`default_decide_source`/`default_decide_target` 1286-1302, the attributes set by `Base.__init__`
1371-1374, `Clone` (1798, `copy.copy`), `Decider` 1883-1906, `OverrideEnvironment.__getattr__` and
`__setattr__` 3065-3087; /repo/SCons/Defaults.py `DefaultEnvironment` 84-90;
/repo/SCons/Node/FS.py `File._morph` 2735-2762, `File.builder_set` 3284-3286, `Dir._morph` 1659,
`Entry` 649, `disambiguate` 1044-1078; /repo/SCons/Builder.py `_execute` 602-631;
/repo/SCons/CacheDir.py `copy_from_cache` 290-295.

Simplifications: only the choice is modelled, not the functions (C18 does that); nodes exist from
the beginning, with their kinds; every builder call makes an executor of its own (no `multi`, no
batches); functions are compared by identity; the memos of build environments are left out (the
environment of an executor never changes, and nodes are not asked before they have their
builder).
-/

namespace Verif.Decide

/-- What `env.Decider` can be given: one of the names, or a function. -/
inductive Fn (F : Type) where
  | content
  | contentTimestamp
  | newer
  | match_
  | user (f : F)
  deriving DecidableEq

/-- The strings that `Decider` knows (Environment.py:1889-1898). -/
def ofName {F : Type} (s : String) : Option (Fn F) :=
  if s = "MD5" ∨ s = "content" then some .content
  else if s = "MD5-timestamp" ∨ s = "content-timestamp" then some .contentTimestamp
  else if s = "timestamp-newer" ∨ s = "make" then some .newer
  else if s = "timestamp-match" then some .match_
  else none

/-- The argument of `env.Decider`. -/
inductive Arg (F : Type) where
  | name (s : String)
  | func (f : F)

/-- The attributes `decide_source` and `decide_target` of an environment, which are always set together:
`default_decide_*`, or what `Decider` made of its argument. -/
inductive Attr (F : Type) where
  | default
  | fn (f : Fn F)
  deriving DecidableEq

/-- The entries of `_decider_map` (Node/__init__.py:315-321), and functions given to `Node.Decider`. -/
inductive Slot (F : Type) where
  | node | alias | entry | state | source | target | python
  | user (f : F)
  deriving DecidableEq

inductive Kind where
  | entry | file | dir | alias | value
  deriving DecidableEq

/-- Environments and nodes are numbers; environment 0 is the default environment.
`subject`: that of an override environment. `env`: the environment of the executor. -/
structure St (F : Type) where
  attr : Nat → Attr F
  touch : Nat → Bool
  subject : Nat → Option Nat
  map : List (Slot F)
  kind : Nat → Kind
  idx : Nat → Nat
  env : Nat → Option Nat

def set {B : Type} (f : Nat → B) (a : Nat) (b : B) : Nat → B := fun x => if x = a then b else f x

/-- `changed_since_last_build` of a new node (Alias.py:78, FS.py:649, 1659, 2749, Python.py:69). -/
def firstIdx : Kind → Nat
  | .alias => 1
  | .entry => 2
  | .dir => 3
  | .file => 4
  | .value => 6

/-- The default environment exists, with `Decider('content')`. -/
def St.init {F : Type} (kind : Nat → Kind) : St F where
  attr := fun e => if e = 0 then .fn .content else .default
  touch := fun _ => false
  subject := fun _ => none
  map := [.node, .alias, .entry, .state, .source, .target, .python]
  kind := kind
  idx := fun n => firstIdx (kind n)
  env := fun _ => none

section
variable {F : Type} [DecidableEq F]

/-- The environment that an attribute is read from and written to: an override environment passes both on
(Environment.py:3065-3087). The model keeps the end of a chain of overrides as `subject`: subjects never
change. -/
def owner (s : St F) (e : Nat) : Nat := (s.subject e).getD e

/-- `Node.Decider(f)` (Node/__init__.py:1448-1457): the first place of `f` in the map, if it is not
place 0; otherwise a new one. -/
def nodeDecider (s : St F) (n : Nat) (f : F) : St F :=
  match s.map.findIdx? (· = .user f) with
  | some (k + 1) => { s with idx := set s.idx n (k + 1) }
  | _ => { s with map := s.map ++ [.user f], idx := set s.idx n s.map.length }

/-- `_morph` of `File` or `Dir`, from `disambiguate`. -/
def morph (s : St F) (n : Nat) (k : Kind) : St F :=
  { s with
    kind := set s.kind n k
    idx := set s.idx n (if k = .file then (if (s.env n).isSome then 5 else 4) else 3) }

/-- What a builder call does to a target: `builder_set` (for files also FS.py:3286), a new executor. -/
def buildTarget (e : Nat) (s : St F) (n : Nat) : St F :=
  { s with
    idx := if s.kind n = .file then set s.idx n 5 else s.idx
    env := set s.env n (some e) }

inductive Op (F : Type) where
  /-- `e = Environment()` -/
  | new (e : Nat)
  /-- `e2 = e1.Clone()` -/
  | clone (e1 e2 : Nat)
  /-- `e2 = e1.Override(...)`, or a builder call with keywords -/
  | override (e1 e2 : Nat)
  /-- `e.Decider(a)` -/
  | decider (e : Nat) (a : Arg F)
  /-- `n.Decider(f)` -/
  | nodeDecider (n : Nat) (f : F)
  /-- a builder is called through `e`, for targets `ts` -/
  | build (e : Nat) (ts : List Nat)
  /-- an entry turns out to be a file or a directory -/
  | morph (n : Nat) (k : Kind)

/-- What the argument of `Decider` stands for. -/
def Arg.fn : Arg F → Option (Fn F)
  | .name s => ofName s
  | .func f => some (.user f)

/-- `e.Decider(a)` (Environment.py:1883-1906), on the environment that has the attributes. An unknown name
raises, after `cache_timestamp_newer` has been cleared. -/
def envDecider (s : St F) (e : Nat) (a : Arg F) : St F :=
  match a.fn with
  | some f => { s with attr := set s.attr e (.fn f), touch := set s.touch e (decide (f = .newer)) }
  | none => { s with touch := set s.touch e false }

/-- One statement of the scripts. `Clone` of an override environment raises (`copy.copy` asks the new
object for `__setstate__` before it has a subject). -/
def step (s : St F) : Op F → St F
  | .new e => { s with attr := set s.attr e .default, touch := set s.touch e false, subject := set s.subject e none }
  | .clone e1 e2 =>
    match s.subject e1 with
    | some _ => s
    | none => { s with
        attr := set s.attr e2 (s.attr e1)
        touch := set s.touch e2 (s.touch e1)
        subject := set s.subject e2 none }
  | .override e1 e2 => { s with subject := set s.subject e2 (some (owner s e1)) }
  | .decider e a => envDecider s (owner s e) a
  | .nodeDecider n f => nodeDecider s n f
  | .build e ts => ts.foldl (buildTarget e) s
  | .morph n k => if s.kind n = .entry then morph s n k else s

/-- All statements, the last one first. -/
def run (kind : Nat → Kind) : List (Op F) → St F
  | [] => St.init kind
  | o :: h => step (run kind h) o

/-- Who decides: a function of the user's or one of the four named ones; the fixed rule of a kind of
node; nobody (`NullEnvironment` answers everything with something false). -/
inductive By (F : Type) where
  | fn (f : Fn F)
  | fixed (k : Kind)
  | broken      -- `NotImplementedError`, or an endless recursion
  | nobody
  deriving DecidableEq

/-- `env.decide_source`, `env.decide_target` of an environment, and what they call. -/
def attrBy (s : St F) (e : Nat) : By F :=
  match s.attr e with
  | .fn f => .fn f
  | .default => match s.attr 0 with
    | .fn f => .fn f
    | .default => .broken

/-- `target.get_build_env().decide_...`. -/
def envBy (s : St F) (t : Nat) : By F :=
  match s.env t with
  | none => .nobody
  | some e => attrBy s (owner s e)

/-- An entry of the map, called for dependency `n` of target `t`. An entry (index 2) is disambiguated
first and then asked again; that is an `Op.morph` before the question here. -/
def slotBy (s : St F) (t : Nat) : Slot F → By F
  | .node => .broken
  | .alias => .fixed .alias
  | .entry => .broken
  | .state => .fixed .dir
  | .python => .fixed .value
  | .source => envBy s t
  | .target => envBy s t
  | .user f => .fn (.user f)

/-- `_decider_map[child.changed_since_last_build](child, self, ...)` (Node/__init__.py:1517). -/
def decidedBy (s : St F) (t n : Nat) : By F :=
  match s.map[s.idx n]? with
  | some x => slotBy s t x
  | none => .broken

/-- `copy_from_cache` (CacheDir.py:290-295): is the retrieved file given the present time? -/
def freshFromCache (s : St F) (t : Nat) : Bool :=
  match s.env t with
  | none => false
  | some e => s.touch (owner s e)

end
end Verif.Decide
