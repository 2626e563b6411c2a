import Mathlib.Data.List.Basic

/-!
# Making actions (C115): the model

Models the factory of actions in SCons/Action.py: `_actionAppend` (394-410), `_do_create_action` (441-488), `_do_create_list_action` (491-510), `Action` (513-519), `CommandAction.__init__` (979-995),
`CommandGeneratorAction._generate` and `__call__` (1210-1258), `LazyAction` (1316-1346), `ListAction.__call__` (1507-1517), and `get_environment_var` (SCons/Util/sctypes.py 371-389).

Simplified: of the keywords only `generator` is modelled (the others do not decide what is run); a command text, with whatever it expands to, is one thing that is run, and fails or not (C39 is about statuses, C31-C35 about
expansion); letters and digits in the names of variables are those of ASCII; values of variables do not change while an action is carried out; what is neither text nor node in a list that stands for a command is
a text of its own (`?`).
-/

namespace Verif.ActMake

abbrev Str := List Char

/-- Action objects. `gen` of a `LazyAction` is whether the keyword `generator` is in the dictionary it keeps. -/
inductive Act where
  | cmd (s : Str)
  | words (ws : List Str)
  | lazy (v : Str) (gen : Bool)
  | fn (f : Nat)
  | gen (f : Nat)
  | list (l : List Act)

/-- Python values given as actions. -/
inductive Val where
  | str (s : Str)
  | node (s : Str)
  | list (l : List Val)
  | fn (f : Nat)
  | act (a : Act)
  | num
  | obj      -- None, or any other object

inductive Err where
  | typeError | userError
  deriving DecidableEq, Repr

def isLetter (c : Char) : Bool := c == '_' || (decide ('a' ≤ c) && decide (c ≤ 'z')) || (decide ('A' ≤ c) && decide (c ≤ 'Z'))
def isWordChar (c : Char) : Bool := isLetter c || (decide ('0' ≤ c) && decide (c ≤ '9'))

/-- `[_a-zA-Z]\w*` -/
def isIdent : Str → Bool
  | [] => false
  | c :: r => isLetter c && r.all isWordChar

/-- The part of the regular expression between the anchors. -/
def refOf : Str → Option Str
  | '$' :: '{' :: r => if r.getLast? = some '}' && isIdent r.dropLast then some r.dropLast else none
  | '$' :: r => if isIdent r then some r else none
  | _ => none

/-- `get_environment_var` (sctypes.py 371-389); the last `$` of the expression also matches before a newline at the end. -/
def envVar (s : Str) : Option Str := refOf (if s.getLast? = some '\n' then s.dropLast else s)

/-- `s.split('\n')`. -/
def splitNl : Str → List Str
  | [] => [[]]
  | c :: r =>
    if c = '\n' then [] :: splitNl r
    else match splitNl r with
      | l :: ls => (c :: l) :: ls
      | [] => [[c]]

/-- A line of a text: `_do_create_action` of a text without newline (Action.py 452-467). -/
def lineAct (g : Bool) (l : Str) : Act :=
  match envVar l with
  | some v => .lazy v g
  | none => .cmd l

/-- A word of a command that is given as a list (Action.py 989-995). -/
def wordOf : Val → Option Str
  | .str s | .node s => some s
  | .list _ => none
  | _ => some ['?']

/-- `Action` and `ListAction` of a list of actions (Action.py 506-510). -/
def wrap : List Act → Act
  | [a] => a
  | l => .list l

/-- `_do_create_action` (Action.py 441-488). `gen` is whether `generator` is in the dictionary of keywords now; `fin` is whether it will be in it in the end: the dictionary is one for all actions made by a call, and
the first function takes the keyword out. The second result is whether it is still there. -/
def createAction (gen fin : Bool) : Val → Except Err (Option Act × Bool)
  | .act a => .ok (some a, gen)
  | .str s =>
    match envVar s with
    | some v => .ok (some (.lazy v fin), gen)
    | none =>
      match splitNl s with
      | [c] => .ok (some (.cmd c), gen)
      | cs => .ok (some (wrap (cs.map (lineAct fin))), gen)
  | .list l =>
    match l.mapM wordOf with
    | some ws => .ok (some (.words ws), gen)
    | none => .error .typeError
  | .fn f => .ok (some (if gen then .gen f else .fn f), false)
  | .num => .error .typeError
  | .node _ | .obj => .ok (none, gen)

/-- The loop of `_do_create_list_action` (Action.py 500-504). -/
def createItems (fin : Bool) : Bool → List Val → Except Err (List Act)
  | _, [] => .ok []
  | gen, v :: vs =>
    match createAction gen fin v with
    | .error e => .error e
    | .ok (a, gen') =>
      match createItems fin gen' vs with
      | .error e => .error e
      | .ok as => .ok (a.toList ++ as)

def isFn : Val → Bool
  | .fn _ => true
  | _ => false

/-- `Action(act, generator=gen)` (Action.py 513-519); `none` for the result `None`. -/
def action (gen : Bool) : Val → Except Err (Option Act)
  | .list l =>
    match createItems (gen && !l.any isFn) gen l with
    | .error e => .error e
    | .ok as => .ok (some (wrap as))
  | v =>
    match createAction gen gen v with
    | .error e => .error e
    | .ok (a, _) => .ok a

/-- `_actionAppend` (Action.py 394-410), of what its two calls of `Action` gave. -/
def append : Option Act → Option Act → Option Act
  | none, b => b
  | a, none => a
  | some (.list a), some (.list b) => some (.list (a ++ b))
  | some (.list a), some b => some (.list (a ++ [b]))
  | some a, some (.list b) => some (.list (a :: b))
  | some a, some b => some (.list [a, b])

/-- `a + b`. -/
def add (a b : Val) : Except Err (Option Act) :=
  match action false a with
  | .error e => .error e
  | .ok a' =>
    match action false b with
    | .error e => .error e
    | .ok b' => .ok (append a' b')

/-! ## Carrying actions out -/

/-- What is run: a command text, a command given as words, the text of a variable, a Python function. -/
inductive Prim where
  | text (s : Str)
  | words (ws : List Str)
  | var (v : Str)
  | fn (f : Nat)
  deriving DecidableEq, Repr

/-- The construction variables, what generators return, and what fails. -/
structure World where
  env : Str → Option Val
  gen : Nat → Val
  fails : Prim → Bool

inductive Outcome where
  | ok | failed | error
  deriving DecidableEq, Repr

/-- What was run, and how it ended. -/
abbrev Result := List Prim × Outcome

/-- A command or a function is carried out. -/
def perform (W : World) (p : Prim) : Result := ([p], if W.fails p then .failed else .ok)

/-- A command text: nothing is run when it is empty (Action.py 1094). -/
def performText (W : World) (s : Str) : Result := if s = [] then ([], .ok) else perform W (.text s)

def performWords (W : World) (ws : List Str) : Result := if ws = [] then ([], .ok) else perform W (.words ws)

/-- The loop of `ListAction.__call__`. -/
def seqAll (ex : Act → Option Result) : List Act → Option Result
  | [] => some ([], .ok)
  | a :: l =>
    match ex a with
    | none => none
    | some (t, .ok) => (seqAll ex l).map fun r => (t ++ r.1, r.2)
    | some r => some r

/-- What a generator or a variable gave is made an action, which is carried out. -/
def generated (ex : Act → Option Result) (r : Except Err (Option Act)) : Option Result :=
  match r with
  | .ok (some a) => ex a
  | _ => some ([], .error)

/-- `act(target, source, env)`; the number bounds the depth of calls, `none` stands for a RecursionError. -/
def exec (W : World) : Nat → Act → Option Result
  | 0, _ => none
  | n + 1, a =>
    match a with
    | .cmd s => some (performText W s)
    | .words ws => some (performWords W ws)
    | .fn f => some (perform W (.fn f))
    | .list l => seqAll (exec W n) l
    | .gen f => generated (exec W n) (action false (W.gen f))
    | .lazy v g =>
      match W.env v with
      | some (.str s) => if '\n' ∈ s then generated (exec W n) (action g (.str s)) else some (perform W (.var v))
      | some c => generated (exec W n) (action g c)
      | none => generated (exec W n) (action g (.str []))

end Verif.ActMake
