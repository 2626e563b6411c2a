import Verif.Subst.Signed
/-!
# C84: what is signed for the actions of a target

`ActionBase.get_contents` (/repo/SCons/Action.py:555-583), the `get_presig` methods
of the kinds of actions, `ListAction.get_presig` and `get_varlist` (1500-1531) and
`Executor.get_contents` (/repo/SCons/Executor.py:439-462).

Simplifications: bytes are characters; a generator stands for the action it returns
for the signature (Action.py:1278-1290), a `LazyAction` for the action of its
variable (1318-1355); an action list inside an action list is written out; the
sources and targets are in the local variables `lv`.
-/
namespace Verif.Sgn
open Verif.Subst

/-- What a single action does. -/
inductive Body where
  /-- a command line given as text (`CommandAction`, Action.py:977-1000) -/
  | text (s : Str)
  /-- a command given as a list of words -/
  | words (l : List Str)
  /-- a Python function, by the contents of its code (`FunctionAction`, 1358-1380) -/
  | code (c : Str)

/-- A `CommandAction` or `FunctionAction`: what it does, `varlist` and `chdir`
(Action.py:648-690). -/
structure Single where
  body : Body
  varlist : List Str
  chdir : Option Str

/-- `CommandAction.get_presig` (Action.py:1105-1118), `FunctionAction.get_presig`
(1450-1455). -/
def Single.presig (E : Env) (n : Nat) (lv : Vars) (a : Single) : Except Err Str :=
  match a.body with
  | .text s => subst E .sig n lv s
  | .words l => subst E .sig n lv (joinSp l)
  | .code c => .ok c

/-- `env.subst_target_source('${'+v+'}', SUBST_SIG, ...)` (Action.py:576). -/
def varText (E : Env) (n : Nat) (lv : Vars) (v : Str) : Except Err Str :=
  subst E .sig n lv ('$' :: '{' :: v ++ ['}'])

/-- All of a list of results, or the first error. -/
def allOf : List (Except Err Str) → Except Err (List Str)
  | [] => .ok []
  | .error e :: _ => .error e
  | .ok x :: l =>
    match allOf l with
    | .error e => .error e
    | .ok r => .ok (x :: r)

/-- The pieces that `ActionBase.get_contents` puts together for one action: the
signature text, then the value of each variable of `varlist` (Action.py:556-577). -/
def Single.pieces (E : Env) (n : Nat) (lv : Vars) (a : Single) : List (Except Err Str) :=
  a.presig E n lv :: a.varlist.map (varText E n lv)

/-- `OrderedDict` keys: every variable once, in order of first appearance
(Action.py:1525-1530). -/
def unionVars : List Str → List Str
  | [] => []
  | v :: l => v :: (unionVars l).filter (· ≠ v)

/-- An element of an executor's action list. -/
inductive Act where
  | one (a : Single)
  | list (l : List Single)

def Act.singles : Act → List Single
  | .one a => [a]
  | .list l => l

/-- `get_contents` of an action: for a list the contents of its elements
(`ListAction.get_presig`, Action.py:1500-1505) and then, once more, the values of all
their variables (the loop 574-577 with the `varlist` of 1525-1530). -/
def Act.pieces (E : Env) (n : Nat) (lv : Vars) : Act → List (Except Err Str)
  | .one a => a.pieces E n lv
  | .list l =>
    l.flatMap (·.pieces E n lv) ++ (unionVars (l.flatMap (·.varlist))).map (varText E n lv)

/-- `Executor.get_action_list` (Executor.py:282-285): actions before, the actions
of the builder, actions after. -/
structure Exec where
  pre : List Act
  main : List Act
  post : List Act

def Exec.actions (x : Exec) : List Act := x.pre ++ x.main ++ x.post

def Exec.singles (x : Exec) : List Single := x.actions.flatMap Act.singles

def Exec.pieces (x : Exec) (E : Env) (n : Nat) (lv : Vars) : List (Except Err Str) :=
  x.actions.flatMap (·.pieces E n lv)

/-- `Executor.get_contents` (Executor.py:439-462): everything, one after the other,
with nothing in between. -/
def Exec.contents (x : Exec) (E : Env) (n : Nat) (lv : Vars) : Except Err Str :=
  match allOf (x.pieces E n lv) with
  | .error e => .error e
  | .ok l => .ok l.flatten

/-- What an action does when it is run: the directory it changes to and the command
lines (`_ActionAction.__call__`, Action.py:692-780; `CommandAction.process`,
1004-1027), or the code. -/
inductive Run where
  | commands (dir : Option Str) (lines : Except Err (List (List Str)))
  | python (dir : Option Str) (code : Str)

def Single.run (E : Env) (n : Nat) (lv : Vars) (a : Single) : Run :=
  match a.body with
  | .text s => .commands a.chdir (substList E .cmd n lv (.str s))
  | .words l => .commands a.chdir (substList E .cmd n lv (.seq (l.map .str)))
  | .code c => .python a.chdir c

end Verif.Sgn
