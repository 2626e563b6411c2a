/-
Executing actions, and from a failure to the exit status.

/repo/SCons/Action.py: _ActionAction.__call__ (655-727), CommandAction.process
(1007-1026), strfunction (1028-1041), execute (1043-1101), FunctionAction.execute
(1431-1462), ListAction.__call__ (1507-1517), _actionAppend (390-410);
/repo/SCons/Errors.py: convert_to_BuildError (129-216);
/repo/SCons/Executor.py: execute_action_list (113-131);
/repo/SCons/Taskmaster/__init__.py: Task.execute (216-263);
/repo/SCons/Script/Main.py: BuildTask.do_failed (246-259), executed (261-287), failed
(289-340), main (1589).

A command is modelled after substitution (`subst_list`, see Verif/Subst). Not
modelled: chdir, presub, escaping of the words for the shell, exceptions from
`spawn`, generators (a generated action is modelled as the action it generates),
printing by a `strfunction` of the user or PRINT_CMD_LINE_FUNC.
-/
namespace Verif.Act

abbrev Str := List Char

/-- A Python value used as a status: `None`, an integer, or any other (true) object. -/
inductive Status where
  | none
  | int (n : Int)
  | obj
  deriving DecidableEq, Repr

/-- Python's truth value. -/
def Status.truthy : Status → Bool
  | .none => false
  | .int n => n != 0
  | .obj => true

/-- `Errors.BuildError` (Errors.py:75-107), its two statuses. -/
structure BuildErr where
  status : Status
  exitstatus : Status
  deriving DecidableEq, Repr

/-- What can be given to `convert_to_BuildError`, what a Python function can return
or raise. -/
inductive Py where
  | buildError (e : BuildErr)
  /-- `ExplicitExit` (Errors.py:123-128): the code given to `Exit()`, `sys.exit()` -/
  | explicitExit (code : Status)
  /-- StopError, UserError -/
  | stopOrUser
  /-- shutil.SameFileError; `errno` is an attribute of every OSError, `none` if it was
  constructed with one argument -/
  | sameFile (errno : Status)
  /-- SConsEnvironmentError, OSError, IOError -/
  | osError (errno : Status)
  /-- any other exception -/
  | exception
  | str (s : Str)
  /-- anything else: a number, `None`, any object -/
  | value (s : Status)
  deriving DecidableEq, Repr

/-- Python's truth value: exceptions are true, strings unless empty. -/
def Py.truthy : Py → Bool
  | .str s => !s.isEmpty
  | .value s => s.truthy
  | _ => true

/-- `convert_to_BuildError` (Errors.py:129-216). -/
def convert : Py → BuildErr
  | .buildError e => { e with exitstatus := .int 2 }
  | .explicitExit c => { status := c, exitstatus := c }
  | .stopOrUser => { status := .int 2, exitstatus := .int 2 }
  | .sameFile errno => { status := errno, exitstatus := .int 2 }
  | .osError errno => { status := if errno = .none then .int 2 else errno, exitstatus := .int 2 }
  | .exception => { status := .int 2, exitstatus := .int 2 }
  | .str _ => { status := .int 2, exitstatus := .int 2 }
  | .value s => { status := s, exitstatus := .int 2 }

/-- What a Python function does: return, raise an exception, or raise SystemExit
(`sys.exit`, `Exit`). -/
inductive FnRes where
  | ret (v : Py)
  | raise (e : Py)
  | exit (code : Status)

/-- The value of an action's `__call__`, or the SystemExit that leaves it. -/
inductive Stat where
  | err (e : BuildErr)
  | val (s : Status)
  | exit (code : Status)
  deriving DecidableEq, Repr

/-- `if stat:` — a BuildError is an exception object, hence true; a SystemExit is an
exception and ends everything just the same. -/
def Stat.bad : Stat → Bool
  | .err _ => true
  | .val s => s.truthy
  | .exit _ => true

/-- What the process acts on: `W` is the state of the outside world, `out` what was
printed. -/
structure S (W : Type) where
  w : W
  out : List Str

/-- `cmdstr` of an action: not given, `None`, or a text (after substitution). -/
inductive CmdStr where
  | null
  | none
  | text (s : Str)

/-- A CommandAction: the command lines after substitution. -/
structure Cmd where
  lines : List (List Str)
  cmdstr : CmdStr
  exitstat : Status → Status

/-- A FunctionAction. `display`: the text `strfunction` gives (`none`: no output). -/
structure Fn (W : Type) where
  call : W → FnRes × W
  display : Option Str
  exitstat : Status → Status

/-- An action. -/
inductive Act (W : Type) where
  | cmd (c : Cmd)
  | fn (f : Fn W)
  | list (l : List (Act W))

/-- `print_actions` (off with -s) and `execute_actions` (off with -n), Main.py:1236-1237,
and the `SPAWN` function: it runs a command and gives its exit status. -/
structure Opts (W : Type) where
  shows : Bool
  exec : Bool
  spawn : List Str → W → Int × W

/-- The loop in `process` (Action.py:1014-1020): leading `@` and `-` of the first word.
Result: silent, ignore, the rest of the word. -/
def flags : Str → Bool × Bool × Str
  | [] => (false, false, [])
  | c :: r =>
    if c = '@' then
      let (_, i, w) := flags r
      (true, i, w)
    else if c = '-' then
      let (s, _, w) := flags r
      (s, true, w)
    else (false, false, c :: r)

/-- `CommandAction.process` (Action.py:1007-1026): the lines to run, ignore, silent. -/
def process (lines : List (List Str)) : List (List Str) × Bool × Bool :=
  match lines with
  | (w :: ws) :: ls =>
    let (silent, ignore, w') := flags w
    (if w'.isEmpty then ws :: ls else (w' :: ws) :: ls, ignore, silent)
  | ls => (ls, false, false)

/-- `_string_from_cmd_list` (Action.py:752-760). -/
def quoteArg (a : Str) : Str := if ' ' ∈ a ∨ '\t' ∈ a then '"' :: (a ++ ['"']) else a
def cmdText (l : List Str) : Str := List.intercalate [' '] (l.map quoteArg)

/-- `CommandAction.strfunction` (Action.py:1028-1041); `[]` and `None` print nothing. -/
def cmdDisplay (c : Cmd) : Str :=
  match c.cmdstr with
  | .none => []
  | .text (x :: xs) => x :: xs
  | _ =>
    let (ls, _, silent) := process c.lines
    if silent then [] else cmdText (ls.headD [])

variable {W : Type}

/-- The loop in `CommandAction.execute` (Action.py:1090-1101). -/
def runLines (spawn : List Str → W → Int × W) (ignore : Bool) : List (List Str) → W → Stat × W
  | [], w => (.val (.int 0), w)
  | l :: ls, w =>
    if l.isEmpty then runLines spawn ignore ls w
    else
      let (r, w') := spawn l w
      if !ignore && r != 0 then (.err { status := .int r, exitstatus := .int 2 }, w')
      else runLines spawn ignore ls w'

/-- `CommandAction.execute` (Action.py:1043-1101). -/
def cmdExec (spawn : List Str → W → Int × W) (c : Cmd) (w : W) : Stat × W :=
  let (ls, ignore, _) := process c.lines
  runLines spawn ignore ls w

/-- The value of a Python object as a status. -/
def Py.status : Py → Status
  | .value s => s
  | .str [] => .none
  | _ => .obj

/-- `FunctionAction.execute` (Action.py:1431-1462). -/
def fnExec (f : Fn W) (w : W) : Stat × W :=
  match f.call w with
  | (.exit c, w') => (.exit c, w')
  | (.raise e, w') => (.err (convert e), w')
  | (.ret v, w') => if v.truthy then (.err (convert v), w') else (.val v.status, w')

/-- The treatment of the result in `_ActionAction.__call__` (Action.py:707-717). -/
def applyExitstat (f : Status → Status) : Stat → Stat
  | .err e =>
    let s := f e.status
    if s.truthy then .err { e with status := s } else .val s
  | .val s => .val (f s)
  | .exit c => .exit c

/-- Print a line, unless it is empty (Action.py:687-705). -/
def emit (o : Opts W) (t : Str) (s : S W) : S W :=
  if o.shows && !t.isEmpty then { s with out := s.out ++ [t] } else s

/-- `_ActionAction.__call__` (Action.py:655-727) for a command. -/
def callCmd (o : Opts W) (c : Cmd) (s : S W) : Stat × S W :=
  let s1 := emit o (cmdDisplay c) s
  if o.exec then
    let (st, w) := cmdExec o.spawn c s1.w
    (applyExitstat c.exitstat st, { s1 with w := w })
  else (.val (.int 0), s1)

/-- ... and for a Python function. -/
def callFn (o : Opts W) (f : Fn W) (s : S W) : Stat × S W :=
  let s1 := emit o (f.display.getD []) s
  if o.exec then
    let (st, w) := fnExec f s1.w
    (applyExitstat f.exitstat st, { s1 with w := w })
  else (.val (.int 0), s1)

mutual
/-- `act(target, source, env)`. -/
def call (o : Opts W) : Act W → S W → Stat × S W
  | .cmd c, s => callCmd o c s
  | .fn f, s => callFn o f s
  | .list l, s => callList o l s
/-- `ListAction.__call__` (Action.py:1507-1517). -/
def callList (o : Opts W) : List (Act W) → S W → Stat × S W
  | [], s => (.val (.int 0), s)
  | a :: l, s =>
    let (st, s') := call o a s
    if st.bad then (st, s') else callList o l s'
end

/-- `_actionAppend` (Action.py:390-410), `a + b`. -/
def append : Act W → Act W → Act W
  | .list a, .list b => .list (a ++ b)
  | .list a, b => .list (a ++ [b])
  | a, .list b => .list (a :: b)
  | a, b => .list [a, b]

/-- What leaves `Executor.__call__`: it returns, or raises. -/
inductive Raised where
  | none
  | buildError (e : BuildErr)
  | exit (code : Status)
  deriving DecidableEq, Repr

/-- `execute_action_list` (Executor.py:113-131) for the action list (pre-actions, action,
post-actions). -/
def execute (o : Opts W) : List (Act W) → S W → Raised × S W
  | [], s => (.none, s)
  | a :: l, s =>
    match call o a s with
    | (.err e, s') => (.buildError e, s')
    | (.exit c, s') => (.exit c, s')
    | (.val v, s') =>
      if v.truthy then (.buildError { status := .int 2, exitstatus := .int 2 }, s')
      else execute o l s'

/-- What leaves `Task.execute` (Taskmaster/__init__.py:226-263), as the exception that
`BuildTask.failed` gets. `none`: the task succeeded. -/
def taskException : Raised → Option Py
  | .none => none
  | .buildError e => some (.buildError e)
  | .exit c => some (.explicitExit c)

/-! ### The exit status -/

/-- `-i`, `-k` or neither. -/
inductive Mode where
  | stop | keepGoing | ignore
  deriving DecidableEq, Repr

/-- The globals of Main.py: `exit_status` (107) and `_BuildFailures` (191). -/
structure Glob where
  exit : Status
  failures : List BuildErr

/-- What is reported to the main program for a task (in the order in which the tasks
are collected). -/
inductive Report where
  /-- `executed` -/
  | ok
  /-- `executed` for a requested target that does not exist and has no builder
  (Main.py:261-282) -/
  | unknown
  /-- `failed` with this exception (Main.py:289-340) -/
  | failed (e : Py)

/-- `BuildTask.do_failed` (Main.py:246-259). -/
def doFailed (m : Mode) (e : BuildErr) (status : Status) (g : Glob) : Glob :=
  match m with
  | .ignore => { g with failures := g.failures ++ [e] }
  | _ => { exit := status, failures := g.failures ++ [e] }

def report (m : Mode) (g : Glob) : Report → Glob
  | .ok => g
  | .unknown => doFailed m { status := .int 2, exitstatus := .int 2 } (.int 2) g
  | .failed e => doFailed m (convert e) (convert e).exitstatus g

def Glob.init : Glob := { exit := .int 0, failures := [] }

/-- `sys.exit(exit_status)` (Main.py:1589): whether the process reports success.
(`None` and 0 do; any other object is printed and gives status 1. Only the low eight
bits of an integer reach the parent; not modelled.) -/
def success (g : Glob) : Bool := !g.exit.truthy

end Verif.Act
