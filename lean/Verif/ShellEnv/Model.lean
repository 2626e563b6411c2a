/-!
# C96: the environment variables of commands

Models /repo/SCons/Action.py `_resolve_shell_env` 793-817 and the conversion of `ENV` in
`CommandAction.execute` 1069-1085, run by several threads at once on the same dictionary
(`env['ENV']`; an override environment and the targets of one environment share it), and
/repo/SCons/Platform/posix.py `exec_subprocess` 56-58 (the dictionary is the whole environment of
the program); /repo/SCons/Util/sctypes.py `flatten_sequence`.

Simplifications: `get_default_ENV`'s other branch (no `ENV` at all) is left out; a string is a
`str` (a `UserString` would make `Popen` fail); one thread's read of a value and its write are
single steps, and so is the copy of a dictionary; generators are functions of the dictionary they are given.
-/

namespace Verif.ShellEnv

abbrev Str := List Char

/-- A value in `ENV`: a string, a list, a tuple (with its `str()`), another object with its `str()`. -/
inductive V where
  | str (s : Str)
  | list (l : List V)
  | tuple (l : List V) (shown : Str)
  | other (shown : Str)

mutual
/-- `map(str, flatten_sequence(...))`, for one item: lists and tuples are opened. -/
def flat : V → List Str
  | .str s => [s]
  | .list l => flatL l
  | .tuple l _ => flatL l
  | .other s => [s]
def flatL : List V → List Str
  | [] => []
  | v :: r => flat v ++ flatL r
end

/-- `os.pathsep.join` -/
def joinSep : List Str → Str
  | [] => []
  | [s] => s
  | s :: r => s ++ ':' :: joinSep r

/-- The conversion of one value (Action.py:1073-1085). -/
def conv : V → V
  | .str s => .str s
  | .list l => .str (joinSep (flatL l))
  | .tuple _ s => .str s
  | .other s => .str s

def V.isStr : V → Bool
  | .str _ => true
  | _ => false

/-- A dictionary, in the order of insertion. -/
abbrev Dict := List (Str × V)

def Dict.get (D : Dict) (k : Str) : Option V := D.lookup k

/-- `ENV[key] = value` for a key that is there. -/
def Dict.put (D : Dict) (k : Str) (v : V) : Dict := D.map fun p => if p.1 = k then (p.1, v) else p

def Dict.keys (D : Dict) : List Str := D.map Prod.fst

/-- A generator: a new dictionary, or something else, which is an error. -/
abbrev Gen := Dict → Option Dict

/-- `_resolve_shell_env` with generators (Action.py:811-815). -/
def runGens : List Gen → Dict → Option Dict
  | [], D => some D
  | g :: r, D => match g D with
    | some D' => runGens r D'
    | none => none

/-- What a thread is doing: about to run a command of an environment with these generators; in the loop
over the keys; between the reading of a value and the writing of its text; the command was
started with these variables; refused. -/
inductive Th where
  | start (gens : List Gen)
  | loop (ks : List Str)
  | hold (k : Str) (v : V) (ks : List Str)
  | spawned (e : Dict)
  | refused

/-- The loop over all keys of a dictionary nobody else has. -/
def convAll (D : Dict) : Dict := D.map fun p => if p.2.isStr then p else (p.1, conv p.2)

/-- The next step of a thread, and the shared dictionary after it. -/
def step (D : Dict) : Th → Dict × Th
  | .start [] => (D, .loop D.keys)
  | .start (g :: r) => (D, match runGens (g :: r) D with
    | some D' => .spawned (convAll D')
    | none => .refused)
  | .loop [] => (D, .spawned D)
  | .loop (k :: ks) => (D, match D.get k with
    | some v => if v.isStr then .loop ks else .hold k (conv v) ks
    | none => .loop ks)
  | .hold k v ks => (D.put k v, .loop ks)
  | .spawned e => (D, .spawned e)
  | .refused => (D, .refused)

/-- The shared dictionary and all threads. -/
structure St where
  dict : Dict
  ths : List Th

/-- Thread `i` takes a step. -/
def stepAt (s : St) (i : Nat) : St :=
  match s.ths[i]? with
  | some t => ⟨(step s.dict t).1, s.ths.set i (step s.dict t).2⟩
  | none => s

/-- A schedule. -/
def run (s : St) (sched : List Nat) : St := sched.foldl stepAt s

end Verif.ShellEnv
