import Mathlib.Data.List.Basic

/-!
# SConscript files: Export, Import, Return and the call stack (C68)

Models `_SConscript` (SCons/Script/SConscript.py 180-339), `compute_exports` (89-107), `Frame` (109-124), `Return` (131-150), `handle_missing_SConscript` (155-177), `Export` (528-531), `Import` (563-579), `SConscriptChdir` (635-638),
`BuildDefaultGlobals` (689-709: every frame starts from a copy of the same dictionary) and `FS.chdir` (SCons/Node/FS.py 1301-1314).

A SConscript is a program of the statements that matter here; every other computation is an assignment by an arbitrary function of variables.  Simplifications: variables are the script's global ones (a function's local variables, which
`compute_exports` looks at first, are not modelled); values are not changed in place; there are no repositories, so `rdir()` is the directory itself; `src_dir` is not given; `os.chdir` fails only when the directory does not exist; making a
directory works.
-/

namespace Verif.Script.Scons

abbrev Name := String
abbrev Dir := String

inductive Val where
  | none
  | obj (n : Nat)
  | tuple (l : List Val)

/-- A Python dictionary of variables. -/
abbrev Vars := Name → Option Val

def Vars.set (g : Vars) (x : Name) (v : Val) : Vars := fun y => if y = x then some v else g y

/-- `g.update(h)`. -/
def Vars.update (g h : Vars) : Vars := fun y => (h y).or (g y)

inductive Err where
  | noExport (x : Name)
  | noImport (x : Name)
  | noReturn (x : Name)
  | noName (x : Name)
  | noFile (f : Name)
  | user (n : Nat)
deriving DecidableEq

/-- How a piece of a script ends: by going on, by the exception `Return` raises, or by another exception. -/
inductive Out where
  | ok
  | returned
  | error (e : Err)
deriving DecidableEq

/-- One statement. -/
inductive Op where
  /-- `x = f(y, z, ...)`; a name that is not defined raises. -/
  | assign (x : Name) (f : List Val → Val) (ys : List Name)
  /-- `Export('x', 'y')`. -/
  | export (xs : List Name)
  /-- `Export(x=v)` with `v` the value of the variable `y`. -/
  | exportAs (x y : Name)
  /-- `Import('x', 'y')`. -/
  | import (xs : List Name)
  /-- `Import('*')`. -/
  | importAll
  /-- `x = SConscript([files], exports=[...])`. -/
  | call (x : Option Name) (files : List Name) (exports : List Name)
  /-- `Return('x y', stop=...)`. -/
  | ret (xs : List Name) (stop : Bool)
  | raise (n : Nat)
  /-- `SConscriptChdir(flag)`. -/
  | chdirFlag (b : Bool)

/-- A script: statements, and `try: b except ...: h`; the handler catches `SConscriptReturn` too when `all`. -/
inductive Prog where
  | done
  | seq (s : Op) (p : Prog)
  | attempt (all : Bool) (b h : Prog) (rest : Prog)

/-- A SConscript file: the directory it is in, the directory of the file it is read from (another one in a variant directory without duplication), and what it says.  `dir = none`: the standard input (`-`). -/
structure File where
  dir : Option (Dir × Dir)
  body : Prog

structure Setup where
  files : Name → Option File
  top : Dir
  defaults : Vars
  mustExist : Bool

structure Frame where
  globals : Vars
  exports : Vars
  retval : Val
  prev : Dir

structure St where
  stack : List Frame
  gexp : Vars
  /-- `fs._cwd`, which names are relative to. -/
  cwd : Dir
  /-- The process's working directory. -/
  os : Dir
  path : List Dir
  reading : Nat
  flag : Bool
  /-- The directories there are. -/
  dirs : Dir → Bool

/-- `fs.chdir(d, change_os_dir=flag)` with the `except OSError` of its two callers: when the directory does not exist, the name space moves and the process goes to `other` (SConscript.py 245-256, 310-336). -/
def chdir (S : St) (d other : Dir) : St :=
  if S.flag then if S.dirs d then { S with cwd := d, os := d } else { S with cwd := d, os := other } else { S with cwd := d }

/-- `compute_exports` for names (SConscript.py 94-105). -/
def computeExports (g : Vars) : List Name → Except Err Vars
  | [] => .ok fun _ => none
  | xs => xs.foldl (fun r x => match r with
      | .error e => .error e
      | .ok h => match g x with | some v => .ok (h.set x v) | none => .error (.noExport x)) (.ok fun _ => none)

/-- The values of variables, or the first that is not defined. -/
def getAll (g : Vars) : List Name → Except Name (List Val)
  | [] => .ok []
  | x :: xs => match g x with
    | none => .error x
    | some v => match getAll g xs with | .ok vs => .ok (v :: vs) | .error e => .error e

/-- `Return`'s value (SConscript.py 142-145). -/
def retVal : List Val → Val
  | [v] => v
  | vs => .tuple vs

/-- The `finally` of `_SConscript` (SConscript.py 303-338). -/
def leave (S : St) (oldPath : List Dir) : St × Val :=
  match S.stack with
  | [] => (S, .none)
  | fr :: rest =>
    let S1 := { S with reading := S.reading - 1, path := oldPath, stack := rest }
    let S2 := chdir S1 fr.prev fr.prev
    -- `rdir._create()`
    ({ S2 with dirs := fun d => if S1.flag && d = fr.prev then true else S1.dirs d }, fr.retval)

/-- One file of a SConscript call (SConscript.py 187-338); `run` executes a program. -/
def callFile (U : Setup) (run : St → Prog → Option (St × Out)) (S : St) (f : Name) (E : Vars) : Option (St × Out × Val) :=
  let S1 := { S with stack := ⟨U.defaults, E, .none, S.cwd⟩ :: S.stack, reading := S.reading + 1 }
  match U.files f with
  | none =>
    let (S2, v) := leave { S1 with cwd := U.top, os := U.top } S.path
    some (S2, if U.mustExist then .error (.noFile f) else .ok, v)
  | some fl =>
    match fl.dir with
    | none =>
      match run S1 fl.body with
      | none => none
      | some (S2, o) => let (S3, v) := leave S2 S.path; some (S3, o, v)
    | some (d, src) =>
      let S2 := chdir { S1 with cwd := U.top, os := U.top } d src
      match run { S2 with path := d :: S2.path } fl.body with
      | none => none
      | some (S3, o) =>
        let (S4, v) := leave S3 S.path
        some (S4, if o = .returned then .ok else o, v)

/-- The loop over the files (SConscript.py 186-338): the exports are computed anew for each. -/
def callFiles (U : Setup) (run : St → Prog → Option (St × Out)) (xs : List Name) : St → List Name → List Val → Option (St × Except Out (List Val))
  | S, [], acc => some (S, .ok acc)
  | S, f :: fs, acc =>
    match computeExports ((S.stack.head?.map (·.globals)).getD fun _ => none) xs with
    | .error e => some (S, .error (.error e))
    | .ok E =>
      match callFile U run S f E with
      | none => none
      | some (S1, .ok, v) => callFiles U run xs S1 fs (acc ++ [v])
      | some (S1, o, _) => some (S1, .error o)

def setTop (S : St) (f : Frame → Frame) : St := match S.stack with | [] => S | fr :: r => { S with stack := f fr :: r }

/-- `Import` of one name (SConscript.py 572-576). -/
def importOne (E G : Vars) (g : Vars) (x : Name) : Except Err Vars := match (E x).or (G x) with | some v => .ok (g.set x v) | none => .error (.noImport x)

/-- `Import`: what was imported before the name that fails stays. -/
def importAll' (E G : Vars) : Vars → List Name → Vars × Option Err
  | g, [] => (g, none)
  | g, x :: xs => match importOne E G g x with | .ok g' => importAll' E G g' xs | .error e => (g, some e)

/-- `Export` of names, one at a time (SConscript.py 528-530). -/
def exportAll (g : Vars) : Vars → List Name → Vars × Option Err
  | G, [] => (G, none)
  | G, x :: xs => match g x with | some v => exportAll g (G.set x v) xs | none => (G, some (.noExport x))

def ofErr : Option Err → Out
  | none => .ok
  | some e => .error e

/-- One statement; `fr` is the top frame, `rest` those below. -/
def op (U : Setup) (run : St → Prog → Option (St × Out)) (S : St) (fr : Frame) (rest : List Frame) : Op → Option (St × Out)
  | .assign x f ys => match getAll fr.globals ys with
    | .error y => some (S, .error (.noName y))
    | .ok vs => some ({ S with stack := { fr with globals := fr.globals.set x (f vs) } :: rest }, .ok)
  | .export xs => let (G, e) := exportAll fr.globals S.gexp xs; some ({ S with gexp := G }, ofErr e)
  | .exportAs x y => match fr.globals y with | none => some (S, .error (.noName y)) | some v => some ({ S with gexp := S.gexp.set x v }, .ok)
  | .import xs => let (g, e) := importAll' fr.exports S.gexp fr.globals xs; some ({ S with stack := { fr with globals := g } :: rest }, ofErr e)
  | .importAll => some ({ S with stack := { fr with globals := (fr.globals.update S.gexp).update fr.exports } :: rest }, .ok)
  | .call x files xs =>
    match callFiles U run xs S files [] with
    | none => none
    | some (S1, .error o) => some (S1, o)
    | some (S1, .ok vs) => some (match x with | none => S1 | some x => setTop S1 fun fr => { fr with globals := fr.globals.set x (retVal vs) }, .ok)
  | .ret xs stop => match getAll fr.globals xs with
    | .error y => some (S, .error (.noReturn y))
    | .ok vs => some ({ S with stack := { fr with retval := retVal vs } :: rest }, if stop then .returned else .ok)
  | .raise n => some (S, .error (.user n))
  | .chdirFlag b => some ({ S with flag := b }, .ok)

/-- Running a program; the number bounds statements and nesting, `none` when it is not enough. -/
def exec (U : Setup) : Nat → St → Prog → Option (St × Out)
  | 0, _, _ => none
  | _ + 1, S, .done => some (S, .ok)
  | k + 1, S, .seq s p =>
    match S.stack with
    | [] => none
    | fr :: rest =>
      match op U (exec U k) S fr rest s with
      | none => none
      | some (S1, .ok) => exec U k S1 p
      | some (S1, o) => some (S1, o)
  | k + 1, S, .attempt all b h r =>
    match exec U k S b with
    | none => none
    | some (S1, .ok) => exec U k S1 r
    | some (S1, .returned) =>
      if all then
        match exec U k S1 h with
        | some (S2, .ok) => exec U k S2 r
        | x => x
      else some (S1, .returned)
    | some (S1, .error _) =>
      match exec U k S1 h with
      | some (S2, .ok) => exec U k S2 r
      | x => x

/-- `SConscript(files, exports)` as a script sees it. -/
def sconscript (U : Setup) (k : Nat) (S : St) (files xs : List Name) : Option (St × Except Out (List Val)) := callFiles U (exec U k) xs S files []

end Verif.Script.Scons
