/-
Implicit dependencies: the recursive scan.

/repo/SCons/Node/__init__.py: Node.get_implicit_deps (985-1022), _get_scanner
(1024-1040), add_to_implicit (1071-1076), _add_child (1340-1350);
/repo/SCons/Executor.py: Executor.scan (481-501);
/repo/SCons/Scanner/__init__.py: recurse_nodes (174-179), select (246-254).

What a scanner finds in one node (`found`) is a parameter; `V` are the nodes and `S`
the scanners.
-/
namespace Verif.Scan

variable {V S : Type}

/-- The environment of a scan. `sel`: `scanner.select(node)` (Scanner/__init__.py:246-254,
296-300). `envSc`: `node.get_env_scanner(env)` (Node/__init__.py:1042-1043).
`found`: `node.get_found_includes(env, scanner, path)` (FS.py:2970-2994); `path` is a
function of the scanner (Node/__init__.py:1009-1013). `recurse`: `scanner.recurse_nodes`. -/
structure Env (V S : Type) where
  sel : S → V → Option S
  envSc : V → Option S
  found : V → S → List V
  recurse : S → List V → List V

/-- `_get_scanner` (Node/__init__.py:1024-1040). -/
def getScanner (E : Env V S) (init root : Option S) (n : V) : Option S :=
  let sc := match init with
    | some i => E.sel i n
    | none =>
      match E.envSc n with
      | some s => E.sel s n
      | none => none
  match sc with
  | some s => some s
  | none => root

/-- The scanner used for `n` in a scan started at `start`
(Node/__init__.py:997, 1002). -/
def scannerOf (E : Env V S) (init : Option S) (start n : V) : Option S :=
  getScanner E init (getScanner E init none start) n

structure State (V : Type) where
  nodes : List V
  seen : List V
  deps : List V

/-- One iteration of the `while` loop (Node/__init__.py:1000-1020). `scanner` is
`scannerOf`. -/
def iter [DecidableEq V] (E : Env V S) (scanner : V → Option S) (s : State V) : State V :=
  match s.nodes with
  | [] => s
  | n :: rest =>
    match scanner n with
    | none => { s with nodes := rest }
    | some sc =>
      let inc := (E.found n sc).filter (fun x => decide (x ∉ s.seen))
      if inc.isEmpty then { s with nodes := rest }
      else { nodes := rest ++ E.recurse sc inc, seen := s.seen ++ inc, deps := s.deps ++ inc }

/-- The `while` loop, at most `n` iterations; `none`: not finished. -/
def loop [DecidableEq V] (E : Env V S) (scanner : V → Option S) : Nat → State V → Option (List V)
  | n, s =>
    if s.nodes.isEmpty then some s.deps
    else match n with
      | 0 => none
      | n + 1 => loop E scanner n (iter E scanner s)

/-- `get_implicit_deps` (Node/__init__.py:985-1022). -/
def getImplicitDeps [DecidableEq V] (E : Env V S) (init : Option S) (start : V) (n : Nat) :
    Option (List V) :=
  loop E (scannerOf E init start) n { nodes := [start], seen := [start], deps := [] }

/-- `_add_child` (Node/__init__.py:1340-1350); the `set` that goes with the list has the
same elements. -/
def addChild [DecidableEq V] (coll deps : List V) : List V :=
  deps.foldl (fun c d => if d ∈ c then c else c ++ [d]) coll

/-- `Executor.scan` (Executor.py:481-501) for `nodeList`, as seen by one target whose
implicit dependencies so far are `implicit`; `own` are the executor's own implicit
dependencies (the programs its commands run). `none`: some scan is not finished
after `n` iterations. -/
def execScan [DecidableEq V] (E : Env V S) (init : Option S) (own implicit nodeList : List V) (n : Nat) :
    Option (List V) :=
  match nodeList.mapM (fun v => getImplicitDeps E init v n) with
  | none => none
  | some ls => some (addChild implicit (ls.flatten ++ own))

/-! ### Specification -/

/-- The nodes that have to be scanned: the start, and each node found in one of them
if the scanner that found it says to go on with it (`go`). -/
inductive Scanned (E : Env V S) (scanner : V → Option S) (go : S → V → Prop) (start : V) : V → Prop
  | start : Scanned E scanner go start start
  | step {n sc x} (h : Scanned E scanner go start n) (hs : scanner n = some sc)
      (hx : x ∈ E.found n sc) (hr : go sc x) : Scanned E scanner go start x

/-- The implicit dependencies: everything found in a node that has to be scanned,
except the start. -/
def Dep (E : Env V S) (scanner : V → Option S) (go : S → V → Prop) (start x : V) : Prop :=
  x ≠ start ∧ ∃ n sc, Scanned E scanner go start n ∧ scanner n = some sc ∧ x ∈ E.found n sc

end Verif.Scan
