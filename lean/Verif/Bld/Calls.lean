/-!
# C60: Builder calls

What `env.Program(...)`, `env.Command(...)`, `env.SideEffect(...)`, … do to the target nodes: `BuilderBase._execute` (`Builder.py:556-647`) after
`_create_nodes` has turned the arguments into the node lists `tlist` and `slist`, with `_node_errors` (`Builder.py:283-330`), and
`Environment.SideEffect` (`Environment.py:2897-2920`).

Simplifications: `get_contents` of an action is a fixed function (nobody edits an environment between two calls for one target); `target_peers` (`Builder.py:582-584`)
is left out; no node has an executor that was not made by a Builder call (`Null` executors); a Builder has an action.
-/

namespace Verif.Bld

/-- The objects that take part.  `V` nodes, `E` environments (equality is object identity), `L` builders (idem), `C` contents of actions. -/
structure Objs (V E L C : Type) where
  /-- `builder.action.get_contents(tlist, slist, env)` -/
  contents : L → List V → List V → E → C
  /-- `builder.multi` -/
  multi : L → Bool
  /-- `builder.single_source` -/
  single : L → Bool
  /-- `builder.is_explicit` -/
  explicit : L → Bool
  /-- `builder == builder'` (`Builder.py:462-463`: equal attributes) -/
  eqv : L → L → Bool
  /-- both override the same environment, with equal overrides (`Builder.py:300-301`) -/
  similar : E → E → Bool

/-- The attributes of a node that matter. -/
structure Node (V E L : Type) where
  side : Bool := false
  builder : Option L := none
  env : Option E := none
  sources : List V := []
  exec : Option Nat := none
  explicit : Bool := false

/-- An `Executor`: its batches (targets, sources). -/
abbrev Exec (V : Type) := List (List V × List V)

/-- The state while SConscript files are read.  `K`: batch keys. -/
structure St (V E L K : Type) where
  node : V → Node V E L := fun _ => {}
  exec : Nat → Exec V := fun _ => []
  next : Nat := 0
  batch : K → Option Nat := fun _ => none

/-- A call of a builder, after `_create_nodes`; `key`: what `action.batch_key` answers. -/
structure Call (V E L K : Type) where
  bld : L
  env : E
  tlist : List V
  slist : List V
  key : Option K := none

variable {V E L C K : Type} [DecidableEq V] [DecidableEq E] [DecidableEq C] [DecidableEq K]

/-- `get_all_targets`, `Executor.py:291-296`. -/
def Exec.targets (x : Exec V) : List V := x.flatMap (·.1)

/-- `get_all_sources`, `Executor.py:298-303`. -/
def Exec.sources (x : Exec V) : List V := x.flatMap (·.2)

/-- `_add_child`, `Node/__init__.py:1340-1350`. -/
def addChild (have_ new : List V) : List V := new.foldl (fun acc c => if c ∈ acc then acc else acc ++ [c]) have_

/-- The executor of a node (empty if there is none). -/
def St.execOf (S : St V E L K) (t : V) : Exec V := match (S.node t).exec with | some i => S.exec i | none => []

/-- The test of `_node_errors` for one target (`Builder.py:292-325`): `true` = `UserError`. -/
def bad (O : Objs V E L C) (S : St V E L K) (c : Call V E L K) (t : V) : Bool :=
  (S.node t).side ||
  ((S.node t).explicit &&
    ((match (S.node t).env, (S.node t).builder with
      | some e, some b => decide (e ≠ c.env) && !(O.similar e c.env && !O.multi c.bld) &&
          decide (O.contents b c.tlist c.slist e ≠ O.contents c.bld c.tlist c.slist c.env)
      | _, _ => false) ||
     (if O.multi c.bld then
        !((S.node t).builder.any (fun b => O.eqv b c.bld)) || decide ((S.execOf t).targets ≠ c.tlist)
      else decide ((S.node t).sources ≠ c.slist))))

/-- `_node_errors`, `Builder.py:283-330`. -/
def nodeErrors (O : Objs V E L C) (S : St V E L K) (c : Call V E L K) : Bool :=
  c.tlist.any (bad O S c) || (O.single c.bld && decide (1 < c.slist.length))

/-- `executor.add_sources`, `Executor.py:392-400`. -/
def Exec.addSources (x : Exec V) (s : List V) : Exec V :=
  match x with
  | [] => []
  | b :: bs => (b.1, b.2 ++ s.filter (fun y => decide (y ∉ b.2))) :: bs

/-- "find or make the appropriate Executor" (`Builder.py:593-626`): the new state and the number of the executor. -/
def findExec (O : Objs V E L C) (S : St V E L K) (c : Call V E L K) : St V E L K × Nat :=
  match (if O.multi c.bld then c.tlist.head?.bind (fun t => (S.node t).exec) else none) with
  | some i => ({ S with exec := fun j => if j = i then (S.exec i).addSources c.slist else S.exec j }, i)
  | none =>
    match c.key.bind S.batch with
    | some i => ({ S with exec := fun j => if j = i then S.exec i ++ [(c.tlist, c.slist)] else S.exec j }, i)
    | none =>
      ({ S with exec := fun j => if j = S.next then [(c.tlist, c.slist)] else S.exec j, next := S.next + 1,
                batch := fun k => if c.key = some k then some S.next else S.batch k }, S.next)

/-- "set up the relevant information in the target Nodes" (`Builder.py:629-635`) for one target. -/
def setNode (O : Objs V E L C) (c : Call V E L K) (i : Nat) (n : Node V E L) : Node V E L :=
  { n with builder := some c.bld, env := some c.env, sources := addChild n.sources c.slist, exec := some i, explicit := O.explicit c.bld }

/-- `_execute`, `Builder.py:556-647`; `none`: `UserError`. -/
def call (O : Objs V E L C) (S : St V E L K) (c : Call V E L K) : Option (St V E L K) :=
  if nodeErrors O S c then none
  else
    let r := findExec O S c
    some { r.1 with node := fun x => if x ∈ c.tlist then setNode O c r.2 (r.1.node x) else r.1.node x }

/-- `env.SideEffect(side, targets)` for one side effect, `Environment.py:2907-2919`. -/
def sideEffect (S : St V E L K) (s : V) (targets : List V) : Option (St V E L K) :=
  if (S.node s).builder.isSome then none
  else some { S with node := fun x => if x = s then { S.node s with side := true, sources := addChild (S.node s).sources targets } else S.node x }

/-- What a SConscript file does. -/
inductive Stmt (V E L K : Type)
  | call (c : Call V E L K)
  | side (s : V) (targets : List V)

/-- One statement. -/
def St.exec1 (O : Objs V E L C) (S : St V E L K) : Stmt V E L K → Option (St V E L K)
  | .call c => Bld.call O S c
  | .side s ts => sideEffect S s ts

/-- All SConscript files, in order; `none`: a `UserError` was raised. -/
def St.run (O : Objs V E L C) (S : St V E L K) : List (Stmt V E L K) → Option (St V E L K)
  | [] => some S
  | s :: ss => (S.exec1 O s).bind (fun S' => S'.run O ss)

/-- The builder calls of a program. -/
def calls (p : List (Stmt V E L K)) : List (Call V E L K) := p.filterMap (fun s => match s with | .call c => some c | .side .. => none)

end Verif.Bld
