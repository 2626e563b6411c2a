/-!
# C88: AddPreAction and AddPostAction

`Environment.AddPreAction`, `AddPostAction` (/repo/SCons/Environment.py:2426-2456),
`Node.get_executor` (/repo/SCons/Node/__init__.py), `Executor.add_pre_action`,
`add_post_action`, `get_action_list` (/repo/SCons/Executor.py:282-285, 423-427), `Null`
and `_morph` (582-656), and the part of `BuilderBase._execute` that finds or makes the
executor (/repo/SCons/Builder.py:593-635).

Simplifications: a builder has one action `A`; sources, batches and the errors of
`_node_errors` are left out.
-/
namespace Verif.PrePost

variable {V A : Type} [DecidableEq V]

/-- An executor. `main`: `action_list`; `null`: it is a `Null` executor. -/
structure Exec (A : Type) where
  null : Bool
  pre : List A
  main : List A
  post : List A

/-- While the SConscript files are read. `exec v`: the executor of the node, if it has
one; `built v`: the node has a builder. -/
structure St (V A : Type) where
  next : Nat
  obj : Nat → Exec A
  exec : V → Option Nat
  built : V → Bool

def St.init : St V A :=
  { next := 0, obj := fun _ => ⟨true, [], [], []⟩, exec := fun _ => none, built := fun _ => false }

/-- What a SConscript file does. -/
inductive Stmt (V A : Type) where
  /-- a call of a builder with this action for these targets -/
  | call (tlist : List V) (action : A) (multi : Bool)
  | pre (nodes : List V) (action : A)
  | post (nodes : List V) (action : A)

/-- `get_executor()` of one node: a `Null` executor is made if there is none. (A node with
a builder always has an executor.) -/
def St.getExec (S : St V A) (v : V) : St V A × Nat :=
  match S.exec v with
  | some i => (S, i)
  | none =>
    ({ S with next := S.next + 1, obj := fun j => if j = S.next then ⟨true, [], [], []⟩ else S.obj j,
              exec := fun x => if x = v then some S.next else S.exec x }, S.next)

/-- `[n.get_executor() for n in nodes]`. -/
def St.getExecs (S : St V A) : List V → St V A × List Nat
  | [] => (S, [])
  | v :: vs =>
    let r := S.getExec v
    let r' := r.1.getExecs vs
    (r'.1, r.2 :: r'.2)

/-- The keys of `uniq`. -/
def uniq (l : List Nat) : List Nat := l.foldl (fun acc i => if i ∈ acc then acc else acc ++ [i]) []

/-- `_morph` (Executor.py:636-641): the actions begin empty. -/
def Exec.morph (x : Exec A) : Exec A := if x.null then ⟨false, [], [], []⟩ else x

def Exec.addPre (x : Exec A) (a : A) : Exec A := { x.morph with pre := x.morph.pre ++ [a] }
def Exec.addPost (x : Exec A) (a : A) : Exec A := { x.morph with post := x.morph.post ++ [a] }

/-- Change one executor. -/
def St.upd (S : St V A) (f : Exec A → Exec A) (i : Nat) : St V A :=
  { S with obj := fun j => if j = i then f (S.obj j) else S.obj j }

/-- One statement. -/
def St.step (S : St V A) : Stmt V A → St V A
  | .pre nodes a =>
    let r := S.getExecs nodes
    (uniq r.2).foldl (fun S i => S.upd (·.addPre a) i) r.1
  | .post nodes a =>
    let r := S.getExecs nodes
    (uniq r.2).foldl (fun S i => S.upd (·.addPost a) i) r.1
  | .call tlist a multi =>
    -- 593-604: a multi builder uses the executor that is there
    match if multi then tlist.head?.bind S.exec else none with
    | some i =>
      { S with exec := fun x => if x ∈ tlist then some i else S.exec x,
               built := fun x => if x ∈ tlist then true else S.built x }
    | none =>
      { next := S.next + 1, obj := fun j => if j = S.next then ⟨false, [], [a], []⟩ else S.obj j,
        exec := fun x => if x ∈ tlist then some S.next else S.exec x,
        built := fun x => if x ∈ tlist then true else S.built x }

def St.run (S : St V A) (p : List (Stmt V A)) : St V A := p.foldl St.step S

/-- What is run when the target is built: `get_action_list` (282-285; 617 for `Null`). -/
def St.actions (S : St V A) (t : V) : List A :=
  match S.exec t with
  | none => []
  | some i => let x := S.obj i; if x.null then [] else x.pre ++ x.main ++ x.post

end Verif.PrePost
