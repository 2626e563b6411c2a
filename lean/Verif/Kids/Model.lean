/-!
# C94: the children of a node, asked at any time

Models what a node knows about its children, and what is remembered of the answers:
/repo/SCons/Node/__init__.py `add_to_implicit` 1071-1076, the parts of `scan` (1078-1131) that
change the node, `add_dependency` 1295, `add_ignore` 1314, `add_source` 1326, `_add_child`
1340-1350, `_children_reset` 1363-1367, `_children_get` 1370-1404, `all_children` 1406-1428,
`children` 1430, `executor_cleanup` 681-689; /repo/SCons/Executor.py `cleanup` 388,
`add_sources` 392-401, `get_unignored_sources` 503-538, `scan` 480-501; the order of calls in
`BuilderBase._execute` (/repo/SCons/Builder.py:595-631).

Simplifications: which executor a node has, and the targets of an executor, are fixed; an
executor has one batch; no node has `_specific_sources` (only the Java builder sets it). Sets
that go with lists (`sources_set`, ...) are the lists.
-/

namespace Verif.Kids

variable {N X : Type} [DecidableEq N] [DecidableEq X]

/-- What stays the same: the executor of a node, and its targets. -/
structure Conf (N X : Type) where
  exec : N → Option X
  targets : X → List N

/-- A remembered answer of `get_unignored_sources`: the list of the batch itself (an alias: it
changes when the list changes), or a list of its own. -/
inductive Src (N : Type) where
  | alias
  | copy (l : List N)

/-- The node's `sources`, `depends`, `implicit` (`None` at first), `ignore`, `_memo`; the
executor's sources of its batch and its `_memo`. -/
structure St (N X : Type) where
  src : N → List N
  dep : N → List N
  imp : N → Option (List N)
  ign : N → List N
  memo : N → Option (List N)
  bsrc : X → List N
  ememo : X → List ((N × List N) × Src N)

def St.init : St N X where
  src := fun _ => []
  dep := fun _ => []
  imp := fun _ => none
  ign := fun _ => []
  memo := fun _ => none
  bsrc := fun _ => []
  ememo := fun _ => []

def set {A B : Type} [DecidableEq A] (f : A → B) (a : A) (b : B) : A → B := fun x => if x = a then b else f x

/-- The loop of `_add_child` (Node/__init__.py:1344-1348): the new list, and whether anything was
added. -/
def addNew (l : List N) : List N → List N × Bool
  | [] => (l, false)
  | c :: r => if c ∈ l then addNew l r else ((addNew (l ++ [c]) r).1, true)

/-- `_children_reset` (Node/__init__.py:1363-1367): the node forgets its answer, its executor all of
them. -/
def reset (C : Conf N X) (s : St N X) (t : N) : St N X :=
  { s with
    memo := set s.memo t none
    ememo := match C.exec t with
      | some x => set s.ememo x []
      | none => s.ememo }

/-- `_add_child`, after the list has been changed (Node/__init__.py:1349). -/
def resetIf (C : Conf N X) (b : Bool) (s : St N X) (t : N) : St N X := if b then reset C s t else s

/-- `add_source` (Node/__init__.py:1326-1338). -/
def addSource (C : Conf N X) (l : List N) (s : St N X) (t : N) : St N X :=
  resetIf C (addNew (s.src t) l).2 { s with src := set s.src t (addNew (s.src t) l).1 } t

/-- `add_dependency` (Node/__init__.py:1295-1305). -/
def addDepend (C : Conf N X) (l : List N) (s : St N X) (t : N) : St N X :=
  resetIf C (addNew (s.dep t) l).2 { s with dep := set s.dep t (addNew (s.dep t) l).1 } t

/-- `add_ignore` (Node/__init__.py:1314-1324). -/
def addIgnore (C : Conf N X) (l : List N) (s : St N X) (t : N) : St N X :=
  resetIf C (addNew (s.ign t) l).2 { s with ign := set s.ign t (addNew (s.ign t) l).1 } t

/-- `self.implicit = []`, if it is `None`, and `_children_reset` (Node/__init__.py:1072-1075,
1084-1088). -/
def openImplicit (C : Conf N X) (s : St N X) (t : N) : St N X :=
  match s.imp t with
  | some _ => s
  | none => reset C { s with imp := set s.imp t (some []) } t

/-- `add_to_implicit` (Node/__init__.py:1071-1076). -/
def addImplicit (C : Conf N X) (l : List N) (s : St N X) (t : N) : St N X :=
  let s := openImplicit C s t
  let old := (s.imp t).getD []
  resetIf C (addNew old l).2 { s with imp := set s.imp t (some (addNew old l).1) } t

/-- `all_children(scan=False)` (Node/__init__.py:1428). -/
def allChildren (s : St N X) (t : N) : List N := s.src t ++ s.dep t ++ (s.imp t).getD []

/-- The list that `_children_get` computes (Node/__init__.py:1393-1402). -/
def childrenNow (s : St N X) (t : N) : List N :=
  if s.ign t = [] then allChildren s t
  else (s.src t ++ s.dep t ++ (s.imp t).getD []).filter fun i => decide (i ∉ s.ign t)

/-- `_children_get` (Node/__init__.py:1370-1404): the answer, and what is remembered. -/
def childrenGet (s : St N X) (t : N) : List N × St N X :=
  match s.memo t with
  | some l => (l, s)
  | none => (childrenNow s t, { s with memo := set s.memo t (some (childrenNow s t)) })

/-- What `get_unignored_sources` computes (Executor.py:520-534). -/
def unignoredNow (C : Conf N X) (x : X) (t : N) (ign : List N) (s : St N X) : Src N :=
  if t ∈ C.targets x then
    if ign = [] then .alias else .copy ((s.bsrc x).filter fun i => decide (i ∉ ign))
  else .copy []

/-- The list behind a remembered answer, now. -/
def Src.list (l : List N) : Src N → List N
  | .alias => l
  | .copy l' => l'

/-- `executor.get_unignored_sources(t, t.ignore)` (Executor.py:507-538), as in `get_binfo`
(Node/__init__.py:1204). -/
def unignored (C : Conf N X) (s : St N X) (x : X) (t : N) : List N × St N X :=
  match (s.ememo x).lookup (t, s.ign t) with
  | some v => (v.list (s.bsrc x), s)
  | none =>
    let v := unignoredNow C x t (s.ign t) s
    (v.list (s.bsrc x), { s with ememo := set s.ememo x (((t, s.ign t), v) :: s.ememo x) })

/-- What happens to nodes. -/
inductive Op (N X : Type) where
  /-- a builder is called again for the targets of `x`, with these sources
  (Builder.py:602, 625-631) -/
  | call (x : X) (l : List N)
  | depends (t : N) (l : List N)
  | ignore (t : N) (l : List N)
  /-- the beginning of `t.scan()` (Node/__init__.py:1084-1088) -/
  | scan (t : N)
  /-- `Executor.scan`: these files were found (Executor.py:500-501) -/
  | found (x : X) (l : List N)
  /-- `t.children(scan=False)` -/
  | children (t : N)
  /-- `get_binfo`'s question for the sources -/
  | sources (t : N)
  /-- with `--implicit-cache`: the recorded dependencies were added, they turned out to be out of
  date, and are dropped for all targets of `x`; the scan then finds `l`
  (Node/__init__.py:1117-1131) -/
  | rescan (x : X) (l : List N)

/-- `Executor.add_sources` (Executor.py:392-401): those not in the list yet; one that is given twice
is added twice. -/
def addBatch (l new : List N) : List N := l ++ new.filter fun c => decide (c ∉ l)

/-- One operation. -/
def step (C : Conf N X) (s : St N X) : Op N X → St N X
  | .call x l => (C.targets x).foldl (addSource C l) { s with bsrc := set s.bsrc x (addBatch (s.bsrc x) l) }
  | .depends t l => addDepend C l s t
  | .ignore t l => addIgnore C l s t
  | .scan t => openImplicit C s t
  | .found x l => (C.targets x).foldl (addImplicit C l) s
  | .children t => (childrenGet s t).2
  | .sources t => match C.exec t with
    | some x => (unignored C s x t).2
    | none => s
  | .rescan x l => (C.targets x).foldl (addImplicit C l)
      { s with imp := fun t => if t ∈ C.targets x then some [] else s.imp t }

def run (C : Conf N X) (s : St N X) (h : List (Op N X)) : St N X := h.foldl (step C) s

end Verif.Kids
