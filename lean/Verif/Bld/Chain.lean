import Mathlib.Data.List.Basic
import Mathlib.Data.List.Infix
import Mathlib.Logic.Relation

/-!
# C75: chains of builders

`Program('p', ['a.y', 'b.c', 'c.o'])` makes `a.c` from `a.y`, the objects from the C files and the program from the objects: each builder has a list of source suffixes and a list
of other builders (`src_builder`) that make its sources.  Modelled: `SCons/Builder.py` 120-126 (`match_splitext`), 474-555 (`_adjustixes`, `_create_nodes`),
556-572 (`_execute`: conversion of sources, single-source builders), 649-682 (`__call__`: `chdir`, overrides), 721-905 (`_get_sdict`, `src_builder_sources`, `get_src_builders`,
`subst_src_suffixes`, `src_suffixes`), `SCons/Util/__init__.py` 159-172 (`splitext`), 974-998 (`adjustixes`), `File.target_from_source`.

Simplifications: names without `$`; paths are a directory and a name and are not normalized; prefixes and suffixes are texts, not functions or dictionaries of the source; emitters change the targets
only; `srcdir` is not modelled; a `none` stands for an exception (`RecursionError` or `UserError`).  What the resulting calls do to nodes and executors is C60.
-/

namespace Verif.Bld.Chain

/-- Texts. -/
abbrev Text := List Char

/-- A file: directory and name. -/
structure Path where
  dir : Text
  name : Text
  deriving DecidableEq, Repr

/-- What is given as a source: a text or a node. -/
inductive Src
  | str (p : Path)
  | node (p : Path)
  deriving DecidableEq, Repr

/-- The file meant. -/
def Src.path : Src → Path
  | .str p => p
  | .node p => p

/-- A builder (Builder.py 386-443): `srcBuilders` are names of builders, looked up in the environment; `chdir` and `vars` are what the `Builder()` call was given. -/
structure Builder where
  pre : Text
  suf : Text
  srcSuffix : List Text
  srcBuilders : List Nat
  single : Bool
  ensure : Bool
  emit : List Path → List Path → List Path
  chdir : Option Text
  vars : List (Text × Text)

/-- `env['BUILDERS']`. -/
abbrev Table := Nat → Option Builder

/-- Python's `x[-l:]`. -/
def lastN (x : Text) (l : Nat) : Text := if l = 0 then x else x.drop (x.length - l)

/-- `SCons.Util.splitext` (Util/__init__.py 159-172) of a name. -/
def splitext (x : Text) : Text × Text :=
  let tail := (x.reverse.takeWhile (· ≠ '.')).reverse
  if '.' ∈ x ∧ ¬ (tail ≠ [] ∧ ∀ c ∈ tail, c.isDigit) then (x.take (x.length - (tail.length + 1)), '.' :: tail) else (x, [])

/-- The longest element (`max([(len(f), f) ...])[1]`). -/
def longest : List Text → Option Text
  | [] => none
  | s :: ss => match longest ss with
    | none => some s
    | some t => if t.length < s.length then some s else some t

/-- `match_splitext` (Builder.py 120-126). -/
def matchSplitext (x : Text) (sufs : List Text) : Text × Text :=
  match longest (sufs.filter fun s => lastN x s.length = s) with
  | some s => (x.take (x.length - s.length), lastN x s.length)
  | none => splitext x

/-- `adjustixes` (Util/__init__.py 974-998) on a name. -/
def adjustixes (x pre suf : Text) (ensure : Bool) : Text :=
  let x := if pre ≠ [] ∧ (¬ pre <+: x ∨ x = pre) then pre ++ x else x
  if suf ≠ [] ∧ ¬ suf <:+ x ∧ (ensure ∨ (splitext x).2 = []) then x ++ suf else x

/-- `_adjustixes` (Builder.py 474-493): nodes are left alone. -/
def Src.adjust (pre suf : Text) (ensure : Bool) : Src → Path
  | .str p => { p with name := adjustixes p.name pre suf ensure }
  | .node p => p

/-- `src_suffixes` (Builder.py 872-890), for the suffixes of the source builders already computed: append what is new. -/
def appendNew (acc new : List Text) : List Text := new.foldl (fun acc s => if s ∈ acc then acc else acc ++ [s]) acc

/-- The builders of the list that the environment has (`get_src_builders`, Builder.py 802-838: unknown names are passed over). -/
def Table.known (T : Table) (bs : List Nat) : List Nat := bs.filter fun b => (T b).isSome

/-- The loop of `src_suffixes` over the source builders. -/
def collect (f : Nat → Option (List Text)) : List Nat → List Text → Option (List Text)
  | [], acc => some acc
  | b :: bs, acc => match f b with
    | none => none
    | some l => collect f bs (appendNew acc l)

/-- `src_suffixes` (Builder.py 872-890); `none`: the recursion is deeper than `fuel`. -/
def suffixes (T : Table) : Nat → Nat → Option (List Text)
  | 0, _ => none
  | fuel + 1, b => match T b with
    | none => none
    | some B => collect (suffixes T fuel) (T.known B.srcBuilders) B.srcSuffix

/-- `get_src_suffix` (Builder.py 694-699). -/
def firstOr (l : List Text) : Text := l.headD []

/-- `match_src_suffix` (Builder.py 754-759): the first suffix of the list that is among the ends, of the lengths there are, of the name. -/
def matchSrc (sufs : List Text) (x : Text) : Option Text :=
  sufs.find? fun s => decide (s ∈ (sufs.map List.length).map (lastN x))

/-- `_get_sdict` (Builder.py 721-745): the *last* source builder with this suffix. -/
def handler (T : Table) (fuel : Nat) (bs : List Nat) (s : Text) : Option Nat :=
  bs.reverse.find? fun b => decide (s ∈ (suffixes T fuel b).getD [])

/-- One executor: the builder, its targets and sources, the directory to change to and the overrides in effect. -/
structure Task where
  builder : Nat
  targets : List Path
  sources : List Path
  chdir : Option Text
  vars : List (Text × Text)
  deriving DecidableEq, Repr

/-- What a call does: the tasks, in the order in which they are made, and the nodes returned. -/
abbrev Out := List Task × List Path

/-- Run the elements of a list one after the other and put the results together. -/
def gather {α : Type} (f : α → Option Out) : List α → Option Out
  | [] => some ([], [])
  | x :: xs => match f x with
    | none => none
    | some (l, ps) => match gather f xs with
      | none => none
      | some (l', ps') => some (l ++ l', ps ++ ps')

/-- One round of the loop of `src_builder_sources` (Builder.py 762-785); `run` is `bld._execute(env, None, [s])`. -/
def convert (run : Nat → Src → Option Out) (hand : Text → Option Nat) (sufs : List Text) (s : Src) : Option Out :=
  match matchSrc sufs s.path.name with
  | some suf => match hand suf with
    | some bld => match run bld s with
      | none => none
      | some (l, ts) => some (l, if ts.length > 1 then ts.filter (fun t => (matchSrc sufs t.name).isSome) else ts)
    | none => some ([], [s.path])
  | none => match s with
    | .str p => some ([], [if '.' ∉ p.dir ∧ '.' ∉ p.name then { p with name := adjustixes p.name [] (firstOr sufs) false } else p])
    | .node p => some ([], [p])

/-- `_create_nodes` (Builder.py 495-555): the targets and the sources. -/
def createNodes (B : Builder) (sufs : List Text) (target : Option (List Src)) (source : List Src) : List Path × List Path :=
  let slist := source.map (Src.adjust [] (firstOr sufs) false)
  let tlist := match target with
    | some ts => ts.map (Src.adjust B.pre B.suf B.ensure)
    | none => match slist with
      | [] => []
      | p :: _ => [{ p with name := B.pre ++ (matchSplitext p.name sufs).1 ++ B.suf }]
  (B.emit tlist slist, slist)

/-- The conversion of the sources at the beginning of `_execute` (Builder.py 558-559, `src_builder_sources` 747-790): for a builder without source builders nothing is done, otherwise the
results are nodes. -/
def sourcesOf (run : Nat → Src → Option Out) (hand : Text → Option Nat) (B : Builder) (sufs : List Text) (source : List Src) : Option (List Task × List Src) :=
  if B.srcBuilders = [] then some ([], source) else (gather (convert run hand sufs) source).map fun r => (r.1, r.2.map .node)

/-- The rest of `_execute` (Builder.py 561-647), for the tasks so far and the converted sources: a single-source builder without given targets is called again for each source (`again`);
with given targets and several sources `_node_errors` raises an exception (:330-333). -/
def finish (again : Src → Option Out) (b : Nat) (B : Builder) (sufs : List Text) (chdir : Option Text) (vars : List (Text × Text)) (target : Option (List Src)) (l : List Task) (src : List Src) :
    Option Out :=
  if B.single = true ∧ src.length > 1 then
    if target.isNone then (gather again src).map fun r => (l ++ r.1, r.2) else none
  else
    some (l ++ [{ builder := b, targets := (createNodes B sufs target src).1, sources := (createNodes B sufs target src).2, chdir := chdir, vars := vars }],
      (createNodes B sufs target src).1)

/-- `_execute` (Builder.py 556-647).  The inner calls (of a source builder, :778, and of a single-source builder on each source, :569) are without `executor_kw`: no `chdir`. -/
def execute (T : Table) (vars : List (Text × Text)) : Nat → Nat → Option Text → Option (List Src) → List Src → Option Out
  | 0, _, _, _, _ => none
  | fuel + 1, b, chdir, target, source => match T b with
    | none => none
    | some B => match suffixes T fuel b with
      | none => none
      | some sufs => match sourcesOf (fun c s => execute T vars fuel c none none [s]) (handler T fuel (T.known B.srcBuilders)) B sufs source with
        | none => none
        | some (l, src) => finish (fun s => execute T vars fuel b none none [s]) b B sufs chdir vars target l src

/-- `dict.update`. -/
def update (old new : List (Text × Text)) : List (Text × Text) := new ++ old.filter fun x => decide (x.1 ∉ new.map (·.1))

/-- `__call__` (Builder.py 649-682): `chdir` and the overrides of the call take precedence over those of the builder. -/
def call (T : Table) (fuel b : Nat) (chdir : Option Text) (kw : List (Text × Text)) (target : Option (List Src)) (source : List Src) : Option Out :=
  match T b with
  | none => none
  | some B => execute T (update B.vars kw) fuel b (chdir.or B.chdir) target source

/-! ## The memory of `subst_src_suffixes` -/

/-- `_memo['subst_src_suffixes']` of all builders, for one environment. -/
abbrev Memo := Nat → Option (List Text)

/-- The loop of `src_suffixes`, with the memory. -/
def collectM (f : Nat → Memo → Option (List Text × Memo)) : List Nat → List Text → Memo → Option (List Text × Memo)
  | [], acc, m => some (acc, m)
  | b :: bs, acc, m => match f b m with
    | none => none
    | some (l, m') => collectM f bs (appendNew acc l) m'

/-- `src_suffixes` as it is: the list it appends to is the one kept in the memory of `subst_src_suffixes` (Builder.py 845-870, 881). -/
def suffixesM (T : Table) : Nat → Nat → Memo → Option (List Text × Memo)
  | 0, _, _ => none
  | fuel + 1, b, m => match T b with
    | none => none
    | some B =>
      let start := (m b).getD B.srcSuffix
      match collectM (suffixesM T fuel) (T.known B.srcBuilders) start (fun x => if x = b then some start else m x) with
      | none => none
      | some (l, m') => some (l, fun x => if x = b then some l else m' x)

end Verif.Bld.Chain
