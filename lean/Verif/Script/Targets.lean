import Verif.FS.NodeProps
import Mathlib.Data.List.Induction

/-!
# Which targets are built: C64

Models the split of the command line (`Script/Main.py:1080-1094`), `_Add_Targets`, `_Set_Default_Targets`, `_Get_Default_Targets` (`Script/__init__.py:186-226`, `:274-306`),
`Default()` (`Script/SConscript.py:488-489`), the search for the SConstruct directory under `-u`, `-D`, `-U` (`Main.py:985-997`), and the choice of the top-level nodes in `_build_targets`
(`Main.py:1254-1330`), with `is_under` (`Node/FS.py:817-821`, `:2529-2530`, `Node/Alias.py:93-97`, `Node/Python.py:96-100`).

Simplifications: a file system node is its path (one node for each path: C56), and a name stands for the path `FS.resolve` (C56); what a string given to `Default()` stands for
(`arg2nodes`: expansion, aliases) is given by the caller; `parser.largs` and `parser.rargs` are inputs (`rargs`: what follows `--`); a script may change BUILD_TARGETS in place, but does not
replace the object.  Not modelled: `--interactive`.
-/

namespace Verif.Script

open Verif.FS

/-- A node: in the file system, or an Alias or Value. -/
inductive Nd where
  | fsn (path : List Str)
  | virt (id : Nat)
deriving DecidableEq

/-- An element of BUILD_TARGETS: a string from the command line (or from a script), or a node. -/
inductive Item where
  | str (s : Str)
  | node (n : Nd)
deriving DecidableEq

/-- COMMAND_LINE_TARGETS, BUILD_TARGETS, `_build_plus_default`, DEFAULT_TARGETS; `frozen`: `_add_Default` and `_clear` do nothing; `called`: Default() was called. -/
structure Lists where
  cmd : List Str := []
  build : List Item := []
  plus : List Item := []
  deflt : List Nd := []
  frozen : Bool := false
  called : Bool := false

/-- `_Add_Targets` (`Script/__init__.py:218-227`). -/
def Lists.addTargets (L : Lists) (tl : List Str) : Lists :=
  if tl = [] then L
  else { L with cmd := L.cmd ++ tl, build := L.build ++ tl.map .str, plus := L.plus ++ tl.map .str, frozen := true }

/-- One element of the argument list of `Default()`: `None`, or what the argument stands for. -/
inductive DArg where
  | none
  | nodes (l : List Nd)

/-- One turn of the loop of `_Set_Default_Targets` (`Script/__init__.py:289-306`). -/
def Lists.default1 (L : Lists) : DArg → Lists
  | .none => { L with deflt := [], build := if L.frozen then L.build else [], plus := if L.frozen then L.plus else [] }
  | .nodes l => { L with deflt := L.deflt ++ l, build := if L.frozen then L.build else L.build ++ l.map .node, plus := if L.frozen then L.plus else L.plus ++ l.map .node }

/-- `_Set_Default_Targets` (`Script/__init__.py:285-306`). -/
def Lists.default (L : Lists) (args : List DArg) : Lists := args.foldl Lists.default1 { L with called := true }

/-- What a script does to the lists: it calls `Default(...)`, or changes BUILD_TARGETS in place. -/
inductive Ev where
  | dflt (args : List DArg)
  | edit (f : List Item → List Item)

def Lists.ev (L : Lists) : Ev → Lists
  | .dflt args => L.default args
  | .edit f => { L with build := f L.build }

/-- The targets among `parser.largs` (`Main.py:1083-1092`). -/
def cmdTargets (largs : List Str) : List Str :=
  largs.filter fun a => !(a.head? = some '-') && !(a ∈ [[], "\"\"".toList, "''".toList]) && !('=' ∈ a)

/-- The lists when the SConscript files have been read. -/
def afterScripts (largs rargs : List Str) (evs : List Ev) : Lists :=
  evs.foldl Lists.ev (({} : Lists).addTargets (cmdTargets largs ++ rargs))

/-- `options.climb_up`. -/
inductive Climb where
  | none | u | D | U
deriving DecidableEq

/-- The file system side: the top-level directory, the launch directory `fs.Dir(target_top)`, which nodes are directories, aliases, and the directory `node.cwd.srcnode()` of a node's SConscript
file (`none`: no `cwd`). -/
structure Place where
  top : List Str
  launch : List Str
  isDir : List Str → Bool
  aliasOf : Str → Option Nat
  cwd : Nd → Option (List Str)

/-- `is_under` of a file system node (`Node/FS.py:817-821`, `:2529-2530`): itself, or its directory is under. -/
def isUnderPath (dir : List Str) (path : List Str) : Bool :=
  if path = dir then true
  else
    match path with
    | [] => false
    | a :: l => isUnderPath dir (a :: l).dropLast
termination_by path.length
decreasing_by simp

/-- `is_under`: always true of an Alias or a Value. -/
def Nd.isUnder (dir : List Str) : Nd → Bool
  | .fsn p => isUnderPath dir p
  | .virt _ => true

/-- `Entry(x)` (`Main.py:1302-1327`). -/
def entry (P : Place) (ltop ttop : Option (List Str)) (x : Item) : Option Nd :=
  let node := match x with
    | .node n => n
    | .str s =>
      match P.aliasOf s with
      | some a => .virt a
      | none => .fsn (resolve P.top (ltop.getD P.top) s)
  match ttop with
  | none => some node
  | some t =>
    if node.isUnder t then some node
    else
      match node with
      | .fsn p => if P.isDir p && isUnderPath p t then some (.fsn t) else none
      | .virt _ => none

/-- The choice of the targets (`Main.py:1254-1330`); `none`: "No targets specified and no Default() targets found". `climbed`: `target_top` is set (`-u`, `-D` or `-U` given).
`targets` is the local list of `_main`: the targets from `parser.largs`. -/
def topNodes (P : Place) (climb : Climb) (targets : List Str) (L : Lists) : Option (List Nd) :=
  let launch := if climb = .none then none else some P.launch
  let finish (ts : List Item) (ltop ttop : Option (List Str)) : Option (List Nd) := if ts = [] then none else some (ts.filterMap (entry P ltop ttop))
  if targets ≠ [] ∨ L.build ≠ L.plus then finish L.build launch none
  else
    match climb with
    | .none | .D => finish ((if L.called then L.deflt else [.fsn P.top]).map .node) none none
    | .u => finish ((if L.called then L.deflt else [.fsn P.top]).map .node) launch launch
    | .U =>
      let d := L.deflt.filter fun x => match P.cwd x with
        | some c => c = P.launch
        | none => true
      finish (d.map .node) none none

/-- What is built for a command line and a run of the scripts. -/
def chosen (P : Place) (climb : Climb) (largs rargs : List Str) (evs : List Ev) : Option (List Nd) :=
  topNodes P climb (cmdTargets largs) (afterScripts largs rargs evs)

/-- The loop that looks for the SConstruct directory (`Main.py:985-997`): `has d`: directory `d` has an SConstruct file; the result is `script_dir` and `target_top`
(without the final `.`).  `os.path.split` of the root gives an empty last part. -/
def climbUp (has : List Str → Bool) (dir : List Str) (ttop : List Str) : Option (List Str) × List Str :=
  if has dir then (some dir, ttop)
  else
    match dir with
    | [] => (none, ttop)
    | a :: l => climbUp has (a :: l).dropLast ((a :: l).getLast (by simp) :: ttop)
termination_by dir.length
decreasing_by simp

/-! ## Specification -/

/-- The arguments of all `Default()` calls, in order. -/
def defaultArgs : List Ev → List DArg
  | [] => []
  | .dflt args :: r => args ++ defaultArgs r
  | .edit _ :: r => defaultArgs r

/-- What the arguments of `Default()` add up to: the arguments after the last `None`, in order. -/
inductive AddsUpTo : List DArg → List Nd → Prop
  | all (post : List (List Nd)) : AddsUpTo (post.map .nodes) post.flatten
  | since (pre : List DArg) (post : List (List Nd)) : AddsUpTo (pre ++ .none :: post.map .nodes) post.flatten

/-- The script leaves BUILD_TARGETS alone. -/
def Handsoff (evs : List Ev) : Prop := ∀ e ∈ evs, ∃ args, e = .dflt args

/-- The node a target on the command line stands for: the alias of that name, or else the file of that name seen from `dir`. -/
def Names (P : Place) (dir : List Str) (s : Str) (n : Nd) : Prop :=
  (∃ a, P.aliasOf s = some a ∧ n = .virt a) ∨ (P.aliasOf s = none ∧ n = .fsn (resolve P.top dir s))

/-! ## Lemmas -/

theorem isUnderPath_iff (dir : List Str) : ∀ path, isUnderPath dir path = true ↔ dir <+: path := by
  intro path
  induction path using List.reverseRecOn with
  | nil =>
    rw [isUnderPath.eq_def]
    by_cases h : [] = dir
    · simp [← h]
    · simp only [h, if_false]
      simp only [Bool.false_eq_true, List.prefix_nil, false_iff]
      exact fun e => h e.symm
  | append_singleton l a ih =>
    rw [isUnderPath.eq_def]
    rw [List.prefix_concat_iff]
    by_cases h : l ++ [a] = dir
    · simp [h]
    · simp only [h, if_false]
      have h' : ¬ dir = l ++ [a] := fun e => h e.symm
      simp only [h', false_or]
      rw [← ih]
      cases h1 : l ++ [a] with
      | nil => simp at h1
      | cons b m =>
        have h2 : isUnderPath dir (b :: m).dropLast = isUnderPath dir l := by rw [← h1, List.dropLast_concat]
        simp only [h2]

theorem default1_spec (L : Lists) (a : DArg) : (L.default1 a).cmd = L.cmd ∧ (L.default1 a).frozen = L.frozen ∧ (L.default1 a).called = L.called ∧
    (L.frozen = true → (L.default1 a).build = L.build ∧ (L.default1 a).plus = L.plus) ∧
    (L.build = L.plus → (L.default1 a).build = (L.default1 a).plus) := by
  cases a <;> refine ⟨rfl, rfl, rfl, fun h => ?_, fun h => ?_⟩ <;> simp [Lists.default1, h]

theorem foldl_default1 (args : List DArg) : ∀ L : Lists, (args.foldl Lists.default1 L).cmd = L.cmd ∧ (args.foldl Lists.default1 L).frozen = L.frozen ∧
    (args.foldl Lists.default1 L).called = L.called ∧
    (L.frozen = true → (args.foldl Lists.default1 L).build = L.build ∧ (args.foldl Lists.default1 L).plus = L.plus) ∧
    (L.build = L.plus → (args.foldl Lists.default1 L).build = (args.foldl Lists.default1 L).plus) := by
  induction args with
  | nil => intro L; exact ⟨rfl, rfl, rfl, fun _ => ⟨rfl, rfl⟩, fun h => h⟩
  | cons a r ih =>
    intro L
    obtain ⟨a1, a2, a3, a4, a5⟩ := default1_spec L a
    obtain ⟨b1, b2, b3, b4, b5⟩ := ih (L.default1 a)
    rw [List.foldl_cons]
    exact ⟨b1.trans a1, b2.trans a2, b3.trans a3, fun h => ⟨(b4 (a2.trans h)).1.trans (a4 h).1, (b4 (a2.trans h)).2.trans (a4 h).2⟩, fun h => b5 (a5 h)⟩

theorem foldl_deflt (args : List DArg) : ∀ L M : Lists, L.deflt = M.deflt → (args.foldl Lists.default1 L).deflt = (args.foldl Lists.default1 M).deflt := by
  induction args with
  | nil => intro L M h; exact h
  | cons a r ih =>
    intro L M h
    rw [List.foldl_cons, List.foldl_cons]
    refine ih _ _ ?_
    cases a <;> simp [Lists.default1, h]

theorem ev_deflt (evs : List Ev) : ∀ L : Lists, (evs.foldl Lists.ev L).deflt = ((defaultArgs evs).foldl Lists.default1 L).deflt := by
  induction evs with
  | nil => intro L; rfl
  | cons e r ih =>
    intro L
    rw [List.foldl_cons, ih]
    cases e with
    | dflt args =>
      simp only [Lists.ev, defaultArgs, List.foldl_append, Lists.default]
      exact foldl_deflt _ _ _ (foldl_deflt _ _ _ rfl)
    | edit f => exact foldl_deflt _ _ _ rfl

theorem foldl_nodes (post : List (List Nd)) : ∀ L : Lists, ((post.map DArg.nodes).foldl Lists.default1 L).deflt = L.deflt ++ post.flatten := by
  induction post with
  | nil => intro L; simp
  | cons a r ih => intro L; simp [ih, Lists.default1, List.append_assoc]

theorem addsUpTo_deflt {args : List DArg} {l : List Nd} (h : AddsUpTo args l) {L : Lists} (h0 : L.deflt = []) : (args.foldl Lists.default1 L).deflt = l := by
  cases h with
  | all post => rw [foldl_nodes, h0, List.nil_append]
  | since pre post =>
    rw [List.foldl_append, List.foldl_cons, foldl_nodes]
    simp [Lists.default1]

/-- What the script adds to the lists without touching BUILD_TARGETS. -/
theorem evs_spec (evs : List Ev) : ∀ L : Lists, (evs.foldl Lists.ev L).frozen = L.frozen ∧ (evs.foldl Lists.ev L).cmd = L.cmd ∧
    ((evs.foldl Lists.ev L).called = true ↔ L.called = true ∨ ∃ args, Ev.dflt args ∈ evs) ∧
    (L.frozen = true → (evs.foldl Lists.ev L).plus = L.plus) ∧
    (Handsoff evs → (L.frozen = true → (evs.foldl Lists.ev L).build = L.build) ∧ (L.build = L.plus → (evs.foldl Lists.ev L).build = (evs.foldl Lists.ev L).plus)) := by
  induction evs with
  | nil => intro L; simp
  | cons e r ih =>
    intro L
    rw [List.foldl_cons]
    obtain ⟨i1, i2, i3, i4, i5⟩ := ih (L.ev e)
    cases e with
    | dflt args =>
      obtain ⟨a1, a2, a3, a4, a5⟩ := foldl_default1 args { L with called := true }
      refine ⟨i1.trans a2, i2.trans a1, ?_, fun h => (i4 (a2.trans h)).trans (a4 h).2, fun hh => ?_⟩
      · rw [i3]
        have : (L.ev (.dflt args)).called = true := a3
        simp [this]
      · obtain ⟨j1, j2⟩ := i5 fun e he => hh e (List.mem_cons_of_mem _ he)
        exact ⟨fun h => (j1 (a2.trans h)).trans (a4 h).1, fun h => j2 (a5 h)⟩
    | edit f =>
      refine ⟨i1, i2, ?_, i4, fun hh => ?_⟩
      · rw [i3]; simp [Lists.ev]
      · obtain ⟨args, h⟩ := hh _ List.mem_cons_self; cases h

theorem entry_name (P : Place) (ltop : Option (List Str)) (s : Str) : ∃ n, entry P ltop none (.str s) = some n ∧ Names P (ltop.getD P.top) s n := by
  unfold entry Names
  cases h : P.aliasOf s with
  | some a => exact ⟨.virt a, by simp only [h], .inl ⟨a, rfl, rfl⟩⟩
  | none => exact ⟨_, by simp only [h], .inr ⟨rfl, rfl⟩⟩

theorem filterMap_names (P : Place) (ltop : Option (List Str)) (ts : List Str) :
    ∃ ns, (ts.map Item.str).filterMap (entry P ltop none) = ns ∧ List.Forall₂ (Names P (ltop.getD P.top)) ts ns := by
  induction ts with
  | nil => exact ⟨[], rfl, .nil⟩
  | cons s r ih =>
    obtain ⟨ns, h1, h2⟩ := ih
    obtain ⟨n, g1, g2⟩ := entry_name P ltop s
    refine ⟨n :: ns, ?_, .cons g2 h2⟩
    rw [List.map_cons, List.filterMap_cons, g1, h1]

theorem filterMap_nodes (P : Place) (ltop : Option (List Str)) (l : List Nd) : (l.map Item.node).filterMap (entry P ltop none) = l := by
  induction l with
  | nil => rfl
  | cons a r ih => rw [List.map_cons, List.filterMap_cons, ih]; rfl

theorem after_frozen (largs rargs : List Str) (evs : List Ev) :
    (afterScripts largs rargs evs).frozen = decide (cmdTargets largs ++ rargs ≠ []) := by
  unfold afterScripts
  rw [(evs_spec evs _).1]
  unfold Lists.addTargets
  split <;> simp_all

theorem after_deflt {largs rargs : List Str} {evs : List Ev} {l : List Nd} (h : AddsUpTo (defaultArgs evs) l) : (afterScripts largs rargs evs).deflt = l := by
  unfold afterScripts
  rw [ev_deflt]
  refine addsUpTo_deflt h ?_
  unfold Lists.addTargets
  split <;> rfl

theorem after_called (largs rargs : List Str) (evs : List Ev) : (afterScripts largs rargs evs).called = true ↔ ∃ args, Ev.dflt args ∈ evs := by
  unfold afterScripts
  rw [(evs_spec evs _).2.2.1]
  have : (({} : Lists).addTargets (cmdTargets largs ++ rargs)).called = false := by unfold Lists.addTargets; split <;> rfl
  rw [this]; simp

theorem after_equal {largs rargs : List Str} {evs : List Ev} (h : Handsoff evs) : (afterScripts largs rargs evs).build = (afterScripts largs rargs evs).plus := by
  unfold afterScripts
  refine ((evs_spec evs _).2.2.2.2 h).2 ?_
  unfold Lists.addTargets
  split <;> rfl

/-- The arguments of `Default()` always add up to something. -/
theorem addsUpTo_total (args : List DArg) : ∃ l, AddsUpTo args l := by
  induction args with
  | nil => exact ⟨_, .all []⟩
  | cons a r ih =>
    obtain ⟨l, h⟩ := ih
    cases h with
    | all post =>
      cases a with
      | none => exact ⟨_, .since [] post⟩
      | nodes x => exact ⟨_, .all (x :: post)⟩
    | since pre post => exact ⟨_, .since (a :: pre) post⟩

/-! ## C64 -/

/-- **C64, targets on the command line.**  If there are targets on the command line before a `--` and the scripts leave BUILD_TARGETS alone, then exactly the targets of the command line are built, in their order:
each is the alias of that name or else the file of that name seen from the launch directory (with `-u`, `-D`, `-U`) or the top-level directory — whatever `Default()` calls there are. -/
theorem C64_command_line_targets (P : Place) (climb : Climb) {largs rargs : List Str} {evs : List Ev} (h : Handsoff evs) (ht : cmdTargets largs ≠ []) :
    ∃ ns, chosen P climb largs rargs evs = some ns ∧
      List.Forall₂ (Names P (if climb = .none then P.top else P.launch)) (cmdTargets largs ++ rargs) ns := by
  have hb : (afterScripts largs rargs evs).build = (cmdTargets largs ++ rargs).map .str := by
    unfold afterScripts
    have hne : cmdTargets largs ++ rargs ≠ [] := by simp [ht]
    rw [((evs_spec evs _).2.2.2.2 h).1 (by simp only [Lists.addTargets, if_neg hne])]
    simp only [Lists.addTargets, if_neg hne, List.nil_append]
  unfold chosen topNodes
  simp only [ht, ne_eq, not_false_eq_true, true_or, if_true, hb]
  rw [if_neg (by simp [ht])]
  obtain ⟨ns, h1, h2⟩ := filterMap_names P (if climb = .none then none else some P.launch) (cmdTargets largs ++ rargs)
  refine ⟨ns, by rw [h1], ?_⟩
  split at h2 <;> rename_i hc
  · rw [if_pos hc]; exact h2
  · rw [if_neg hc]; exact h2

/-- **C64, which words are targets**: those that do not begin with `-`, have no `=`, and are not empty (or a pair of quotes), in their order. -/
theorem C64_target_words (largs : List Str) :
    (cmdTargets largs).Sublist largs ∧ (∀ a ∈ largs, a ∈ cmdTargets largs ↔ a.head? ≠ some '-' ∧ '=' ∉ a ∧ a ≠ [] ∧ a ≠ "''".toList ∧ a ≠ "\"\"".toList) ∧
    ∀ a ∈ cmdTargets largs, (cmdTargets largs).count a = largs.count a := by
  refine ⟨List.filter_sublist, fun a ha => ?_, fun a ha => List.count_filter (List.mem_filter.1 ha).2⟩
  unfold cmdTargets
  rw [List.mem_filter]
  simp only [ha, true_and, Bool.and_eq_true, Bool.not_eq_true', decide_eq_false_iff_not, List.mem_cons, List.not_mem_nil, or_false, not_or]
  tauto

/-- COMMAND_LINE_TARGETS is the targets of the command line, whatever the scripts do. -/
theorem C64_command_line_list (largs rargs : List Str) (evs : List Ev) : (afterScripts largs rargs evs).cmd = cmdTargets largs ++ rargs := by
  unfold afterScripts
  rw [(evs_spec evs _).2.1]
  unfold Lists.addTargets
  split
  · rename_i h; rw [h]
  · rfl

/-- DEFAULT_TARGETS is what the arguments of all `Default()` calls add up to: those after the last `None`, whatever is on the command line and whatever the scripts do to BUILD_TARGETS. -/
theorem C64_default_list {largs rargs : List Str} {evs : List Ev} {l : List Nd} (h : AddsUpTo (defaultArgs evs) l) : (afterScripts largs rargs evs).deflt = l :=
  after_deflt h

/-- **C64, default targets.**  Without targets on the command line (also none after `--`), and with BUILD_TARGETS left alone, in the top-level directory or with `-D`: what the arguments of
`Default()` add up to is built; if there are no such arguments left nothing is built and an error is reported; if `Default()` is never called the top-level directory is built. -/
theorem C64_default_targets (P : Place) {climb : Climb} (hc : climb = .none ∨ climb = .D) {largs : List Str} {evs : List Ev} (h : Handsoff evs) (ht : cmdTargets largs = []) {l : List Nd}
    (hl : AddsUpTo (defaultArgs evs) l) :
    chosen P climb largs [] evs = if evs = [] then some [.fsn P.top] else if l = [] then none else some l := by
  have hcall : (afterScripts largs [] evs).called = decide (evs ≠ []) := by
    have := after_called largs [] evs
    cases evs with
    | nil => simp at this ⊢; exact this
    | cons e r =>
      obtain ⟨args, rfl⟩ := h e List.mem_cons_self
      simp only [ne_eq, reduceCtorEq, not_false_eq_true, decide_true]
      exact this.2 ⟨args, List.mem_cons_self⟩
  have key : topNodes P climb [] (afterScripts largs [] evs) =
      (fun ts : List Item => if ts = [] then none else some (ts.filterMap (entry P none none)))
        ((if (afterScripts largs [] evs).called then (afterScripts largs [] evs).deflt else [.fsn P.top]).map .node) := by
    unfold topNodes
    rw [if_neg (by simp [after_equal h])]
    rcases hc with rfl | rfl <;> rfl
  unfold chosen
  rw [ht, key, hcall, after_deflt hl]
  simp only [filterMap_nodes]
  by_cases he : evs = []
  · simp [he]
  · by_cases hl0 : l = [] <;> simp [he, hl0]

/-- **C64, BUILD_TARGETS changed by a script.**  If at the end BUILD_TARGETS is not what the command line and `Default()` made it, it is what is built, with strings seen from the launch directory. -/
theorem C64_edited_build_targets (P : Place) (climb : Climb) {largs rargs : List Str} {evs : List Ev} (h : (afterScripts largs rargs evs).build ≠ (afterScripts largs rargs evs).plus) :
    (chosen P climb largs rargs evs = none ↔ (afterScripts largs rargs evs).build = []) ∧
    ∀ ns, chosen P climb largs rargs evs = some ns →
      List.Forall₂ (fun i n => match i with
        | .node m => n = m
        | .str s => Names P (if climb = .none then P.top else P.launch) s n) (afterScripts largs rargs evs).build ns := by
  unfold chosen topNodes
  simp only [h, ne_eq, not_false_eq_true, or_true, if_true]
  refine ⟨by split <;> simp_all, fun ns hns => ?_⟩
  split at hns
  · cases hns
  simp only [Option.some.injEq] at hns
  subst hns
  clear h
  induction (afterScripts largs rargs evs).build with
  | nil => exact .nil
  | cons i r ih =>
    cases i with
    | node m =>
      have : entry P (if climb = .none then none else some P.launch) none (.node m) = some m := rfl
      rw [List.filterMap_cons, this]
      exact .cons rfl ih
    | str s =>
      obtain ⟨n, h1, h2⟩ := entry_name P (if climb = .none then none else some P.launch) s
      rw [List.filterMap_cons, h1]
      refine .cons ?_ ih
      split at h2 <;> rename_i hc
      · simp only [hc, if_true]; exact h2
      · simp only [hc, if_false]; exact h2

/-- **C64, `-u`.**  What `-u` makes of a list of default targets: targets that are not files, and those under the launch directory, are kept; a directory above the launch directory is replaced by it; others are
dropped.  The order is kept. -/
inductive Below (launch : List Str) (isDir : List Str → Bool) : List Nd → List Nd → Prop
  | nil : Below launch isDir [] []
  | virt (a) {l l'} : Below launch isDir l l' → Below launch isDir (.virt a :: l) (.virt a :: l')
  | under (p) {l l'} : launch <+: p → Below launch isDir l l' → Below launch isDir (.fsn p :: l) (.fsn p :: l')
  | above (p) {l l'} : ¬ launch <+: p → isDir p = true → p <+: launch → Below launch isDir l l' → Below launch isDir (.fsn p :: l) (.fsn launch :: l')
  | aside (p) {l l'} : ¬ launch <+: p → (isDir p = true → ¬ p <+: launch) → Below launch isDir l l' → Below launch isDir (.fsn p :: l) l'

theorem filterMap_below (P : Place) (t : List Str) (l : List Nd) : Below t P.isDir l ((l.map Item.node).filterMap (entry P (some t) (some t))) := by
  induction l with
  | nil => exact .nil
  | cons a r ih =>
    rw [List.map_cons, List.filterMap_cons]
    cases a with
    | virt a => exact .virt a ih
    | fsn p =>
      by_cases h : t <+: p
      · have : entry P (some t) (some t) (.node (.fsn p)) = some (.fsn p) := by
          simp only [entry, Nd.isUnder, (isUnderPath_iff t p).2 h, if_true]
        rw [this]; exact .under p h ih
      · have h' : isUnderPath t p = false := by rw [Bool.eq_false_iff]; exact fun e => h ((isUnderPath_iff t p).1 e)
        by_cases hd : P.isDir p = true ∧ p <+: t
        · have : entry P (some t) (some t) (.node (.fsn p)) = some (.fsn t) := by
            simp [entry, Nd.isUnder, h', hd.1, (isUnderPath_iff p t).2 hd.2]
          rw [this]; exact .above p h hd.1 hd.2 ih
        · have : entry P (some t) (some t) (.node (.fsn p)) = none := by
            simp only [entry, Nd.isUnder, h', Bool.false_eq_true, if_false, Bool.and_eq_true, isUnderPath_iff, hd]
          rw [this]; exact .aside p h (fun h1 h2 => hd ⟨h1, h2⟩) ih

/-- **C64, `-u`.** -/
theorem C64_dash_u (P : Place) {largs : List Str} {evs : List Ev} (h : Handsoff evs) (ht : cmdTargets largs = []) {l : List Nd} (hl : AddsUpTo (defaultArgs evs) l) :
    let ds := if evs = [] then [.fsn P.top] else l
    (ds = [] → chosen P .u largs [] evs = none) ∧
    (ds ≠ [] → ∃ ns, chosen P .u largs [] evs = some ns ∧ Below P.launch P.isDir ds ns) := by
  have hcall : (afterScripts largs [] evs).called = decide (evs ≠ []) := by
    have := after_called largs [] evs
    cases evs with
    | nil => simp at this ⊢; exact this
    | cons e r =>
      obtain ⟨args, rfl⟩ := h e List.mem_cons_self
      simp only [ne_eq, reduceCtorEq, not_false_eq_true, decide_true]
      exact this.2 ⟨args, List.mem_cons_self⟩
  have key : topNodes P .u [] (afterScripts largs [] evs) =
      (fun ts : List Item => if ts = [] then none else some (ts.filterMap (entry P (some P.launch) (some P.launch))))
        ((if (afterScripts largs [] evs).called then (afterScripts largs [] evs).deflt else [.fsn P.top]).map .node) := by
    unfold topNodes
    rw [if_neg (by simp [after_equal h])]
    rfl
  have hds : (if (afterScripts largs [] evs).called then (afterScripts largs [] evs).deflt else [.fsn P.top]) = if evs = [] then [.fsn P.top] else l := by
    rw [hcall, after_deflt hl]
    by_cases he : evs = [] <;> simp [he]
  intro ds
  unfold chosen
  rw [ht, key, hds]
  refine ⟨fun e => ?_, fun e => ⟨_, ?_, filterMap_below P P.launch ds⟩⟩
  · show (if ds.map Item.node = [] then _ else _) = _
    rw [e]; rfl
  · show (if ds.map Item.node = [] then _ else _) = _
    rw [if_neg (by simpa using e)]

/-- **C64, `-U`.**  Those default targets are built, in their order, that were defined in the SConscript file of the launch directory (or have no such directory); if there are none, an error is reported, also if `Default()` was never called. -/
theorem C64_dash_U (P : Place) {largs : List Str} {evs : List Ev} (h : Handsoff evs) (ht : cmdTargets largs = []) {l : List Nd} (hl : AddsUpTo (defaultArgs evs) l)
    {ns : List Nd} (hns : ns = l.filter fun n => P.cwd n = none ∨ P.cwd n = some P.launch) :
    chosen P .U largs [] evs = if ns = [] then none else some ns := by
  have hf : (l.filter fun x => match P.cwd x with
        | some c => decide (c = P.launch)
        | none => true) = ns := by
    rw [hns]
    refine List.filter_congr fun x _ => ?_
    cases P.cwd x <;> simp
  have key : topNodes P .U [] (afterScripts largs [] evs) =
      (fun ts : List Item => if ts = [] then none else some (ts.filterMap (entry P none none)))
        (((afterScripts largs [] evs).deflt.filter fun x => match P.cwd x with
        | some c => decide (c = P.launch)
        | none => true).map .node) := by
    unfold topNodes
    rw [if_neg (by simp [after_equal h])]
  unfold chosen
  rw [ht, key, after_deflt hl, hf]
  simp only [filterMap_nodes, List.map_eq_nil_iff]

/-- **C64, the SConstruct directory.**  Climbing finds the nearest directory at or above the launch directory that has an SConstruct file, and the way back down from it to the launch directory. -/
theorem C64_climbs_to_nearest (has : List Str → Bool) (dir : List Str) {d t : List Str} (h : climbUp has dir [] = (some d, t)) :
    d ++ t = dir ∧ has d = true ∧ ∀ d', d <+: d' → d' <+: dir → d' ≠ d → has d' = false := by
  suffices H : ∀ (n : Nat) (dir tt : List Str), dir.length = n → climbUp has dir tt = (some d, t) → ∃ t', t = t' ++ tt ∧ d ++ t' = dir ∧ has d = true ∧
      ∀ d', d <+: d' → d' <+: dir → d' ≠ d → has d' = false by
    obtain ⟨t', h1, h2, h3⟩ := H _ dir [] rfl h
    rw [List.append_nil] at h1
    exact ⟨by rw [h1, h2], h3⟩
  intro n
  induction n with
  | zero =>
    intro dir tt hn h
    have : dir = [] := List.length_eq_zero_iff.1 hn
    subst this
    rw [climbUp.eq_def] at h
    split at h
    · rename_i hh
      simp only [Prod.mk.injEq, Option.some.injEq] at h
      refine ⟨[], by simp [h.2], by simp [h.1], by rw [← h.1]; exact hh, fun d' h1 h2 h3 => ?_⟩
      simp only [List.prefix_nil] at h2
      exact absurd (h2.trans h.1) h3
    · cases h
  | succ n ih =>
    intro dir tt hn h
    rw [climbUp.eq_def] at h
    split at h
    · rename_i hh
      simp only [Prod.mk.injEq, Option.some.injEq] at h
      refine ⟨[], by simp [h.2], by simp [h.1], by rw [← h.1]; exact hh, fun d' h1 h2 h3 => ?_⟩
      rw [h.1] at h2
      exact absurd (List.Sublist.antisymm h2.sublist h1.sublist) h3
    · rename_i hh
      cases dir with
      | nil => simp at hn
      | cons a l =>
        obtain ⟨t', h1, h2, h3, h4⟩ := ih _ _ (by rw [List.length_dropLast, hn]; rfl) h
        refine ⟨t' ++ [(a :: l).getLast (by simp)], by simp [h1], ?_, h3, fun d' g1 g2 g3 => ?_⟩
        · rw [← List.append_assoc, h2, List.dropLast_concat_getLast]
        · rw [← List.dropLast_concat_getLast (l := a :: l) (by simp), List.prefix_concat_iff, List.dropLast_concat_getLast] at g2
          rcases g2 with rfl | g2
          · simpa using hh
          · exact h4 d' g1 g2 g3

/-- If climbing finds nothing, no directory at or above the launch directory has an SConstruct file. -/
theorem C64_climbs_in_vain (has : List Str → Bool) (dir : List Str) : (climbUp has dir []).1 = none ↔ ∀ d, d <+: dir → has d = false := by
  suffices H : ∀ (n : Nat) (dir tt : List Str), dir.length = n → ((climbUp has dir tt).1 = none ↔ ∀ d, d <+: dir → has d = false) from H _ dir [] rfl
  intro n
  induction n with
  | zero =>
    intro dir tt hn
    have : dir = [] := List.length_eq_zero_iff.1 hn
    subst this
    rw [climbUp.eq_def]
    by_cases hh : has [] = true <;> simp [hh]
  | succ n ih =>
    intro dir tt hn
    rw [climbUp.eq_def]
    cases dir with
    | nil => simp at hn
    | cons a l =>
      by_cases hh : has (a :: l) = true
      · simp only [hh, if_true, reduceCtorEq, false_iff]
        intro h; rw [h _ (List.prefix_refl _)] at hh; cases hh
      · simp only [hh, Bool.false_eq_true, if_false]
        rw [ih _ _ (by rw [List.length_dropLast, hn]; rfl)]
        refine ⟨fun h d hd => ?_, fun h d hd => h d (hd.trans (List.dropLast_prefix _))⟩
        rw [← List.dropLast_concat_getLast (l := a :: l) (by simp), List.prefix_concat_iff, List.dropLast_concat_getLast] at hd
        rcases hd with rfl | hd
        · simpa using hh
        · exact h d hd

/-- `target_top` as a string (`Main.py:987`, `:995`). -/
def targetTop (t : List Str) : Str := t.foldr (fun a s => a ++ '/' :: s) ['.']

theorem targetTop_split (t : List Str) (h : ∀ c ∈ t, '/' ∉ c) : (targetTop t).splitOn '/' = t ++ [['.']] := by
  induction t with
  | nil => rfl
  | cons a r ih =>
    have e : targetTop (a :: r) = a ++ '/' :: targetTop r := rfl
    rw [e, List.splitOn_append_cons_self_of_not_mem (h a List.mem_cons_self), ih fun c hc => h c (List.mem_cons_of_mem _ hc)]
    rfl

/-- **C64, the launch directory.**  In the SConstruct directory `d` that climbing has found, `fs.Dir(target_top)` is the launch directory — unless the first name on the way down begins with `#`. -/
theorem C64_launch_directory_partial {has : List Str → Bool} {dir d t : List Str} (hg : ∀ c ∈ dir, GoodName c) (h : climbUp has dir [] = (some d, t)) (hh : (targetTop t).head? ≠ some '#') :
    resolve d d (targetTop t) = dir := by
  obtain ⟨h1, -, -⟩ := C64_climbs_to_nearest has dir h
  have ht : ∀ c ∈ t, GoodName c := fun c hc => hg c (h1 ▸ List.mem_append_right _ hc)
  have hs : (targetTop t).head? ≠ some '/' := by
    cases t with
    | nil => simp [targetTop]
    | cons a r =>
      have := ht a List.mem_cons_self
      cases a with
      | nil => exact absurd rfl this.1
      | cons x y =>
        intro e
        have e' : x = '/' := by simpa [targetTop] using e
        exact this.2.2.2 (by simp [e'])
  have e : resolve d d (targetTop t) = walk d ((targetTop t).splitOn '/') := by
    unfold resolve
    split
    · rename_i h2; rw [h2] at hh; simp at hh
    · rename_i h2; rw [h2] at hs; simp at hs
    · rfl
  rw [e, targetTop_split t fun c hc => (ht c hc).2.2.2, walk_append, walk_good t d ht, ← h1]
  simp [walk]

/-! ## Witnesses and counterexamples -/

def exPlace : Place where
  top := ["p".toList]
  launch := ["p".toList, "sub".toList]
  isDir := fun p => p = ["p".toList]
  aliasOf := fun s => if s = "all".toList then some 7 else none
  cwd := fun n => if n = .fsn ["p".toList, "sub".toList, "x".toList] then some ["p".toList, "sub".toList] else some ["p".toList]

def exEvs : List Ev := [.dflt [.nodes [.fsn ["p".toList, "old".toList]], .none], .dflt [.nodes [.fsn ["p".toList, "sub".toList, "x".toList], .fsn ["p".toList, "y".toList]], .nodes [.virt 7]]]

theorem exEvs_handsoff : Handsoff exEvs := by
  intro e he
  simp only [exEvs, List.mem_cons, List.not_mem_nil, or_false] at he
  rcases he with rfl | rfl <;> exact ⟨_, rfl⟩

theorem exEvs_adds : AddsUpTo (defaultArgs exEvs) [.fsn ["p".toList, "sub".toList, "x".toList], .fsn ["p".toList, "y".toList], .virt 7] :=
  .since [.nodes [.fsn ["p".toList, "old".toList]]] [[.fsn ["p".toList, "sub".toList, "x".toList], .fsn ["p".toList, "y".toList]], [.virt 7]]

theorem C64_nonvacuous :
    Handsoff exEvs ∧ AddsUpTo (defaultArgs exEvs) [.fsn ["p".toList, "sub".toList, "x".toList], .fsn ["p".toList, "y".toList], .virt 7] ∧
    chosen exPlace .none [] [] exEvs = some [.fsn ["p".toList, "sub".toList, "x".toList], .fsn ["p".toList, "y".toList], .virt 7] ∧
    chosen exPlace .u [] [] exEvs = some [.fsn ["p".toList, "sub".toList, "x".toList], .virt 7] ∧
    chosen exPlace .U [] [] exEvs = some [.fsn ["p".toList, "sub".toList, "x".toList]] ∧
    chosen exPlace .u [] [] [] = some [.fsn ["p".toList, "sub".toList]] ∧
    chosen exPlace .u ["-k".toList, "all".toList, "A=1".toList, "../z".toList] [] exEvs = some [.virt 7, .fsn ["p".toList, "z".toList]] := by
  refine ⟨exEvs_handsoff, exEvs_adds, ?_, ?_, ?_, ?_, ?_⟩ <;> decide +kernel

/-- **C64 fails for targets after `--`**: `scons -- x` does not build `x`; it builds the default targets (`_main` passes `targets`, without `parser.rargs`, to `_build_targets`). -/
theorem C64_counterexample_dashes : ∃ (P : Place) (evs : List Ev), Handsoff evs ∧ (afterScripts [] ["x".toList] evs).cmd = ["x".toList] ∧
    chosen P .none [] ["x".toList] evs = some [.fsn ["p".toList, "y".toList]] :=
  ⟨exPlace, [.dflt [.nodes [.fsn ["p".toList, "y".toList]]]], by intro e he; simp at he; exact ⟨_, he⟩, by decide +kernel, by decide +kernel⟩

/-- A script that empties BUILD_TARGETS where `Default()` has not been called has no effect: the top-level directory is built. -/
theorem C64_counterexample_emptied : ∃ (P : Place), (afterScripts [] [] [.edit fun _ => []]).build = [] ∧ chosen P .none [] [] [.edit fun _ => []] = some [.fsn P.top] :=
  ⟨exPlace, by decide +kernel, by decide +kernel⟩

/-- A launch directory whose name begins with `#` is mistaken for another one. -/
theorem C64_counterexample_hash : ∃ (has : List Str → Bool) (dir d t : List Str), (∀ c ∈ dir, GoodName c) ∧ climbUp has dir [] = (some d, t) ∧ resolve d d (targetTop t) ≠ dir := by
  refine ⟨fun d => d = ["p".toList], ["p".toList, "#s".toList], ["p".toList], ["#s".toList], ?_, by decide +kernel, by decide +kernel⟩
  intro c hc
  simp only [List.mem_cons, List.not_mem_nil, or_false] at hc
  rcases hc with rfl | rfl <;> exact ⟨by decide, by decide, by decide, by decide⟩

end Verif.Script
