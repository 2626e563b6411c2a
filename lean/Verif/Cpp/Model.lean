/-
The C preprocessor of SCons: /repo/SCons/cpp.py, class PreProcessor, and its
subclass DumbPreProcessor. (Used by SCons/Scanner/C.py: CConditionalScanner.)

Modelled: the dispatch tables, their stack, conditional directives, the insertion
of the lines of included files, include-once. Parameters (`World`): the macro
name space `N` with the effect of `#define`/`#undef`, the evaluation of
conditions, how an `#include` line is resolved to a file, and the directive lines
of each file (`tupleize`, cpp.py:332-357, is not modelled).
The limit on the nesting of includes (`depth`, cpp.py:589-596) is -1 (the default).
-/
namespace Verif.Cpp

/-- A directive line (cpp.py:40-66). `op` stands for `#define`, `#undef`, `#import`;
`inc` for `#include` and `#include_next`; `cur` for the internal tuple
`scons_current_file` (cpp.py:598-600). `#ifdef` and `#ifndef` are `ifc` with the
corresponding condition. -/
inductive Line (F C O I : Type) where
  | ifc (c : C)
  | elif (c : C)
  | els
  | endif
  | op (o : O)
  | inc (i : I)
  | cur (f : F)

/-- What is behind the directives. `evalC`: `eval_expression` and the tests of
`do_ifdef`, `do_ifndef` (cpp.py:408-420, 501-517), `none` if an exception escapes
(only NameError, TypeError and SyntaxError are caught). `exec`: `do_define`,
`do_undef` (cpp.py:541-567). `find`: `resolve_include` and `find_include_file`
(cpp.py:428-440, 624-656; Scanner/C.py, find_include_file); it may change the state
(`_known_paths`). -/
structure World (N F C O I : Type) where
  evalC : C → N → Option Bool
  exec : O → N → N
  find : I → F → N → Option F × N
  read : F → List (Line F C O I)

/-- A dispatch table (cpp.py:287-290). `live`: the entries `import`, `include`,
`include_next`, `define`, `undef` are the active ones (they are always set
together, cpp.py:459-463, 474-479); `elifStop`: the entry `elif` is
`stop_handling_includes` rather than `do_elif`. -/
inductive ElseH where
  | pass | start | stop
  deriving DecidableEq, Repr

structure Table where
  live : Bool
  elifStop : Bool
  els : ElseH
  deriving DecidableEq, Repr

/-- `self.default_table` (cpp.py:287-290). -/
def Table.default : Table := { live := true, elifStop := false, els := .pass }

/-- The observable part of the state: macros, file being read, files found
(`self.result`, the first is the file scanned). -/
structure Obs (N F : Type) where
  ns : N
  cur : F
  result : List F
  deriving DecidableEq

/-- The whole state (cpp.py:317-323). -/
structure St (N F C O I : Type) where
  stack : List Table
  tbl : Table
  obs : Obs N F
  tuples : List (Line F C O I)

variable {N F C O I : Type}

/-- `p['include']` for `p = self.stack[-1] if self.stack else self.default_table`
(cpp.py:460). -/
def parentLive (stack : List Table) : Bool :=
  match stack with
  | t :: _ => t.live
  | [] => true

/-- One iteration of the loop in `_process_tuples` (cpp.py:324-329); `none` if an
exception is raised. -/
def step [DecidableEq F] (W : World N F C O I) (st : St N F C O I) : Option (St N F C O I) :=
  match st.tuples with
  | [] => some st
  | .ifc c :: r =>
    -- _do_if_else_condition, cpp.py:485-499
    match W.evalC c st.obs.ns with
    | none => none
    | some true => some { st with
        stack := st.tbl :: st.stack, tbl := { live := st.tbl.live, elifStop := true, els := .stop }, tuples := r }
    | some false => some { st with
        stack := st.tbl :: st.stack, tbl := { live := false, elifStop := false, els := .start }, tuples := r }
  | .elif c :: r =>
    if st.tbl.elifStop then some { st with tbl := { st.tbl with live := false }, tuples := r }
    else
      -- do_elif, cpp.py:519-527
      match W.evalC c st.obs.ns with
      | none => none
      | some true => some { st with
          tbl := { live := parentLive st.stack, elifStop := true, els := .stop }, tuples := r }
      | some false => some { st with tuples := r }
  | .els :: r =>
    match st.tbl.els with
    | .pass => some { st with tuples := r }
    | .start => some { st with tbl := { st.tbl with live := parentLive st.stack }, tuples := r }
    | .stop => some { st with tbl := { st.tbl with live := false }, tuples := r }
  | .endif :: r =>
    -- restore, cpp.py:369-375, 535-539
    match st.stack with
    | t :: s => some { st with stack := s, tbl := t, tuples := r }
    | [] => some { st with tuples := r }
  | .op o :: r =>
    if st.tbl.live then some { st with obs := { st.obs with ns := W.exec o st.obs.ns }, tuples := r }
    else some { st with tuples := r }
  | .inc i :: r =>
    if st.tbl.live then
      -- do_include, cpp.py:576-601
      match W.find i st.obs.cur st.obs.ns with
      | (none, n) => some { st with obs := { st.obs with ns := n }, tuples := r }
      | (some f, n) =>
        if f ∈ st.obs.result then some { st with obs := { st.obs with ns := n }, tuples := r }
        else some { st with
          obs := { st.obs with ns := n, result := st.obs.result ++ [f] },
          tuples := .cur f :: (W.read f ++ .cur st.obs.cur :: r) }
    else some { st with tuples := r }
  | .cur f :: r => some { st with obs := { st.obs with cur := f }, tuples := r }

/-- What scanning gives. -/
inductive Outcome (N F : Type) where
  | running
  | raised
  | done (o : Obs N F)
  deriving DecidableEq

/-- At most `n` iterations of the loop. -/
def run [DecidableEq F] (W : World N F C O I) : Nat → St N F C O I → Outcome N F
  | n, st =>
    if st.tuples.isEmpty then .done st.obs
    else match n with
      | 0 => .running
      | n + 1 =>
        match step W st with
        | none => .raised
        | some st' => run W n st'

/-- `_process_tuples` (cpp.py:317-323): the start state for the file `f`. -/
def start (W : World N F C O I) (n : N) (f : F) : St N F C O I :=
  { stack := [], tbl := .default, obs := { ns := n, cur := f, result := [f] }, tuples := W.read f }

/-- One iteration for `DumbPreProcessor` (cpp.py:664-678): the conditional directives
do nothing, so the table never changes. -/
def dumbStep [DecidableEq F] (W : World N F C O I) (st : St N F C O I) : St N F C O I :=
  match st.tuples with
  | [] => st
  | .ifc _ :: r | .elif _ :: r | .els :: r | .endif :: r => { st with tuples := r }
  | .op o :: r => { st with obs := { st.obs with ns := W.exec o st.obs.ns }, tuples := r }
  | .inc i :: r =>
    match W.find i st.obs.cur st.obs.ns with
    | (none, n) => { st with obs := { st.obs with ns := n }, tuples := r }
    | (some f, n) =>
      if f ∈ st.obs.result then { st with obs := { st.obs with ns := n }, tuples := r }
      else { st with
        obs := { st.obs with ns := n, result := st.obs.result ++ [f] },
        tuples := .cur f :: (W.read f ++ .cur st.obs.cur :: r) }
  | .cur f :: r => { st with obs := { st.obs with cur := f }, tuples := r }

def dumbRun [DecidableEq F] (W : World N F C O I) : Nat → St N F C O I → Outcome N F
  | n, st =>
    if st.tuples.isEmpty then .done st.obs
    else match n with
      | 0 => .running
      | n + 1 => dumbRun W n (dumbStep W st)

/-! ### Specification: structured programs -/

mutual
/-- The lines of a file in which conditionals are properly nested. -/
inductive Prog (C O I : Type) where
  | nil
  | op (o : O) (p : Prog C O I)
  | inc (i : I) (p : Prog C O I)
  | grp (c : C) (b : Prog C O I) (r : Rest C O I) (p : Prog C O I)
/-- What follows the first branch of a conditional. -/
inductive Rest (C O I : Type) where
  | fin
  | elif (c : C) (b : Prog C O I) (r : Rest C O I)
  | els (b : Prog C O I)
end

mutual
def Prog.lines : Prog C O I → List (Line F C O I)
  | .nil => []
  | .op o p => .op o :: p.lines
  | .inc i p => .inc i :: p.lines
  | .grp c b r p => .ifc c :: (b.lines ++ (r.lines ++ p.lines))
def Rest.lines : Rest C O I → List (Line F C O I)
  | .fin => [.endif]
  | .elif c b r => .elif c :: (b.lines ++ r.lines)
  | .els b => .els :: (b.lines ++ [.endif])
end

/-- A piece of a program: lines, or what follows the first branch of a group. -/
inductive Blk (C O I : Type) where
  | prog (p : Prog C O I)
  | rest (r : Rest C O I)

/-- The C standard's rule (ISO C 6.10.1): in a group the conditions are checked in
order, the lines of the first branch whose condition is true are processed, those
of the other branches are skipped. `once`: a file that was already included is
not processed again (this is SCons; the standard has `once = false`). -/
inductive Sem (W : World N F C O I) (prog : F → Prog C O I) (once : Bool) :
    Blk C O I → Obs N F → Obs N F → Prop
  | nil (s) : Sem W prog once (.prog .nil) s s
  | op {o p s s'} (h : Sem W prog once (.prog p) { s with ns := W.exec o s.ns } s') :
      Sem W prog once (.prog (.op o p)) s s'
  | notFound {i p s n s'} (hf : W.find i s.cur s.ns = (none, n))
      (h : Sem W prog once (.prog p) { s with ns := n } s') : Sem W prog once (.prog (.inc i p)) s s'
  | seen {i p s f n s'} (ho : once = true) (hf : W.find i s.cur s.ns = (some f, n)) (hm : f ∈ s.result)
      (h : Sem W prog once (.prog p) { s with ns := n } s') : Sem W prog once (.prog (.inc i p)) s s'
  | inc {i p s f n s1 s'} (hf : W.find i s.cur s.ns = (some f, n)) (hm : once = true → f ∉ s.result)
      (h1 : Sem W prog once (.prog (prog f)) { ns := n, cur := f, result := s.result ++ [f] } s1)
      (h2 : Sem W prog once (.prog p) { s1 with cur := s.cur } s') : Sem W prog once (.prog (.inc i p)) s s'
  | yes {c b r p s s1 s'} (hc : W.evalC c s.ns = some true) (h1 : Sem W prog once (.prog b) s s1)
      (h2 : Sem W prog once (.prog p) s1 s') : Sem W prog once (.prog (.grp c b r p)) s s'
  | no {c b r p s s1 s'} (hc : W.evalC c s.ns = some false) (h1 : Sem W prog once (.rest r) s s1)
      (h2 : Sem W prog once (.prog p) s1 s') : Sem W prog once (.prog (.grp c b r p)) s s'
  | fin (s) : Sem W prog once (.rest .fin) s s
  | elifYes {c b r s s'} (hc : W.evalC c s.ns = some true) (h : Sem W prog once (.prog b) s s') :
      Sem W prog once (.rest (.elif c b r)) s s'
  | elifNo {c b r s s'} (hc : W.evalC c s.ns = some false) (h : Sem W prog once (.rest r) s s') :
      Sem W prog once (.rest (.elif c b r)) s s'
  | els {b s s'} (h : Sem W prog once (.prog b) s s') : Sem W prog once (.rest (.els b)) s s'

end Verif.Cpp
