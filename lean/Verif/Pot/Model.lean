import Mathlib.Data.List.Basic

/-!
# Message templates (C124): the model

Models `_update_pot_file`, `_scan_xgettext_from_files` and `_pot_update_emitter` (SCons/Tool/xgettext.py 86-245).

The three expressions with `re.M` that are replaced by nothing match whole lines with the end of the line, so that `re.sub` is a walk over the text which decides at the beginning of each line.  `.` is every character but `\n`, and `$` is before `\n` or at the
end.

Simplified: texts are decoded; messages and changes of directory are left out (the directory is put back in all cases); a file is a directory and a name in it; the expansion of names given as texts is not modelled.
-/

namespace Verif.Pot

abbrev Str := List Char

inductive Mode where
  | start | keep | skip
  deriving DecidableEq

/-- `re.sub` by nothing of an expression that matches the whole lines with property `p`. -/
def sub (p : Str → Bool) : Mode → Str → Str
  | _, [] => []
  | m, c :: t =>
    let m := if m = .start then (if p ((c :: t).takeWhile (· ≠ '\n')) then .skip else .keep) else m
    (if m = .skip then [] else [c]) ++ sub p (if c = '\n' then .start else m) t

def datePre : Str := "\"POT-Creation-Date: ".toList

/-- `^"POT-Creation-Date: .*"$` (xgettext.py 132). -/
def cdate (l : Str) : Bool := datePre.isPrefixOf l && (l.drop datePre.length).getLast? = some '"'

/-- The end of `_update_pot_file`: status of xgettext, what it printed, the content of the file if it exists; the status of the action and the content of the file afterwards (xgettext.py 113-159). -/
def update (status : Int) (out : Str) (old : Option Str) : Int × Option Str :=
  if status ≠ 0 then (status, old)
  else if out = [] then (0, old)
  else match old with
    | some o => if sub cdate .start o = sub cdate .start out then (0, old) else (0, some out)
    | none => (0, some out)

/-- `^#[^\n\r]*$` (xgettext.py 203): the class does not match `\r`, and `$` is not before it. -/
def comment (l : Str) : Bool :=
  match l with
  | '#' :: r => !r.contains '\r'
  | _ => false

def ws (c : Char) : Bool := c = ' ' || c = '\t' || c = '\r'

/-- `^[ \t\r]*$` (xgettext.py 204). -/
def blank (l : Str) : Bool := l.all ws

def rstrip (t : Str) : Str := (t.reverse.dropWhile ws).reverse

/-- `[ \t\r]+$` replaced by nothing, without `re.M`: at the end of the text, or before a newline that ends it (xgettext.py 205). -/
def trail (t : Str) : Str :=
  match t.reverse with
  | '\n' :: r => (r.dropWhile ws).reverse ++ ['\n']
  | _ => rstrip t

/-- What `str.splitlines` splits at. -/
def brk (c : Char) : Bool := c.toNat ∈ [10, 11, 12, 13, 28, 29, 30, 133, 8232, 8233]

/-- `str.splitlines`; the line that is read is the first argument. -/
def splitlines : Str → Str → List Str
  | [], [] => []
  | l, [] => [l]
  | l, '\r' :: '\n' :: t => l :: splitlines [] t
  | l, c :: t => if brk c then l :: splitlines [] t else splitlines (l ++ [c]) t

/-- The names in a list of files (xgettext.py 209-213). -/
def depnames (t : Str) : List Str := splitlines [] (trail (sub blank .start (sub comment .start t)))

/-- A list of files, or a node for one: what was given for `XGETTEXTFROM`. -/
inductive Elem where
  | text (s : Str)
  | node (f : Str × Str)

/-- The texts of the lists of files, `none` if one is not there; where `find_file` finds a name. -/
structure World where
  cwd : Str
  content : Str × Str → Option Str
  has : Str → Str → Bool

/-- `find_file`, or the file in the first directory (xgettext.py 215-217). -/
def World.dep (W : World) (dirs : List Str) (n : Str) : Str × Str :=
  match dirs.find? fun d => W.has d n with
  | some d => (d, n)
  | none => (dirs.headD [], n)

/-- `_scan_xgettext_from_files` (xgettext.py 173-219); the directories were given as texts. -/
def World.scan (W : World) (path : List Str) (files : List (Str × Str)) : List (Str × Str) :=
  let dirs := if path = [] then [W.cwd] else path
  files.flatMap fun f =>
    match W.content f with
    | some t => (depnames t).map (W.dep dirs)
    | none => []

/-- `arg2nodes`, or the exception. -/
def World.file (W : World) : Elem → Option (Str × Str)
  | .text s => some (W.cwd, s)
  | .node _ => none

/-- `_pot_update_emitter` (xgettext.py 222-245): the dependencies of the template, `none` for an exception: `files.extend` of a node. -/
def World.emit (W : World) (xfrom : List Elem) (path : List Str) : Option (List (Str × Str)) :=
  (xfrom.mapM W.file).map fun files => files ++ W.scan path files

end Verif.Pot
