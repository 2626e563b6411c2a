import Verif.TexScan.Model

/-!
# What LaTeX reads (specification for C108)

The reading of characters by TeX (The TeXbook, chapter 8), as far as it matters here: `\` takes the next character along, `%` takes the
rest of the line, its end, and the white space at the beginning of the next line. Then commands with their arguments in braces. Only
the class of white space, letters and the types of a project are shared with the model.
-/

namespace Verif.TexScan

inductive Mode where
  | normal
  /-- after a backslash -/
  | esc
  | comment
  /-- at the beginning of the line after a comment -/
  | skip

/-- What TeX sees. -/
def tex : Mode → Str → Str
  | _, [] => []
  | .normal, c :: r => if c = '\\' then c :: tex .esc r else if c = '%' then tex .comment r else c :: tex .normal r
  | .esc, c :: r => c :: tex .normal r
  | .comment, c :: r => if c = '\n' then tex .skip r else tex .comment r
  | .skip, c :: r =>
    if sp c ∧ c ≠ '\n' then tex .skip r
    else if c = '\\' then c :: tex .esc r else if c = '%' then tex .comment r else c :: tex .normal r

/-- The part `x` is somewhere in the text. -/
def Within (x s : Str) : Prop := ∃ u v, s = u ++ x ++ v

/-- The commands that read files, with one argument. -/
def oneArg : List Str := ["include", "input", "includegraphics", "lstinputlisting", "bibliography", "addbibresource", "addglobalbib",
  "addsectionbib", "usepackage", "RequirePackage", "usetheme", "usecolortheme", "usefonttheme", "useinnertheme", "useoutertheme"].map String.toList

/-- Those of them that take options. -/
def withOption : List Str := ["includegraphics", "lstinputlisting", "usepackage", "RequirePackage", "usetheme", "usecolortheme", "usefonttheme",
  "useinnertheme", "useoutertheme"].map String.toList

/-- Those with a directory and a file. -/
def dirFile : List Str := ["import", "subimport", "includefrom", "subincludefrom", "inputfrom", "subinputfrom"].map String.toList

/-- A piece of a document. -/
inductive Seg where
  | chr (c : Char)
  /-- `\c` -/
  | ctl (c : Char)
  /-- any other command, only its name -/
  | mac (n : Str)
  /-- `\w[o]{a,b}`, with white space before the brace -/
  | cmd (w opt b : Str) (names : List Str)

/-- Names with commas. -/
def commas : List Str → Str
  | [] => []
  | [x] => x
  | x :: l => x ++ ',' :: commas l

def Seg.text : Seg → Str
  | .chr c => [c]
  | .ctl c => ['\\', c]
  | .mac n => '\\' :: n
  | .cmd w o b l => '\\' :: w ++ o ++ b ++ '{' :: commas l ++ ['}']

def render (l : List Seg) : Str := l.flatMap Seg.text

/-- The name of a file in an argument. -/
def Name (n : Str) : Prop := ∀ c ∈ n, c ≠ ',' ∧ c ≠ '}'

/-- An option in brackets, on one line, or nothing. -/
def Option' (w o : Str) : Prop := o = [] ∨ (w ∈ withOption ∧ ∃ x, o = '[' :: x ++ [']'] ∧ x ≠ [] ∧ ']' ∉ x ∧ '\n' ∉ x)

/-- A document: what follows a command is not part of it, and a command that reads a file is not followed by a group. -/
inductive Doc : List Seg → Prop where
  | nil : Doc []
  | chr {c l} : c ≠ '\\' → Doc l → Doc (.chr c :: l)
  | ctl {c l} : letter c = false → (c = '\\' → ∀ x, (render l).head? = some x → letter x = false) → Doc l → Doc (.ctl c :: l)
  | mac {n l} : (∀ c ∈ n, letter c = true) → n ∉ oneArg ++ dirFile → (∀ x, (render l).head? = some x → letter x = false) → Doc l → Doc (.mac n :: l)
  | cmd {w o b names l} : w ∈ oneArg → Option' w o → (∀ c ∈ b, sp c = true) → names ≠ [] → (∀ n ∈ names, Name n) →
      ((render l).dropWhile sp).head? ≠ some '{' → Doc l → Doc (.cmd w o b names :: l)

/-- The text of a file is this document. -/
def IsDoc (text : Str) (l : List Seg) : Prop := Doc l ∧ tex .normal text = render l ∧ ¬ Within ['\\', '\\', '%'] text

/-- The endings of files that are read for a name without one. -/
def endings (gfx : List Str) (w : Str) : List Str :=
  if w ∈ ["include", "input"].map String.toList then [".tex".toList]
  else if w ∈ ["usepackage", "RequirePackage"].map String.toList then [".sty".toList]
  else if w = "bibliography".toList then [".bib".toList]
  else if w = "includegraphics".toList then gfx
  else [[]]

/-- The themes of beamer. -/
def themes : List Str := ["usetheme", "usecolortheme", "usefonttheme", "useinnertheme", "useoutertheme"].map String.toList

/-- The names under which a file is looked for. -/
inductive Candidates (gfx : List Str) : Str → Str → List Str → Prop where
  /-- without an ending -/
  | bare {w n} : w ∈ oneArg → w ∉ themes → '.' ∉ n → Candidates gfx w n ((endings gfx w).map fun e => n ++ e)
  /-- with an ending (`\include` adds one always) -/
  | full {w n c e} : w ∈ oneArg → w ∉ themes → w ≠ "include".toList → c ≠ '.' → c ≠ '/' → '/' ∉ e → Candidates gfx w (n ++ c :: '.' :: e) [n ++ c :: '.' :: e]
  | theme {k n} : k ∈ ["", "color", "font", "inner", "outer"].map String.toList →
      Candidates gfx ("use".toList ++ k ++ "theme".toList) n ["beamer".toList ++ k ++ "theme".toList ++ n ++ ".sty".toList]

/-- Where a command looks: beside the document, then where its variable says. -/
def places {D V : Type} (p : Proj D V) (dir : D) (w : Str) : List D :=
  let v := if w ∈ ["bibliography", "addbibresource", "addglobalbib", "addsectionbib"].map String.toList then Var.bibinputs else Var.texinputs
  dir :: (p.paths v).1 ++ (p.paths v).2

/-- The file read: under the first of the names that is anywhere, in the first place that has it. -/
inductive FileOf {D V : Type} (p : Proj D V) (dir : D) (w n : Str) (f : V) : Prop where
  | mk {l a x b ds d es} : Candidates p.gfx w n l → l = a ++ x :: b → (∀ y ∈ a, ∀ d ∈ places p dir w, p.find d y = none) →
      places p dir w = ds ++ d :: es → (∀ e ∈ ds, p.find e x = none) → p.find d x = some f → FileOf p dir w n f

/-- LaTeX reads `f` because of a command in `v`. -/
def TexReads {D V : Type} (p : Proj D V) (dir : D) (v f : V) : Prop :=
  ∃ l, IsDoc (p.text v) l ∧ ∃ w o b names, Seg.cmd w o b names ∈ l ∧ ∃ n ∈ names, FileOf p dir w n f

/-- One or more steps. -/
inductive Plus {V : Type} (R : V → V → Prop) (a : V) : V → Prop where
  | one {b} : R a b → Plus R a b
  | more {b c} : Plus R a b → R b c → Plus R a c

end Verif.TexScan
