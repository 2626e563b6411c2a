/-!
# The scanner for LaTeX files

`SCons/Scanner/LaTeX.py` 117–436 (class `LaTeX`).

Simplifications: `\s` is the ASCII part; lines end with `\n` only (`splitlines` also splits at other characters); directories and
files are abstract, with a function for finding a name in a directory (`Dir.srcdir_find_file`; C66) and one for a subdirectory;
the order of the result and the warnings are left out; files found by the scanner exist.
-/

namespace Verif.TexScan

abbrev Str := List Char

/-- `\s` -/
def sp (c : Char) : Bool := c == ' ' || (9 ≤ c.toNat && c.toNat ≤ 13) || (28 ≤ c.toNat && c.toNat ≤ 31)

/-! ## Comments -/

/-- `text.split('\n')`; `splitlines` gives no empty line at the end. -/
def lines : Str → List Str
  | [] => []
  | c :: r => if c = '\n' then [] :: lines r else
    match lines r with
    | [] => [[c]]
    | x :: l => (c :: x) :: l

/-- `comment_re`, 191: `^((?:(?:\\%)|[^%\n])*)(.*)$` on one line. A backslash before a percent sign takes it along. -/
def cutComment : Str → Str × Str
  | '\\' :: '%' :: r => ('\\' :: '%' :: (cutComment r).1, (cutComment r).2)
  | '%' :: r => ([], '%' :: r)
  | [] => ([], [])
  | c :: r => (c :: (cutComment r).1, (cutComment r).2)

/-- The loop of `canonical_text`, 330–340: `cont` is `line_continues_a_comment`, the first argument the lines before, the last one
first. -/
def joinLines : List Str → Bool → List Str → List Str
  | out, _, [] => out.reverse
  | out, cont, l :: r =>
    let lc := cutComment l
    match cont, out with
    | true, o :: out => joinLines ((o ++ lc.1.dropWhile sp) :: out) (decide (lc.2 ≠ [])) r
    | _, _ => joinLines (lc.1 :: out) (decide (lc.2 ≠ [])) r

/-- `'\n'.join` -/
def unlines : List Str → Str
  | [] => []
  | [x] => x
  | x :: l => x ++ '\n' :: unlines l

/-- `rstrip` -/
def rstrip (s : Str) : Str := (s.reverse.dropWhile sp).reverse

/-- `canonical_text`, 324–341. -/
def canonical (text : Str) : Str := rstrip (unlines (joinLines [] false (lines text))) ++ ['\n']

/-! ## Commands -/

/-- The words of the expression that take no option, 170–181. -/
def plainWords : List Str := ["include", "input", "import", "subimport", "includefrom", "subincludefrom", "inputfrom", "subinputfrom",
  "bibliography", "addbibresource", "addglobalbib", "addsectionbib"].map String.toList

/-- Those that may have an option, after white space, 171, 182–184. -/
def optWords : List Str := ["includegraphics", "usepackage", "RequirePackage", "usetheme", "usecolortheme", "usefonttheme", "useinnertheme",
  "useoutertheme"].map String.toList

/-- That which may have an option at once, 172. -/
def listWord : Str := "lstinputlisting".toList

def letter (c : Char) : Bool := c.isAlpha

/-- `\[[^\]]+\]`: the text and what follows. -/
def matchBrackets : Str → Option (Str × Str)
  | '[' :: r =>
    let o := r.takeWhile fun c => c ≠ ']'
    match r.dropWhile fun c => c ≠ ']' with
    | ']' :: r' => if o = [] then none else some ('[' :: o ++ [']'], r')
    | _ => none
  | _ => none

/-- `\s*{([^}]*)}`: the argument and what follows. -/
def matchArg (s : Str) : Option (Str × Str) :=
  match s.dropWhile sp with
  | '{' :: r =>
    match r.dropWhile fun c => c ≠ '}' with
    | '}' :: r' => some (r.takeWhile fun c => c ≠ '}', r')
    | _ => none
  | _ => none

/-- The option, `(?:\s*\[[^\]]+\])?`: its text, with the white space, and what follows. -/
def matchOpt (w s : Str) : Str × Str :=
  if w ∈ optWords then
    match matchBrackets (s.dropWhile sp) with
    | some (o, r) => (s.takeWhile sp ++ o, r)
    | none => ([], s)
  else if w = listWord then
    match matchBrackets s with
    | some (o, r) => (o, r)
    | none => ([], s)
  else ([], s)

/-- The expression (168–188) at a backslash: the three groups and what follows. After the word comes something that is not a letter,
so the word is all the letters there are. An option that is there is taken: without it, there would be no brace. -/
def matchCmd (s : Str) : Option ((Str × Str × Str) × Str) :=
  match s with
  | '\\' :: r =>
    let w := r.takeWhile letter
    if w ∈ plainWords ++ optWords ++ [listWord] then
      let o := matchOpt w (r.dropWhile letter)
      match matchArg o.2 with
      | none => none
      | some (a, r1) =>
        match matchArg r1 with
        | some (b, r2) => some ((w ++ o.1, a, b), r2)
        | none => some ((w ++ o.1, a, []), r1)
    else none
  | _ => none

/-- `findall`: the number is how many characters belong to the last match. -/
def findFrom : Nat → Str → List (Str × Str × Str)
  | _, [] => []
  | k + 1, _ :: s => findFrom k s
  | 0, c :: s =>
    match matchCmd (c :: s) with
    | some (a, r) => a :: findFrom (s.length - r.length) s
    | none => findFrom 0 s

/-- `noopt_cre.sub('', s)`, 351: `\s*\[.*$`, where `.` is not a newline. -/
def noopt : Str → Str
  | [] => []
  | c :: r =>
    if ((c :: r).dropWhile sp).head? = some '[' ∧ '\n' ∉ (c :: r).dropWhile sp then [] else c :: noopt r

/-- `s.split(',')` -/
def split : Str → List Str
  | [] => [[]]
  | c :: r => if c = ',' then [] :: split r else
    match split r with
    | [] => [[c]]
    | x :: l => (c :: x) :: l

/-- `two_arg_commands`, 161–163. -/
def twoArgs : List Str := ["import", "subimport", "includefrom", "subincludefrom", "inputfrom", "subinputfrom"].map String.toList

/-- `re.match('use(|color|font|inner|outer)theme', …)` -/
def isTheme (t : Str) : Bool :=
  (["usetheme", "usecolortheme", "usefonttheme", "useinnertheme", "useoutertheme"].map String.toList).any fun p => p.isPrefixOf t

/-- `os.path.join` -/
def pathJoin (a b : Str) : Str :=
  if b.head? = some '/' then b else if a = [] ∨ a.getLast? = some '/' then a ++ b else a ++ '/' :: b

/-- What is to be looked for: type, subdirectory, name. -/
structure Inc where
  typ : Str
  sub : Str
  name : Str
deriving DecidableEq, Repr

/-- One match, 368–382. -/
def splitInc (sub : Str) (m : Str × Str × Str) : List Inc :=
  let t := noopt m.1
  if t ∈ twoArgs then (split m.2.2).map fun n => ⟨t, pathJoin sub m.2.1, n⟩
  else if isTheme t then (split m.2.1).map fun n => ⟨t, sub, "beamer".toList ++ t.drop 3 ++ n ++ ".sty".toList⟩
  else (split m.2.1).map fun n => ⟨t, sub, n⟩

/-- `scan` without its memory, 343–386. -/
def scanText (sub text : Str) : List Inc := (findFrom 0 (canonical text)).flatMap (splitInc sub)

/-! ## Files -/

/-- `os.path.splitext(n)[1] != ""` -/
def hasExt (n : Str) : Bool := '.' ∈ ((n.reverse.takeWhile fun c => c ≠ '/').reverse).dropWhile fun c => c == '.'

/-- `_latex_names`, 266–295; `gfx` is `graphics_extensions`. -/
def latexNames (gfx : List Str) (t n : Str) : List Str :=
  if hasExt n then [n]
  else if t = "input".toList ∨ t = "include".toList ∨ t ∈ twoArgs then [n ++ ".tex".toList]
  else if t = "bibliography".toList then [n ++ ".bib".toList]
  else if t = "usepackage".toList ∨ t = "RequirePackage".toList then [n ++ ".sty".toList]
  else if t = "includegraphics".toList then gfx.map fun e => n ++ e
  else [n]

/-- The variable that says where to look, `keyword_paths`, 143–159. -/
inductive Var where
  | texinputs
  | bibinputs
deriving DecidableEq, Repr

def varOf (t : Str) : Option Var :=
  if t ∈ ["include", "input", "includegraphics", "usepackage", "RequirePackage", "usetheme", "usecolortheme", "usefonttheme", "useinnertheme",
      "useoutertheme", "lstinputlisting"].map String.toList then some .texinputs
  else if t ∈ ["bibliography", "addbibresource", "addglobalbib", "addsectionbib"].map String.toList then some .bibinputs
  else none

/-- A project: how to find names, the texts, the directories of the two variables (from the environment, and from `ENV`). -/
structure Proj (D V : Type) where
  find : D → Str → Option V
  subdir : D → Str → D
  /-- all files are read, also pictures -/
  text : V → Str
  paths : Var → List D × List D
  gfx : List Str

/-- `find_file`: the first directory that has it. -/
def findFile {D V : Type} (p : Proj D V) (n : Str) : List D → Option V
  | [] => none
  | d :: ds => match p.find d n with
    | some v => some v
    | none => findFile p n ds

/-- `sub_paths`, 303–306: nothing for a type without a variable. -/
def pathsOf {D V : Type} (p : Proj D V) (t : Str) : List D × List D :=
  match varOf t with
  | some v => p.paths v
  | none => ([], [])

/-- The three search paths of `find_include`, 307–322. -/
def searchPaths {D V : Type} (p : Proj D V) (dir : D) (i : Inc) : List (List D) :=
  [[dir], (pathsOf p i.typ).1, (pathsOf p i.typ).2].map fun l => l.map (fun d => p.subdir d i.sub) ++ l

/-- `find_include`, 301–322. -/
def findInclude {D V : Type} (p : Proj D V) (dir : D) (i : Inc) : Option V :=
  (latexNames p.gfx i.typ i.name).findSome? fun n => (searchPaths p dir i).findSome? fun l => findFile p n l

/-- `node.includes` -/
abbrev Memo (V : Type) := V → Option (List Inc)

/-- `scan` of a file, 343–386, with its memory. -/
def scan {D V : Type} [DecidableEq V] (p : Proj D V) (m : Memo V) (v : V) (sub : Str) : List Inc × Memo V :=
  match m v with
  | some l => (l, m)
  | none => (scanText sub (p.text v), fun w => if w = v then some (scanText sub (p.text v)) else m w)

/-- The loop of `scan_recurse`, 394–430; `queue`: the last element is taken first, so the list here has it in front. -/
structure St (V : Type) where
  queue : List Inc
  /-- what is in `seen`, and in the result -/
  nodes : List V
  memo : Memo V

def start {D V : Type} [DecidableEq V] (p : Proj D V) (m : Memo V) (main : V) : St V :=
  ⟨(scan p m main ['.']).1.reverse, [], (scan p m main ['.']).2⟩

/-- One turn of the loop. -/
def turn {D V : Type} [DecidableEq V] (p : Proj D V) (dir : D) (i : Inc) (s : St V) : St V :=
  match findInclude p dir i with
  | none => s
  | some v =>
    if v ∈ s.nodes then s
    else ⟨(scan p s.memo v i.sub).1.reverse ++ s.queue, v :: s.nodes, (scan p s.memo v i.sub).2⟩

/-- The loop until the queue is empty. -/
inductive Loop {D V : Type} [DecidableEq V] (p : Proj D V) (dir : D) : St V → St V → Prop where
  | done {s} : s.queue = [] → Loop p dir s s
  | turn {s i q s'} : s.queue = i :: q → Loop p dir (turn p dir i { s with queue := q }) s' → Loop p dir s s'

/-- `scan_recurse`: the files found for a document in the directory `dir`. -/
def Result {D V : Type} [DecidableEq V] (p : Proj D V) (m : Memo V) (dir : D) (main : V) (r : List V × Memo V) : Prop :=
  ∃ s, Loop p dir (start p m main) s ∧ r = (s.nodes, s.memo)

end Verif.TexScan
