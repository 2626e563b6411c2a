import Mathlib.Data.List.Basic

/-!
# The emitters of yacc and lex (C122): the model

Models `_yaccEmitter`, `yEmitter`, `ymEmitter`, `yyEmitter` (SCons/Tool/yacc.py 61-146) and `lexEmitter` (SCons/Tool/lex.py 53-94), and what they do to the environment they are called with.

Simplified: the expansion of variables is a function of target and source for a text that was given, and the file for a node; a file is the directory of the SConscript and the name in it, and names are not normalised; the flags are the
words of the first line of the expanded variable; a call has one source and its targets are in the directory of the SConscript, so that the name of a target, without its suffix, is a part of the call.
-/

namespace Verif.Yacc

abbrev Str := List Char

/-- A file: the directory of the SConscript, and the name in it. -/
abbrev File := Str × Str

/-- The value of a variable that names a file: a text, of which only the expansion is given, for a source and target; or a node. -/
inductive FVar where
  | text (f : Str → Str)
  | node (n : File)

/-- `YACC_HEADER_FILE` and `YACC_GRAPH_FILE`, or `LEX_HEADER_FILE` and `LEX_TABLES_FILE`. -/
structure Env where
  first : FVar
  second : FVar

/-- A call of a builder: the directory of the SConscript, the target without its suffix and the suffix, the other targets, the source without its suffix and the suffix, the words of the flags, the expanded suffixes for headers and graphs. -/
structure Call where
  cwd : Str
  base : Str
  suffix : Str
  others : List Str
  source : Str
  sourceExt : Str
  flags : List Str
  hsuf : Str
  gsuf : Str

/-- `s.strip()`, of blanks. -/
def strip (s : Str) : Str := ((s.dropWhile (· = ' ')).reverse.dropWhile (· = ' ')).reverse

/-- `if option[:l] == fileGenOption: option[l:].strip()`. -/
def fileOf (o flag : Str) : Option Str := if flag.take o.length = o then some (strip (flag.drop o.length)) else none

/-- The two loops (yacc.py 110-116, lex.py 70-77). -/
def files (os flags : List Str) : List Str := flags.flatMap fun f => os.filterMap fun o => fileOf o f

def yaccOpts : List Str := ["--defines=".toList, "--header=".toList, "--graph=".toList]
def lexOpts : List Str := ["--header-file=".toList, "--tables-file=".toList]

/-- One variable that names a file: what becomes of it, and the target (yacc.py 118-128, lex.py 79-89). -/
def fileVar (c : Call) : FVar → FVar × List File
  | .text f => if f c.source = [] then (.text f, []) else (.node (c.cwd, f c.source), [(c.cwd, f c.source)])
  | .node n => (.node n, [n])

/-- `_yaccEmitter` (yacc.py 61-130): the environment afterwards, the targets, and the side effects.  `objc` for Objective-C: the other targets are dropped. -/
def yacc (objc : Bool) (E : Env) (c : Call) : Env × List File × List File :=
  let t0 := if objc then [c.base ++ ".m".toList] else (c.base ++ c.suffix) :: c.others
  let t1 := if "-d".toList ∈ c.flags ∨ "-H".toList ∈ c.flags ∨ "--header".toList ∈ c.flags ∨ "--defines".toList ∈ c.flags then [c.base ++ c.hsuf] else []
  let t2 := if "-g".toList ∈ c.flags ∨ "--graph".toList ∈ c.flags then [c.base ++ c.gsuf] else []
  let s := if "-v".toList ∈ c.flags then [c.base ++ ".output".toList] else []
  let (h, l1) := fileVar c E.first
  let (g, l2) := fileVar c E.second
  ({ first := h, second := g }, (t0 ++ t1 ++ t2 ++ files yaccOpts c.flags).map (fun n => (c.cwd, n)) ++ l1 ++ l2, s.map fun n => (c.cwd, n))

/-- `lexEmitter` (lex.py 53-94). -/
def lex (E : Env) (c : Call) : Env × List File :=
  let t0 := if c.sourceExt = ".lm".toList then [c.source ++ ".m".toList] else (c.base ++ c.suffix) :: c.others
  let (h, l1) := fileVar c E.first
  let (g, l2) := fileVar c E.second
  ({ first := h, second := g }, (t0 ++ files lexOpts c.flags).map (fun n => (c.cwd, n)) ++ l1 ++ l2)

/-- One call after another, of one environment: the targets of each. -/
def calls (f : Env → Call → Env × List File) (E : Env) : List Call → List (List File)
  | [] => []
  | c :: cs => (f E c).2 :: calls f (f E c).1 cs

end Verif.Yacc
