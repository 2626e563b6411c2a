import Mathlib.Data.List.Basic
import Mathlib.Data.List.Dedup

/-!
# The tree that is printed (C112)

Models `print_tree` (SCons/Util/__init__.py 323-451), which does the work of `--tree` (`TreePrinter`, SCons/Script/Main.py 462-489), `render_tree` (Util/__init__.py 255-301), which does the work of `--debug=includes`
(`render_include_tree`, SCons/Node/__init__.py 1561-1580), and `FindSourceFiles` (SCons/Environment.py 2979-3002).

The nodes are of any type `ν`; `kids` is `child_func`, `str` is `str(node)`.
Simplifications: a line is kept as its parts and turned into characters by `Line.ascii`; the status tags at the beginning of a line (`--tree=status`) are left out.
Python's stack is finite: the first argument of the functions is the number of nested calls there is room for, and `none` is the RecursionError.
-/

namespace Verif.Tree

abbrev Str := List Char

section
variable {ν : Type} (kids : ν → List ν) (str : ν → Str)

/-- A line: `margins` is `margin[:-1]`; `stop` says that the name is put into brackets; `last` is `lastChild`; `more` says that the node has children. -/
structure Line (ν : Type) where
  margins : List Bool
  node : ν
  stop : Bool
  last : Bool
  more : Bool

/-- The line as it is written without line drawing characters (Util/__init__.py 397-405, 421-425; the same in 282-291). -/
def Line.ascii (l : Line ν) : Str :=
  (l.margins.flatMap fun m => if m then ['|', ' '] else [' ', ' ']) ++ ['+', '-'] ++ (if l.stop then '[' :: str l.node ++ [']'] else str l.node)

/-- The line as it is written with line drawing characters (`--tree=linedraw`; Util/__init__.py 397-425). -/
def Line.boxes (l : Line ν) : Str :=
  (l.margins.flatMap fun m => if m then ['│', ' '] else [' ', ' ']) ++ (if l.last then ['└', '─'] else ['├', '─']) ++ (if l.more then (if l.stop then ['─'] else ['┬']) else []) ++
    (if l.stop then '[' :: str l.node ++ [']'] else str l.node)

/-- The loops over the children (Util/__init__.py 430-451 and, with the same margins, 296-299): every child but the last with a bar in its margin, the last without; `visited` is handed on. -/
def loop (call : ν → List Bool → List Str → Bool → Option (List (Line ν) × List Str)) : List ν → List Bool → List Str → Option (List (Line ν) × List Str)
  | [], _, v => some ([], v)
  | [c], m, v => call c (m ++ [false]) v true
  | c :: c' :: cs, m, v =>
    match call c (m ++ [true]) v false with
    | none => none
    | some (l1, v1) => match loop call (c' :: cs) m v1 with
      | none => none
      | some (l2, v2) => some (l1 ++ l2, v2)

/-- `print_tree(root, child_func, prune, ...)` (Util/__init__.py 323-451). -/
def printTree (prune : Bool) : Nat → ν → List Bool → List Str → Bool → Option (List (Line ν) × List Str)
  | 0, _, _, _, _ => none
  | f + 1, n, margin, visited, last =>
    let children := kids n
    if prune && visited.contains (str n) && !children.isEmpty then some ([⟨margin.dropLast, n, true, last, !children.isEmpty⟩], visited)
    else
      match loop (printTree prune f) children margin (str n :: visited) with
      | none => none
      | some (ls, v) => some (⟨margin.dropLast, n, false, last, !children.isEmpty⟩ :: ls, v)

/-- `TreePrinter.display(t)` (Main.py 476-489): the lines for one target. -/
def display (prune : Bool) (f : Nat) (n : ν) : Option (List (Line ν)) := (printTree kids str prune f n [false] [] true).map (·.1)

/-- `render_tree(root, child_func, prune)` (Util/__init__.py 255-301); without `prune`, what the children add to `visited` is forgotten (`copy.copy`). -/
def renderTree (prune : Bool) : Nat → ν → List Bool → List Str → Bool → Option (List (Line ν) × List Str)
  | 0, _, _, _, _ => none
  | f + 1, n, margin, visited, last =>
    let children := kids n
    if visited.contains (str n) then some ([⟨margin.dropLast, n, true, last, !children.isEmpty⟩], visited)
    else
      match loop (renderTree prune f) children margin (str n :: visited) with
      | none => none
      | some (ls, v) => some (⟨margin.dropLast, n, false, last, !children.isEmpty⟩ :: ls, if prune then v else visited)

/-- `render_tree(s, ..., prune)` as `render_include_tree` calls it. -/
def render (prune : Bool) (f : Nat) (n : ν) : Option (List (Line ν)) := (renderTree kids str prune f n [false] [] true).map (·.1)

end

/-! ## FindSourceFiles -/

/-- What `FindSourceFiles` asks of the nodes. -/
structure Nodes (ν : Type) where
  isDir : ν → Bool
  hasBuilder : ν → Bool
  isFile : ν → Bool            -- `isinstance(s.disambiguate(), File)`
  allChildren : ν → List ν
  sources : ν → List ν
  srcnode : ν → ν

variable {ν : Type} [DecidableEq ν]

/-- `build_source` (Environment.py 2984-2991): what is appended to `sources`. -/
def buildSource (G : Nodes ν) : Nat → List ν → Option (List ν)
  | 0, _ => none
  | _ + 1, [] => some []
  | f + 1, s :: ss =>
    let here := if G.isDir s then buildSource G f (G.allChildren s) else if G.hasBuilder s then buildSource G f (G.sources s) else if G.isFile s then some [s] else some []
    match here with
    | none => none
    | some l => match buildSource G f ss with
      | none => none
      | some l' => some (l ++ l')

/-- `final_source` (Environment.py 2995-2998). -/
def finalSource (G : Nodes ν) : Nat → ν → Option ν
  | 0, _ => none
  | f + 1, n => if n ≠ G.srcnode n then finalSource G f (G.srcnode n) else some n

/-- `FindSourceFiles(node)` (Environment.py 2979-3002); the order of the set is not modelled. -/
def findSourceFiles (G : Nodes ν) (f : Nat) (n : ν) : Option (List ν) :=
  match buildSource G f (G.allChildren n) with
  | none => none
  | some l => (l.mapM (finalSource G f)).map List.dedup

end Verif.Tree
