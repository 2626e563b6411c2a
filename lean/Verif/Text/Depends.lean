import Verif.Subst.Model

/-!
# C93: dependency files (`ParseDepends`)

Models `ParseDepends` (/repo/SCons/Environment.py:2063-2107), `logical_lines`
(/repo/SCons/Util/__init__.py:1078-1092), `Depends` (/repo/SCons/Environment.py:2625-2635)
and `Node._add_child` (/repo/SCons/Node/__init__.py:1340-1350).

Simplifications: the file is its text after Python's translation of line ends (`\r\n` and
`\r` are `\n`), or `none` if it cannot be opened; the name of the file is given; names
become nodes by a function that is given (`arg2nodes`, Environment.py:692-750: one name may
give several nodes).
-/

namespace Verif.Depends
open Verif.Subst (Str isSpace)

/-- The lines of a file, with their line ends. `cur`: the line so far, backwards. -/
def physGo : Str → Str → List Str
  | [], [] => []
  | cur, [] => [cur.reverse]
  | cur, c :: r => if c = '\n' then (c :: cur).reverse :: physGo [] r else physGo (c :: cur) r

def physLines (s : Str) : List Str := physGo [] s

/-- `line.rstrip()` -/
def rstrip (s : Str) : Str := (s.reverse.dropWhile isSpace).reverse

/-- `logical_lines` (Util/__init__.py:1078-1092). `acc`: the pieces in `logical_line`. -/
def logicalGo : List Str → List Str → List Str
  | [], [] => []
  | acc, [] => [acc.flatten]
  | acc, line :: r =>
    if (rstrip line).getLast? = some '\\' then logicalGo (acc ++ [(rstrip line).dropLast]) r
    else (acc ++ [line]).flatten :: logicalGo [] r

def logicalLines (s : Str) : List Str := logicalGo [] (physLines s)

/-- `line.split(':', 1)`, if there are two parts (Environment.py:2091-2095). -/
def splitColon : Str → Option (Str × Str)
  | [] => none
  | c :: r => if c = ':' then some ([], r) else (splitColon r).map fun (a, b) => (c :: a, b)

/-- `s.split()`: `w` is the word so far, backwards. -/
def wordsGo : Str → Str → List Str
  | w, [] => if w = [] then [] else [w.reverse]
  | w, c :: r =>
    if isSpace c then (if w = [] then wordsGo [] r else w.reverse :: wordsGo [] r)
    else wordsGo (c :: w) r

def words (s : Str) : List Str := wordsGo [] s

/-- The list `tdlist` (Environment.py:2087-2097). -/
def tdList (s : Str) : List (List Str × List Str) :=
  ((logicalLines s).filter fun l => l.head? ≠ some '#').filterMap fun l =>
    (splitColon l).map fun (t, d) => (words t, words d)

section
variable {N : Type} [DecidableEq N]

/-- `Node._add_child` (Node/__init__.py:1340-1350): what is not there yet is appended. -/
def addChildren (l : List N) (new : List N) : List N :=
  new.foldl (fun l d => if d ∈ l then l else l ++ [d]) l

/-- `Depends(target, depends)` (Environment.py:2625-2635), on the dependencies of all nodes. -/
def dependsOn (node : Str → List N) (D : N → List N) (t d : List Str) : N → List N :=
  (t.flatMap node).foldl
    (fun D x => fun y => if y = x then addChildren (D x) (d.flatMap node) else D y) D

inductive Res (A : Type) where
  | ok (a : A)
  | osError     -- the file cannot be read
  | userError   -- more than one target

/-- `ParseDepends(filename, must_exist, only_one)` (Environment.py:2078-2107). -/
def parseDepends (node : Str → List N) (file : Option Str) (mustExist onlyOne : Bool)
    (D : N → List N) : Res (N → List N) :=
  match file with
  | none => if mustExist then .osError else .ok D
  | some s =>
    let td := tdList s
    if onlyOne && 1 < (td.flatMap fun p => p.1).length then .userError
    else .ok (td.foldl (fun D p => dependsOn node D p.1 p.2) D)

end
end Verif.Depends
