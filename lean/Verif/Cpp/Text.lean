/-!
# C90: the directive lines of a text, for the conditional C scanner

`tupleize` of /repo/SCons/cpp.py (332-357): `line_continuations` (232), `CPP_Expression`
(84-95) with `findall`, `Cleanup_CPP_Expressions` (97-108), `_match_tuples` with the table of
expressions (36-77).

    ^\s*#\s*(if(?!n?def)|elif|ifdef|ifndef|import|include|include_next|else|endif|define|undef)(.*)$
    \s*(/\*.*\*/|/\*.*|//.*|\r)

Simplification: white space (`\s`) is that of ASCII.
-/
namespace Verif.CppText

abbrev Str := List Char

/-- `\s`. -/
def isWs (c : Char) : Bool :=
  c = ' ' || c = '\t' || c = '\n' || c = '\r' || c = '\x0b' || c = '\x0c'

/-- `[_A-Za-z]` and `[_A-Za-z0-9_]`. -/
def isIdStart (c : Char) : Bool := c = '_' || c.isAlpha
def isIdChar (c : Char) : Bool := c = '_' || c.isAlphanum

/-- `line_continuations.sub('', contents)`. -/
def splice : Str → Str
  | '\\' :: '\n' :: s => splice s
  | '\\' :: '\r' :: '\n' :: s => splice s
  | c :: s => c :: splice s
  | [] => []

inductive Word where
  | if_ | elif | ifdef | ifndef | import | include | include_next | else_ | endif | define | undef
  deriving DecidableEq, Repr

def Word.text : Word → Str
  | .if_ => ['i', 'f']
  | .elif => ['e', 'l', 'i', 'f']
  | .ifdef => ['i', 'f', 'd', 'e', 'f']
  | .ifndef => ['i', 'f', 'n', 'd', 'e', 'f']
  | .import => ['i', 'm', 'p', 'o', 'r', 't']
  | .include => ['i', 'n', 'c', 'l', 'u', 'd', 'e']
  | .include_next => ['i', 'n', 'c', 'l', 'u', 'd', 'e', '_', 'n', 'e', 'x', 't']
  | .else_ => ['e', 'l', 's', 'e']
  | .endif => ['e', 'n', 'd', 'i', 'f']
  | .define => ['d', 'e', 'f', 'i', 'n', 'e']
  | .undef => ['u', 'n', 'd', 'e', 'f']

/-- The order of the alternatives: that of the table (40-66). -/
def Word.order : List Word :=
  [.if_, .elif, .ifdef, .ifndef, .import, .include, .include_next, .else_, .endif, .define, .undef]

/-- The text after a fixed prefix. -/
def after : Str → Str → Option Str
  | [], s => some s
  | p :: ps, c :: s => if p = c then after ps s else none
  | _ :: _, [] => none

/-- One alternative; `if` has a negative lookahead. -/
def tryWord (w : Word) (s : Str) : Option Str :=
  match after w.text s with
  | none => none
  | some r =>
    if w = .if_ && ((after ['d', 'e', 'f'] r).isSome || (after ['n', 'd', 'e', 'f'] r).isSome) then none else some r

/-- The first alternative that matches. (The rest of the expression matches anything, so
there is no backtracking.) -/
def firstWord (s : Str) : List Word → Option (Word × Str)
  | [] => none
  | w :: ws =>
    match tryWord w s with
    | some r => some (w, r)
    | none => firstWord s ws

def notNl (c : Char) : Bool := c ≠ '\n'

/-- `CPP_Expression` at a position where `^` matches: the groups, and the text after the
match. -/
def matchAt (s : Str) : Option ((Word × Str) × Str) :=
  match s.dropWhile isWs with
  | '#' :: s1 =>
    match firstWord (s1.dropWhile isWs) Word.order with
    | some (w, r) => some ((w, r.takeWhile notNl), r.dropWhile notNl)
    | none => none
  | _ => none

/-- `findall`: `skip` characters belong to the last match; `bol`: `^` matches here. -/
def findFrom : Nat → Bool → Str → List (Word × Str)
  | _, _, [] => []
  | k + 1, _, c :: s => findFrom k (c = '\n') s
  | 0, bol, c :: s =>
    match if bol then matchAt (c :: s) else none with
    | some (cap, rest) => cap :: findFrom (s.length - rest.length) (c = '\n') s
    | none => findFrom 0 (c = '\n') s

/-- The text after the last `*/`. -/
def afterLast : Str → Option Str
  | [] => none
  | c :: s =>
    match afterLast s with
    | some r => some r
    | none => if c = '*' && s.head? = some '/' then some s.tail else none

/-- The text after a comment that begins here: a block comment reaches to the last `*/` of
the line, or to its end. -/
def comment : Str → Option Str
  | '/' :: '*' :: r => some ((afterLast r).getD [])
  | '/' :: '/' :: _ => some []
  | _ => none

/-- The text after the last carriage return. -/
def afterCr : Str → Option Str
  | [] => none
  | c :: s =>
    match afterCr s with
    | some r => some r
    | none => if c = '\r' then some s else none

/-- `CPP_Expression_Cleaner_RE` at a position: the text after the match. `\s*` gives back a
carriage return if no comment follows. -/
def matchClean (s : Str) : Option Str :=
  match comment (s.dropWhile isWs) with
  | some rest => some rest
  | none =>
    match afterCr (s.takeWhile isWs) with
    | some r => some (r ++ s.dropWhile isWs)
    | none => none

/-- `CPP_Expression_Cleaner_RE.sub("", s)`. -/
def clean : Nat → Str → Str
  | _, [] => []
  | k + 1, _ :: s => clean k s
  | 0, c :: s =>
    match matchClean (c :: s) with
    | some rest => clean (s.length - rest.length) s
    | none => c :: clean 0 s

/-- `\s*(.+)`: white space is given back if nothing else is left. -/
def argOf (s : Str) : Option Str :=
  match s.dropWhile isWs with
  | [] => s.getLast?.map fun c => [c]
  | r => some r

/-- The argument expressions of the table (40-66). -/
def argsOf (w : Word) (s : Str) : Option (List (Option Str)) :=
  match w with
  | .if_ | .elif | .import | .include | .include_next => (argOf s).map fun a => [some a]
  | .ifdef | .ifndef =>
    match s with
    | c :: s' => if isWs c then (argOf s').map fun a => [some a] else none
    | [] => none
  | .else_ | .endif => some []
  | .define =>
    if (s.head?.map isWs).getD false then
      match s.dropWhile isWs with
      | c :: r =>
        if isIdStart c then
          let name := (c :: r).takeWhile isIdChar
          let r1 := (c :: r).dropWhile isIdChar
          match r1 with
          | '(' :: r2 =>
            match r2.dropWhile (fun c => c ≠ ')') with
            | ')' :: r3 =>
              some [some name, some ('(' :: r2.takeWhile (fun c => c ≠ ')') ++ [')']), some (r3.dropWhile isWs)]
            | _ => some [some name, none, some (r1.dropWhile isWs)]
          | _ => some [some name, none, some (r1.dropWhile isWs)]
        else none
      | [] => none
    else none
  | .undef =>
    if (s.head?.map isWs).getD false then
      match s.dropWhile isWs with
      | c :: r => if isIdStart c then some [some ((c :: r).takeWhile isIdChar)] else none
      | [] => none
    else none

/-- One tuple: `Cleanup_CPP_Expressions` and `_match_tuples`. Lines that do not fit are
dropped. -/
def tupleOf (t : Word × Str) : Option (Word × List (Option Str)) :=
  (argsOf t.1 (clean 0 t.2)).map fun a => (t.1, a)

/-- `tupleize`. -/
def tupleize (text : Str) : List (Word × List (Option Str)) := (findFrom 0 true (splice text)).filterMap tupleOf

end Verif.CppText
