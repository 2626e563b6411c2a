/-!
# What a C compiler makes of `config.h`

Comments become blanks; a line that begins with `#define ` defines what follows up to the next blank, as the rest of the line.
Conditionals are not read: `config.h` has only the guard around everything, and it is included once.
-/

namespace Verif.ConfH

/-- Comments become blanks. The Boolean: are we in a comment? (String literals with `/*` in them are not treated.) -/
def strip : Bool → List Char → List Char
  | _, [] => []
  | false, '/' :: '*' :: r => ' ' :: strip true r
  | false, c :: r => c :: strip false r
  | true, '*' :: '/' :: r => strip false r
  | true, _ :: r => strip true r

def lines : List Char → List (List Char)
  | [] => [[]]
  | c :: r => if c = '\n' then [] :: lines r else
    match lines r with
    | [] => [[c]]
    | x :: l => (c :: x) :: l

/-- The definition on a line: name and value. -/
def defOf (line : List Char) : Option (List Char × List Char) :=
  if "#define ".toList <+: line then
    let r := line.drop 8
    some (r.takeWhile (fun c => decide (c ≠ ' ')), (r.dropWhile (fun c => decide (c ≠ ' '))).drop 1)
  else none

/-- All definitions in a text, in their order. -/
def definitions (t : List Char) : List (List Char × List Char) := (lines (strip false t)).filterMap defOf

/-- The two characters do not follow each other in the text. -/
def Without (x y : Char) (t : List Char) : Prop := ∀ u v, t ≠ u ++ x :: y :: v

end Verif.ConfH
