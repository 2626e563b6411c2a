import Mathlib.Data.List.Basic

/-!
# The scanners for SWIG and IDL (C127): the model

Models the expressions of `SWIGScanner` (SCons/Scanner/SWIG.py 30-33) and `IDLScan` (SCons/Scanner/IDL.py 30-37), and `find_include_names` (SCons/Scanner/__init__.py, `Classic`), that is `findall` with `re.M`: what a `ClassicCPP` scanner looks for, kind of quotes and
name.  Where the names are looked for is C79 and C87.

An expression that begins with `^` is a function of the text from the beginning of a line: what was found, and how many characters.  `\s` is a parameter.
-/

namespace Verif.Iface

abbrev Str := List Char

/-- What is found: the opening quote, or nothing, and the name. -/
abbrev Found := Str × Str

def blank (c : Char) : Bool := c = ' ' || c = '\t'

/-- `[ \t]*` -/
def skip (t : Str) : Str := t.dropWhile blank

/-- A word at the beginning. -/
def word (w t : Str) : Option Str := if w.isPrefixOf t then some (t.drop w.length) else none

/-- `(?:include|import|extern)` -/
def swigWord (t : Str) : Option Str := ((word "include".toList t).or (word "import".toList t)).or (word "extern".toList t)

/-- `[^>\s"]` -/
def swigChar (sp : Char → Bool) (c : Char) : Bool := c ≠ '>' && c ≠ '"' && !sp c

/-- `([^>\s"]+)` -/
def swigPlain (sp : Char → Bool) (d r : Str) : Option (Found × Str) :=
  if r.takeWhile (swigChar sp) = [] then none else some ((d, r.takeWhile (swigChar sp)), r.dropWhile (swigChar sp))

/-- `(<|"?)([^>\s"]+)`: what is found, and what follows. -/
def swigName (sp : Char → Bool) (t : Str) : Option (Found × Str) :=
  match t with
  | '<' :: r => (swigPlain sp ['<'] r).or (swigPlain sp [] t)
  | '"' :: r => swigPlain sp ['"'] r
  | t => swigPlain sp [] t

/-- `(?:>|"?)` -/
def closing (r : Str) : Str :=
  match r with
  | '>' :: r => r
  | '"' :: r => r
  | r => r

/-- `^[ \t]*%[ \t]*(?:include|import|extern)[ \t]*(<|"?)([^>\s"]+)(?:>|"?)` (SWIG.py 31). -/
def swig (sp : Char → Bool) (t : Str) : Option (Found × Nat) := do
  let a ← word ['%'] (skip t)
  let b ← swigWord (skip a)
  let (f, r) ← swigName sp (skip b)
  some (f, t.length - (closing r).length)

/-- `#[ \t]*include|[ \t]*import` -/
def idlWord (t : Str) : Option Str :=
  match t with
  | '#' :: r => word "include".toList (skip r)
  | t => word "import".toList t

/-- `[^>"]` -/
def idlChar (c : Char) : Bool := c ≠ '>' && c ≠ '"'

/-- `^[ \t]*(?:#[ \t]*include|[ \t]*import)[ \t]+(<|")([^>"]+)(>|")` (IDL.py 35). -/
def idl (t : Str) : Option (Found × Nat) := do
  let a ← idlWord (skip t)
  if a.takeWhile blank = [] then none
  else match skip a with
    | c :: r =>
      if c = '<' ∨ c = '"' then
        if r.takeWhile idlChar = [] then none
        else match r.dropWhile idlChar with
          | _ :: x => some (([c], r.takeWhile idlChar), t.length - x.length)
          | [] => none
      else none
    | [] => none

/-- `findall`: so many characters still belong to a match; the beginning of a line. -/
def find (M : Str → Option (Found × Nat)) : Nat → Bool → Str → List Found
  | _, _, [] => []
  | 0, true, c :: t =>
    match M (c :: t) with
    | some (f, n) => f :: find M (n - 1) (c = '\n') t
    | none => find M 0 (c = '\n') t
  | k, _, c :: t => find M (k - 1) (c = '\n') t

end Verif.Iface
