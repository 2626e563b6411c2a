/-!
# Fortran source text, and what it uses, includes and defines

Nothing here refers to the patterns of the code.  A file is a list of lines; a line is an
`include` line, or statements separated by `;`.  Comments and character literals are part of the
free text of a statement.  `Proper` says of which files the scanner is claimed to be right; each
of its restrictions is needed (see the counterexamples).
-/

namespace Verif.Fortran.Spec

abbrev Text := List Char

/-- Blanks within a line (a carriage return before the newline counts as one). -/
def blank (c : Char) : Bool := c == ' ' || c == '\t' || c == '\r'

/-- Characters of names. -/
def wordChar (c : Char) : Bool := c.isAlphanum || c == '_'

def Blank (w : Text) : Prop := ∀ c ∈ w, blank c = true

/-- Ordinary text of one line: printable ASCII and blanks. -/
def Printable (t : Text) : Prop := ∀ c ∈ t, blank c = true ∨ (32 < c.toNat ∧ c.toNat < 127)

/-- `t` is the word `k` in some mixture of upper and lower case. -/
def Reads (k : String) (t : Text) : Prop := t.map Char.toLower = k.toList

/-- Two names are the same to Fortran, which does not distinguish case. -/
def SameName (a b : Text) : Prop := a.map Char.toLower = b.map Char.toLower

/-- The first word of a text after blanks, in lower case (empty if there is none). -/
def firstWord (t : Text) : Text := ((t.dropWhile blank).takeWhile wordChar).map Char.toLower

/-- The word after the first. -/
def secondWord (t : Text) : Text := firstWord ((t.dropWhile blank).dropWhile wordChar)

/-- The words that may follow `module` without a module being defined. -/
def procedureWords : List Text :=
  ["procedure".toList, "subroutine".toList, "function".toList, "pure".toList, "elemental".toList]

/-- Text that does not begin with `use` or `include`, and not with `module` either, except in
`module procedure`, `module subroutine`, `module function`, `module pure`,
`module elemental`. -/
def Quiet (t : Text) : Prop :=
  firstWord t ≠ "use".toList ∧ firstWord t ≠ "include".toList ∧
    (firstWord t = "module".toList → secondWord t ∈ procedureWords)

/-- Free text of a statement, with its comments and literals: one line, and no semicolon in it is
followed by `use`, `include` or the definition of a module. -/
def Free (t : Text) : Prop := Printable t ∧ ∀ u v, t = u ++ ';' :: v → Quiet v

/-- A name. -/
def Name (n : Text) : Prop := n ≠ [] ∧ ∀ c ∈ n, wordChar c = true

/-- Free text that can follow a name. -/
def Tail (t : Text) : Prop := Free t ∧ ∀ c u, t = c :: u → wordChar c = false

/-- What stands between `use` and the name of the module. -/
inductive Sep where
  /-- `use name` -/
  | gap (w : Text)
  /-- `use :: name` -/
  | colons (a b : Text)
  /-- `use, intrinsic :: name`, `use, non_intrinsic :: name` -/
  | nature (a b k c d : Text)

def Sep.text : Sep → Text
  | .gap w => w
  | .colons a b => a ++ ':' :: ':' :: b
  | .nature a b k c d => a ++ ',' :: b ++ k ++ c ++ ':' :: ':' :: d

def Sep.Proper : Sep → Prop
  | .gap w => w ≠ [] ∧ Blank w
  | .colons a b => Blank a ∧ Blank b
  | .nature a b k c d => Blank a ∧ Blank b ∧ (Reads "intrinsic" k ∨ Reads "non_intrinsic" k) ∧
      Blank c ∧ Blank d

inductive Stmt where
  | use (lead kw : Text) (sep : Sep) (name tail : Text)
  | other (t : Text)

def Stmt.text : Stmt → Text
  | .use lead kw sep name tail => lead ++ kw ++ sep.text ++ name ++ tail
  | .other t => t

def Stmt.Proper : Stmt → Prop
  | .use lead kw sep name tail => Blank lead ∧ Reads "use" kw ∧ sep.Proper ∧ Name name ∧ Tail tail
  | .other t => Free t ∧ Quiet t

/-- The module a statement uses. -/
def Stmt.uses : Stmt → List Text
  | .use _ _ _ name _ => [name]
  | .other _ => []

inductive Line where
  | stmts (first : Stmt) (more : List Stmt)
  /-- `include 'name'`: by the Fortran standard such a line holds nothing else but a comment. -/
  | incl (lead kw gap : Text) (open_ : Char) (name : Text) (close : Char) (tail : Text)
  /-- `module name` -/
  | mod (lead kw gap name tail : Text) (more : List Stmt)

def moreText (l : List Stmt) : Text := l.flatMap fun s => ';' :: s.text

def Line.text : Line → Text
  | .stmts s more => s.text ++ moreText more
  | .incl lead kw gap o name c tail => lead ++ kw ++ gap ++ o :: name ++ c :: tail
  | .mod lead kw gap name tail more => lead ++ kw ++ gap ++ name ++ tail ++ moreText more

def Line.Proper : Line → Prop
  | .stmts s more => s.Proper ∧ ∀ x ∈ more, x.Proper
  | .incl lead kw gap o name c tail =>
      Blank lead ∧ Reads "include" kw ∧ gap ≠ [] ∧ Blank gap ∧
      ((o, c) = ('\'', '\'') ∨ (o, c) = ('"', '"') ∨ (o, c) = ('<', '>')) ∧
      name ≠ [] ∧ Printable name ∧ (∀ x ∈ name, x ∉ ['\'', '"', '>', ';']) ∧ Free tail
  | .mod lead kw gap name tail more =>
      Blank lead ∧ Reads "module" kw ∧ gap ≠ [] ∧ Blank gap ∧ Name name ∧ Tail tail ∧
      (∀ w ∈ procedureWords, ¬ w <+: name.map Char.toLower) ∧ ∀ x ∈ more, x.Proper

def Line.uses : Line → List Text
  | .stmts s more => s.uses ++ more.flatMap Stmt.uses
  | .incl .. => []
  | .mod _ _ _ _ _ more => more.flatMap Stmt.uses

def Line.includes : Line → List Text
  | .incl _ _ _ _ name _ _ => [name]
  | _ => []

def Line.modules : Line → List Text
  | .mod _ _ _ name _ _ => [name]
  | _ => []

/-- A file: its lines, with newlines between them (a last newline makes a last, empty line). -/
def fileText : List Line → Text
  | [] => []
  | [l] => l.text
  | l :: l' :: ls => l.text ++ '\n' :: fileText (l' :: ls)

def Proper (f : List Line) : Prop := ∀ l ∈ f, l.Proper

/-- The modules a file uses, the files it includes, the modules it defines. -/
def uses (f : List Line) : List Text := f.flatMap Line.uses
def includes (f : List Line) : List Text := f.flatMap Line.includes
def modules (f : List Line) : List Text := f.flatMap Line.modules

end Verif.Fortran.Spec
