import Verif.PyScan.Model

/-!
# What Python reads (specification for C107)

The language reference, "The import system", without namespace packages, files that are not `.py`, and hooks. Only the names
`Str`, `Path`, `initPy`, `dotPy` and the class of white space are shared with the model.
-/

namespace Verif.PyScan

/-- What is looked up: a package if there is one, else a module. `true`: it is a package. -/
inductive Provides (files : Path → Bool) (d : Path) (name : Str) : Path → Bool → Prop where
  | package : files (d ++ [name, initPy]) = true → Provides files d name (d ++ [name, initPy]) true
  | module : files (d ++ [name, initPy]) = false → files (d ++ [name ++ dotPy]) = true → Provides files d name (d ++ [name ++ dotPy]) false

/-- The first directory of the path that provides the name. -/
inductive FirstOf (files : Path → Bool) (name : Str) : List Path → Path → Path → Bool → Prop where
  | here {d ds f b} : Provides files d name f b → FirstOf files name (d :: ds) d f b
  | later {d ds d' f b} : (∀ g c, ¬ Provides files d name g c) → FirstOf files name ds d' f b → FirstOf files name (d :: ds) d' f b

/-- Importing `a.b.c` below a directory: the files read on the way, the last one, and whether that is a package. Everything before
the last name is a package. -/
inductive Import (files : Path → Bool) : Path → List Str → List Path → Path → Bool → Prop where
  | last {d a f b} : Provides files d a f b → Import files d [a] [f] f b
  | step {d a n l r f b} : Provides files d a (d ++ [a, initPy]) true → Import files (d ++ [a]) (n :: l) r f b →
      Import files d (a :: n :: l) ((d ++ [a, initPy]) :: r) f b

/-- An import from the search path: the first directory that has the first name. -/
def ImportAbs (files : Path → Bool) (path : List Path) (name : List Str) (r : List Path) (f : Path) (b : Bool) : Prop :=
  ∃ d a l, name = a :: l ∧ (∃ g c, FirstOf files a path d g c) ∧ Import files d name r f b

/-- A statement: `import a.b`, or `from a.b import n, m`; `dots` is 0 if the name is not relative. -/
inductive Stmt where
  | imp (mod : List Str)
  | frm (dots : Nat) (mod : List Str) (names : List Str)

/-- The directory that a number of dots stands for, in a file of the directory `dir`. -/
def upDir (dir : Path) (dots : Nat) : Path := dir.take (dir.length - (dots - 1))

/-- The file is one that Python reads, or may read, for the statement. A name imported from a package is a module of it if the package
does not define it. -/
inductive Reads (files : Path → Bool) (path : List Path) (dir : Path) : Stmt → Path → Prop where
  | imp {mod r f b g} : ImportAbs files path mod r f b → g ∈ r → Reads files path dir (.imp mod) g
  | abs {mod names r f b g} : ImportAbs files path mod r f b → g ∈ r → Reads files path dir (.frm 0 mod names) g
  | absName {mod names r f n g c} : ImportAbs files path mod r f true → n ∈ names → Provides files f.dropLast n g c →
      Reads files path dir (.frm 0 mod names) g
  | rel {k mod names r f b g} : Import files (upDir dir (k + 1)) mod r f b → g ∈ r → Reads files path dir (.frm (k + 1) mod names) g
  | relName {k mod names r f n g c} : Import files (upDir dir (k + 1)) mod r f true → n ∈ names → Provides files f.dropLast n g c →
      Reads files path dir (.frm (k + 1) mod names) g
  | dotsName {k names n g c} : n ∈ names → Provides files (upDir dir (k + 1)) n g c → Reads files path dir (.frm (k + 1) [] names) g

/-! ## Texts -/

/-- Can be a name: letters of any kind, but no white space, comma or dot. -/
def Ident (s : Str) : Prop := s ≠ [] ∧ ∀ c ∈ s, sp c = false ∧ c ≠ ',' ∧ c ≠ '.'

def Blank (s : Str) : Prop := ∀ c ∈ s, c = ' ' ∨ c = '\t'

/-- What may follow on the line: nothing, or something after white space (`as x`, a comment) that goes to the end of the line. -/
def Tail (s : Str) : Prop := s = [] ∨ ∃ c t, s = c :: t ∧ (c = ' ' ∨ c = '\t') ∧ '\n' ∉ t

/-- Names with dots between them. -/
def dotted : List Str → Str
  | [] => []
  | [x] => x
  | x :: l => x ++ '.' :: dotted l

/-- Names with commas, and blanks on both sides of each name. -/
def listed : List (Str × Str × Str) → Str
  | [] => []
  | [x] => x.1 ++ x.2.1 ++ x.2.2
  | x :: l => x.1 ++ x.2.1 ++ x.2.2 ++ ',' :: listed l

/-- A line of a text with the statement on it. -/
inductive Line : Str → Stmt → Prop where
  | imp {ind b mod tail} : Blank ind → Blank b → b ≠ [] → mod ≠ [] → (∀ x ∈ mod, Ident x) → Tail tail →
      Line (ind ++ "import".toList ++ b ++ dotted mod ++ tail) (.imp mod)
  | frm {ind b b' b'' dots mod names tail} {last : Str × Str} : Blank ind → Blank b → b ≠ [] → Blank b' → b' ≠ [] → Blank b'' → b'' ≠ [] →
      (dots = 0 → mod ≠ []) → (∀ x ∈ mod, Ident x) → (∀ x ∈ names, Blank x.1 ∧ Ident x.2.1 ∧ Blank x.2.2) → Blank last.1 → Ident last.2 →
      Tail tail → ',' ∉ tail →
      Line (ind ++ "from".toList ++ b ++ (List.replicate dots '.' ++ dotted mod) ++ b' ++ "import".toList ++ b'' ++
          listed (names ++ [(last.1, last.2, [])]) ++ tail)
        (.frm dots mod (names.map (fun x => x.2.1) ++ [last.2]))

/-- The words of a line. -/
inductive Words : Str → List Str → Prop where
  | none {s} : (∀ c ∈ s, sp c = true) → Words s []
  | one {b w} : (∀ c ∈ b, sp c = true) → w ≠ [] → (∀ c ∈ w, sp c = false) → Words (b ++ w) [w]
  | more {b w c r l} : (∀ c ∈ b, sp c = true) → w ≠ [] → (∀ c ∈ w, sp c = false) → sp c = true → Words r l → Words (b ++ w ++ c :: r) (w :: l)

/-- A line on which a statement begins without coming to its name: it would go on in the next line. -/
def Unfinished (s : Str) : Prop :=
  Words s ["import".toList] ∨ Words s ["from".toList] ∨ (∃ x, Words s ["from".toList, x]) ∨ ∃ x, Words s ["from".toList, x, "import".toList]

/-- A text of lines. -/
def textOf (l : List Str) : Str := l.flatMap fun s => s ++ ['\n']

end Verif.PyScan
