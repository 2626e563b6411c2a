import Verif.Fortran.Regex

/-!
# The Fortran scanner and the Fortran emitter

`SCons/Scanner/Fortran.py` (`F90Scanner.scan` 74–120, the three patterns of `FortranScan`
186, 274, 306) and `SCons/Tool/FortranCommon.py` (`_fortranEmitter` 62–89).
-/

namespace Verif.Fortran

/-- `\s` (ASCII part of what Python's `str` patterns accept: also `\x1c`–`\x1f`). -/
def isSp (c : Char) : Bool :=
  c == ' ' || (9 ≤ c.toNat && c.toNat ≤ 13) || (28 ≤ c.toNat && c.toNat ≤ 31)

/-- `\w` (ASCII part). -/
def isWd (c : Char) : Bool := c.isAlphanum || c == '_'

/-- `['">]`. -/
def isClose (c : Char) : Bool := c == '\'' || c == '"' || c == '>'

/-- `[<"']`. -/
def isOpen (c : Char) : Bool := c == '<' || c == '"' || c == '\''

/-- A given character. -/
def is (k : Char) : Re := .chr fun c => c == k

/-- `\s*`. -/
def sp : Re := .many isSp

/-- `(?:\s+|(?:(?:\s*,\s*(?:NON_)?INTRINSIC)?\s*::))\s*(\w+)`: what follows `USE`.
`SCons/Scanner/Fortran.py` 186. -/
def useTail : Re :=
  .seq
    (.alt (.many1 isSp)
      (.seq
        (.opt (.seq sp (.seq (is ',') (.seq sp (.seq (.opt (.word "non_".toList))
          (.word "intrinsic".toList))))))
        (.seq sp (.seq (is ':') (is ':')))))
    (.seq sp (.group (.many1 isWd)))

/-- `USE…`. -/
def useBody : Re := .seq (.word "use".toList) useTail

/-- `use_regex`, `SCons/Scanner/Fortran.py` 186:
`(?i)(?:^|;)\s*USE(?:\s+|(?:(?:\s*,\s*(?:NON_)?INTRINSIC)?\s*::))\s*(\w+)`. -/
def useRegex : Re := .seq (.alt .bol (is ';')) (.seq sp useBody)

/-- `INCLUDE\s+(?:\w+_)?[<"'](.+?)(?=["'>])`. -/
def inclBody : Re :=
  .seq (.word "include".toList) (.seq (.many1 isSp)
    (.seq (.opt (.seq (.many1 isWd) (is '_')))
      (.seq (.chr isOpen) (.seq (.group (.lazy1 fun c => c != '\n')) (.ahead (.chr isClose))))))

/-- `include_regex`, `SCons/Scanner/Fortran.py` 274:
`(?i)(?:^|['">]\s*;)\s*INCLUDE\s+(?:\w+_)?[<"'](.+?)(?=["'>])`. -/
def inclRegex : Re :=
  .seq (.alt .bol (.seq (.chr isClose) (.seq sp (is ';')))) (.seq sp inclBody)

/-- `MODULE\s+(?!PROCEDURE|SUBROUTINE|FUNCTION|PURE|ELEMENTAL)(\w+)`. -/
def defBody : Re :=
  .seq (.word "module".toList) (.seq (.many1 isSp)
    (.seq
      (.notAhead (.alt (.word "procedure".toList) (.alt (.word "subroutine".toList)
        (.alt (.word "function".toList) (.alt (.word "pure".toList) (.word "elemental".toList))))))
      (.group (.many1 isWd))))

/-- `def_regex`, `SCons/Scanner/Fortran.py` 306, the same text as `mod_regex`,
`SCons/Tool/FortranCommon.py` 74:
`(?i)^\s*MODULE\s+(?!PROCEDURE|SUBROUTINE|FUNCTION|PURE|ELEMENTAL)(\w+)`. -/
def defRegex : Re := .seq .bol (.seq sp defBody)

/-- `cre_use.findall(text)`, `SCons/Scanner/Fortran.py` 83. -/
def findUses (text : List Char) : List (List Char) := findAll useRegex true 0 text

/-- `cre_incl.findall(text)`, 81. -/
def findIncls (text : List Char) : List (List Char) := findAll inclRegex true 0 text

/-- `cre_def.findall(text)`, 85; `SCons/Tool/FortranCommon.py` 77. -/
def findDefs (text : List Char) : List (List Char) := findAll defRegex true 0 text

/-- `str.lower` (ASCII part). -/
def lower (s : List Char) : List Char := s.map Char.toLower

/-- `SCons.Util.unique` on strings: a dict keeps the first of each, in order. -/
def unique (l : List (List Char)) : List (List Char) :=
  l.foldl (fun acc x => if acc.contains x then acc else acc ++ [x]) []

/-- The names the scanner looks for: `F90Scanner.scan` 80–99.  `suffix` is the expanded
`$FORTRANMODSUFFIX`. -/
def scanNames (suffix text : List Char) : List (List Char) :=
  let includes := findIncls text
  let modules := findUses text
  let d := (findDefs text).map lower
  let modules := modules.filter fun m => !d.contains (lower m)
  let modules := modules.map fun x => lower x ++ suffix
  unique (includes ++ modules)

/-- `find_include` with `FindFile` on `(source_dir,) + path`
(`SCons/Scanner/__init__.py` 356–358): the first directory in which there is such a file (or a
builder for it).  The case of an absolute name and that of a name with a directory part are in
`Verif.Scan` (C43). -/
def findDir {D : Type} (there : D → List Char → Bool) (dirs : List D) (name : List Char) : Option D :=
  dirs.find? fun d => there d name

/-- The nodes the scanner returns (up to the order, which is by name): 105–120. Names that are
found nowhere are left out, with a warning. -/
def scanNodes {D : Type} (there : D → List Char → Bool) (srcDir : D) (path : List D)
    (suffix text : List Char) : List (D × List Char) :=
  (scanNames suffix text).filterMap fun n =>
    (findDir there (srcDir :: path) n).map fun d => (d, n)

/-- The extra targets of an object file: `_fortranEmitter`, `SCons/Tool/FortranCommon.py` 73–87,
each in the directory `$FORTRANMODDIR`. (That a missing source is reported at 70–72 is left
out.) -/
def emitTargets {D : Type} (modDir : D) (suffix text : List Char) : List (D × List Char) :=
  (unique (findDefs text)).map fun m => (modDir, lower m ++ suffix)

end Verif.Fortran
