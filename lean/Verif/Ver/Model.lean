import Mathlib.Data.List.Basic

/-!
# Demands on the version (C128): the model

Models `_get_major_minor_revision`, `GetSConsVersion`, `EnsureSConsVersion` and `EnsurePythonVersion` (SCons/Script/SConscript.py 393-407, 495-522).

Simplified: `int` and `\d` know the digits of ASCII only; `int` of a text with a sign, blanks or underscores is an error here.
-/

namespace Verif.Ver

abbrev Str := List Char

/-- `split('.')` -/
def parts : Str → List Str
  | [] => [[]]
  | c :: t =>
    if c = '.' then [] :: parts t
    else match parts t with
      | p :: ps => (c :: p) :: ps
      | [] => [[c]]

/-- `int(version[0])` (403). -/
def whole (s : Str) : Option Nat := if s = [] ∨ s.any (fun c => !c.isDigit) = true then none else some (Nat.ofDigitChars 10 s 0)

/-- `int(re.match(r'\d+', s).group())` (404, 406): no match is an `AttributeError`. -/
def leading (s : Str) : Option Nat := if s.takeWhile Char.isDigit = [] then none else some (Nat.ofDigitChars 10 (s.takeWhile Char.isDigit) 0)

/-- `_get_major_minor_revision` (393-407); `none` is an exception. -/
def revision (s : Str) : Option (Nat × Nat × Nat) :=
  match parts (s.takeWhile (· ≠ ' ')) with
  | a :: b :: c :: _ => do some (← whole a, ← leading b, ← leading c)
  | [a, b] => do some (← whole a, ← leading b, 0)
  | _ => none

/-- `<` of tuples: the first place where they differ decides. -/
def less (v w : Nat × Nat × Nat) : Bool :=
  if v.1 ≠ w.1 then v.1 < w.1 else if v.2.1 ≠ w.2.1 then v.2.1 < w.2.1 else v.2.2 < w.2.2

/-- `%d` -/
def dec (n : Nat) : Str := Nat.toDigits 10 n

/-- How the call ends. -/
inductive Out where
  | returns (warned : Bool)
  /-- The message is printed; `sys.exit(2)`. -/
  | exits (message : Str) (status : Nat)
  | error
  deriving DecidableEq

/-- `EnsureSConsVersion` (500-514); `version` is `SCons.__version__`. -/
def ensure (version : Str) (major minor rev : Nat) : Out :=
  if version = "__VERSION__".toList then .returns true
  else match revision version with
    | none => .error
    | some v =>
      if less v (major, minor, rev) then
        .exits ("SCons ".toList ++ (if rev ≠ 0 then dec major ++ '.' :: dec minor ++ '.' :: dec rev else dec major ++ '.' :: dec minor) ++
          " or greater required, but you have SCons ".toList ++ version) 2
      else .returns false

/-- `sys.version_info < (major, minor)` (519): five items and two; if the two are the first of the five, the longer tuple is not less. -/
def pyLess (v : Nat × Nat) (major minor : Nat) : Bool :=
  if v.1 ≠ major then v.1 < major else if v.2 ≠ minor then v.2 < minor else false

/-- `EnsurePythonVersion` (517-522): `v` the first two items of `sys.version_info`, `text` the first word of `sys.version`. -/
def ensurePython (v : Nat × Nat) (text : Str) (major minor : Nat) : Out :=
  if pyLess v major minor then
    .exits ("Python ".toList ++ (dec major ++ '.' :: dec minor) ++ " or greater required, but you have Python ".toList ++ text) 2
  else .returns false

end Verif.Ver
