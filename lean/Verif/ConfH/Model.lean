/-!
# Configure checks: `config.h` and `LIBS`

`SCons/Conftest.py` 234–859 (what a check records: `_YesNoResult`, `_Have`; `CheckLib`), `SCons/SConf.py` 107–140
(`_createConfigH`), 498–521 (`Define`), 748–761 (`TestWrapper`), 951–971 (`AppendLIBS`, `PrependLIBS`, `SetLIBS`),
`SCons/Environment.py` 1606–1672 (`Append`), 1720–1766 (`AppendUnique`) and their counterparts, for lists.

Simplifications: names consist of ASCII characters (`upper`); whether a test program can be built is a parameter (C70 is about
that); `context.headerfilename` is never set (SConf.py 871); a list of libraries contains strings; supported languages.
-/

namespace Verif.ConfH

abbrev Str := List Char

/-! ## `config.h` -/

/-- The second argument of `_Have`, `Conftest.py` 783. `True` and 1, and `False` and 0, are equal in Python. -/
inductive Have where
  | num (n : Nat)
  | str (s : Str)
deriving DecidableEq, Repr

/-- `re.sub('[^A-Z0-9_]', '_', key.upper())`, 801–802. -/
def keyUp (key : Str) : Str :=
  key.map fun c => if c.toUpper.isUpper || c.toUpper.isDigit || c.toUpper == '_' then c.toUpper else '_'

/-- The text `_Have` adds, 803–816. -/
def have_ (key : Str) (v : Have) (comment : Option Str) : Str :=
  let k := keyUp key
  let line := match v with
    | .num 1 => "#define ".toList ++ k ++ " 1\n".toList
    | .num 0 => "/* #undef ".toList ++ k ++ " */\n".toList
    | .num n => "#define ".toList ++ k ++ " ".toList ++ (toString n).toList ++ "\n".toList
    | .str s => "#define ".toList ++ k ++ " ".toList ++ s ++ "\n".toList
  match comment with
  | some c => "\n/* ".toList ++ c ++ " */\n".toList ++ line
  | none => "\n".toList ++ line

/-- `define_str`, `SConf.py` 514–517. -/
def defineStr (name : Str) : Option Str → Str
  | some v => "#define ".toList ++ name ++ " ".toList ++ v
  | none => "#define ".toList ++ name

/-- The text `Define` adds, `SConf.py` 509–521. -/
def define (name : Str) (value comment : Option Str) : Str :=
  (match comment with
    | some c => if c = [] then [] else "/* ".toList ++ c ++ " */".toList ++ "\n".toList
    | none => []) ++ defineStr name value ++ "\n".toList

/-- The checks that record a result; `Conftest.py` 310–312, 359–360, 417–418, 576–577, 633–634, 719–720, 734–735. -/
inductive Check where
  | func (f : Str)
  | header (h : Str)
  | type (t : Str)
  | decl (s : Str)
  | member (m : Str)
  | lib (l : Str)
deriving DecidableEq, Repr

/-- The key that a check gives `_Have`. -/
def Check.key : Check → Str
  | .func f => "HAVE_".toList ++ f
  | .header h => "HAVE_".toList ++ h
  | .type t => "HAVE_".toList ++ t
  | .decl s => "HAVE_DECL_".toList ++ s
  | .member m => "HAVE_".toList ++ m
  | .lib l => "HAVE_LIB".toList ++ l

/-- The comment. -/
def Check.comment : Check → Str
  | .func f => "Define to 1 if the system has the function `".toList ++ f ++ "'.".toList
  | .header h => "Define to 1 if you have the <".toList ++ h ++ "> header file.".toList
  | .type t => "Define to 1 if the system has the type `".toList ++ t ++ "'.".toList
  | .decl s => "Set to 1 if ".toList ++ s ++ " is defined.".toList
  | .member m => "Define to 1 if the system has the member `".toList ++ m ++ "`.".toList
  | .lib l => "Define to 1 if you have the `".toList ++ l ++ "' library.".toList

/-- What happens between `Configure` and `Finish`. -/
inductive Ev where
  /-- a check, and whether its program could be built -/
  | check (c : Check) (ok : Bool)
  /-- `CheckTypeSize`, and the size; nothing if it failed, 478–526 -/
  | size (t : Str) (n : Option Nat)
  | define (name : Str) (value comment : Option Str)
deriving DecidableEq, Repr

/-- The text added to `config_h_text`. -/
def Ev.text : Ev → Str
  | .check c ok => have_ c.key (.num (if ok then 1 else 0)) (some c.comment)
  | .size t (some n) => have_ ("SIZEOF_".toList ++ t) (.num n) (some ("The size of `".toList ++ t ++ "', as computed by sizeof.".toList))
  | .size _ none => []
  | .define name value comment => ConfH.define name value comment

/-- `config_h_text` in the end. -/
def textOf : List Ev → Str
  | [] => []
  | e :: l => e.text ++ textOf l

/-- `defname` of `_createConfigH`, `SConf.py` 109. -/
def guard (target : Str) : Str :=
  target.map fun c => if c.toUpper.isUpper || c.toUpper.isLower || c.toUpper.isDigit || c.toUpper == '_' then c.toUpper else '_'

/-- `_createConfigH`, 107–119. -/
def configH (target : Str) (l : List Ev) : Str :=
  "#ifndef ".toList ++ guard target ++ "_SEEN\n#define ".toList ++ guard target ++ "_SEEN\n\n".toList ++ textOf l ++
    "\n#endif /* ".toList ++ guard target ++ "_SEEN */\n".toList

/-! ## `LIBS` -/

/-- The value of `LIBS`. -/
inductive Libs where
  | unset
  | str (s : Str)
  | list (l : List Str)
deriving DecidableEq, Repr

/-- `_delete_duplicates(l, False)`: the first of equal ones stays. -/
def dedup : List Str → List Str
  | [] => []
  | x :: l => x :: (dedup l).filter fun y => decide (y ≠ x)

/-- `Append(LIBS=l)` and `AppendUnique(LIBS=l)`. -/
def Libs.append (v : Libs) (l : List Str) (unique : Bool) : Libs :=
  if unique then
    match v with
    | .unset => .list (dedup l)
    | .str [] => .list (dedup l)
    | .str s => .list ([s] ++ (dedup l).filter fun x => decide (x ≠ s))
    | .list o => .list (o ++ (dedup l).filter fun x => decide (x ∉ o))
  else
    match v with
    | .unset => .list l
    | .str s => .list (if s = [] then l else s :: l)
    | .list o => .list (o ++ l)

/-- `_delete_duplicates(l, True)`, which `PrependUnique` uses: the last of equal ones stays. -/
def dedupLast (l : List Str) : List Str := (dedup l.reverse).reverse

/-- `Prepend(LIBS=l)` and `PrependUnique(LIBS=l)`. -/
def Libs.prepend (v : Libs) (l : List Str) (unique : Bool) : Libs :=
  if unique then
    match v with
    | .unset => .list (dedupLast l)
    | .str [] => .list (dedupLast l)
    | .str s => .list ((dedupLast l).filter (fun x => decide (x ≠ s)) ++ [s])
    | .list o => .list ((dedupLast l).filter (fun x => decide (x ∉ o)) ++ o)
  else
    match v with
    | .unset => .list l
    | .str s => .list (if s = [] then l else l ++ [s])
    | .list o => .list (l ++ o)

/-- `env.get('LIBS', [])` -/
def Libs.get : Libs → Libs
  | .unset => .list []
  | v => v

structure LibArgs where
  extra : List Str
  autoadd : Bool
  append : Bool
  unique : Bool

/-- The loop of `CheckLib`, 699–742; `build`: can the program be linked with this value of `LIBS`? A library may be missing (`None`).
The result: whether a library was found, `LIBS`, and what is recorded. -/
def checkLib (build : Libs → Bool) (a : LibArgs) : List (Option Str) → Libs → Bool × Libs × List Ev
  | [], v => (false, v, [])
  | none :: l, v =>
    if build v then (true, v, []) else checkLib build a l v
  | some x :: l, v =>
    let v' := if a.append then v.append (x :: a.extra) a.unique else v.prepend (x :: a.extra) a.unique
    let ok := build v'
    let w := if !ok || !a.autoadd then v.get else v'
    if ok then (true, w, [.check (.lib x) true])
    else
      let r := checkLib build a l w
      (r.1, r.2.1, .check (.lib x) false :: r.2.2)

end Verif.ConfH
