import Verif.Env.AppendProps

/-!
# ParseFlags and MergeFlags: C65

Models `ParseFlags` (`SCons/Environment.py:1005-1210`) and the unique merge of `MergeFlags` (`:1212-1285`), with `Split` (`Util/__init__.py:850-869`).

Simplifications: a string of flags is given as the list of its words (`shlex.split`); `!command` strings are not modelled (the words are those of its output); `self.fs.File(name)` is the name
marked as a file.  For `MergeFlags` the values are those of `Verif.Env.Append` (no tuples, no deques: CPPDEFINES as a deque goes to `AppendUnique`).
-/

namespace Verif.Env.Flags

abbrev Str := List Char

/-- The variables `ParseFlags` fills (`Environment.py:1022-1036`). -/
inductive Var where
  | asflags | cflags | ccflags | cxxflags | cppdefines | cppflags | cpppath | frameworkpath | frameworks | libpath | libs | linkflags | rpath
deriving DecidableEq

/-- An element of a variable: a word, a pair of an option and its argument, the same with a File node for an argument, a File node, a macro name, a macro name with a value. -/
inductive Ent where
  | word (s : Str)
  | pair (o a : Str)
  | filePair (o a : Str)
  | file (s : Str)
  | define (s : Str)
  | defineVal (n v : Str)
deriving DecidableEq

/-- `append_define` (`Environment.py:1053-1059`): the part before the first `=` and, if there is one, the part after it. -/
def mkDefine (name : Str) : Ent :=
  if '=' ∈ name then .defineVal (name.takeWhile (· ≠ '=')) ((name.dropWhile (· ≠ '=')).drop 1) else .define name

/-- `append_next_arg_to`: the options that wait for an argument (`Environment.py:1084`). -/
inductive Wait where
  | var (v : Var)                         -- a variable the next word is appended to
  | opt (s : Str)                         -- `-include` and the like
deriving DecidableEq

/-- What the next word does (`Environment.py:1086-1121`). -/
def second : Wait → Str → List (Var × Ent)
  | .var .cppdefines, a => [(.cppdefines, mkDefine a)]
  | .var v, a => [(v, .word a)]
  | .opt o, a =>
    if o = "-include".toList ∨ o = "-imacros".toList then [(.ccflags, .filePair o a)]
    else if o = "-isysroot".toList ∨ o = "-arch".toList then [(.ccflags, .pair o a), (.linkflags, .pair o a)]
    else [(.ccflags, .pair o a)]

/-- An option with its argument attached to it, or in the next word (`Environment.py:1127-1141`). -/
def attached (a : Str) (n : Nat) (v : Var) : List (Var × Ent) × Option Wait :=
  if a.drop n ≠ [] then ([(v, .word (a.drop n))], none) else ([], some (.var v))

/-- What a word does that is not an argument of the word before it (`Environment.py:1122-1204`): new elements, and whether it waits for an argument.
`none`: IndexError (`arg[0]` of the empty word). -/
def first (a : Str) : Option (List (Var × Ent) × Option Wait) :=
  if a = [] then none
  else if a.head? ≠ some '-' ∧ a.head? ≠ some '+' then some ([(.libs, .file a)], none)
  else if a = "-dylib_file".toList then some ([(.linkflags, .word a)], some (.var .linkflags))
  else if a.take 2 = "-L".toList then some (attached a 2 .libpath)
  else if a.take 2 = "-l".toList then some (attached a 2 .libs)
  else if a.take 2 = "-I".toList then some (attached a 2 .cpppath)
  else if a.take 4 = "-Wa,".toList then some ([(.asflags, .word (a.drop 4)), (.ccflags, .word a)], none)
  else if a.take 4 = "-Wl,".toList then
    if a.take 11 = "-Wl,-rpath=".toList then some ([(.rpath, .word (a.drop 11))], none)
    else if a.take 7 = "-Wl,-R,".toList then some ([(.rpath, .word (a.drop 7))], none)
    else if a.take 6 = "-Wl,-R".toList then some ([(.rpath, .word (a.drop 6))], none)
    else some ([(.linkflags, .word a)], none)
  else if a.take 4 = "-Wp,".toList then some ([(.cppflags, .word a)], none)
  else if a.take 2 = "-D".toList then some (if a.drop 2 ≠ [] then ([(.cppdefines, mkDefine (a.drop 2))], none) else ([], some (.var .cppdefines)))
  else if a = "-framework".toList then some ([], some (.var .frameworks))
  else if a.take 14 = "-frameworkdir=".toList then some ([(.frameworkpath, .word (a.drop 14))], none)
  else if a.take 2 = "-F".toList then some (attached a 2 .frameworkpath)
  else if a ∈ ["-mno-cygwin".toList, "-pthread".toList, "-openmp".toList, "-fmerge-all-constants".toList, "-fopenmp".toList] ∨ "-fsanitize".toList <+: a then
    some ([(.ccflags, .word a), (.linkflags, .word a)], none)
  else if a = "-mwindows".toList then some ([(.linkflags, .word a)], none)
  else if a.take 5 = "-std=".toList then some ([(if "++".toList <:+: a.drop 5 then .cxxflags else .cflags, .word a)], none)
  else if "-stdlib=".toList <+: a then some ([(.cxxflags, .word a)], none)
  else if a.head? = some '+' then some ([(.ccflags, .word a), (.linkflags, .word a)], none)
  else if a ∈ ["-include".toList, "-imacros".toList, "-isysroot".toList, "-isystem".toList, "-iquote".toList, "-idirafter".toList, "-arch".toList, "--param".toList] then some ([], some (.opt a))
  else some ([(.ccflags, .word a)], none)

/-- The loop over the words of one string (`Environment.py:1083-1204`): the elements in the order in which they are appended.  What still waits at the end is forgotten. -/
def parseWords : Option Wait → List Str → Option (List (Var × Ent))
  | _, [] => some []
  | some w, a :: r => (parseWords none r).map (second w a ++ ·)
  | none, a :: r =>
    match first a with
    | none => none
    | some (es, w) => (parseWords w r).map (es ++ ·)

/-- An argument of `ParseFlags`: a string, as its words, or a list of such arguments. -/
inductive Arg where
  | str (words : List Str)
  | list (as : List Arg)

/-- `do_parse` (`Environment.py:1038-1049`), on nested lists of strings: each string on its own. -/
def strings : Arg → List (List Str)
  | .str ws => [ws]
  | .list as => stringss as
where stringss : List Arg → List (List Str)
  | [] => []
  | a :: r => strings a ++ stringss r

/-- All strings, one after the other. -/
def parseStrings : List (List Str) → Option (List (Var × Ent))
  | [] => some []
  | ws :: r =>
    match parseWords none ws with
    | none => none
    | some es => (parseStrings r).map (es ++ ·)

/-- `env.ParseFlags(*flags)`: the elements of each variable, in order. -/
def parseFlags (flags : List Arg) : Option (Var → List Ent) :=
  (parseStrings (strings.stringss flags)).map fun es v => (es.filter fun e => e.1 = v).map Prod.snd

/-! ## MergeFlags -/

open Verif.Env.Append

variable (split : String → List String)

/-- `Split(value)` (`Util/__init__.py:850-869`). -/
def splitVal : Val → Val
  | .list xs => .list xs
  | .clvar xs => .clvar xs
  | .sc (.str s) => .list ((split s).map fun w => .sc (.str w))
  | .sc x => .list [.sc x]
  | .dict d => .list [.dict d]

/-- Keep the left-most occurrences (`Environment.py:1274-1278`); `t` is what is kept so far. -/
def keepLeft (t : List Item) : List Item → List Item
  | [] => t
  | v :: r => if v ∈ t then keepLeft t r else keepLeft (t ++ [v]) r

/-- Keep the right-most occurrences (`Environment.py:1279-1283`), over the reversed list. -/
def keepRight (t : List Item) : List Item → List Item
  | [] => t
  | v :: r => if v ∈ t then keepRight t r else keepRight (v :: t) r

/-- One variable of `env.MergeFlags(args)` with `args` a dict (`Environment.py:1239-1285`): the new value of the variable, and of the entry of `args`, which is changed in place where
`value.insert(0, orig)` meets the caller's list. `isPath`: the name of the variable ends in `PATH`. -/
def merge1 (isPath : Bool) (orig : Option Val) (value : Val) : Option Val × Val :=
  if value.truthy = false then (orig, value)
  else
    let v := splitVal split value
    let finish (o : Val) : Val := .list (if isPath then keepLeft [] (values o) else keepRight [] (values o).reverse)
    match orig with
    | none => (some (finish v), value)
    | some o =>
      if o.truthy = false then (some (finish v), value)
      else
        match add split o v with
        | some s => (some (finish s), value)
        | none =>
          let s : Val := .list (o.asItem :: values v)
          (some (finish s), if value.listy then s else value)

/-! ## Specification -/

/-- The words an element of a variable stands for on the command line of the tool that uses the variable, in their usual spelling; `ASFLAGS` as an option of the compiler. -/
def render : Var → Ent → List Str
  | .cppdefines, .define s => ["-D".toList ++ s]
  | .cppdefines, .defineVal n v => ["-D".toList ++ n ++ '=' :: v]
  | .cpppath, .word s => ["-I".toList ++ s]
  | .libpath, .word s => ["-L".toList ++ s]
  | .libs, .word s => ["-l".toList ++ s]
  | .libs, .file s => [s]
  | .frameworkpath, .word s => ["-F".toList ++ s]
  | .frameworks, .word s => ["-framework".toList, s]
  | .rpath, .word s => ["-Wl,-rpath=".toList ++ s]
  | .asflags, .word s => ["-Wa,".toList ++ s]
  | _, .word s => [s]
  | _, .pair o a => [o, a]
  | _, .filePair o a => [o, a]
  | _, .file s => [s]
  | _, .define s => [s]
  | _, .defineVal n v => [n, v]

/-- Two spellings of one flag. -/
inductive Same : List Str → List Str → Prop
  | refl (ws) : Same ws ws
  | apart (o s : Str) : o ∈ ["-L".toList, "-l".toList, "-I".toList, "-D".toList, "-F".toList] → Same [o, s] [o ++ s]
  | frameworkdir (s : Str) : Same ["-frameworkdir=".toList ++ s] ["-F".toList ++ s]
  | rcomma (s : Str) : Same ["-Wl,-R,".toList ++ s] ["-Wl,-rpath=".toList ++ s]
  | r (s : Str) : Same ["-Wl,-R".toList ++ s] ["-Wl,-rpath=".toList ++ s]

end Verif.Env.Flags
