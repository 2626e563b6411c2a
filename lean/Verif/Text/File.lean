import Verif.Subst.Model

/-!
# C92: the text files that `Textfile` and `Substfile` write

Models /repo/SCons/Tool/textfile.py: `_do_subst` 56-79, `_action` 82-132, the lists
of signed variables 154-176, and the part of `ActionBase.get_contents`
(/repo/SCons/Action.py:566-579) that puts the signed variables into the signature.

What is not modelled: the encoding of the file (`FILE_ENCODING`, and the branches of
`_do_subst` and `_action` for a write mode with `b`, which is never set), errors of
`open`, `LINESEPARATOR` given as a `Value` node, and `_convert_list` (flattening of the
list of sources): the sources are given as the list of their texts
(`node.get_text_contents()`).
-/

namespace Verif.Text
open Verif.Subst

/-! ### `str.replace` -/

/-- `s.replace(k, v)` for `k` not empty: from the left, occurrences that do not
overlap. The number is how many characters of the last occurrence are still to be
skipped. -/
def replGo (k v : Str) : Nat → Str → Str
  | _, [] => []
  | n + 1, _ :: r => replGo k v n r
  | 0, c :: r =>
    if k.isPrefixOf (c :: r) then v ++ replGo k v (k.length - 1) r
    else c :: replGo k v 0 r

/-- `s.replace(k, v)` of Python (textfile.py:67). With `k` empty `v` is put before
every character and at the end. -/
def replace (k v s : Str) : Str :=
  if k = [] then v ++ s.flatMap (fun c => c :: v) else replGo k v 0 s

/-! ### The substitutions -/

/-- A value in `SUBST_DICT`: a string, another object with its `str()` and its text in
signatures, or a function without arguments, with the text of the function itself and
what it returns (textfile.py:111-117). A function that returns a function is not
modelled. -/
inductive SVal where
  | str (s : Str)
  | obj (s sg : Str)
  | call (fn : Str) (ret : Str)
  | callObj (fn : Str) (ret : Str)

/-- `SUBST_DICT`: a dictionary (in insertion order) or a sequence of pairs
(textfile.py:104-110). -/
inductive SDict where
  | dict (l : List (Str × SVal))
  | seq (l : List (Str × SVal))

/-- `subst_dict.items()` or the sequence itself (textfile.py:105-108). -/
def SDict.items : SDict → List (Str × SVal)
  | .dict l => l
  | .seq l => l

/-- The construction environment of the builder: all variables but two, the way the text
of a dictionary is made (`pprint.pformat`), `SUBST_DICT` (absent or given) and
`LINESEPARATOR` (`None` or a string). `fuel` bounds the nesting of expansions, `lv`
are `TARGET`, `SOURCE` and so on. -/
structure TEnv where
  base : Env
  fuel : Nat
  lv : Vars
  pformat : List (Str × SVal) → Str
  dict : Option SDict
  linesep : Option Str

/-- A value inside a sequence, seen by the substitution. A function that does not take the
arguments of a construction variable is its own text (Subst.py:494-516). -/
def SVal.val : SVal → Val
  | .str s => .str s
  | .obj a b => .obj a b
  | .call f _ => .obj f f
  | .callObj f _ => .obj f f

/-- `SUBST_DICT` as a construction variable. A dictionary is no string, sequence or
callable: the substitution gives it back unchanged (Subst.py:521) and its signature text
is `pprint.pformat` of it (/repo/SCons/Util/sctypes.py:283-290). -/
def SDict.val (P : List (Str × SVal) → Str) : SDict → Val
  | .dict l => .obj (P l) (P l)
  | .seq l => .seq (l.map fun (k, v) => .seq [.str k, v.val])

def nameDict : Str := "SUBST_DICT".toList
def nameSep : Str := "LINESEPARATOR".toList

/-- The environment with the two variables in it. -/
def TEnv.env (T : TEnv) : Env :=
  { T.base with
    gvars := fun k =>
      if k = nameDict then T.dict.map (SDict.val T.pformat)
      else if k = nameSep then some (match T.linesep with
        | some s => .str s
        | none => .none)
      else T.base.gvars k }

/-- The text of one substitution value (textfile.py:112-117): functions are called;
strings are expanded with `env.subst(value, raw=1)`; other objects become `str(value)`. -/
def valText (T : TEnv) : SVal → Except Err Str
  | .str s => subst T.env .raw T.fuel T.lv s
  | .obj a _ => .ok a
  | .call _ r => subst T.env .raw T.fuel T.lv r
  | .callObj _ r => .ok r

/-- The list `subs` (textfile.py:101-118). Without `SUBST_DICT` there is none, which has the
same effect as an empty list (textfile.py:65). -/
def subsOf (T : TEnv) : Except Err (List (Str × Str)) :=
  match T.dict with
  | none => .ok []
  | some d => d.items.mapM fun (k, v) => do
    let t ← valText T v
    pure (k, t)

/-- `_do_subst` (textfile.py:56-79). -/
def doSubst (subs : List (Str × Str)) (text : Str) : Str :=
  subs.foldl (fun s kv => replace kv.1 kv.2 s) text

/-- The loop that writes the file (textfile.py:124-131): `lsep` is what is written before
the next source, if it is not `None` and not empty. -/
def writeGo (sep : Str) (subs : List (Str × Str)) : Option Str → List Str → Str
  | _, [] => []
  | lsep, line :: r =>
    (match lsep with
      | some l => if l = [] then [] else l
      | none => []) ++ doSubst subs line ++ writeGo sep subs (some sep) r

/-- `_action` (textfile.py:82-132): the contents of the file that is written. -/
def action (T : TEnv) (sources : List Str) : Except Err Str := do
  let sep := match T.linesep with
    | some s => s
    | none => ['\n']
  let subs ← subsOf T
  pure (writeGo sep subs none sources)

/-! ### The signature -/

/-- One signed variable, `env.subst_target_source('${'+v+'}', SUBST_SIG, ...)`
(Action.py:575). -/
def signVar (T : TEnv) (name : Str) : Except Err Str :=
  subst T.env .sig T.fuel T.lv (['$', '{'] ++ name ++ ['}'])

/-- The signed variables, one after the other (Action.py:573-575). -/
def signVars (T : TEnv) : List Str → Except Err Str
  | [] => .ok []
  | v :: r => do
    let a ← signVar T v
    let b ← signVars T r
    pure (a ++ b)

/-- The contents of the action of `Textfile` and `Substfile`: the code of the function,
then `SUBST_DICT`, `LINESEPARATOR` and the names of the prefix and the suffix
(textfile.py:154-176, Action.py:551-582). -/
def contents (T : TEnv) (code : Str) (ixes : List Str) : Except Err Str := do
  let s ← signVars T (nameDict :: nameSep :: ixes)
  pure (code ++ s)

end Verif.Text
