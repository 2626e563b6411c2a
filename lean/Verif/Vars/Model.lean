import Mathlib.Data.List.Sort
import Mathlib.Order.Lex
import Mathlib.Data.List.Lex
import Mathlib.Data.Char

/-!
# C61: build variables

`SCons.Variables`: `Variables.Add`, `Update`, `Save` (`Variables/__init__.py:94-430`), `BoolVariable`, `EnumVariable`, `ListVariable`.

Simplifications: `exec` of a saved-variables file is a list of assignments; `repr` of a value followed by `eval` gives the value back; a converter that raises
`TypeError` and is called again with the environment is one function; a `KeyError` in `Save` (variable not in the environment) skips the variable.
-/

namespace Verif.Vars

/-- Strings, as lists of characters. -/
abbrev Str := List Char

/-- Values of variables. -/
inductive Val
  | str (s : Str)
  | bool (b : Bool)
  /-- `_ListVariable`: `data` and `allowedElems` (sorted) -/
  | list (data allowed : List Str)
  deriving DecidableEq

/-- A construction environment. -/
abbrev Env := Str → Option Val

/-- `env[k] = v`. -/
def Env.set (e : Env) (k : Str) (v : Val) : Env := fun x => if x = k then some v else e x

/-- `Variable`, `Variables/__init__.py:62-91`.  `conv`: `none` = `ValueError`; `valid`: `false` = `UserError`. -/
structure Opt where
  key : Str
  aliases : List Str := []
  default : Option Val := none
  conv : Option (Val → Option Val) := none
  valid : Option (Val → Env → Bool) := none
  doSubst : Bool := true

/-- `option.aliases + [option.key]`. -/
def Opt.names (o : Opt) : List Str := o.aliases ++ [o.key]

/-- `Variables`: the options and the two records `Update` leaves. -/
structure Vars where
  options : List Opt := []
  unknown : Str → Option Val := fun _ => none
  defaulted : List Str := []

/-- A Python dictionary made by assignments, as the list of its items: a name keeps its first place and gets the last value. -/
def dictSet (d : List (Str × Val)) (k : Str) (v : Val) : List (Str × Val) :=
  if k ∈ d.map (·.1) then d.map (fun p => if p.1 = k then (k, v) else p) else d ++ [(k, v)]

/-- `ARGUMENTS` (`Script/__init__.py:186-195`), or the variables of a saved-variables file: the items after the assignments, in the order of `items()`. -/
def toDict (l : List (Str × Val)) : List (Str × Val) := l.foldl (fun d p => dictSet d p.1 p.2) []

/-- `_do_add`, `Variables/__init__.py:153-190`. -/
def Vars.add (V : Vars) (o : Opt) : Vars :=
  { V with options := V.options ++ [o], unknown := fun x => if x ∈ o.names then none else V.unknown x }

/-- The working data of `Update`. -/
structure Work where
  values : Str → Option Val
  unknown : Str → Option Val
  defaulted : List Str

/-- The inner loop over the options, `:292-300` and `:306-314`. -/
def assign (opts : List Opt) (w : Work) (arg : Str) (value : Val) : Work :=
  let r := opts.foldl (fun (acc : Work × Bool) o =>
    if arg ∈ o.names then
      ({ acc.1 with values := fun k => if k = o.key then some value else acc.1.values k, defaulted := acc.1.defaulted.erase o.key }, true)
    else acc) (w, false)
  if r.2 then r.1 else { r.1 with unknown := fun k => if k = arg then some value else r.1.unknown k }

/-- One source: the items of a dictionary. -/
def assignAll (opts : List Opt) (w : Work) (items : List (Str × Val)) : Work := items.foldl (fun w p => assign opts w p.1 p.2) w

/-- The defaults, `:266-267`: the dictionary comprehension and the list of its keys. -/
def defaults (opts : List Opt) : List (Str × Val) := opts.foldl (fun d o => match o.default with | some v => dictSet d o.key v | none => d) []

/-- `dict.get`. -/
def dictGet (d : List (Str × Val)) (k : Str) : Option Val := (d.find? (fun p => p.1 = k)).map (·.2)

/-- The values `Update` has collected, `:266-314`; `files`, `args`: assignments in order. -/
def gather (V : Vars) (files : List (List (Str × Val))) (args : List (Str × Val)) : Work :=
  let d := defaults V.options
  let w0 : Work := { values := dictGet d, unknown := V.unknown, defaulted := d.map (·.1) }
  assignAll V.options (files.foldl (fun w f => assignAll V.options w (toDict f)) w0) (toDict args)

/-- `for option in self.options: env[option.key] = values[option.key]`, `:327-331`. -/
def putAll (opts : List Opt) (values : Str → Option Val) (e : Env) : Env :=
  opts.foldl (fun e o => match values o.key with | some v => e.set o.key v | none => e) e

/-- The converters, `:334-351`; `sub e k` is `env.subst('${k}')`. -/
def convertAll (sub : Env → Str → Str) (values : Str → Option Val) : List Opt → Env → Option Env
  | [], e => some e
  | o :: os, e =>
    match o.conv, values o.key, e o.key with
    | some f, some _, some cur =>
      match f (if o.doSubst then .str (sub e o.key) else cur) with
      | some v => convertAll sub values os (e.set o.key v)
      | none => none
    | _, _, _ => convertAll sub values os e

/-- The validators, `:354-367`. -/
def validateAll (sub : Env → Str → Str) (values : Str → Option Val) (opts : List Opt) (e : Env) : Bool :=
  opts.all (fun o =>
    match o.valid, values o.key, e o.key with
    | some f, some _, some cur =>
      f (match cur with | .str _ => if o.doSubst then .str (sub e o.key) else cur | _ => cur) e
    | _, _, _ => true)

/-- `Update`, `:242-367`; `none`: `UserError`. -/
def Vars.update (sub : Env → Str → Str) (V : Vars) (files : List (List (Str × Val))) (args : List (Str × Val)) (e : Env) : Option (Env × Vars) :=
  let w := gather V files args
  (convertAll sub w.values V.options (putAll V.options w.values e)).bind fun e' =>
    if validateAll sub w.values V.options e' then some (e', { V with unknown := w.unknown, defaulted := w.defaulted }) else none

/-! ## The standard converters and validators -/

/-- `str.lower` for ASCII. -/
def lower (s : Str) : Str := s.map Char.toLower

def trueStrings : List Str := ["y".toList, "yes".toList, "true".toList, "t".toList, "1".toList, "on".toList, "all".toList]
def falseStrings : List Str := ["n".toList, "no".toList, "false".toList, "f".toList, "0".toList, "off".toList, "none".toList]

/-- `_text2bool`, `BoolVariable.py:46-68`. -/
def text2bool : Val → Option Val
  | .bool b => some (.bool b)
  | .str s => if lower s ∈ trueStrings then some (.bool true) else if lower s ∈ falseStrings then some (.bool false) else none
  | .list .. => none                                                   -- AttributeError in fact

/-- The converters of `EnumVariable.py:113-123`; `map`: the dictionary. -/
def enumConv (map : Str → Option Str) (ignorecase : Nat) : Val → Option Val
  | .str s =>
    if ignorecase = 2 then some (.str (lower ((map (lower s)).getD s)))
    else if ignorecase = 1 then some (.str ((map (lower s)).getD s))
    else some (.str ((map s).getD s))
  | _ => none

/-- The validators of `EnumVariable.py:105-111`. -/
def enumValid (allowed : List Str) (ignorecase : Nat) : Val → Env → Bool
  | .str s, _ => decide ((if ignorecase = 0 then s else lower s) ∈ allowed)
  | _, _ => false

/-- `val.split(',')`. -/
def splitComma : Str → List Str
  | [] => [[]]
  | c :: cs =>
    if c = ',' then [] :: splitComma cs
    else match splitComma cs with
      | [] => [[c]]
      | x :: xs => (c :: x) :: xs

/-- `sep.join(l)`. -/
def join (sep : Str) : List Str → Str
  | [] => []
  | [x] => x
  | x :: y :: ys => x ++ sep ++ join sep (y :: ys)

/-- `sorted`. -/
def sort (l : List Str) : List Str := l.insertionSort (· ≤ ·)

/-- `_converter` of `ListVariable.py:104-121`. -/
def listConv (names : List Str) (map : Str → Option Str) : Val → Option Val
  | .str s =>
    let data := if s = "none".toList then [] else if s = "all".toList then names
      else ((splitComma s).filter (fun x => decide (x ≠ []))).map (fun x => (map x).getD x)
    some (.list (data.filter (fun x => decide (x ≠ []))) (sort names))
  | _ => none

/-- `_validator` of `ListVariable.py:124-164`. -/
def listValid : Val → Env → Bool
  | .list data allowed, _ => data.all (fun x => decide (x ∈ allowed))
  | _, _ => false

/-- `str(value)`; for `_ListVariable`, `ListVariable.py:92-98` (the list is sorted in place). -/
def Val.show : Val → Str
  | .str s => s
  | .bool true => "True".toList
  | .bool false => "False".toList
  | .list data allowed =>
    if data = [] then "none".toList
    else if sort data = allowed then "all".toList
    else join [','] (sort data)

/-- What `Save` writes for a value: `prepare_to_store()` if there is one (`ListVariable.py:100-101`). -/
def Val.store : Val → Val
  | .list d a => .str (Val.show (.list d a))
  | v => v

/-- `env.subst('$key')` for a value without `$`; sequences are joined by blanks (`Subst.py`). -/
def Val.expand : Val → Str
  | .list d _ => join [' '] d
  | v => v.show

/-- `to_String(option.default)`, with substitution of a text without `$`. -/
def defaultText (o : Opt) : Str := match o.default with | some v => v.show | none => "None".toList

/-- `defaultVal`, `Variables/__init__.py:420-425`; `none`: the converter raised. -/
def defaultVal (o : Opt) : Option Val := match o.conv with | some f => f (.str (defaultText o)) | none => some (.str (defaultText o))

/-- `Save`, `:383-431`, for values and defaults without `$`: the assignments written; `none`: a converter raised `ValueError`. -/
def save (e : Env) : List Opt → Option (List (Str × Val))
  | [] => some []
  | o :: os =>
    match e o.key with
    | none => save e os
    | some v =>
      match defaultVal o with
      | none => none
      | some dv => (save e os).map (fun r => if v.expand ≠ dv.show then (o.key, v.store) :: r else r)

end Verif.Vars
