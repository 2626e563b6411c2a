/-!
# The signature of a Python function action (`SCons/Action.py` 153-376, 1358-1375, 1462-1467, 555-580)

Texts and byte strings are lists of characters (encoding is injective).
-/

namespace Verif.Act.Py

abbrev Text := List Char

/-! ## Python objects, as far as the signature looks at them -/

mutual
/-- A Python object that can be a constant, a default value, the contents of a closure cell or an action.
`num`: `int`, `float`, `bool`, `complex`: their visible attributes show the value (`real`, `imag`, ...).
`plain`: `bytes`, `tuple`, `list`, `dict`, `set`, `frozenset`: a class all of whose attributes are built-in
methods; `val` is the value.  `inst`: an instance of a class without `__call__`: its attributes as texts
`name=value`, sorted, and its methods, sorted by name.  `method`: a bound method.  `callable`: an instance of a
class with a `__call__` method; `attrs` are its attributes. -/
inductive Obj where
  | none
  | str (s : Text)
  | num (cls attrs : Text)
  | plain (cls : Text) (val : Nat)
  | inst (cls mod hier : Text) (attrs : List Text) (methods : List Func)
  | code (c : Code)
  | func (f : Func)
  | method (self : Nat) (f : Func)
  | callable (attrs : List Text) (call : Func)
/-- A code object.  `kwonly`: `co_kwonlyargcount`; `line`: `co_firstlineno` and the line table;
`file`: `co_filename`. -/
inductive Code where
  | mk (argc kwonly : Nat) (varnames cellvars freevars : List Text) (consts : List Obj) (names : List Text)
    (bytecode : Text) (line : Nat) (file : Text)
/-- A function.  `doc`: `__doc__`; `emptyCell`: some closure cell is empty. -/
inductive Func where
  | mk (name : Text) (code : Code) (doc : Option Text) (defaults : List Obj) (kwdefaults : List (Text × Obj))
    (closure : List Obj) (emptyCell : Bool)
end

/-! ## The contents -/

/-- `bytearray(b',').join(l)`. -/
def join : List Text → Text
  | [] => []
  | [x] => x
  | x :: y :: l => x ++ ',' :: join (y :: l)

/-- `str(n)`. -/
def digits (n : Nat) : Text := Nat.toDigits 10 n

/-- The text `_object_instance_content` makes (Action.py 333-376) of the parts. -/
def wrap (cls mod hier methods attrs : Text) : Text :=
  '{' :: cls ++ ':' :: mod ++ "}[[".toList ++ hier ++ "]]{{".toList ++ methods ++ "}}{{{".toList ++ attrs ++
    "}}}".toList

/-- `cc != docstring` is false (Action.py 255). -/
def isDoc (doc : Option Text) : Obj → Bool
  | .none => doc.isNone
  | .str s => doc == some s
  | _ => false

/-- `repr(inspect.getclasstree([cls]))` for a built-in class. -/
def hierOf (cls : Text) : Text := "object,".toList ++ cls

mutual
/-- `_object_contents` (Action.py 176-212), and for the shapes that occur there `_callable_contents`
(153-173). -/
def objC : Obj → Text
  | .none => "N.".toList
  | .str s => s
  | .num cls attrs => wrap cls "builtins".toList (hierOf cls) [] attrs
  | .plain cls _ => wrap cls "builtins".toList (hierOf cls) [] []
  | .inst cls mod hier attrs ms => wrap cls mod hier (join (funcsC ms)) (join attrs)
  | .code c => codeC Option.none c
  | .func f => funcC f
  | .method _ f => funcC f
  | .callable _ f => funcC f
/-- `_code_contents` (Action.py 217-276). -/
def codeC (doc : Option Text) : Code → Text
  | .mk argc _ vars cells frees consts names bytecode _ _ =>
    digits argc ++ ", ".toList ++ digits vars.length ++ ", ".toList ++ digits cells.length ++ ", ".toList ++
      digits frees.length ++ ",(".toList ++ join (constsC doc consts) ++ "),(".toList ++ join names ++
      "),(".toList ++ bytecode ++ ")".toList
/-- `_function_contents` (Action.py 279-321). -/
def funcC : Func → Text
  | .mk _ code doc defaults _ closure emptyCell =>
    codeC doc code ++ ",(".toList ++ join (objsC defaults) ++ ")".toList ++
      ",(".toList ++ (if emptyCell then [] else join (objsC closure)) ++ ")".toList
def funcsC : List Func → List Text
  | [] => []
  | f :: l => funcC f :: funcsC l
def objsC : List Obj → List Text
  | [] => []
  | o :: l => objC o :: objsC l
/-- `[_object_contents(cc) for cc in code.co_consts if cc != docstring]`. -/
def constsC (doc : Option Text) : List Obj → List Text
  | [] => []
  | o :: l => if isDoc doc o then constsC doc l else objC o :: constsC doc l
end

/-- `get_contents` of a function action (Action.py 555-580, 1462-1467): the contents, and the values of the
variables of `varlist` one after the other. -/
def actionC (f : Obj) (varlist : List Text) (subst : Text → Text) : Text :=
  objC f ++ (varlist.map subst).flatten

end Verif.Act.Py
