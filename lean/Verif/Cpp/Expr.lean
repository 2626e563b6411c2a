/-!
# C89: conditions of the C preprocessor as Python expressions

`CPP_to_Python` (/repo/SCons/cpp.py:104-185), `eval_constant_expression` and
`eval_expression` (390-420), `do_define` and `do_undef` (541-567), and Python's `eval` of the
translated text.

Simplifications: the text is a list of lexemes, each with a mark that says whether white
space comes before it. Integer constants are lexemes with a value (the regular expressions
150-175 drop suffixes and write octal constants as Python does). The two substitutions for
`defined` are one pass. Commas, characters, strings and floating constants are left out; so
are macros with arguments; a call has at most one argument. Python's `bool` values are the
integers 0 and 1. `eval` of a Python expression has no effects here, so the value of an
operand that is not evaluated is computed and thrown away.
-/
namespace Verif.CppExpr

/-- Binary operators that C and Python write in the same way. -/
inductive BinOp where
  | mul | div | mod | add | sub | shl | shr | band | bxor | bor
  deriving DecidableEq, Repr

inductive CmpOp where
  | lt | gt | le | ge | eq | ne
  deriving DecidableEq, Repr

/-- Lexemes of a C condition. -/
inductive Lex where
  | num (n : Nat)
  | id (x : String)
  | lp | rp | bang | tilde | land | lor | quest | colon
  | bin (o : BinOp)
  | cmp (o : CmpOp)
  deriving DecidableEq, Repr

/-- Tokens of the Python expression. `isIn`: the word `in`; `dict`: the name `__dict__`. -/
inductive Tok where
  | num (n : Nat)
  | name (x : String)
  | str (x : String)
  | isIn | dict | lp | rp | tilde | not | and | or
  | bin (o : BinOp)
  | cmp (o : CmpOp)
  deriving DecidableEq, Repr

/-- `CPP_to_Python_Ops_Dict` (cpp.py:121-130); everything else is left as it is. -/
def Lex.tr : Lex → Tok
  | .num n => .num n
  | .id x => .name x
  | .lp => .lp
  | .rp => .rp
  | .bang => .not
  | .tilde => .tilde
  | .land => .and
  | .lor => .or
  | .quest => .and
  | .colon => .or
  | .bin o => .bin o
  | .cmp o => .cmp o

/-- `CPP_to_Python` (cpp.py:177-185). The expressions for `defined` (165-166) are
`defined\s+(\w+)` and `defined\s*\((\w+)\)`: white space inside the parentheses is not
allowed. -/
def translate : List (Bool × Lex) → List Tok
  | [] => []
  | [a] => [a.2.tr]
  | [a, b] =>
    match a.2, b with
    | .id d, (true, .id x) => if d = "defined" then [.str x, .isIn, .dict] else [.name d, .name x]
    | _, _ => [a.2.tr, b.2.tr]
  | [a, b, c] =>
    match a.2, b with
    | .id d, (true, .id x) =>
      if d = "defined" then [.str x, .isIn, .dict, c.2.tr] else .name d :: translate [b, c]
    | _, _ => a.2.tr :: translate [b, c]
  | a :: b :: c :: d :: r =>
    match a.2, b, c, d with
    | .id f, (true, .id x), _, _ =>
      if f = "defined" then .str x :: .isIn :: .dict :: translate (c :: d :: r)
      else .name f :: translate (b :: c :: d :: r)
    | .id f, (_, .lp), (false, .id x), (false, .rp) =>
      if f = "defined" then .str x :: .isIn :: .dict :: translate r
      else .name f :: translate (b :: c :: d :: r)
    | _, _, _, _ => a.2.tr :: translate (b :: c :: d :: r)

/-! ### Python's `eval` -/

/-- Python values. `obj`: a function or class of the module `builtins`; `flt n d`: the
floating-point number `n / d`. -/
inductive Val where
  | int (i : Int)
  | str (s : String)
  | flt (n d : Int)
  | dict
  | obj (x : String)
  deriving DecidableEq, Repr

/-- The result of evaluation. `caught`: a NameError, TypeError or SyntaxError; `escapes`:
any other exception (ZeroDivisionError, ValueError, SystemExit, ...). -/
inductive Res where
  | val (v : Val)
  | caught
  | escapes
  deriving DecidableEq, Repr

/-- What is taken from Python: bitwise operations and shifts of integers, arithmetic and
comparison of other values, the names of `builtins`, calls, the reserved words. -/
structure Py where
  bits : BinOp → Int → Int → Int
  arith : BinOp → Val → Val → Res
  compare : CmpOp → Val → Val → Res
  compl : Int → Int
  builtin : String → Bool
  call : Val → Option Val → Res
  keyword : String → Bool

/-- A name space. `get`: the macros; `self`: there is an entry `__dict__` for the name space
itself, as in `cpp_namespace` (cpp.py:259-260) and not in `constant_expression_namespace`
(263). -/
structure NS where
  get : String → Option Val
  self : Bool

/-- `cpp_namespace` with these macros. -/
def NS.of (f : String → Option Val) : NS := ⟨f, true⟩

/-- `constant_expression_namespace`. -/
def NS.empty : NS := ⟨fun _ => none, false⟩

def NS.set (ns : NS) (x : String) (v : Option Val) : NS := { ns with get := fun y => if y = x then v else ns.get y }

/-- The truth of a Python value. -/
def Val.truth : Val → Bool
  | .int i => i ≠ 0
  | .str s => s ≠ ""
  | .flt n _ => n ≠ 0
  | .dict => true
  | .obj _ => true

/-- Arithmetic. Division of integers gives a floating-point number. -/
def Py.binVal (P : Py) (o : BinOp) : Val → Val → Res
  | .int a, .int b =>
    match o with
    | .mul => .val (.int (a * b))
    | .add => .val (.int (a + b))
    | .sub => .val (.int (a - b))
    | .div => if b = 0 then .escapes else .val (.flt a b)
    | .mod => if b = 0 then .escapes else .val (.int (a.fmod b))
    | .shl => if b < 0 then .escapes else .val (.int (P.bits .shl a b))
    | .shr => if b < 0 then .escapes else .val (.int (P.bits .shr a b))
    | o => .val (.int (P.bits o a b))
  | a, b => P.arith o a b

def boolVal (b : Bool) : Val := .int (if b then 1 else 0)

def CmpOp.holds : CmpOp → Int → Int → Bool
  | .lt, a, b => a < b
  | .gt, a, b => b < a
  | .le, a, b => a ≤ b
  | .ge, a, b => b ≤ a
  | .eq, a, b => a = b
  | .ne, a, b => a ≠ b

/-- Comparison. -/
def Py.cmpVal (P : Py) (o : CmpOp) : Val → Val → Res
  | .int a, .int b => .val (boolVal (o.holds a b))
  | a, b => P.compare o a b

/-- `a in b`; only `__dict__` may be searched (the others give a TypeError, except a string
in a string). `eval` adds `__builtins__` to the names. -/
def inVal (ns : NS) : Val → Val → Res
  | .str x, .dict => .val (boolVal ((ns.get x).isSome || x = "__dict__" || x = "__builtins__"))
  | _, _ => .caught

/-- Both operands, left first. -/
def Res.bind2 (f : Val → Val → Res) : Res → Res → Res
  | .val a, .val b => f a b
  | .val _, r => r
  | r, _ => r

def Res.bind1 (f : Val → Res) : Res → Res
  | .val a => f a
  | r => r

/-- `a and b`: the first operand if it is false, else the second. -/
def Res.and : Res → Res → Res
  | .val a, r => if a.truth then r else .val a
  | r, _ => r

def Res.or : Res → Res → Res
  | .val a, r => if a.truth then .val a else r
  | r, _ => r

def Res.not (r : Res) : Res := r.bind1 fun v => .val (boolVal (!v.truth))

/-- The level of an operator in Python's grammar: `or` 0, `and` 1, (`not` 2, comparisons 3,)
`|` 4, `^` 5, `&` 6, shifts 7, `+ -` 8, `* / %` 9. -/
def BinOp.lvl : BinOp → Nat
  | .bor => 4
  | .bxor => 5
  | .band => 6
  | .shl | .shr => 7
  | .add | .sub => 8
  | .mul | .div | .mod => 9

/-- Operators that associate to the left. -/
def Tok.opLvl : Tok → Option Nat
  | .or => some 0
  | .and => some 1
  | .bin o => some o.lvl
  | _ => none

/-- Apply a binary operator other than a comparison. -/
def Py.apply (P : Py) : Tok → Res → Res → Res
  | .or, a, b => a.or b
  | .and, a, b => a.and b
  | .bin o, a, b => Res.bind2 (P.binVal o) a b
  | _, a, _ => a

/-- A comparison operator. -/
def Py.cmpTok (P : Py) (ns : NS) : Tok → Option (Res → Res → Res)
  | .cmp o => some (Res.bind2 (P.cmpVal o))
  | .isIn => some (Res.bind2 (inVal ns))
  | _ => none

/-- A name: a macro, or else something of `builtins`, or else a NameError. -/
def Py.name (P : Py) (ns : NS) (x : String) : Res :=
  match ns.get x with
  | some v => .val v
  | none => if P.builtin x then .val (.obj x) else .caught

/-- Unary `+`, `-`, `~`. -/
def Py.unary (P : Py) : Tok → Option (Res → Res)
  | .bin .add => some (Res.bind1 fun v => match v with | .int i => .val (.int i) | _ => .caught)
  | .bin .sub => some (Res.bind1 fun v => match v with | .int i => .val (.int (-i)) | _ => .caught)
  | .tilde => some (Res.bind1 fun v => match v with | .int i => .val (.int (P.compl i)) | _ => .caught)
  | _ => none

/-- What is parsed: an expression of a level; the rest of a sequence of operators of one
level, with the value so far; the rest of a chain of comparisons, with the value so far
(if there was a comparison) and the last operand; what follows an atom. -/
inductive Mode where
  | lvl (k : Nat)
  | loop (k : Nat) (acc : Res)
  | chain (acc : Option Res) (last : Res)
  | calls (f : Res)

/-- The closing parenthesis and what follows. -/
def closing (rec : Mode → List Tok → Option (Res × List Tok)) (r : Res) : List Tok → Option (Res × List Tok)
  | .rp :: rest => rec (.calls r) rest
  | _ => none

/-- One rule of Python's grammar (`disjunction`, `conjunction`, `inversion`, `comparison`,
`bitwise_or`, ..., `factor`, `primary`, `atom`), read as a recursive-descent evaluator;
`rec` evaluates the parts. `none`: a SyntaxError. -/
def Py.step (P : Py) (ns : NS) (rec : Mode → List Tok → Option (Res × List Tok)) :
    Mode → List Tok → Option (Res × List Tok)
  | .lvl k, ts =>
    if k = 2 then
      match ts with
      | .not :: ts' => (rec (.lvl 2) ts').bind fun p => some (p.1.not, p.2)
      | _ => rec (.lvl 3) ts
    else if k = 3 then (rec (.lvl 4) ts).bind fun p => rec (.chain none p.1) p.2
    else if k = 10 then
      match ts with
      | t :: ts' =>
        match P.unary t with
        | some f => (rec (.lvl 10) ts').bind fun p => some (f p.1, p.2)
        | none => rec (.lvl 11) ts
      | [] => none
    else if k = 11 then
      match ts with
      | .num i :: rest => rec (.calls (.val (.int i))) rest
      | .name x :: rest => if P.keyword x then none else rec (.calls (P.name ns x)) rest
      | .str x :: rest => rec (.calls (.val (.str x))) rest
      | .dict :: rest => rec (.calls (if ns.self then .val .dict else .caught)) rest
      | .lp :: ts' => (rec (.lvl 0) ts').bind fun p => closing rec p.1 p.2
      | _ => none
    else if 11 < k then none
    else (rec (.lvl (k + 1)) ts).bind fun p => rec (.loop k p.1) p.2
  | .loop k acc, ts =>
    match ts with
    | t :: ts' =>
      if t.opLvl = some k then
        (rec (.lvl (k + 1)) ts').bind fun p => rec (.loop k (P.apply t acc p.1)) p.2
      else some (acc, ts)
    | [] => some (acc, [])
  | .chain acc last, ts =>
    match ts with
    | t :: ts' =>
      match P.cmpTok ns t with
      | some f =>
        (rec (.lvl 4) ts').bind fun p =>
          rec (.chain (some (match acc with | none => f last p.1 | some a => a.and (f last p.1))) p.1) p.2
      | none => some (acc.getD last, ts)
    | [] => some (acc.getD last, [])
  | .calls f, ts =>
    match ts with
    | .lp :: ts' =>
      match ts' with
      | .rp :: rest => rec (.calls (f.bind1 fun v => P.call v none)) rest
      | _ =>
        (rec (.lvl 0) ts').bind fun p => closing rec (Res.bind2 (fun v a => P.call v (some a)) f p.1) p.2
    | _ => some (f, ts)

/-- The evaluator with bounded depth (see `fuel_enough`). -/
def Py.parse (P : Py) (ns : NS) : Nat → Mode → List Tok → Option (Res × List Tok)
  | 0, _, _ => none
  | n + 1, m, ts => P.step ns (P.parse ns n) m ts

/-- `eval(text, ns)`. -/
def Py.eval (P : Py) (ns : NS) (ts : List Tok) : Res :=
  match P.parse ns (16 * (ts.length + 1)) (.lvl 0) ts with
  | some (r, []) => r
  | _ => .caught

/-- `eval_expression` (cpp.py:408-420) as a condition; `none`: an exception escapes. -/
def Py.condition (P : Py) (ns : NS) (l : List (Bool × Lex)) : Option Bool :=
  match P.eval ns (translate l) with
  | .val v => some v.truth
  | .caught => some false
  | .escapes => none

/-- `do_define` of a macro without arguments (cpp.py:541-559), with
`eval_constant_expression` (390-406), whose name space has no macros. `text` is the
expansion as text; `chain`: it contains `defined ` (551). -/
def Py.define (P : Py) (ns : NS) (x : String) (l : List (Bool × Lex)) (text : String) (chain : Bool) : Option NS :=
  match P.eval NS.empty (translate l) with
  | .escapes => none
  | .val (.int i) => some (ns.set x (some (.int i)))
  | _ =>
    if chain then
      match P.eval ns (translate l) with
      | .escapes => none
      | .caught => some (ns.set x (some (.int 0)))
      | .val v => some (ns.set x (some v))
    else some (ns.set x (some (.str text)))

/-- `do_undef` (cpp.py:561-567). -/
def undefine (ns : NS) (x : String) : NS := ns.set x none

end Verif.CppExpr
