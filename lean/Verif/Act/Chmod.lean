/-!
# `Chmod` (C82)

Models `chmod_func` (/repo/SCons/Defaults.py 195-245) with `permission_dic` (177-193) for one file.  Texts are lists of characters.  The current mode is a
number as of `st_mode`; the bits above the permissions are whatever they are.
-/

namespace Verif.Chmod

abbrev Text := List Char

/-- `permission_dic[u][p]` (Defaults.py 177-193); `none`: `KeyError`. -/
def permission (u p : Char) : Option Nat :=
  if u = 'u' then (if p = 'r' then some 256 else if p = 'w' then some 128 else if p = 'x' then some 64 else none)
  else if u = 'g' then (if p = 'r' then some 32 else if p = 'w' then some 16 else if p = 'x' then some 8 else none)
  else if u = 'o' then (if p = 'r' then some 4 else if p = 'w' then some 2 else if p = 'x' then some 1 else none)
  else none

/-- `text.split(c)`. -/
def split (c : Char) : Text → List Text
  | [] => [[]]
  | x :: xs =>
    if x = c then [] :: split c xs
    else match split c xs with
      | [] => [[x]]
      | w :: ws => (x :: w) :: ws

/-- `str.strip()`. -/
def strip (s : Text) : Text := ((s.dropWhile Char.isWhitespace).reverse.dropWhile Char.isWhitespace).reverse

/-- `s.replace("a", "ugo")`. -/
def expand (s : Text) : Text := s.flatMap fun c => if c = 'a' then ['u', 'g', 'o'] else [c]

/-- The two loops (Defaults.py 228-234). -/
def newPerm (user perm : Text) : Option Nat :=
  user.foldlM (fun acc u => perm.foldlM (fun acc p => (permission u p).map fun b => acc ||| b) acc) 0

/-- The operator (Defaults.py 216-223). -/
def operator (op : Text) : Option Char :=
  if '=' ∈ op then some '=' else if '+' ∈ op then some '+' else if '-' ∈ op then some '-' else none

/-- The mode set for one operation (Defaults.py 235-242). `curr & ~new` for a mode below 2¹². -/
def apply (o : Char) (cur new : Nat) : Nat :=
  if o = '=' then new else if o = '+' then cur ||| new else cur &&& (new ^^^ 4095)

/-- One operation (Defaults.py 215-242); `none`: `SyntaxError`. -/
def operation (op : Text) (cur : Nat) : Option Nat :=
  match operator op with
  | none => none
  | some o =>
    match split o op with
    | [user, perm] => (newPerm (expand (strip user)) (strip perm)).map (apply o cur)
    | _ => none

/-- `int(mode, 8)`. -/
def octal (s : Text) : Option Nat :=
  if s = [] then none
  else s.foldlM (fun acc c => if '0' ≤ c ∧ c ≤ '7' then some (acc * 8 + (c.toNat - 48)) else none) 0

/-- One operation after the others; after an error nothing more is done. -/
def step (acc : Nat × Bool) (op : Text) : Nat × Bool :=
  if acc.2 then
    match operation op acc.1 with
    | some m => (m, true)
    | none => (acc.1, false)
  else acc

/-- `chmod_func` with a text (Defaults.py 207-242); the operations before one that is wrong have been done. The `Bool`: no error. -/
def chmod (mode : Text) (cur : Nat) : Nat × Bool :=
  if mode.all Char.isDigit then
    match octal mode with
    | some m => (m, true)
    | none => (cur, false)
  else
    (split ',' mode).foldl step (cur, true)

/-! ### Specification: POSIX `chmod` -/

inductive Class | user | group | other
  deriving DecidableEq
inductive Perm | read | write | exec
  deriving DecidableEq
inductive Op | set | add | remove
  deriving DecidableEq

/-- The number of the bit of a mode. -/
def bitOf : Class → Perm → Nat
  | .user, .read => 8 | .user, .write => 7 | .user, .exec => 6
  | .group, .read => 5 | .group, .write => 4 | .group, .exec => 3
  | .other, .read => 2 | .other, .write => 1 | .other, .exec => 0

/-- A clause as it is written: `who` of `u`, `g`, `o`, `a`. -/
structure Clause where
  who : List Char
  op : Op
  perms : List Perm

def Op.char : Op → Char
  | .set => '=' | .add => '+' | .remove => '-'
def Perm.char : Perm → Char
  | .read => 'r' | .write => 'w' | .exec => 'x'
def Class.char : Class → Char
  | .user => 'u' | .group => 'g' | .other => 'o'

/-- The clause is about this class. -/
def Clause.for (c : Clause) (k : Class) : Prop := k.char ∈ c.who ∨ 'a' ∈ c.who

instance (c : Clause) (k : Class) : Decidable (c.for k) := inferInstanceAs (Decidable (_ ∨ _))

def Clause.text (c : Clause) : Text := c.who ++ c.op.char :: c.perms.map Perm.char

/-- A symbolic mode as it is written. -/
def modeText : List Clause → Text
  | [] => []
  | [c] => c.text
  | c :: cs => c.text ++ ',' :: modeText cs

/-- What a clause makes of the permissions. -/
def Clause.posix (c : Clause) (f : Class → Perm → Bool) : Class → Perm → Bool := fun k p =>
  if c.for k then
    match c.op with
    | .set => decide (p ∈ c.perms)
    | .add => f k p || decide (p ∈ c.perms)
    | .remove => f k p && !decide (p ∈ c.perms)
  else f k p

/-- The permissions of a mode. -/
def perms (m : Nat) : Class → Perm → Bool := fun k p => m.testBit (bitOf k p)

end Verif.Chmod
