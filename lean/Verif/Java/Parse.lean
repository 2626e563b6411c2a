/-!
# C91: the class files of a Java source

`parse_java` of /repo/SCons/Tool/JavaCommon.py (108-470): the tokens found by `_reToken`
(126-128) drive a machine of states that point to each other; the names of the class files
are collected on the way. The Java builder (/repo/SCons/Tool/javac.py:90-130) makes one
target of each.

Simplifications: `\w` and `\d` are those of ASCII. The states that are made once and kept
(`classState`, `anonState`, `skipState`) are made anew here: a kept `SkipState` skips one
token each time (its counter goes down from 1 and is compared with `< 1`), and a kept
`AnonClassState` is left with its level 0 and is not in use when it is entered again.
-/
namespace Verif.Java

abbrev Str := List Char

/-- The tokens of `_reToken`. -/
inductive Tok where
  /-- end of line -/
  | nl
  /-- two slashes -/
  | line
  /-- begin and end of a block comment -/
  | copen
  | cclose
  /-- quotes -/
  | dq
  | sq
  /-- braces, parentheses, the point -/
  | lb
  | rb
  | lp
  | rp
  | dot
  /-- words that the machine knows -/
  | new
  | class_
  | interface
  | enum
  | package
  /-- other words -/
  | word (s : Str)
  /-- `<Word>` -/
  | generic (s : Str)
  /-- the rest: `;`, two backslashes, a quote after a backslash, numbers with a point, `[]`, `->` -/
  | sym (s : Str)
  deriving DecidableEq, Repr

/-- The text of a token. -/
def Tok.text : Tok → Str
  | .nl => ['\n']
  | .line => ['/', '/']
  | .copen => ['/', '*']
  | .cclose => ['*', '/']
  | .dq => ['"']
  | .sq => ['\'']
  | .lb => ['{']
  | .rb => ['}']
  | .lp => ['(']
  | .rp => [')']
  | .dot => ['.']
  | .new => ['n', 'e', 'w']
  | .class_ => ['c', 'l', 'a', 's', 's']
  | .interface => ['i', 'n', 't', 'e', 'r', 'f', 'a', 'c', 'e']
  | .enum => ['e', 'n', 'u', 'm']
  | .package => ['p', 'a', 'c', 'k', 'a', 'g', 'e']
  | .word s => s
  | .generic s => s
  | .sym s => s

/-! ### Tokens (JavaCommon.py:126-128) -/

def isWordStart (c : Char) : Bool := c = '_' || c.isAlpha
def isWordChar (c : Char) : Bool := c = '_' || c.isAlphanum
/-- `[\w$.]` -/
def isNameChar (c : Char) : Bool := isWordChar c || c = '$' || c = '.'

/-- A word as a token. -/
def wordTok (s : Str) : Tok :=
  if s = Tok.new.text then .new else if s = Tok.class_.text then .class_ else if s = Tok.interface.text then .interface
  else if s = Tok.enum.text then .enum else if s = Tok.package.text then .package else .word s

/-- `_reToken` at a position: the token, by the order of the alternatives. -/
def tokenAt : Str → Option Tok
  | [] => none
  | c :: s =>
    if c = '\n' then some .nl
    else if c = '\\' && s.head? = some '\\' then some (.sym ['\\', '\\'])
    else if c = '/' && s.head? = some '/' then some .line
    else if c = '\\' && s.head? = some '\'' then some (.sym ['\\', '\''])
    else if c = '\\' && s.head? = some '"' then some (.sym ['\\', '"'])
    else if c = '\'' then some .sq
    else if c = '"' then some .dq
    else if c = '{' then some .lb
    else if c = '}' then some .rb
    else if c = ';' then some (.sym [';'])
    else if c = '.' then some .dot
    else if c = '(' then some .lp
    else if c = ')' then some .rp
    else if c.isDigit && ((c :: s).dropWhile Char.isDigit).head? = some '.' then
      some (.sym ((c :: s).takeWhile Char.isDigit ++ '.' :: (((c :: s).dropWhile Char.isDigit).drop 1).takeWhile Char.isDigit))
    else if isWordStart c then some (wordTok ((c :: s).takeWhile isNameChar))
    else if c = '<' && (s.head?.map isWordStart).getD false && 2 ≤ (s.takeWhile isWordChar).length &&
        (s.dropWhile isWordChar).head? = some '>' then some (.generic ('<' :: s.takeWhile isWordChar ++ ['>']))
    else if c = '/' && s.head? = some '*' then some .copen
    else if c = '*' && s.head? = some '/' then some .cclose
    else if c = '[' && s.head? = some ']' then some (.sym ['[', ']'])
    else if c = '-' && s.head? = some '>' then some (.sym ['-', '>'])
    else none

/-- `_reToken.findall`; the number is that of the characters that belong to the last token. -/
def tokensFrom : Nat → Str → List Tok
  | _, [] => []
  | k + 1, _ :: s => tokensFrom k s
  | 0, c :: s =>
    match tokenAt (c :: s) with
    | some t => t :: tokensFrom (t.text.length - 1) s
    | none => tokensFrom 0 s

def tokenize (text : Str) : List Tok := tokensFrom 0 text

/-! ### The machine -/

/-- Java 1.1 to 1.4; 1.5 to 1.7; 1.8 and later (38-63). -/
inductive Version where
  | ancient
  | old
  | modern
  deriving DecidableEq, Repr

/-- The fields of `OuterState` (133-157). Stacks have their top at the head; `anon` is a
stack of stacks. -/
structure Glob where
  classes : List Str
  outputs : List Str
  stackBrackets : List Int
  brackets : Int
  nextAnon : Nat
  locals : List (List (Str × Nat))
  stackAnonBrackets : List Int
  anon : List (List Nat)
  package : Option Str
  deriving DecidableEq, Repr

/-- `OuterState.__init__` -/
def Glob.init : Glob := ⟨[], [], [], 0, 1, [], [], [[0]], none⟩

/-- The current state, with the states it will return to. -/
inductive St where
  | outer
  | skip (old : St)
  | anon (level : Nat) (old : St)
  | scope (brackets : Int) (old : St)
  | cls
  | ignore (until_ : Tok) (old : St)
  | package
  deriving DecidableEq, Repr

/-- `str(n)` -/
def num (n : Nat) : Str := (toString n).toList

/-- `'$'.join(list)` for a stack with its top at the head. -/
def joinName (l : List Str) : Str := List.intercalate ['$'] l.reverse

/-- `closeBracket` (206-220); `none`: an exception. -/
def Glob.close (v : Version) (g : Glob) : Option Glob :=
  let g := { g with brackets := g.brackets - 1 }
  let g' : Option Glob :=
    match g.stackBrackets with
    | b :: bs =>
      if g.brackets = b then
        match g.locals, g.classes, g.anon with
        | _ :: ls, _ :: cs, _ :: as =>
          some { g with outputs := g.outputs ++ [joinName g.classes], locals := ls, classes := cs, anon := as, stackBrackets := bs }
        | _, _, _ => none
      else some g
    | [] => some g
  g'.bind fun g =>
    match g.stackAnonBrackets with
    | b :: bs =>
      if g.brackets = b && v ≠ .modern then
        match g.anon with
        | (_ :: a) :: as => some { g with anon := a :: as, stackAnonBrackets := bs }
        | _ => none
      else some g
    | [] => some g

/-- `addAnonClass` (259-282). -/
def Glob.addAnon (v : Version) (g : Glob) : Option Glob :=
  match g.anon with
  | (k :: a) :: as =>
    if v = .ancient then
      match g.classes.getLast? with
      | some c => some { g with outputs := g.outputs ++ [c ++ '$' :: num g.nextAnon], nextAnon := g.nextAnon + 1, anon := (0 :: k :: a) :: as }
      | none => none
    else
      some { g with stackAnonBrackets := g.brackets :: g.stackAnonBrackets,
                    outputs := g.outputs ++ [joinName (((k + 1) :: a).map num ++ g.classes)],
                    nextAnon := g.nextAnon + 1, anon := (0 :: (k + 1) :: a) :: as }
  | _ => none

/-- A dictionary of counters. -/
def count (l : List (Str × Nat)) (x : Str) : Nat := (l.lookup x).getD 0

/-- `ClassState.parseToken` (407-430) with a token that is not the end of a line. -/
def Glob.named (g : Glob) (t : Str) : Option Glob :=
  match g.locals with
  | [] => some { g with locals := [[]], classes := t :: g.classes, anon := [0] :: g.anon }
  | d :: ls =>
    match g.stackBrackets with
    | b :: b' :: _ =>
      if b > b' + 1 then
        let n := count d t + 1
        some { g with locals := [] :: ((t, n) :: d) :: ls, classes := (num n ++ t) :: g.classes, anon := [0] :: g.anon }
      else some { g with locals := [] :: d :: ls, classes := t :: g.classes, anon := [0] :: g.anon }
    | _ => none

/-- The top of the numbers for anonymous classes dropped (`_getAnonStack().pop()`). -/
def Glob.popAnon (g : Glob) : Option Glob :=
  match g.anon with
  | (_ :: a) :: as => some { g with anon := a :: as }
  | _ => none

/-- Text that is skipped: what ends it. -/
def Tok.ignoreUntil : Tok → Option Tok
  | .line => some .nl
  | .copen => some .cclose
  | .dq => some .dq
  | .sq => some .sq
  | _ => none

/-- `parseToken` of the states: `OuterState` (222-257), `ScopeState` (329-358),
`AnonClassState` (370-400), `SkipState`, `ClassState`, `IgnoreState`, `PackageState`. -/
def step (v : Version) : St → Glob → Tok → Option (St × Glob)
  | .outer, g, t =>
    match t.ignoreUntil with
    | some u => some (.ignore u .outer, g)
    | none =>
      match t with
      | .lb => some (.outer, { g with brackets := g.brackets + 1 })
      | .rb => (g.close v).map fun g => (.outer, g)
      | .new => some (if g.classes ≠ [] then .skip (.anon 0 .outer) else .skip .outer, g)
      | .class_ | .interface | .enum =>
        some (.cls, { g with nextAnon := if g.classes = [] then 1 else g.nextAnon, stackBrackets := g.brackets :: g.stackBrackets })
      | .package => some (.package, g)
      | .dot => some (.skip .outer, g)
      | _ => some (.outer, g)
  | .scope n old, g, t =>
    match t.ignoreUntil with
    | some u => some (.ignore u (.scope n old), g)
    | none =>
      match t with
      | .lb => some (.scope (n + 1) old, g)
      | .rb => if n - 1 = 0 then g.popAnon.map fun g => (old, g) else some (.scope (n - 1) old, g)
      | .new => some (.skip (.anon 0 (.scope n old)), g)
      | .dot => some (.skip (.scope n old), g)
      | _ => some (.scope n old, g)
  | .anon l old, g, t =>
    match t with
    | .line => some (.ignore .nl (.anon l old), g)
    | .copen => some (.ignore .cclose (.anon l old), g)
    | .nl => some (.anon l old, g)
    | .generic _ => some (.anon l old, g)
    | .lp => some (.anon (l + 1) old, g)
    | t =>
      if 0 < l then
        match t with
        | .new => some (.skip (.anon 0 (.anon l old)), g)
        | .dq => some (.ignore .dq (.anon l old), g)
        | .sq => some (.ignore .sq (.anon l old), g)
        | .rp => some (.anon (l - 1) old, g)
        | _ => some (.anon l old, g)
      else
        match t with
        | .lb =>
          (g.addAnon v).bind fun g =>
            -- a fresh ScopeState reads the brace
            if v = .modern then some (.scope 1 old, g) else step v old g .lb
        | t => step v old g t
  | .skip old, g, _ => some (old, g)
  | .cls, g, t => if t = .nl then some (.cls, g) else (g.named t.text).map fun g => (.outer, g)
  | .ignore u old, g, t => some (if t = u then old else .ignore u old, g)
  | .package, g, t => some (.outer, { g with package := some t.text })

/-- The loop of `parse_java` (463-467). -/
def run (v : Version) : St → Glob → List Tok → Option (St × Glob)
  | s, g, [] => some (s, g)
  | s, g, t :: ts => (step v s g t).bind fun p => run v p.1 p.2 ts

/-- `parse_java` (455-470): the directory of the package and the names of the classes. -/
def parseJava (v : Version) (text : Str) : Option (Option Str × List Str) :=
  (run v .outer Glob.init (tokenize text)).map fun p =>
    (if p.2.package = some [] then none else p.2.package.map fun s => s.map fun c => if c = '.' then '/' else c, p.2.outputs)

end Verif.Java
