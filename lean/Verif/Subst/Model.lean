/-
Variable substitution: SCons/Subst.py (`scons_subst`, `scons_subst_list`).

Strings are lists of characters.  What is modelled, with the lines in
/repo/SCons/Subst.py, is said at each definition.  Simplifications:

* a callable is a pair of results (`for_signature` false / true); it is assumed
  to accept the four expected arguments (a callable that does not is an `obj`);
* `UserString`, `CmdStringHolder` arguments and the `literal` flag of words are
  not modelled; a word is its text;
* Python's `eval` of a key that names no variable is an arbitrary function of
  the key and of the variables it can see;
* a custom `conv` is not modelled (the default `_strconv[mode]` is).
-/
namespace Verif.Subst

abbrev Str := List Char

/-- SUBST_CMD, SUBST_RAW, SUBST_SIG (Subst.py:825-827). -/
inductive Mode where
  | cmd | raw | sig
  deriving DecidableEq, Repr

/-- The values a construction variable can have. `obj a b` is any other object:
`a` is its `str()`, `b` its signature text (`to_String_for_subst` 
/repo/SCons/Util/sctypes.py:250-270, `to_String_for_signature` 273-292). `fn v w` is a callable
that returns `v` when called with `for_signature=False` and `w` otherwise
(Subst.py:494-512). -/
inductive Val where
  | none
  | str (s : Str)
  | seq (l : List Val)
  | obj (s sg : Str)
  | fn (v vsig : Val)

/-- What `eval(key, gvars, lvars)` does (Subst.py:456-463): raise an exception
that is not allowed, raise an allowed one (NameError, IndexError by default),
or return a value. -/
inductive EvalRes where
  | err
  | allowed
  | val (v : Val)

/-- A name space (`gvars` or `lvars`). -/
abbrev Vars := Str → Option Val

/-- `{**lvars, k: v}`: Subst.py:481-483 (`lv = lvars.copy(); lv[var] = v`). -/
def Vars.set (lv : Vars) (k : Str) (v : Val) : Vars :=
  fun k' => if k' = k then some v else lv k'

/-- What Python sees when it evaluates with globals `g` and locals `lv`. -/
def Vars.over (lv g : Vars) : Vars :=
  fun k => match lv k with
    | some v => some v
    | .none => g k

/-- The construction environment. `noneOk`: `NameError in AllowableExceptions`
(Subst.py:465). `uw`: which characters outside ASCII the regular expression
class `\w` matches. -/
structure Env where
  gvars : Vars
  eval : Str → Vars → EvalRes
  noneOk : Bool
  uw : Char → Bool

/-! ### Tokens (Subst.py:881-883) -/

/-- The class `\s` of Python's `re` on `str`, and what `str.strip` removes. -/
def isSpace (c : Char) : Bool :=
  let n := c.toNat
  (9 ≤ n && n ≤ 13) || (28 ≤ n && n ≤ 32) || n = 0x85 || n = 0xa0 || n = 0x1680 ||
  (0x2000 ≤ n && n ≤ 0x200a) || n = 0x2028 || n = 0x2029 || n = 0x202f || n = 0x205f ||
  n = 0x3000

/-- `[_a-zA-Z]` -/
def isIdStart (c : Char) : Bool := c = '_' || c.isAlpha

/-- `[\.\w]` -/
def isIdRest (uw : Char → Bool) (c : Char) : Bool :=
  c = '.' || c = '_' || c.isAlphanum || (128 ≤ c.toNat && uw c)

/-- `[^\s$]` -/
def isWordChar (c : Char) : Bool := !isSpace c && c != '$'

/-- The tokens of `_separate_args` (Subst.py:867-883). `_dollar_exps` matches the
first four kinds; the other three are the text it leaves alone. -/
inductive Tok where
  | esc                              -- `$$`
  | opn                              -- `$(`
  | cls                              -- `$)`
  | ref (braced : Bool) (key : Str)  -- `$key` or `${key}`
  | ws (s : Str)                     -- `\s+`
  | word (s : Str)                   -- `[^\s$]+`
  | lone                             -- `$`
  deriving DecidableEq, Repr

/-- The text of a token. -/
def Tok.text : Tok → Str
  | .esc => ['$', '$']
  | .opn => ['$', '(']
  | .cls => ['$', ')']
  | .ref false k => '$' :: k
  | .ref true k => '$' :: '{' :: k ++ ['}']
  | .ws s => s
  | .word s => s
  | .lone => ['$']

/-- The match of the expression `_separate_args` at a `$` (Subst.py:881). -/
def dollarTok (uw : Char → Bool) : Str → Tok × Str
  | [] => (.lone, [])
  | c :: r =>
    if c = '$' then (.esc, r)
    else if c = '(' then (.opn, r)
    else if c = ')' then (.cls, r)
    else if isIdStart c then
      (.ref false (c :: r.takeWhile (isIdRest uw)), r.dropWhile (isIdRest uw))
    else if c = '{' && r.contains '}' then
      (.ref true (r.takeWhile (· != '}')), (r.dropWhile (· != '}')).tail)
    else (.lone, c :: r)

/-- The match of `_separate_args` at the start of `c :: r` (Subst.py:883). -/
def nextTok (uw : Char → Bool) (c : Char) (r : Str) : Tok × Str :=
  if c = '$' then dollarTok uw r
  else if isSpace c then (.ws (c :: r.takeWhile isSpace), r.dropWhile isSpace)
  else (.word (c :: r.takeWhile isWordChar), r.dropWhile isWordChar)

def tokF (uw : Char → Bool) : Nat → Str → List Tok
  | _, [] => []
  | 0, _ => []
  | n + 1, c :: r => (nextTok uw c r).1 :: tokF uw n (nextTok uw c r).2

/-- `_separate_args.findall(s)` (Subst.py:883, 540, 715). The number of steps is
bounded by the length, because every token is non-empty. -/
def tokenize (uw : Char → Bool) (s : Str) : List Tok := tokF uw s.length s

/-! ### StringSubber (Subst.py:405-550) -/

inductive Err where
  | user       -- an exception raised to the caller
  | fuel       -- artefact of the model: not enough steps given
  deriving DecidableEq, Repr

/-- `None` is an error unless NameError is allowed, else nothing
(Subst.py:465-469, 650-653). -/
def checkNone (noneOk : Bool) : Val → Except Err (Option Val)
  | .none => if noneOk then .ok .none else .error .user
  | v => .ok (some v)

/-- Look up a key: local variables, then global ones, then `eval`
(Subst.py:449-469, and 637-656 for lists). `.ok none` is "expands to nothing". -/
def lookup (E : Env) (lv : Vars) (key : Str) : Except Err (Option Val) :=
  match lv key with
  | some v => checkNone E.noneOk v
  | .none =>
    match E.gvars key with
    | some v => checkNone E.noneOk v
    | .none =>
      match E.eval key (lv.over E.gvars) with
      | .err => .error .user
      | .allowed => .ok .none
      | .val v => checkNone E.noneOk v

/-- `key.partition('.')[0]` (Subst.py:482). -/
def baseOf (key : Str) : Str := key.takeWhile (· != '.')

/-- The local variables for the expansion of the value of `key`
(Subst.py:481-483, 669-671). -/
def blank (lv : Vars) (key : Str) : Vars := lv.set (baseOf key) (.str [])

/-- A string without `$` (Subst.py:473). -/
def Val.plain? : Val → Option Str
  | .str s => if '$' ∈ s then .none else some s
  | _ => .none

/-- `' '.join(l)` -/
def joinSp : List Str → Str
  | [] => []
  | [s] => s
  | s :: t :: l => s ++ ' ' :: joinSp (t :: l)

/-- The text of one token, given how to substitute values (`sub_match`,
Subst.py:527, and `StringSubber.expand`, 419-484). -/
def tokText (E : Env) (rec : Vars → Val → Except Err Str) (lv : Vars) : Tok → Except Err Str
  | .ref _ key => do
    match ← lookup E lv key with
    | .none => pure []
    | some v =>
      match v.plain? with
      | some s => pure s
      | .none => rec (blank lv key) v
  | t => pure t.text

/-- `conv(StringSubber.substitute(v, lvars))` (Subst.py:486-550), with a bound
on the depth of calls. -/
def substV (E : Env) (m : Mode) : Nat → Vars → Val → Except Err Str
  | 0, _, _ => .error .fuel
  | _ + 1, _, .none => .ok []
  | n + 1, lv, .str s => do
    let l ← (tokenize E.uw s).mapM (tokText E (substV E m n) lv)
    pure l.flatten
  | _ + 1, _, .obj a b => .ok (if m = .sig then b else a)
  | n + 1, lv, .seq l => do
    let l ← l.mapM (substV E m n lv)
    pure (joinSp l)
  | n + 1, lv, .fn v w => substV E m n lv (if m = .sig then w else v)

/-! ### Post-processing (Subst.py:829-857, 889-891, 961-991) -/

/-- `result.replace('$$', '$')` (Subst.py:983). -/
def collapse : Str → Str
  | '$' :: '$' :: r => '$' :: collapse r
  | c :: r => c :: collapse r
  | [] => []

/-- `_rm.sub('', s)`, `_rm = \$[()]` (Subst.py:829, 973). -/
def rmMarkers : Str → Str
  | '$' :: '(' :: r => rmMarkers r
  | '$' :: ')' :: r => rmMarkers r
  | c :: r => c :: rmMarkers r
  | [] => []

/-- One element of the list returned by `_rm_split.split`. -/
inductive Piece where
  | text (s : Str) | opn | cls
  deriving DecidableEq, Repr

def consHead (c : Char) : List Piece → List Piece
  | .text t :: l => .text (c :: t) :: l
  | l => .text [c] :: l

/-- `_rm_split.split(s)`, `_rm_split = (?<!\$)(\$[()])` (Subst.py:833, 968).
`pd`: the character before is a `$`. -/
def splitM : Bool → Str → List Piece
  | _, [] => [.text []]
  | pd, c :: r =>
    if c = '$' && !pd then
      match r with
      | '(' :: r' => .text [] :: .opn :: splitM false r'
      | ')' :: r' => .text [] :: .cls :: splitM false r'
      | r => consHead c (splitM true r)
    else consHead c (splitM (c = '$') r)

/-- `_remove_list` (Subst.py:841-855), `depth` the value of the local variable. -/
def removeGo : Nat → List Piece → Option (List Str)
  | 0, [] => some []
  | _ + 1, [] => .none
  | d, .opn :: l => removeGo (d + 1) l
  | 0, .cls :: _ => .none
  | d + 1, .cls :: l => removeGo d l
  | 0, .text t :: l => (removeGo 0 l).map (t :: ·)
  | d + 1, .text _ :: l => removeGo (d + 1) l

/-- `[^{]*}` matches at the start of the string (the look-ahead in Subst.py:891). -/
def closesBrace : Str → Bool
  | [] => false
  | c :: r => if c = '}' then true else if c = '{' then false else closesBrace r

/-- `_space_sep.sub(' ', s)`, `_space_sep = [\t ]+(?![^{]*})` (Subst.py:891, 977):
a run of tabs and blanks is replaced by one blank unless a closing brace follows
before any opening one. `inRun`: the character before belongs to the same run. -/
def compress : Bool → Str → Str
  | _, [] => []
  | inRun, c :: r =>
    if c = ' ' || c = '\t' then
      if closesBrace r then c :: compress false r
      else if inRun then compress true r
      else ' ' :: compress true r
    else c :: compress false r

/-- `str.strip()` (Subst.py:977). -/
def strip (s : Str) : Str := ((s.dropWhile isSpace).reverse.dropWhile isSpace).reverse

/-- Lines 975-983: compress, strip, replace. -/
def finish (s : Str) : Str := collapse (strip (compress false s))

/-- Subst.py:961-983 for a string result. -/
def post (m : Mode) (r : Str) : Except Err Str :=
  match m with
  | .raw => .ok (collapse r)
  | .cmd => .ok (finish (rmMarkers r))
  | .sig =>
    match removeGo 0 (splitM false r) with
    | .none => .error .user
    | some l => .ok (finish (joinSp l))

/-- `scons_subst(s, env, mode, lvars=lv)` for a string (Subst.py:894-991), with at
most `n` nested calls. -/
def subst (E : Env) (m : Mode) (n : Nat) (lv : Vars) (s : Str) : Except Err Str :=
  if '$' ∈ s then do
    let r ← substV E m n lv (.str s)
    post m r
  else .ok s

/-! ### ListSubber (Subst.py:552-817) -/

/-- The result under construction: finished command lines, the last line, the
`append` method in force (`glue`: `add_to_current_word`), `in_strip`. -/
structure LS where
  done : List (List Str)
  cur : List Str
  glue : Bool
  strip : Bool
  deriving DecidableEq, Repr

/-- `ListSubber.__init__` (Subst.py:569-581). -/
def LS.init : LS := { done := [], cur := [], glue := false, strip := false }

/-- `self.data` (Subst.py:1055). -/
def LS.result (st : LS) : List (List Str) := st.done ++ [st.cur]

/-- `next_line` (Subst.py:729-734). -/
def LS.nextLine (st : LS) : LS :=
  { st with done := st.done ++ [st.cur], cur := [], glue := false }

/-- `next_word` (Subst.py:741-743). -/
def LS.nextWord (st : LS) : LS := { st with glue := false }

/-- `this_word` (Subst.py:736-739). -/
def LS.thisWord (st : LS) : LS := { st with glue := true }

/-- Is the last character one of `<>|`? (Subst.py:768-772). -/
def isRedir (w : Str) : Bool :=
  match w.getLast? with
  | some c => c = '<' || c = '>' || c = '|'
  | .none => false

/-- `add_new_word(x)` (Subst.py:793-800); `x` is already converted. -/
def LS.addNew (m : Mode) (st : LS) (x : Str) : LS :=
  if st.strip && m = .sig then { st with glue := true }
  else { st with cur := st.cur ++ [x], glue := true }

/-- `add_to_current_word(x)` (Subst.py:745-791). `x` is what is glued to a word,
`x'` what is used for a new word: they differ only for objects with a signature
text of their own, because the concatenation on line 775 uses `str(x)`. -/
def LS.addCur (m : Mode) (st : LS) (x x' : Str) : LS :=
  if st.strip && m = .sig then st
  else
    match st.cur.getLast? with
    | .none => st.addNew m x'
    | some w =>
      if isRedir w then st.addNew m x'
      else { st with cur := st.cur.dropLast ++ [w ++ x] }

/-- `self.append(x)`. -/
def LS.append2 (m : Mode) (st : LS) (x x' : Str) : LS :=
  if st.glue then st.addCur m x x' else st.addNew m x'

def LS.append (m : Mode) (st : LS) (x : Str) : LS := st.append2 m x x

/-- `open_strip`, `close_strip` (Subst.py:809-817, 576-579). -/
def LS.mark (m : Mode) (st : LS) (b : Bool) : LS :=
  let st := if m = .raw then st.append m (if b then ['$', '('] else ['$', ')']) else st
  { st with strip := b }

/-- `a[0] in ' \t\n\r\f\v'` (Subst.py:717). -/
def isAsciiSpace (c : Char) : Bool := c = ' ' || (9 ≤ c.toNat && c.toNat ≤ 13)

/-- `ListSubber.expanded` (Subst.py:583-603). -/
def Val.expanded? : Val → Option Str
  | .str [] => .none
  | .str s => if s.all isWordChar then some s else .none
  | _ => .none

/-- One token of a string (Subst.py:715-725 and `expand`, 615-673). -/
def tokStep (E : Env) (m : Mode) (rec : Vars → Bool → Val → LS → Except Err LS) (lv : Vars)
    (wl : Bool) (st : LS) : Tok → Except Err LS
  | .esc => .ok (st.append m ['$'])
  | .lone => .ok (st.append m ['$'])
  | .word s => .ok (st.append m s)
  | .opn => .ok (st.mark m true)
  | .cls => .ok (st.mark m false)
  | .ws s =>
    if (s.head?.map isAsciiSpace).getD false then
      if '\n' ∈ s then .ok st.nextLine
      else if wl then .ok (st.append m s)
      else .ok st.nextWord
    else .ok (st.append m s)
  | .ref _ key => do
    match ← lookup E lv key with
    | .none => pure st
    | some v =>
      match v.expanded? with
      | some s => pure (st.append m s)
      | .none => do
        let st ← rec (blank lv key) false v st
        pure st.thisWord

/-- `ListSubber.substitute(v, lvars, within_list)` (Subst.py:605-727). -/
def substL (E : Env) (m : Mode) : Nat → Vars → Bool → Val → LS → Except Err LS
  | 0, _, _, _, _ => .error .fuel
  | _ + 1, _, _, .none, st => .ok st.thisWord
  | n + 1, lv, wl, .str s, st =>
    (tokenize E.uw s).foldlM (tokStep E m (substL E m n) lv wl) st
  | _ + 1, _, _, .obj a b, st => .ok (st.append2 m a (if m = .sig then b else a))
  | n + 1, lv, _, .seq l, st =>
    l.foldlM (fun st v => do
      let st ← substL E m n lv true v st
      pure st.nextWord) st
  | n + 1, lv, wl, .fn v w, st => substL E m n lv wl (if m = .sig then w else v) st

/-- `scons_subst_list(v, env, mode, lvars=lv)` (Subst.py:993-1055). -/
def substList (E : Env) (m : Mode) (n : Nat) (lv : Vars) (v : Val) :
    Except Err (List (List Str)) := do
  let st ← substL E m n lv false v .init
  pure st.result

end Verif.Subst
