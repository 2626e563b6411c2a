import Mathlib.Data.List.Basic
import Mathlib.Data.List.Infix

/-!
# Command lines and the shell (C54)

Models how the words of a command line reach the program: SCons/Subst.py 133-189 (`quote_spaces`, `CmdStringHolder.escape`, `escape_list`), 734-799 (`ListSubber.next_word`, `this_word`, `add_to_current_word`,
`add_new_word`), SCons/Action.py 1093-1096 (`CommandAction.execute`), SCons/Platform/posix.py 43-63 (`escape`, `subprocess_spawn`) and SCons/Platform/win32.py 218-221 (`escape`).

The specification is a reader for the shell's quoting rules (POSIX, XCU 2.2 and 2.3) and one for the rules by which Windows programs take their command line apart.
-/

namespace Verif.Shell

abbrev Str := List Char

/-! ## The model -/

/-- `s.replace(c, by)` for one character `c`. -/
def replace (c : Char) (by_ : Str) (s : Str) : Str := s.flatMap fun x => if x = c then by_ else [x]

/-- posix.py 43-54. -/
def posixEscape (arg : Str) : Str :=
  let arg := replace '\\' ['\\', '\\'] arg
  let arg := replace '"' ['\\', '"'] arg
  let arg := replace '$' ['\\', '$'] arg
  '"' :: arg ++ ['"']

/-- win32.py 218-221; `none` for the IndexError of `x[-1]` on the empty string. -/
def winEscape (x : Str) : Option Str :=
  match x.getLast? with
  | none => none
  | some c => some ('"' :: (if c = '\\' then x ++ ['\\'] else x) ++ ['"'])

/-- Subst.py 133-138. -/
def quoteSpaces (arg : Str) : Str := if ' ' ∈ arg ∨ '\t' ∈ arg then '"' :: arg ++ ['"'] else arg

/-- A `CmdStringHolder` (Subst.py 140-155). -/
structure Word where
  data : Str
  literal : Bool
deriving DecidableEq

/-- `CmdStringHolder.escape` (Subst.py 157-176). -/
def Word.escape (esc : Str → Str) (w : Word) : Str :=
  if w.literal then esc w.data else if ' ' ∈ w.data ∨ '\t' ∈ w.data then quoteSpaces w.data else w.data

/-- What `sh -c` is given (Action.py 1095-1096, posix.py 62-63): `' '.join(escape_list(cmd_line, escape))`. -/
def commandLine (ws : List Word) : Str := [' '].intercalate (ws.map (Word.escape posixEscape))

/-- What a word is made of while a command is expanded: text of the command or of variables, or an object with `is_literal()`: a file name, a `Literal`. -/
inductive Piece where
  | text (s : Str)
  | file (s : Str)
deriving DecidableEq

def Piece.str : Piece → Str
  | .text s | .file s => s

/-- `ListSubber.literal` (Subst.py 801-806). -/
def Piece.literal : Piece → Bool
  | .text _ => false
  | .file _ => true

/-- `add_new_word` (Subst.py 793-799); the words of the line are kept in order. -/
def addNewWord (ws : List Word) (p : Piece) : List Word := ws ++ [⟨p.str, p.literal⟩]

/-- `add_to_current_word` (Subst.py 745-791). -/
def addToCurrentWord (ws : List Word) (p : Piece) : List Word :=
  match ws.getLast? with
  | none => addNewWord ws p
  | some w =>
    if w.data.getLast?.getD '\x00' ∈ ['<', '>', '|'] then addNewWord ws p
    else ws.dropLast ++ [⟨w.data ++ p.str, false⟩]

/-- One word of a command with the pieces it is made of: the first is a new word, the others are added to it (Subst.py 672, 724-732). -/
def addWord (ws : List Word) : List Piece → List Word
  | [] => ws
  | p :: ps => ps.foldl addToCurrentWord (addNewWord ws p)

/-- A command line given by the pieces of its words. -/
def expand (cmd : List (List Piece)) : List Word := cmd.foldl addWord []

/-! ## Specification: how the shell reads a line -/

/-- Characters that mean something to the shell outside quotes (XCU 2.2). -/
def special : List Char := "|&;<>()$`\\\"' \t\n*?[]#~{}!".toList

/-- A word read by the shell: its text after quote removal, and which of its characters were not quoted. -/
structure Tok where
  text : Str
  bare : Str
deriving DecidableEq

def Tok.quoted (t : Tok) (c : Char) : Tok := ⟨t.text ++ [c], t.bare⟩
def Tok.plain (t : Tok) (c : Char) : Tok := ⟨t.text ++ [c], t.bare ++ [c]⟩

inductive Mode where
  | between
  | word (t : Tok)
  | double (t : Tok)
  | single (t : Tok)

def Mode.tok : Mode → Tok
  | .between => ⟨[], []⟩
  | .word t | .double t | .single t => t

/-- The shell's words; `none` when the line has anything but words: an operator, an expansion, a pattern, a comment, or an open quote.
Within double quotes a backslash quotes only `$`, a backquote, `"`, itself and the end of the line; within single quotes nothing is special. -/
def tokens : Mode → Str → Option (List Tok)
  | .between, [] => some []
  | .word t, [] => some [t]
  | .double _, [] | .single _, [] => none
  | .double t, c :: r =>
    if c = '"' then tokens (.word t) r
    else if c = '$' ∨ c = '`' then none
    else if c = '\\' then
      match r with
      | [] => none
      | d :: r' =>
        if d = '$' ∨ d = '`' ∨ d = '"' ∨ d = '\\' then tokens (.double (t.quoted d)) r'
        else if d = '\n' then tokens (.double t) r'
        else tokens (.double ((t.quoted '\\').quoted d)) r'
    else tokens (.double (t.quoted c)) r
  | .single t, c :: r => if c = '\'' then tokens (.word t) r else tokens (.single (t.quoted c)) r
  | m, c :: r =>
    if c = ' ' ∨ c = '\t' then
      match m with
      | .word t => (tokens .between r).map (t :: ·)
      | _ => tokens .between r
    else if c = '"' then tokens (.double m.tok) r
    else if c = '\'' then tokens (.single m.tok) r
    else if c = '\\' then
      match r with
      | [] => none
      | d :: r' => if d = '\n' then tokens m r' else tokens (.word (m.tok.quoted d)) r'
    else if c ∈ special then none
    else tokens (.word (m.tok.plain c)) r

/-- The reserved words (XCU 2.4). -/
def reserved : List Str := ["!", "{", "}", "case", "do", "done", "elif", "else", "esac", "fi", "for", "if", "in", "then", "until", "while"].map String.toList

/-- The arguments of the program (the first is the program's name) when the shell is given this line: `none` when it is not a plain call of one program. -/
def shell (line : Str) : Option (List Str) :=
  match tokens .between line with
  | none => none
  | some [] => some []
  | some (t :: ts) => if '=' ∈ t.bare ∨ t.bare ∈ reserved then none else some ((t :: ts).map Tok.text)

/-! ## Specification: how Windows programs read their command line -/

/-- The argument that begins inside double quotes, with `n` backslashes just read: `2n` backslashes before a quote stand for `n`, and one more makes the quote an ordinary character; the result is the
argument and what follows it. -/
def winQuoted (arg : Str) (n : Nat) : Str → Option (Str × Str)
  | [] => none
  | c :: r =>
    if c = '\\' then winQuoted arg (n + 1) r
    else if c = '"' then
      if n % 2 = 0 then some (arg ++ List.replicate (n / 2) '\\', r) else winQuoted (arg ++ List.replicate (n / 2) '\\' ++ ['"']) 0 r
    else winQuoted (arg ++ List.replicate n '\\' ++ [c]) 0 r

/-- The argument a line stands for that starts with a double quote and is one argument. -/
def winArg : Str → Option Str
  | '"' :: r =>
    match winQuoted [] 0 r with
    | some (a, []) => some a
    | _ => none
  | _ => none

end Verif.Shell
