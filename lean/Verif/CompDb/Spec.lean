import Verif.CompDb.Model

/-!
# The compilation database (C114): the specification

A reader for JSON texts, as far as a list of objects with texts for values goes, and what the history of the SConscript files says about which compilations are watched.
-/

namespace Verif.CompDb

/-! ## JSON (RFC 8259) -/

inductive Tok where
  | lbrack | rbrack | lbrace | rbrace | comma | colon
  | str (s : Str)
  deriving DecidableEq, Repr

/-- The UTF-16 code units of a character. -/
def utf16 (c : Char) : List Nat := if c.toNat < 0x10000 then [c.toNat] else [0xd800 + (c.toNat - 0x10000) / 0x400, 0xdc00 + (c.toNat - 0x10000) % 0x400]

def isHigh (n : Nat) : Bool := 0xd800 ≤ n ∧ n < 0xdc00
def isLow (n : Nat) : Bool := 0xdc00 ≤ n ∧ n < 0xe000

/-- The text that code units stand for; none for a lone surrogate. -/
def decode16 : List Nat → Option Str
  | [] => some []
  | h :: l :: r =>
    if isHigh h then (if isLow l then (decode16 r).map (Char.ofNat (0x10000 + (h - 0xd800) * 0x400 + (l - 0xdc00)) :: ·) else none)
    else if isLow h then none else (decode16 (l :: r)).map (Char.ofNat h :: ·)
  | [n] => if isHigh n || isLow n then none else some [Char.ofNat n]

def hexVal (c : Char) : Option Nat :=
  let n := c.toNat
  if 48 ≤ n ∧ n ≤ 57 then some (n - 48) else if 97 ≤ n ∧ n ≤ 102 then some (n - 87) else if 65 ≤ n ∧ n ≤ 70 then some (n - 55) else none

def hex4 (a b c d : Char) : Option Nat :=
  match hexVal a, hexVal b, hexVal c, hexVal d with
  | some a, some b, some c, some d => some (4096 * a + 256 * b + 16 * c + d)
  | _, _, _, _ => none

/-- The one-letter escapes. -/
def escapeVal (c : Char) : Option Nat :=
  if c = '"' ∨ c = '\\' ∨ c = '/' then some c.toNat else if c = 'b' then some 8 else if c = 'f' then some 12 else if c = 'n' then some 10 else if c = 'r' then some 13 else if c = 't' then some 9 else none

def punct (c : Char) : Option Tok :=
  if c = '[' then some .lbrack else if c = ']' then some .rbrack else if c = '{' then some .lbrace else if c = '}' then some .rbrace else if c = ',' then some .comma else if c = ':' then some .colon else none

/-- The tokens of a text; `some u` while inside a string whose code units so far are `u`. -/
def lex : Option (List Nat) → Str → Option (List Tok)
  | none, [] => some []
  | some _, [] => none
  | none, c :: r =>
    if c = ' ' ∨ c = '\n' ∨ c = '\r' ∨ c = '\t' then lex none r
    else if c = '"' then lex (some []) r
    else match punct c with
      | some t => (lex none r).map (t :: ·)
      | none => none
  | some u, '\\' :: 'u' :: a :: b :: c :: d :: r =>
    match hex4 a b c d with
    | some n => lex (some (u ++ [n])) r
    | none => none
  | some u, '\\' :: e :: r =>
    match escapeVal e with
    | some n => lex (some (u ++ [n])) r
    | none => none
  | some u, c :: r =>
    if c = '"' then
      match decode16 u with
      | some s => (lex none r).map (.str s :: ·)
      | none => none
    else if c.toNat < 32 ∨ c = '\\' then none
    else lex (some (u ++ utf16 c)) r

/-- The rest of a list of objects, inside an object with the members `cur` so far. -/
def members (cur : List (Str × Str)) : List Tok → Option (List (List (Str × Str)))
  | .str k :: .colon :: .str v :: .comma :: r => members (cur ++ [(k, v)]) r
  | .str k :: .colon :: .str v :: .rbrace :: .comma :: .lbrace :: r => (members [] r).map ((cur ++ [(k, v)]) :: ·)
  | [.str k, .colon, .str v, .rbrace, .rbrack] => some [cur ++ [(k, v)]]
  | _ => none

/-- A JSON text with a list of objects that have texts for values. -/
def readJson (s : Str) : Option (List (List (Str × Str))) :=
  match lex none s with
  | some [.lbrack, .rbrack] => some []
  | some (.lbrack :: .lbrace :: r) => members [] r
  | _ => none

/-- What a tool finds in the file about a compilation. -/
def Record.members (r : Record) : List (Str × Str) :=
  [("command".toList, r.command), ("directory".toList, r.directory), ("file".toList, r.file), ("output".toList, r.output)]

/-! ## Which compilations are watched -/

/-- The number of environments, in a history with the last event first. -/
def envCount : List Ev → Nat
  | [] => 0
  | .newEnv :: h | .clone _ :: h => envCount h + 1
  | _ :: h => envCount h

/-- Which object builders an environment has: the moment they were made, when a tool was first loaded into the environment or into the one it was cloned from, before it was cloned. The last event comes first. -/
def builders : List Ev → Nat → Option Nat
  | [], _ => none
  | .newEnv :: h, e => if e = envCount h then none else builders h e
  | .clone p :: h, e => if e = envCount h then builders h p else builders h e
  | .tool e' _ :: h, e => if e = e' ∧ e < envCount h ∧ builders h e = none then some h.length else builders h e
  | .compile .. :: h, e => builders h e

/-- The language tool that a suffix belongs to. -/
def language (suf : Str) : Option Tool :=
  if suf ∈ [".c", ".m"].map String.toList then some .cc
  else if suf ∈ [".cpp", ".cc", ".cxx", ".c++", ".C++", ".mm", ".C"].map String.toList then some .cxx
  else if suf ∈ [".s", ".asm", ".ASM", ".spp", ".SPP", ".sx", ".S"].map String.toList then some .as
  else none

/-- How often the database's tool has been loaded, for the builders made at moment `b`, since the suffix's language was loaded for them; none when it never was. The last event comes first. -/
def loads (b : Nat) (suf : Str) : List Ev → Option Nat
  | [] => none
  | .tool e t :: h =>
    if builders (.tool e t :: h) e = some b then
      if language suf = some t then some 0
      else if t = .compdb then (loads b suf h).map (· + 1)
      else loads b suf h
    else loads b suf h
  | _ :: h => loads b suf h

/-- How often a compilation with this environment and suffix is recorded, after a history; none when there is no such builder. -/
def copies (h : List Ev) (e : Nat) (suf : Str) : Option Nat := (builders h e).bind fun b => loads b suf h

/-- The variable with the command for a suffix. -/
def command (shared : Bool) (suf : Str) : Option Cmd :=
  match language suf, shared with
  | some .cc, false => some .cccom
  | some .cc, true => some .shcccom
  | some .cxx, false => some .cxxcom
  | some .cxx, true => some .shcxxcom
  | some .as, _ => some (if suf ∈ [".s", ".asm", ".ASM"].map String.toList then .ascom else .asppcom)
  | _, _ => none

/-- The entries that a history leads to, `n` telling how many for each compilation; the last event comes first. -/
def expected (n : List Ev → Nat → Str → Option Nat) : List Ev → List Entry
  | [] => []
  | .compile sh t src suf ce :: h =>
    expected n h ++ (match n h ce.env suf, command sh suf with | some k, some c => List.replicate k ⟨t, src, ce, c⟩ | _, _ => [])
  | _ :: h => expected n h

end Verif.CompDb
