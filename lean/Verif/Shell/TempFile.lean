import Verif.Subst.Signed
/-!
# C86: long command lines through a temporary file

`TempFileMunge.__call__` (/repo/SCons/Platform/__init__.py:210-346), `quote_spaces`
(/repo/SCons/Subst.py:133-138).

Simplifications: `TEMPFILEPREFIX` is the default `@`, `TEMPFILEARGESCFUNC` the default
`quote_spaces`; encoding succeeds; the name of the temporary file is given by the
operating system (`mkstemp`) and contains no backslashes; `MAXLINELENGTH` is a number;
printing is left out; the temporary files are removed at the end of the run only
(286-290).
-/
namespace Verif.TempFile
open Verif.Subst

/-- `quote_spaces` (Subst.py:133-138). -/
def quoteSpaces (a : Str) : Str :=
  if a.contains ' ' || a.contains '\t' then '"' :: a ++ ['"'] else a

/-- `join_char.join(args)`. -/
def joinWith (j : Str) : List Str → Str
  | [] => []
  | [a] => a
  | a :: b :: l => a ++ j ++ joinWith j (b :: l)

/-- The contents of the file (Platform/__init__.py:258-260); `j` is `TEMPFILEARGJOIN`. -/
def fileText (j : Str) (args : List Str) : Str := joinWith j (args.map quoteSpaces) ++ ['\n']

/-- `node.attributes.tempfile_cmdlist` of the first target, by command
(239-251, 337-343), and the temporary files. -/
structure St (Node : Type) where
  memo : Node → Str → Option (List Str)
  files : Str → Option Str

structure Cfg where
  maxline : Nat
  join : Str

/-- The length that is compared with `MAXLINELENGTH` (229-233). -/
def lineLength (cmd : List Str) : Nat := (cmd.map List.length).sum + (cmd.length - 1)

/-- `TempFileMunge(cmd)(target, source, env, for_signature=False)`, 222-346: the value
that replaces the call, and the new state. `node` is the first target, `tmp` the name
`mkstemp` returns. -/
def call {Node : Type} [DecidableEq Node] (C : Cfg) (E : Env) (n : Nat) (lv : Vars) (S : St Node) (node : Node)
    (cmd : Str) (tmp : Str) : Except Err (Val × St Node) :=
  match substList E .cmd n lv (.str cmd) with
  | .error e => .error e
  | .ok lines =>
    -- 222: `subst_list(...)[0]`
    match lines with
    | [] => .error .user
    | words :: _ =>
      if lineLength words ≤ C.maxline then .ok (.str cmd, S)
      else
        match S.memo node cmd with
        | some l => .ok (.seq (l.map .str), S)
        | none =>
          match words with
          | [] => .error .user
          | prog :: args =>
            let l := [prog, '@' :: tmp]
            .ok (.seq (l.map .str),
              { memo := fun x c => if x = node ∧ c = cmd then some l else S.memo x c,
                files := fun f => if f = tmp then some (fileText C.join args) else S.files f })

/-- With `for_signature=True` the command itself is returned (211-218): the
construction variable is a callable with these two results. -/
def tempVal (v : Val) (cmd : Str) : Val := .fn v (.str cmd)

end Verif.TempFile
