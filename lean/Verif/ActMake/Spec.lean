import Verif.ActMake.Model

/-!
# Making actions (C115): the specification

What is to be run for an action as it was written, and what running commands one after the other does.
-/

namespace Verif.ActMake

/-- A step of what was written: something to run, or an object that is no action. -/
inductive Step where
  | run (p : Prim)
  | bad
  deriving DecidableEq, Repr

/-- The steps one after the other, up to the first that fails; empty commands are nothing. -/
def runSteps (W : World) : List Step → Result
  | [] => ([], .ok)
  | .bad :: _ => ([], .error)
  | .run (.text []) :: r | .run (.words []) :: r => runSteps W r
  | .run p :: r => if W.fails p then ([p], .failed) else (p :: (runSteps W r).1, (runSteps W r).2)

/-- The name of a variable. -/
def Ident (v : Str) : Prop := ∃ c r, v = c :: r ∧ (c = '_' ∨ ('a' ≤ c ∧ c ≤ 'z') ∨ ('A' ≤ c ∧ c ≤ 'Z')) ∧
  ∀ d ∈ r, d = '_' ∨ ('a' ≤ d ∧ d ≤ 'z') ∨ ('A' ≤ d ∧ d ≤ 'Z') ∨ ('0' ≤ d ∧ d ≤ '9')

/-- A text that is nothing but a variable: `$V` or `${V}`. -/
def IsRef (s v : Str) : Prop := Ident v ∧ (s = '$' :: v ∨ s = ['$', '{'] ++ v ++ ['}'])

/-- The lines of a text. -/
def IsLines (s : Str) (ls : List Str) : Prop := ls ≠ [] ∧ (∀ l ∈ ls, '\n' ∉ l) ∧ ['\n'].intercalate ls = s

/-- Values that no action can be made from. -/
inductive Bad : Val → Prop
  | node (s : Str) : Bad (.node s)
  | num : Bad .num
  | obj : Bad .obj
  | numItem (l : List Val) : Val.num ∈ l → Bad (.list l)
  | nested (l : List Val) (ws us : List Val) : Val.list ws ∈ l → Val.list us ∈ ws → Bad (.list l)

/-- The words of a command given as a list. -/
inductive IsWords : List Val → List Str → Prop
  | nil : IsWords [] []
  | str (s : Str) {l : List Val} {ws : List Str} : IsWords l ws → IsWords (.str s :: l) (s :: ws)
  | node (s : Str) {l : List Val} {ws : List Str} : IsWords l ws → IsWords (.node s :: l) (s :: ws)

/-- What is written: an action object, several, a variable, lines of text, a value, the items of a list. -/
inductive Thing where
  | act (a : Act)
  | acts (l : List Act)
  | var (v : Str)
  | lines (ls : List Str)
  | val (v : Val)
  | items (l : List Val)

/-- What is to be run, in order, without the keyword `generator`: a text is its lines; a line that is nothing but a variable is what the variable has: its text if that is one line, otherwise the action it is, and nothing
if it does not exist; a list is its items; a list in a list is a command; a function is called; a generator is what it returns; objects that are no actions are left out of lists. -/
inductive Means (W : World) : Thing → List Step → Prop
  -- action objects
  | cmd (s : Str) : Means W (.act (.cmd s)) [.run (.text s)]
  | words (ws : List Str) : Means W (.act (.words ws)) [.run (.words ws)]
  | fn (f : Nat) : Means W (.act (.fn f)) [.run (.fn f)]
  | list {l : List Act} {st : List Step} : Means W (.acts l) st → Means W (.act (.list l)) st
  | gen {f : Nat} {st : List Step} : Means W (.val (W.gen f)) st → Means W (.act (.gen f)) st
  | genBad {f : Nat} : Bad (W.gen f) → Means W (.act (.gen f)) [.bad]
  | lazy {v : Str} {st : List Step} : Means W (.var v) st → Means W (.act (.lazy v false)) st
  | nil : Means W (.acts []) []
  | cons {a : Act} {l : List Act} {s t : List Step} : Means W (.act a) s → Means W (.acts l) t → Means W (.acts (a :: l)) (s ++ t)
  -- variables
  | varText {v s : Str} : W.env v = some (.str s) → '\n' ∉ s → Means W (.var v) [.run (.var v)]
  | varVal {v : Str} {c : Val} {st : List Step} : W.env v = some c → (∀ s, c = .str s → '\n' ∈ s) → Means W (.val c) st → Means W (.var v) st
  | varNone {v : Str} : W.env v = none → Means W (.var v) []
  | varBad {v : Str} {c : Val} : W.env v = some c → Bad c → Means W (.var v) [.bad]
  -- texts
  | noLines : Means W (.lines []) []
  | refLine {l v : Str} {ls : List Str} {s t : List Step} : IsRef l v → Means W (.var v) s → Means W (.lines ls) t → Means W (.lines (l :: ls)) (s ++ t)
  | textLine {l : Str} {ls : List Str} {t : List Step} : (∀ v, ¬ IsRef l v) → Means W (.lines ls) t → Means W (.lines (l :: ls)) (.run (.text l) :: t)
  -- values
  | str {s : Str} {ls : List Str} {st : List Step} : IsLines s ls → Means W (.lines ls) st → Means W (.val (.str s)) st
  | func (f : Nat) : Means W (.val (.fn f)) [.run (.fn f)]
  | obj {a : Act} {st : List Step} : Means W (.act a) st → Means W (.val (.act a)) st
  | items {l : List Val} {st : List Step} : Means W (.items l) st → Means W (.val (.list l)) st
  | noItems : Means W (.items []) []
  | skipNode {s : Str} {l : List Val} {st : List Step} : Means W (.items l) st → Means W (.items (.node s :: l)) st
  | skipObj {l : List Val} {st : List Step} : Means W (.items l) st → Means W (.items (.obj :: l)) st
  | command {ws : List Val} {us : List Str} {l : List Val} {st : List Step} : IsWords ws us → Means W (.items l) st → Means W (.items (.list ws :: l)) (.run (.words us) :: st)
  | item {v : Val} {l : List Val} {s t : List Step} : (∀ l', v ≠ .list l') → Means W (.val v) s → Means W (.items l) t → Means W (.items (v :: l)) (s ++ t)

end Verif.ActMake
