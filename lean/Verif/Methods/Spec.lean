import Verif.Methods.Model

/-!
# What builders and methods of environments are for

Each environment has a table that says what each name means.  Setting something changes one entry
of one table; a clone starts with a copy of the table of its original; an override has the table
of what it overrides.  A call through an environment acts on *that* environment.
-/

namespace Verif.Methods

inductive Meaning where
  | method (f : Nat)
  | builder (f : Nat)
  | plain (v : Nat)
deriving DecidableEq, Repr

structure Tables where
  next : Nat
  /-- what an environment is an override of (`some none`: of nothing) -/
  kind : Nat → Option (Option Nat)
  means : Nat → String → Option Meaning
  /-- what is in `BUILDERS` -/
  blds : Nat → String → Option Nat
  /-- was the name looked up through an override since it was set? -/
  looked : Nat → String → Bool
  /-- was a method of that name ever added, to the environment or to what it is a clone of? -/
  ever : Nat → String → Bool

def Tables.init : Tables :=
  ⟨0, fun _ => none, fun _ _ => none, fun _ _ => none, fun _ _ => false, fun _ _ => false⟩

/-- Change one entry. -/
def upd {α : Type} (t : Nat → String → α) (e : Nat) (n : String) (v : α) : Nat → String → α :=
  fun e' n' => if e' = e ∧ n' = n then v else t e' n'

/-- Change the entries of an environment. -/
def updEnv {α : Type} (t : Nat → String → α) (e : Nat) (v : String → α) : Nat → String → α :=
  fun e' n' => if e' = e then v n' else t e' n'

/-- The environment that is overridden in the end. -/
def Tables.root (t : Tables) (e : Nat) : Nat :=
  match t.kind e with
  | some (some s) => if s < e then t.root s else e
  | _ => e
termination_by e

def Tables.step (t : Tables) : Op → Tables
  | .newEnv => { t with
      next := t.next + 1
      kind := fun x => if x = t.next then some none else t.kind x
      means := updEnv t.means t.next fun _ => none
      blds := updEnv t.blds t.next fun _ => none
      looked := updEnv t.looked t.next fun _ => false
      ever := updEnv t.ever t.next fun _ => false }
  | .addMethod e f n => { t with
      means := upd t.means e n (some (.method f))
      looked := upd t.looked e n false
      ever := upd t.ever e n true }
  | .setBuilder e n f => { t with
      means := upd t.means e n (some (.builder f))
      blds := upd t.blds e n (some f)
      looked := upd t.looked e n false }
  | .delBuilder e n => { t with
      means := upd t.means e n none
      blds := upd t.blds e n none
      looked := upd t.looked e n false }
  | .setPlain e n v => { t with
      means := upd t.means e n (some (.plain v))
      looked := upd t.looked e n false }
  | .clone e => { t with
      next := t.next + 1
      kind := fun x => if x = t.next then some none else t.kind x
      means := updEnv t.means t.next (t.means e)
      blds := updEnv t.blds t.next (t.blds e)
      looked := updEnv t.looked t.next fun n =>
        match t.means e n with
        | some (.method _) => t.looked e n
        | _ => false
      ever := updEnv t.ever t.next (t.ever e) }
  | .override e => { t with
      next := t.next + 1
      kind := fun x => if x = t.next then some (some e) else t.kind x }
  | .look e n =>
      match t.kind e with
      | some (some _) => { t with looked := upd t.looked (t.root e) n true }
      | _ => t

/-- The histories for which the claim is made. -/
def Fair (t : Tables) : Op → Prop
  | .newEnv => True
  | .addMethod e _ _ => t.kind e = some none
  /- what is called `n` so far must not be an added method under another name as well -/
  | .setBuilder e n _ => t.kind e = some none ∧
      ∀ f, (t.means e n = some (.method f) ∨ t.means e n = some (.builder f)) →
        ∀ n', n' ≠ n → t.means e n' ≠ some (.method f)
  /- a builder, under a name that was never that of a method -/
  | .delBuilder e n => t.kind e = some none ∧ (∃ f, t.means e n = some (.builder f)) ∧ t.ever e n = false
  /- not the name of a builder -/
  | .setPlain e n _ => t.kind e = some none ∧ t.blds e n = none
  /- no method that hides a builder was looked up through an override -/
  | .clone e => t.kind e = some none ∧
      ∀ n f, t.means e n = some (.method f) → t.looked e n = true → t.blds e n = none
  | .override e => t.kind e ≠ none
  | .look e _ => t.kind e ≠ none

inductive FairHistory : List Op → Tables → Prop
  | nil : FairHistory [] .init
  | snoc (ops : List Op) (t : Tables) (o : Op) :
      FairHistory ops t → Fair t o → FairHistory (ops ++ [o]) (t.step o)

/-- What a call through `e` has to do. -/
def expected (t : Tables) (e : Nat) (n : String) : Seen :=
  match t.means (t.root e) n with
  | none => .missing
  | some (.plain v) => .plain v
  | some (.method f) => .call false f e
  | some (.builder f) => .call true f e

end Verif.Methods
