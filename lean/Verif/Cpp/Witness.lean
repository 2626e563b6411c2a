import Verif.Cpp.Dumb
/-!
# The C preprocessor: concrete cases and counterexamples
-/
namespace Verif.Cpp.Witness

open Verif.Cpp

/-- Conditions of the examples; `div0` is `#if 1/0`: ZeroDivisionError is not among the
exceptions that `eval_expression` catches (cpp.py:417-420). -/
inductive Cond where
  | defd (k : Nat) | ndef (k : Nat) | zero | div0
  deriving DecidableEq

inductive Op where
  | define (k v : Nat) | undef (k : Nat)

/-- `"file"` or a macro. -/
inductive Inc where
  | lit (f : Nat) | mac (k : Nat)

/-- The macros: the latest definition is first. -/
abbrev NS := List (Nat × Nat)

def evalC : Cond → NS → Option Bool
  | .defd k, n => some (n.any (·.1 == k))
  | .ndef k, n => some (!n.any (·.1 == k))
  | .zero, _ => some false
  | .div0, _ => none

def exec : Op → NS → NS
  | .define k v, n => (k, v) :: n.filter (·.1 != k)
  | .undef k, n => n.filter (·.1 != k)

/-- Files below `max` exist. A macro whose value is `v` stands for `"v"`. -/
def find (max : Nat) : Inc → Nat → NS → Option Nat × NS
  | .lit f, _, n => (if f < max then some f else none, n)
  | .mac k, _, n =>
    ((n.find? (·.1 == k)).bind fun p => if p.2 < max then some p.2 else none, n)

def world (max : Nat) (prog : Nat → Prog Cond Op Inc) : World NS Nat Cond Op Inc :=
  { evalC := evalC, exec := exec, find := find max, read := fun f => (prog f).lines }

theorem findsIn (max : Nat) (prog) : FindsIn (world max prog) (List.range max) := by
  intro i g n f m h
  cases i with
  | lit f' =>
    simp only [world, find] at h
    split at h
    · cases h; simpa
    · cases h
  | mac k =>
    simp only [world, find] at h
    injection h with h _
    cases hm : List.find? (fun x => x.1 == k) n with
    | none => rw [hm] at h; cases h
    | some p =>
      rw [hm] at h
      simp only [Option.bind_some] at h
      split at h
      · injection h with e; subst e; simpa
      · cases h

/-! ### C36, a positive case -/

/-- The condition type without `div0`. -/
def total (W : World NS Nat Cond Op Inc) (c : Cond → Cond) (h : ∀ x, c x ≠ .div0)
    : Total { W with evalC := fun x n => evalC (c x) n } := by
  intro x n
  have := h x
  show ∃ b, evalC (c x) n = some b
  cases hx : c x with
  | div0 => exact absurd hx this
  | defd k => exact ⟨_, rfl⟩
  | ndef k => exact ⟨_, rfl⟩
  | zero => exact ⟨_, rfl⟩

/-- `div0` read as 0: conditions that never raise. -/
def safe : Cond → Cond
  | .div0 => .zero
  | c => c

def safeWorld (max : Nat) (prog : Nat → Prog Cond Op Inc) : World NS Nat Cond Op Inc :=
  { world max prog with evalC := fun x n => evalC (safe x) n }

theorem safe_total (max) (prog) : Total (safeWorld max prog) :=
  total (world max prog) safe (by intro x; cases x <;> simp [safe])

/-- File 0: `#ifdef 7 / #include "1" / #elif !defined(8) / #define 9 / #ifdef 9 /
#include "2" / #else / #include "3" / #endif / #else / #include "3" / #endif`;
file 2 includes 0 and 4 (and file 4 includes 2). -/
def nested : Nat → Prog Cond Op Inc
  | 0 => .grp (.defd 7) (.inc (.lit 1) .nil)
      (.elif (.ndef 8) (.op (.define 9 1) (.grp (.defd 9) (.inc (.lit 2) .nil)
        (.els (.inc (.lit 3) .nil)) .nil)) (.els (.inc (.lit 3) .nil))) .nil
  | 2 => .inc (.lit 0) (.inc (.lit 4) .nil)
  | 4 => .inc (.lit 2) .nil
  | _ => .nil

example : run (safeWorld 5 nested) 30 (start (safeWorld 5 nested) [] 0) =
    .done { ns := [(9, 1)], cur := 0, result := [0, 2, 4] } := by decide +kernel

example : ∃ s', Sem (safeWorld 5 nested) nested true (.prog (nested 0)) { ns := [], cur := 0, result := [0] } s' ∧
    (∀ s'', Sem (safeWorld 5 nested) nested true (.prog (nested 0)) { ns := [], cur := 0, result := [0] } s'' → s'' = s') ∧
    ∃ n1, ∀ n, n1 ≤ n → run (safeWorld 5 nested) n (start (safeWorld 5 nested) [] 0) = .done s' :=
  C36_conditionals_partial _ nested (List.range 5) (fun _ => rfl) (safe_total _ _) (findsIn 5 nested) [] 0

/-! ### C36, what fails -/

/-- `#if 0 / #if 1/0 / #endif / #endif`. -/
def skipped : Nat → Prog Cond Op Inc
  | _ => .grp .zero (.grp .div0 .nil .fin .nil) .fin .nil

/-- **C36, what fails** a condition within skipped lines is evaluated, and an
exception such as ZeroDivisionError ends the scan, although a C compiler must not
look at that condition. -/
theorem C36_counterexample_skipped_condition :
    (∃ s', Sem (world 1 skipped) skipped false (.prog (skipped 0)) { ns := [], cur := 0, result := [0] } s') ∧
    ∀ n, 2 ≤ n → (match run (world 1 skipped) n (start (world 1 skipped) [] 0) with
      | .raised => True | _ => False) := by
  refine ⟨⟨_, .no rfl (.fin _) (.nil _)⟩, fun n hn => ?_⟩
  obtain ⟨n, rfl⟩ : ∃ k, n = k + 2 := ⟨n - 2, by omega⟩
  exact trivial

/-- File 0: `#include "1" / #define 5 / #include "1"`; file 1: `#ifdef 5 / #include "2" / #endif`. -/
def twice : Nat → Prog Cond Op Inc
  | 0 => .inc (.lit 1) (.op (.define 5 1) (.inc (.lit 1) .nil))
  | 1 => .grp (.defd 5) (.inc (.lit 2) .nil) .fin .nil
  | _ => .nil

/-- **C36, what fails** a header included a second time is not processed again, so a
file that is only included the second time is not found: the dependency is
missing, and a change of that file does not cause a rebuild. -/
theorem C36_counterexample_second_inclusion :
    (∃ s', Sem (safeWorld 3 twice) twice false (.prog (twice 0)) { ns := [], cur := 0, result := [0] } s' ∧
      2 ∈ s'.result) ∧
    ∀ n s, run (safeWorld 3 twice) n (start (safeWorld 3 twice) [] 0) = .done s → 2 ∉ s.result := by
  refine ⟨⟨{ ns := [(5, 1)], cur := 0, result := [0, 1, 1, 2] }, ?_, by decide⟩, ?_⟩
  · refine .inc (f := 1) rfl (by simp) (.no rfl (.fin _) (.nil _)) (.op (.inc (f := 1) rfl (by simp)
      (.yes rfl (.inc (f := 2) rfl (by simp) (.nil _) (.nil _)) (.nil _)) (.nil _)))
  · intro n s h
    have h1 := run_mono _ 20 n _ _ h
    have h2 : run (safeWorld 3 twice) 20 (start (safeWorld 3 twice) [] 0) =
        .done { ns := [(5, 1)], cur := 0, result := [0, 1] } := by decide +kernel
    have h3 := run_mono _ n 20 _ _ h2
    rw [Nat.add_comm, h3] at h1
    cases h1
    decide

/-! ### C36, guarded headers -/

/-- The operations of the example only define, the conditions are `#ifdef`, `#ifndef`. -/
inductive GOp where
  | define (k : Nat)
def gWorld (prog : Nat → Prog Cond GOp Nat) : World NS Nat Cond GOp Nat :=
  { evalC := fun c n => evalC (safe c) n
    exec := fun | .define k, n => (k, 1) :: n
    find := fun f _ n => (if 0 < f ∧ f < 4 then some f else none, n)
    read := fun f => (prog f).lines }

/-- Header `f` is guarded by the macro `f`; 1 includes 2 and 3, 2 includes 1 and 3. -/
def guardedProg : Nat → Prog Cond GOp Nat
  | 0 => .inc 1 (.inc 2 (.inc 3 .nil))
  | f => .grp (.ndef f) (.op (.define f) (match f with
      | 1 => .inc 2 (.inc 3 .nil)
      | 2 => .inc 1 (.inc 3 .nil)
      | _ => .nil)) .fin .nil

theorem guarded : Guarded (gWorld guardedProg) guardedProg 0 (fun f n => n.any (·.1 == f) = true) where
  shape := by
    intro f hf
    obtain ⟨f, rfl⟩ : ∃ k, f = k + 1 := ⟨f - 1, by omega⟩
    exact ⟨_, _, _, rfl, fun n => ⟨fun h => by simp [gWorld, evalC, safe] at *; exact h,
      fun h => by
        simp [gWorld, evalC, safe] at *
        intro a b hab e
        subst e
        exact h b hab⟩, fun n => by simp [gWorld]⟩
  keepOp := by
    intro f o n h
    cases o
    simp [gWorld] at *
    exact .inr h
  keepFind := by intro f i g n h; exact h
  notRoot := by
    intro i g n
    simp only [gWorld]
    split
    · rename_i h; intro e; cases e; exact absurd h.1 (by decide)
    · intro e; cases e

/-- The standard's preprocessing of `guardedProg 0` reads header 3 four times. -/
theorem guarded_sem : Sem (gWorld guardedProg) guardedProg false (.prog (guardedProg 0))
    { ns := [], cur := 0, result := [0] }
    { ns := [(3, 1), (2, 1), (1, 1)], cur := 0, result := [0, 1, 2, 1, 3, 3, 2, 3] } :=
  .inc (f := 1) rfl (by simp)
    (.yes rfl (.op (.inc (f := 2) rfl (by simp)
      (.yes rfl (.op (.inc (f := 1) rfl (by simp) (.no rfl (.fin _) (.nil _))
        (.inc (f := 3) rfl (by simp) (.yes rfl (.op (.nil _)) (.nil _)) (.nil _)))) (.nil _))
      (.inc (f := 3) rfl (by simp) (.no rfl (.fin _) (.nil _)) (.nil _)))) (.nil _))
    (.inc (f := 2) rfl (by simp) (.no rfl (.fin _) (.nil _))
      (.inc (f := 3) rfl (by simp) (.no rfl (.fin _) (.nil _)) (.nil _)))

theorem gTotal (p) : Total (gWorld p) := by
  intro c n
  cases c <;> exact ⟨_, rfl⟩

example : ∃ t n1, (∀ n, n1 ≤ n → run (gWorld guardedProg) n (start (gWorld guardedProg) [] 0) = .done t) ∧
    t.ns = [(3, 1), (2, 1), (1, 1)] ∧ ∀ f, f ∈ t.result ↔ f ∈ [0, 1, 2, 1, 3, 3, 2, 3] :=
  C36_guarded_headers _ guardedProg (fun _ => rfl) (gTotal _) 0 _ guarded [] _ guarded_sem

/-! ### C37 -/

theorem noCur_lines : (∀ (p : Prog Cond GOp Nat) (f : Nat), (Line.cur f : Line Nat Cond GOp Nat) ∉ p.lines) := by
  intro p
  refine Prog.rec (motive_1 := fun p => ∀ f, (Line.cur f : Line Nat Cond GOp Nat) ∉ p.lines)
    (motive_2 := fun r => ∀ f, (Line.cur f : Line Nat Cond GOp Nat) ∉ r.lines)
    ?_ ?_ ?_ ?_ ?_ ?_ ?_ p
  · simp [Prog.lines]
  · intro o p ih f; simp [Prog.lines, ih]
  · intro o p ih f; simp [Prog.lines, ih]
  · intro c b r p h1 h2 h3 f; simp [Prog.lines, h1, h2, h3]
  · simp [Rest.lines]
  · intro c b r h1 h2 f; simp [Rest.lines, h1, h2]
  · intro b h f; simp [Rest.lines, h]

theorem gLiteral (p) : Literal (gWorld p) (fun _ i => if 0 < i ∧ i < 4 then some i else none) :=
  fun _ _ _ => rfl

theorem gFindsIn (p) : FindsIn (gWorld p) (List.range 4) := by
  intro i g n f m h
  simp only [gWorld] at h
  split at h
  · cases h; simp; omega
  · cases h

example : ∃ n1 d, (∀ n, n1 ≤ n → dumbRun (gWorld guardedProg) n (start (gWorld guardedProg) [] 0) = .done d) ∧
    ∀ n s, run (gWorld guardedProg) n (start (gWorld guardedProg) [] 0) = .done s → ∀ f ∈ s.result, f ∈ d.result :=
  C37_superset_partial _ (List.range 4) _ (fun f g => noCur_lines (guardedProg f) g) (gLiteral _) (gFindsIn _) [] 0

/-- The dumb preprocessor can find strictly more. -/
def unused : Nat → Prog Cond GOp Nat
  | 0 => .grp .zero (.inc 1 .nil) (.els (.inc 2 .nil)) .nil
  | _ => .nil
example : dumbRun (gWorld unused) 20 (start (gWorld unused) [] 0) = .done { ns := [], cur := 0, result := [0, 1, 2] } ∧
    run (gWorld unused) 20 (start (gWorld unused) [] 0) = .done { ns := [], cur := 0, result := [0, 2] } := ⟨rfl, rfl⟩

/-- `#define 5 1 / #if 0 / #define 5 2 / #endif / #include 5`. -/
def computed : Nat → Prog Cond Op Inc
  | 0 => .op (.define 5 1) (.grp .zero (.op (.define 5 2) .nil) .fin (.inc (.mac 5) .nil))
  | _ => .nil

/-- **C37, what fails** with `#include MACRO` a `#define` in a branch not taken
changes what the dumb preprocessor finds: it misses file 1. -/
theorem C37_counterexample_computed_include :
    run (world 3 computed) 20 (start (world 3 computed) [] 0) =
      .done { ns := [(5, 1)], cur := 0, result := [0, 1] } ∧
    dumbRun (world 3 computed) 20 (start (world 3 computed) [] 0) =
      .done { ns := [(5, 2)], cur := 0, result := [0, 2] } := ⟨rfl, rfl⟩

/-! ### `resolve_include` -/

/-- What an `#include` line, or the value of a macro, can be: a quoted file name or
another macro name. -/
inductive Ref where
  | file (f : Nat) | name (k : Nat)
  deriving DecidableEq

/-- `resolve_include` (cpp.py:624-651) for macros without arguments: `none` means the
`while` loop is still running after `n` iterations. -/
def resolve (ns : Nat → Option Ref) : Nat → Ref → Option (Option Nat)
  | _, .file f => some (some f)
  | 0, .name _ => none
  | n + 1, .name k =>
    match ns k with
    | none => some none
    | some r => resolve ns n r

/-- **C36, what fails** `#define A A` and `#include A` (or any circle of macros): the
`while` loop in `resolve_include` never ends. -/
theorem C36_counterexample_resolve_loop (n : Nat) :
    resolve (fun k => if k = 0 then some (.name 0) else none) n (.name 0) = none := by
  induction n with
  | zero => rfl
  | succ n ih => simpa [resolve] using ih

/-- If the macros can be ordered so that each refers to earlier ones only,
`resolve_include` ends. -/
theorem resolve_terminates (ns : Nat → Option Ref) (rank : Nat → Nat)
    (h : ∀ k j, ns k = some (.name j) → rank j < rank k) (r : Ref) :
    ∃ n0 x, ∀ n, n0 ≤ n → resolve ns n r = some x := by
  match r with
  | .file f => exact ⟨0, some f, fun n _ => by cases n <;> rfl⟩
  | .name k =>
    suffices ∀ m k, rank k < m → ∃ n0 x, ∀ n, n0 ≤ n → resolve ns n (.name k) = some x from
      this _ k (Nat.lt_succ_self _)
    intro m
    induction m with
    | zero => intro k hk; omega
    | succ m ih =>
      intro k hk
      match hns : ns k with
      | none =>
        refine ⟨1, none, fun n hn => ?_⟩
        obtain ⟨n, rfl⟩ : ∃ k, n = k + 1 := ⟨n - 1, by omega⟩
        simp [resolve, hns]
      | some (.file f) =>
        refine ⟨1, some f, fun n hn => ?_⟩
        obtain ⟨n, rfl⟩ : ∃ k, n = k + 1 := ⟨n - 1, by omega⟩
        cases n <;> simp [resolve, hns]
      | some (.name j) =>
        have := h k j hns
        obtain ⟨n0, x, hx⟩ := ih j (by omega)
        refine ⟨n0 + 1, x, fun n hn => ?_⟩
        obtain ⟨n, rfl⟩ : ∃ k, n = k + 1 := ⟨n - 1, by omega⟩
        simp only [resolve, hns]
        exact hx n (by omega)

end Verif.Cpp.Witness
