import Verif.Bld.ChainMore

/-!
# C75: examples, and what the code does not guarantee
-/

namespace Verif.Bld.Chain.Ex

/-- A file given as text. -/
def f (s : String) : Src := .str ⟨[], s.toList⟩

/-- A file in the current directory. -/
def pth (s : String) : Path := ⟨[], s.toList⟩

/-- A builder without emitter. -/
def bld (pre suf : String) (srcSuffix : List String) (srcBuilders : List Nat) (single : Bool) (chdir : Option String := none) (vars : List (String × String) := []) : Builder :=
  ⟨pre.toList, suf.toList, srcSuffix.map String.toList, srcBuilders, single, false, fun t _ => t, chdir.map String.toList, vars.map fun x => (x.1.toList, x.2.toList)⟩

/-- 0 `Program`, 1 `Object`, 2 `CFile`. -/
def T : Table
  | 0 => some (bld "" "" [".o"] [1] false)
  | 1 => some (bld "" ".o" [".c"] [2] true (vars := [("CCFLAGS", "-g")]))
  | 2 => some (bld "" ".c" [".y"] [] true)
  | _ => none

theorem T_plain : Plain T := by
  intro b B h
  match b with
  | 0 => cases h; exact ⟨fun _ _ => rfl, by decide⟩
  | 1 => cases h; exact ⟨fun _ _ => rfl, by decide⟩
  | 2 => cases h; exact ⟨fun _ _ => rfl, by decide⟩
  | n + 3 => cases h

theorem T_typed : Typed T := by
  intro b B c C h hc hC
  match b with
  | 0 => cases h; simp only [bld, List.mem_singleton] at hc; subst hc; cases hC; decide
  | 1 => cases h; simp only [bld, List.mem_singleton] at hc; subst hc; cases hC; decide
  | 2 => cases h; simp [bld] at hc
  | n + 3 => cases h

theorem T_ranked : Ranked T fun b => 2 - b := by
  rintro b c ⟨B, h, hc, -⟩
  match b with
  | 0 => cases h; simp only [bld, List.mem_singleton] at hc; subst hc; decide
  | 1 => cases h; simp only [bld, List.mem_singleton] at hc; subst hc; decide
  | 2 => cases h; simp [bld] at hc
  | n + 3 => cases h

/-- `Program('p', ['a.y', 'b.c', 'c.o', 'd'], V='1')` makes `a.c`, `a.o` and `b.o`, then `p` of `a.o`, `b.o`, `c.o` and `d.o`; the hypotheses of the theorems hold of the table. -/
theorem C75_nonvacuous : Plain T ∧ Typed T ∧ Ranked T (fun b => 2 - b) ∧
    call T 5 0 none [("V".toList, "1".toList)] (some [f "p"]) [f "a.y", f "b.c", f "c.o", f "d"] =
      some ([⟨2, [pth "a.c"], [pth "a.y"], none, [("V".toList, "1".toList)]⟩, ⟨1, [pth "a.o"], [pth "a.c"], none, [("V".toList, "1".toList)]⟩,
        ⟨1, [pth "b.o"], [pth "b.c"], none, [("V".toList, "1".toList)]⟩,
        ⟨0, [pth "p"], [pth "a.o", pth "b.o", pth "c.o", pth "d.o"], none, [("V".toList, "1".toList)]⟩], [pth "p"]) :=
  ⟨T_plain, T_typed, T_ranked, by decide +kernel⟩

/-- The directory of the call is used with one source and forgotten with two: `Object(['a.c', 'b.c'], chdir='d')` (Builder.py 569: the inner call has no `executor_kw`). -/
theorem C75_chdir_lost :
    (∃ t ps, call T 5 1 (some "d".toList) [] none [f "a.c"] = some ([t], ps) ∧ t.chdir = some "d".toList) ∧
    (∃ t t' ps, call T 5 1 (some "d".toList) [] none [f "a.c", f "b.c"] = some ([t, t'], ps) ∧ t.chdir = none ∧ t'.chdir = none) :=
  ⟨⟨⟨1, [pth "a.o"], [pth "a.c"], some "d".toList, [("CCFLAGS".toList, "-g".toList)]⟩, [pth "a.o"], by decide +kernel, rfl⟩,
   ⟨⟨1, [pth "a.o"], [pth "a.c"], none, [("CCFLAGS".toList, "-g".toList)]⟩, ⟨1, [pth "b.o"], [pth "b.c"], none, [("CCFLAGS".toList, "-g".toList)]⟩, [pth "a.o", pth "b.o"], by decide +kernel, rfl, rfl⟩⟩

/-- What a builder was defined with (`Builder(..., CCFLAGS='-g')`) is used when it is called, and not when it makes an intermediate file. -/
theorem C75_builder_overrides_lost :
    (∃ t ps, call T 5 1 none [] none [f "a.c"] = some ([t], ps) ∧ t.vars = [("CCFLAGS".toList, "-g".toList)]) ∧
    (∃ t t' ps, call T 5 0 none [] (some [f "p"]) [f "a.c"] = some ([t, t'], ps) ∧ t.builder = 1 ∧ t.targets = [pth "a.o"] ∧ t.vars = []) :=
  ⟨⟨⟨1, [pth "a.o"], [pth "a.c"], none, [("CCFLAGS".toList, "-g".toList)]⟩, [pth "a.o"], by decide +kernel, rfl⟩,
   ⟨⟨1, [pth "a.o"], [pth "a.c"], none, []⟩, ⟨0, [pth "p"], [pth "a.o"], none, []⟩, [pth "p"], by decide +kernel, rfl, rfl, rfl⟩⟩

/-- Two source builders, for `.c` and for `.y.c`. -/
def T2 : Table
  | 0 => some (bld "" "" [".o"] [1, 2] false)
  | 1 => some (bld "" ".o" [".c"] [] true)
  | 2 => some (bld "y_" ".o" [".y.c"] [] true)
  | _ => none

/-- `x.y.c` goes to the builder for `.c`, which is listed first, not to the one for the longer suffix `.y.c`. -/
theorem C75_first_not_longest : ∃ t t' ps, call T2 5 0 none [] (some [f "p"]) [f "x.y.c"] = some ([t, t'], ps) ∧ t.builder = 1 ∧ t.targets = [pth "x.y.o"] :=
  ⟨⟨1, [pth "x.y.o"], [pth "x.y.c"], none, []⟩, ⟨0, [pth "p"], [pth "x.y.o"], none, []⟩, [pth "p"], by decide +kernel, rfl, rfl⟩

/-- A text without suffix gets the default suffix only if there is no dot in its directory — unless the builder has no source builders. -/
theorem C75_dotted_directory :
    ((call T 5 0 none [] (some [f "p"]) [.str ⟨"sub".toList, "foo".toList⟩]).map fun o => o.1.map (·.sources)) = some [[⟨"sub".toList, "foo.o".toList⟩]] ∧
    ((call T 5 0 none [] (some [f "p"]) [.str ⟨"sub.d".toList, "foo".toList⟩]).map fun o => o.1.map (·.sources)) = some [[⟨"sub.d".toList, "foo".toList⟩]] ∧
    ((call T 5 2 none [] (some [f "p"]) [.str ⟨"sub.d".toList, "foo".toList⟩]).map fun o => o.1.map (·.sources)) = some [[⟨"sub.d".toList, "foo.y".toList⟩]] := by
  decide +kernel

/-- 0 makes `.x` of `.o`; its source builder 1 makes stripped objects of objects. -/
def T3 : Table
  | 0 => some (bld "" ".x" [".o"] [1] true)
  | 1 => some (bld "s_" ".o" [".o"] [] true)
  | _ => none

/-- With one source, the source builder is applied once; with two, it is applied twice to each. -/
theorem C75_converted_twice :
    ((call T3 5 0 none [] none [f "a.o"]).map (·.2)) = some [pth "s_a.x"] ∧ ((call T3 5 0 none [] none [f "a.o", f "b.o"]).map (·.2)) = some [pth "s_s_a.x", pth "s_s_b.x"] := by
  decide +kernel

/-- `Object` before and after `add_action('.d', ...)`. -/
def before : Table
  | 0 => some (bld "" ".o" [".c"] [] true)
  | _ => none

/-- See `before`. -/
def after : Table
  | 0 => some (bld "" ".o" [".c", ".d"] [] true)
  | _ => none

/-- `CompositeBuilder.add_action` (Builder.py 908-910) sets the list of suffixes and does not clear the memory: what was asked once for this environment is not updated. -/
theorem C75_stale_memory : ∃ m, (suffixesM before 1 0 fun _ => none) = some ([".c".toList], m) ∧ (suffixesM after 1 0 m).map (·.1) = some [".c".toList] ∧
    suffixes after 1 0 = some [".c".toList, ".d".toList] := by
  refine ⟨fun x => if x = 0 then some [".c".toList] else if x = 0 then some [".c".toList] else none, rfl, by decide +kernel, by decide +kernel⟩

/-- A cycle: the hypothesis of `C75_cycle_overflows` can be met. -/
def T4 : Table
  | 0 => some (bld "" ".o" [".c"] [1] true)
  | 1 => some (bld "" ".c" [".o"] [0] true)
  | _ => none

theorem C75_cycle_nonvacuous : Relation.TransGen (Feeds T4) 0 0 :=
  .tail (.single ⟨_, rfl, by decide, rfl⟩ : Relation.TransGen (Feeds T4) 0 1) ⟨_, rfl, by decide, rfl⟩

end Verif.Bld.Chain.Ex
