import Verif.ConfH.Main

/-!
# `config.h`: what the hypotheses of C104 are needed for, and what the file cannot tell
-/

namespace Verif.ConfH

/-- Tells whether two characters follow each other in a text. -/
def withoutB (x y : Char) : List Char → Bool
  | [] => true
  | [_] => true
  | a :: b :: t => !(a == x && b == y) && withoutB x y (b :: t)

theorem withoutB_sound {x y : Char} : ∀ {t : List Char}, withoutB x y t = true → Without x y t
  | [], _ => by intro u v e; rcases u with _ | ⟨_, u⟩ <;> simp at e
  | [a], _ => by
    intro u v e
    rcases u with _ | ⟨_, _ | ⟨_, u⟩⟩ <;> simp at e
  | a :: b :: t, h => by
    simp only [withoutB, Bool.and_eq_true, Bool.not_eq_true', Bool.and_eq_false_iff, beq_eq_false_iff_ne] at h
    intro u v e
    rcases u with _ | ⟨c, u⟩
    · simp only [List.nil_append, List.cons.injEq] at e
      rcases h.1 with h1 | h1
      · exact h1 e.1
      · exact h1 e.2.1
    · simp only [List.cons_append, List.cons.injEq] at e
      exact withoutB_sound h.2 u v e.2

/-- A few checks, and two definitions by hand. -/
def exEvents : List Ev :=
  [.check (.header "sys/stat.h".toList) true, .check (.func "fork".toList) false, .size "long".toList (some 8), .size "odd".toList none,
    .check (.lib "m".toList) true, .define "VERSION".toList (some "\"1.2\"".toList) (some "The version".toList), .define "FAST".toList none none]

theorem exEvents_tame : ∀ e ∈ exEvents, e.Tame := by
  intro e he
  simp only [exEvents, List.mem_cons, List.not_mem_nil, or_false] at he
  rcases he with rfl | rfl | rfl | rfl | rfl | rfl | rfl
  · exact withoutB_sound (by decide)
  · exact withoutB_sound (by decide)
  · exact withoutB_sound (by decide)
  · exact withoutB_sound (by decide)
  · exact withoutB_sound (by decide)
  · refine ⟨by decide, ⟨by decide, withoutB_sound (by decide)⟩, ?_, ?_⟩
    · rintro x ⟨⟩; exact ⟨by decide, withoutB_sound (by decide)⟩
    · rintro x ⟨⟩; exact withoutB_sound (by decide)
  · exact ⟨by decide, ⟨by decide, withoutB_sound (by decide)⟩, by simp, by simp⟩

example : definitions (configH "build/config.h".toList exEvents) =
    [("BUILD_CONFIG_H_SEEN".toList, []), ("HAVE_SYS_STAT_H".toList, "1".toList), ("SIZEOF_LONG".toList, "8".toList),
      ("HAVE_LIBM".toList, "1".toList), ("VERSION".toList, "\"1.2\"".toList), ("FAST".toList, [])] := by decide +kernel

/-- **Counterexample.** Different checks have the same macro: `CheckHeader('a/b.h')` and `CheckHeader('a_b.h')`, `CheckLib('foo')` and
`CheckFunc('libfoo')`, `CheckDeclaration('x')` and `CheckType('decl x')`. -/
theorem C104_same_macro_counterexample :
    keyUp (Check.header "a/b.h".toList).key = keyUp (Check.header "a_b.h".toList).key ∧
    keyUp (Check.lib "foo".toList).key = keyUp (Check.func "libfoo".toList).key ∧
    keyUp (Check.decl "x".toList).key = keyUp (Check.type "decl x".toList).key := by decide +kernel

/-- **Counterexample.** So a macro is defined although the check it belongs to failed. -/
theorem C104_failed_but_defined_counterexample :
    ∃ l, l = [Ev.check (.lib "foo".toList) false, Ev.check (.func "libfoo".toList) true] ∧
      ("HAVE_LIBFOO".toList, "1".toList) ∈ definitions (configH "config.h".toList l) := by
  exact ⟨_, rfl, by decide +kernel⟩

/-- **Counterexample.** A check that succeeded and later failed, because the environment had been changed in between, stays defined. -/
theorem C104_later_failure_counterexample :
    ("HAVE_FORK".toList, "1".toList) ∈ definitions (configH "config.h".toList
      [Ev.check (.func "fork".toList) true, Ev.check (.func "fork".toList) false]) := by decide +kernel

/-- **Counterexample.** Two header files have the same guard, so the second one included is empty. -/
theorem C104_same_guard_counterexample : guard "a/config.h".toList = guard "a_config.h".toList := by decide +kernel

/-- **Counterexample.** A `*/` in a comment ends it: what follows is part of the text. -/
theorem C104_comment_counterexample :
    definitions (configH "config.h".toList [.define "A".toList none (some "matches src/*/x\n#define B 2\n".toList)]) =
      [("CONFIG_H_SEEN".toList, []), ("B".toList, "2".toList), ("A".toList, [])] := by decide +kernel

/-- **Counterexample.** A value with a line break defines something else as well. -/
theorem C104_newline_counterexample :
    definitions (configH "config.h".toList [.define "A".toList (some "1\n#define B 2".toList) none]) =
      [("CONFIG_H_SEEN".toList, []), ("A".toList, "1".toList), ("B".toList, "2".toList)] := by decide +kernel

/-- **Counterexample.** `CheckTypeSize` of a type of size 0 is undefined. -/
theorem C104_size_zero_counterexample :
    definitions (configH "config.h".toList [.size "struct e".toList (some 0)]) = [("CONFIG_H_SEEN".toList, [])] := by decide +kernel

/-! ## Libraries -/

def exArgs : LibArgs := { extra := ["z".toList], autoadd := true, append := true, unique := false }

/-- Links if `png` is there. -/
def exBuild : Libs → Bool
  | .list l => decide ("png".toList ∈ l)
  | _ => false

example : checkLib exBuild exArgs [some "png12".toList, some "png".toList, some "png16".toList] (.list ["m".toList]) =
    (true, .list ["m".toList, "png".toList, "z".toList], [.check (.lib "png12".toList) false, .check (.lib "png".toList) true]) := by
  decide +kernel

/-- **Counterexample.** A check that fails changes an environment without `LIBS`: it has an empty list now. -/
theorem C104_unset_counterexample : checkLib (fun _ => false) exArgs [some "q".toList] .unset =
    (false, .list [], [.check (.lib "q".toList) false]) := by decide +kernel

/-- **Counterexample.** With `append` (the default), and `LIBS` a list that has the library already, `unique` leaves the order as it is: what
the library needs is added at the end, the library is not moved. -/
theorem C104_unique_order_counterexample :
    (Libs.list ["z".toList, "a".toList]).append ["a".toList, "z".toList] true = .list ["z".toList, "a".toList] := by decide +kernel

end Verif.ConfH
