import Verif.ActMake.Main

/-!
# Making actions (C115): cases and counterexamples
-/

namespace Verif.ActMake

/-- `CC = 'cc -c x'`, `STEPS = ['a\n$CC', f1, None]`, `X = '$X\n$X'`, `F = f5`; generator 3 returns `['gen', '$CC']`. -/
def w1 : World where
  env v :=
    if v = "CC".toList then some (.str "cc -c x".toList)
    else if v = "STEPS".toList then some (.list [.str "a\n$CC".toList, .fn 1, .obj])
    else if v = "X".toList then some (.str "$X\n$X".toList)
    else if v = "F".toList then some (.fn 5)
    else none
  gen f := if f = 3 then .list [.str "gen".toList, .str "$CC".toList] else .num
  fails _ := false

/-- The same world in which function 1 fails. -/
def w2 : World := { w1 with fails := fun p => p = .fn 1 }

/-- `Action(['echo\n${STEPS}', ['cp', 'x'], None, f2, Action(f3, generator=True)])` -/
def v1 : Val := .list [.str "echo\n${STEPS}".toList, .list [.str "cp".toList, .node "x".toList], .obj, .fn 2, .act (.gen 3)]

def steps1 : List Step := [.run (.text "echo".toList), .run (.text "a".toList), .run (.var "CC".toList), .run (.fn 1), .run (.words ["cp".toList, "x".toList]), .run (.fn 2), .run (.text "gen".toList), .run (.var "CC".toList)]

theorem ident_ex (v : Str) (h : isIdent v = true) : Ident v := (isIdent_iff v).1 h

theorem not_ref (l : Str) (h : refOf l = none) (v : Str) : ¬ IsRef l v := by
  intro hr
  rw [(refOf_iff l v).2 hr] at h
  cases h

theorem means_cc (W : World) (h : W.env = w1.env) : Means W (.var "CC".toList) [.run (.var "CC".toList)] :=
  .varText (s := "cc -c x".toList) (by rw [h]; rfl) (by decide)

theorem means_v1 (W : World) (he : W.env = w1.env) (hg : W.gen = w1.gen) : Means W (.val v1) steps1 := by
  have cc := means_cc W he
  have refcc : IsRef "$CC".toList "CC".toList := ⟨ident_ex _ (by decide), .inl rfl⟩
  have hsteps : Means W (.var "STEPS".toList) [.run (.text "a".toList), .run (.var "CC".toList), .run (.fn 1)] := by
    refine .varVal (c := .list [.str "a\n$CC".toList, .fn 1, .obj]) (by rw [he]; rfl) (by simp) ?_
    refine .items (.item (s := [.run (.text "a".toList), .run (.var "CC".toList)]) (t := [.run (.fn 1)]) (by simp) ?_ (.item (s := [.run (.fn 1)]) (t := []) (by simp) (.func 1) (.skipObj .noItems)))
    exact .str (ls := ["a".toList, "$CC".toList]) ⟨by simp, by decide, by decide⟩ (.textLine (not_ref _ (by decide)) (.refLine refcc cc .noLines))
  have hgen : Means W (.act (.gen 3)) [.run (.text "gen".toList), .run (.var "CC".toList)] := by
    refine .gen ?_
    rw [hg]
    show Means W (.val (.list [.str "gen".toList, .str "$CC".toList])) _
    refine .items (.item (s := [.run (.text "gen".toList)]) (t := [.run (.var "CC".toList)]) (by simp) ?_ (.item (s := [.run (.var "CC".toList)]) (t := []) (by simp) ?_ .noItems))
    · exact .str (ls := ["gen".toList]) ⟨by simp, by decide, by decide⟩ (.textLine (not_ref _ (by decide)) .noLines)
    · exact .str (ls := ["$CC".toList]) ⟨by simp, by decide, by decide⟩ (.refLine (s := [.run (.var "CC".toList)]) (t := []) refcc cc .noLines)
  refine .items (.item (s := [.run (.text "echo".toList), .run (.text "a".toList), .run (.var "CC".toList), .run (.fn 1)]) (by simp) ?_
    (.command (.str _ (.node _ .nil)) (.skipObj (.item (s := [.run (.fn 2)]) (by simp) (.func 2) (.item (s := [.run (.text "gen".toList), .run (.var "CC".toList)]) (t := []) (by simp) (.obj hgen) .noItems)))))
  refine .str (ls := ["echo".toList, "${STEPS}".toList]) ⟨by simp, by decide, by decide⟩ (.textLine (not_ref _ (by decide)) ?_)
  exact .refLine (v := "STEPS".toList) (t := []) ⟨ident_ex _ (by decide), .inr rfl⟩ hsteps .noLines

/-- All eight are run. -/
example : ∃ a, action false v1 = .ok (some a) ∧ ∃ n, ∀ m, n ≤ m → exec w1 m a = some ([.text "echo".toList, .text "a".toList, .var "CC".toList, .fn 1, .words ["cp".toList, "x".toList], .fn 2, .text "gen".toList, .var "CC".toList], .ok) :=
  C115_order w1 v1 steps1 (means_v1 w1 rfl rfl)

/-- Nothing is run after the fourth, which fails. -/
example : ∃ a, action false v1 = .ok (some a) ∧ ∃ n, ∀ m, n ≤ m → exec w2 m a = some ([.text "echo".toList, .text "a".toList, .var "CC".toList, .fn 1], .failed) :=
  C115_order w2 v1 steps1 (means_v1 w2 rfl rfl)

/-- The sum of two actions. -/
example : ∃ a, add v1 v1 = .ok (some a) ∧ ∃ n, ∀ m, n ≤ m → exec w1 m a = some (runSteps w1 (steps1 ++ steps1)) :=
  C115_add w1 v1 v1 _ _ (means_v1 w1 rfl rfl) (means_v1 w1 rfl rfl)

/-- A generator that returns a number: an error, after which nothing is run. -/
example : ∃ a, action false (.list [.act (.gen 0), .fn 1]) = .ok (some a) ∧ ∃ n, ∀ m, n ≤ m → exec w1 m a = some ([], .error) :=
  C115_order w1 _ [.bad, .run (.fn 1)] (.items (.item (s := [.bad]) (t := [.run (.fn 1)]) (by simp) (.obj (.genBad .num)) (.item (s := [.run (.fn 1)]) (t := []) (by simp) (.func 1) .noItems)))

/-- **Counterexample.** A variable that has itself on a line of its own in a text of several lines: carrying it out never ends, at whatever depth. -/
theorem C115_endless (n : Nat) : action false (.str "$X".toList) = .ok (some (.lazy "X".toList false)) ∧ exec w1 n (.lazy "X".toList false) = none ∧ exec w1 n (.list [.lazy "X".toList false, .lazy "X".toList false]) = none := by
  refine ⟨rfl, ?_⟩
  induction n with
  | zero => exact ⟨rfl, rfl⟩
  | succ n ih =>
    refine ⟨?_, ?_⟩
    · have h1 : w1.env "X".toList = some (.str "$X\n$X".toList) := rfl
      have h2 : action false (.str "$X\n$X".toList) = .ok (some (.list [.lazy "X".toList false, .lazy "X".toList false])) := by rfl
      rw [exec, h1]
      simp only
      rw [if_pos (by decide), h2]
      exact ih.2
    · show seqAll (exec w1 n) _ = none
      rw [seqAll, ih.1]

/-- **Counterexample.** The keyword `generator` is lost for what a variable has when a function stands in the same list, and is taken by what a variable has when none does. -/
theorem C115_variable_generator :
    action true (.list [.str "$F".toList, .fn 3]) = .ok (some (.list [.lazy "F".toList false, .gen 3])) ∧
    action true (.list [.str "$F".toList, .str "x".toList]) = .ok (some (.list [.lazy "F".toList true, .cmd "x".toList])) ∧
    exec w1 5 (.lazy "F".toList false) = some ([.fn 5], .ok) ∧ exec w1 5 (.lazy "F".toList true) = some ([], .error) :=
  ⟨rfl, rfl, rfl, rfl⟩

/-- **Counterexample.** A list in a list in a list raises an exception, so does a number; a node or `None` is silently left out, and alone gives no action at all. -/
theorem C115_odd (s : Str) (l us : List Val) :
    action false (.list [.list [.list us]]) = .error .typeError ∧ action false (.list (.num :: l)) = .error .typeError ∧ action false (.list [.obj, .node s]) = .ok (some (.list [])) ∧
    action false (.node s) = .ok none ∧ action false .obj = .ok none := ⟨rfl, rfl, rfl, rfl, rfl⟩

end Verif.ActMake
