import Verif.Tree.Bars

/-!
# C112: examples and counterexamples
-/

namespace Verif.Tree.Ex

/-- `prog` from `a.o` and `b.o`, both from a source and the header `h`, which includes `k`. -/
def kids : Nat → List Nat
  | 0 => [1, 2]
  | 1 => [3, 5]
  | 2 => [4, 5]
  | 5 => [6]
  | _ => []

def str : Nat → Str
  | 0 => "prog".toList
  | 1 => "a.o".toList
  | 2 => "b.o".toList
  | 3 => "a.c".toList
  | 4 => "b.c".toList
  | 5 => "h".toList
  | _ => "k".toList

/-- The text that is printed. -/
example : (display kids str false 9 0).map (fun ls => ls.map fun l => String.ofList (l.ascii str)) =
    some ["+-prog", "  +-a.o", "  | +-a.c", "  | +-h", "  |   +-k", "  +-b.o", "    +-b.c", "    +-h", "      +-k"] := by decide +kernel

example : (display kids str true 9 0).map (fun ls => ls.map fun l => String.ofList (l.boxes str)) =
    some ["└─┬prog", "  ├─┬a.o", "  │ ├─a.c", "  │ └─┬h", "  │   └─k", "  └─┬b.o", "    ├─b.c", "    └──[h]"] := by decide +kernel

/-- The hypotheses of `C112_tree_ends` and of `C112_tree_complete` are met. -/
theorem rank_ok : ∀ a, ∀ c ∈ kids a, (7 - c) < (7 - a) := by
  intro a c hc
  match a with
  | 0 | 1 | 2 | 5 => simp [kids] at hc; omega
  | 3 | 4 => simp [kids] at hc
  | _ + 6 => simp [kids] at hc

theorem below_seven : ∀ a b, Reach kids a b → a < 7 → b < 7 := by
  intro a b h
  induction h with
  | refl => exact id
  | @step a b c hb _ ih =>
    intro _
    refine ih ?_
    match a with
    | 0 | 1 | 2 | 5 => simp [kids] at hb; omega
    | 3 | 4 => simp [kids] at hb
    | _ + 6 => simp [kids] at hb

theorem names_ok : ∀ a < 7, ∀ b < 7, str a = str b → a = b := by decide +kernel

theorem C112_example : ∃ ls, display kids str true 8 0 = some ls ∧
    ∃ t : T Nat, readTree readLine (ls.map (Line.ascii str)) = some (t.text str) ∧ ∀ x, Reach kids 0 x ↔ (x, false, kids x) ∈ t.all := by
  obtain ⟨ls, h⟩ := C112_tree_ends kids str (fun a => 7 - a) rank_ok true 0
  exact ⟨ls, h, C112_tree_complete kids str true _ 0 ls h fun a b ha hb => names_ok a (below_seven _ _ ha (by decide)) b (below_seven _ _ hb (by decide))⟩

/-- Two files that include each other: the include tree ends, and shows both. -/
def loopKids : Nat → List Nat
  | 0 => [1]
  | 1 => [0]
  | _ => []

example : (render loopKids str true 3 0).map (fun ls => ls.map fun l => String.ofList (l.ascii str)) = some ["+-prog", "  +-a.o", "    +-[prog]"] := by decide +kernel

/-! ## Against -/

/-- `Ignore(b, a)` breaks the cycle of `a` and `b` for the build, but not for `--tree=all`, which asks for all children, ignored ones too: it fails with a RecursionError. -/
theorem C112_ignored_cycle (f : Nat) : display loopKids str false f 0 = none :=
  C112_cycle_fails loopKids str 0 0 1 (.refl 0) (by decide) (.step (by decide : 0 ∈ loopKids 1) (.refl 0)) f

/-- An alias and a file with the same name `all`: with pruning the file's children are nowhere shown. -/
def sameKids : Nat → List Nat
  | 0 => [1]
  | 1 => [2]
  | _ => []

def sameStr : Nat → Str
  | 0 | 1 => "all".toList
  | _ => "x.c".toList

theorem C112_same_name : (display sameKids sameStr true 9 0).map (fun ls => ls.map fun l => String.ofList (l.ascii sameStr)) = some ["+-all", "  +-[all]"] ∧ 2 ∈ sameKids 1 := by decide +kernel

/-- A project: the directory 0 with the program 1, made from 2 (`main.o`), made from 3 (`main.c`) and depending on 4 (`sub/config.h`, in another directory) by `Depends`; 3 is in a variant directory, 5 its source. -/
def G : Nodes Nat where
  isDir n := n = 0
  hasBuilder n := n = 1 || n = 2
  isFile n := n = 3 || n = 4 || n = 5
  allChildren n := if n = 0 then [1, 2, 3] else if n = 1 then [2] else if n = 2 then [3, 4] else []
  sources n := if n = 1 then [2] else if n = 2 then [3] else []
  srcnode n := if n = 3 then 5 else n

/-- `FindSourceFiles` finds the source, as the file in the source directory, once. -/
example : findSourceFiles G 9 0 = some [5] := by decide +kernel

/-- The file that was named with `Depends` (or found by a scanner) for something that is built on the way is not found. -/
theorem C112_depends_not_found : findSourceFiles G 9 1 = some [5] ∧ 4 ∈ G.allChildren 2 ∧ G.isFile 4 = true ∧ G.hasBuilder 4 = false := by decide +kernel

end Verif.Tree.Ex
