import Verif.Text.DependsProps

/-! # C93: examples and counterexamples -/

namespace Verif.Depends.Ex
open Verif.Depends
open Verif.Subst (Str)

def s (x : String) : Str := x.toList

/-- What `gcc -MD -MP` writes. -/
def items : List Item :=
  [.comment (s " made by cc"),
   .rule [.name (s "obj/a.o"), .blanks (s " "), .name (s "a.d")]
     [.blanks (s " "), .name (s "a.c"), .blanks (s " "), .name (s "inc/x.h"), .cont (s " ") [] (s "  "),
      .name (s "C:/sys/y.h"), .cont [] (s " ") (s "\t"), .name (s "z.h")],
   .empty [],
   .rule [.name (s "inc/x.h")] []]

theorem text : fileText items
    = s "# made by cc\nobj/a.o a.d: a.c inc/x.h \\\n  C:/sys/y.h\\ \n\tz.h\n\ninc/x.h:\n" := by decide +kernel

def blankb (b : Str) : Bool := b.all fun c => c == ' ' || c == '\t'

theorem blankb_ok {b : Str} (h : blankb b = true) : Blank b := by
  intro c hc
  have := List.all_eq_true.1 h c hc
  simpa using this

def okb : Tk → Bool
  | .name w => !w.isEmpty && w.all (fun c => !Verif.Subst.isSpace c) && w.getLast? != some '\\'
  | .blanks b => !b.isEmpty && blankb b
  | .cont a b c => (!a.isEmpty || !c.isEmpty) && blankb a && blankb b && blankb c

theorem okb_ok {t : Tk} (h : okb t = true) : t.Ok := by
  cases t with
  | name w =>
    simp only [okb, Bool.and_eq_true, Bool.not_eq_true', List.isEmpty_eq_false_iff, List.all_eq_true,
      bne_iff_ne, ne_eq] at h
    exact ⟨h.1.1, fun c hc => by simpa using h.1.2 c hc, h.2⟩
  | blanks b =>
    simp only [okb, Bool.and_eq_true, Bool.not_eq_true', List.isEmpty_eq_false_iff] at h
    exact ⟨h.1, blankb_ok h.2⟩
  | cont a b c =>
    simp only [okb, Bool.and_eq_true, Bool.or_eq_true, Bool.not_eq_true', List.isEmpty_eq_false_iff] at h
    exact ⟨h.1.1.1, blankb_ok h.1.1.2, blankb_ok h.1.2, blankb_ok h.2⟩

theorem all_ok {l : List Tk} (h : l.all okb = true) : ∀ t ∈ l, t.Ok :=
  fun t ht => okb_ok (List.all_eq_true.1 h t ht)

theorem items_ok : ∀ i ∈ items, i.Ok := by
  intro i hi
  simp only [items, List.mem_cons, List.not_mem_nil, or_false] at hi
  rcases hi with rfl | rfl | rfl | rfl
  · refine ⟨by decide, by decide +kernel, ?_⟩
    intro a b e
    have : '\\' ∈ s " made by cc" := by rw [e]; simp
    exact absurd this (by decide)
  · refine ⟨all_ok (by decide +kernel), all_ok (by decide +kernel), by simp [Spaced, Tk.isName],
      by simp [Spaced, Tk.isName], ?_, ?_⟩
    · intro w hw
      simp only [List.mem_cons, Tk.name.injEq, reduceCtorEq, List.not_mem_nil, or_false, false_or] at hw
      rcases hw with rfl | rfl <;> decide
    · intro w l' e
      simp only [List.cons.injEq, Tk.name.injEq] at e
      rw [← e.1]; decide
  · intro c hc; simp at hc
  · refine ⟨all_ok (by decide +kernel), by simp, by simp [Spaced], by simp [Spaced], ?_, ?_⟩
    · intro w hw
      simp only [List.mem_cons, Tk.name.injEq, List.not_mem_nil, or_false] at hw
      rw [hw]; decide
    · intro w l' e
      simp only [List.cons.injEq, Tk.name.injEq] at e
      rw [← e.1]; decide

/-- Names are nodes; nothing depends on anything at first. -/
theorem applies : ∃ D', parseDepends (fun n => [n]) (some (s
      "# made by cc\nobj/a.o a.d: a.c inc/x.h \\\n  C:/sys/y.h\\ \n\tz.h\n\ninc/x.h:\n")) true false (fun _ => [])
      = .ok D' ∧ s "C:/sys/y.h" ∈ D' (s "obj/a.o") ∧ s "z.h" ∈ D' (s "a.d") ∧ D' (s "inc/x.h") = [] := by
  obtain ⟨D', h1, h2⟩ := C93_dependencies_of_the_file_partial (fun n => [n]) items items_ok true
    (fun _ => []) (by simp)
  rw [text] at h1
  refine ⟨D', h1, ?_, ?_, ?_⟩
  · exact ((h2 _).2.2 _).2 (.inr ⟨_, _, .tail _ (.head _), ⟨_, .head _, by simp⟩, ⟨s "C:/sys/y.h", by simp, by simp⟩⟩)
  · exact ((h2 _).2.2 _).2 (.inr ⟨_, _, .tail _ (.head _), ⟨s "a.d", by simp, by simp⟩, ⟨s "z.h", by simp, by simp⟩⟩)
  · rw [List.eq_nil_iff_forall_not_mem]
    intro y hy
    rcases ((h2 _).2.2 y).1 hy with h | ⟨l, r, hi, ⟨t, ht, ht'⟩, ⟨d, hd, _⟩⟩
    · simp at h
    · simp only [List.mem_singleton] at ht'
      subst ht'
      simp only [items, List.mem_cons, List.not_mem_nil, or_false, reduceCtorEq, false_or, Item.rule.injEq] at hi
      rcases hi with ⟨rfl, rfl⟩ | ⟨rfl, rfl⟩
      · simp only [List.mem_cons, Tk.name.injEq, reduceCtorEq, List.not_mem_nil, or_false, false_or] at ht
        rcases ht with h | h <;> exact absurd h (by decide)
      · simp at hd

/-- Counterexample: a line continued without any blank. For `make` the end of the line separates the
names; here they become one. -/
theorem C93_counterexample_glued :
    tdList (s "a.o: b.h\\\nc.h\n") = [([s "a.o"], [s "b.hc.h"])] := by decide +kernel

/-- Counterexample: names with blanks, written with a backslash, become two. -/
theorem C93_counterexample_blank :
    tdList (s "a.o: my\\ file.h\n") = [([s "a.o"], [s "my\\", s "file.h"])] := by decide +kernel

/-- Counterexample: the colon after the drive letter of a target ends the targets. -/
theorem C93_counterexample_drive :
    tdList (s "C:/a.o: b.h\n") = [([s "C"], [s "/a.o:", s "b.h"])] := by decide +kernel

/-- Counterexample: a comment after the dependencies becomes dependencies. -/
theorem C93_counterexample_comment :
    tdList (s "a.o: b.h # own\n") = [([s "a.o"], [s "b.h", s "#", s "own"])] := by decide +kernel

/-- Counterexample: a colon in a command of a makefile is a rule. -/
theorem C93_counterexample_command :
    tdList (s "a.o: b.h\n\techo done: ok\n") = [([s "a.o"], [s "b.h"]), ([s "echo", s "done"], [s "ok"])] := by
  decide +kernel

/-- A file that ends with a continuation, and one that ends without a line end. -/
theorem unfinished : tdList (s "a: b \\\n") = [([s "a"], [s "b"])] ∧ tdList (s "a: b\nc: d") = [([s "a"], [s "b"]), ([s "c"], [s "d"])] := by
  decide +kernel

end Verif.Depends.Ex
