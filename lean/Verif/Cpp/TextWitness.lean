import Verif.Cpp.TextProps
/-!
# C90: an applied case, and the counterexamples
-/
namespace Verif.CppText.Ex

theorem ninf {a b : Char} {s : Str} (h : ¬ [a, b] <:+: s) : ∀ u v, s ≠ u ++ a :: b :: v := by
  intro u v e
  exact h ⟨u, v, by simp [e]⟩

theorem ninf3 {a b c : Char} {s : Str} (h : ¬ [a, b, c] <:+: s) : ∀ u v, s ≠ u ++ a :: b :: c :: v := by
  intro u v e
  exact h ⟨u, v, by simp [e]⟩

theorem plain_of {s : Str} (h1 : '\r' ∉ s) (h2 : ¬ ['/', '*'] <:+: s) (h3 : ¬ ['/', '/'] <:+: s)
    (h4 : ∃ c, s.getLast? = some c ∧ c ≠ ' ' ∧ c ≠ '\t' ∧ c ≠ '\x0b' ∧ c ≠ '\x0c' ∧ c ≠ '/') : Plain s := by
  obtain ⟨c, hc, a1, a2, a3, a4, a5⟩ := h4
  refine ⟨h1, ninf h2, ninf h3, ?_, ?_⟩
  · intro u d e
    have : d = c := by rw [e] at hc; simpa using hc
    subst this
    refine ⟨?_, a5⟩
    rintro (h | h | h | h)
    · exact a1 h
    · exact a2 h
    · exact a3 h
    · exact a4 h
  · rintro rfl; cases hc

theorem noBreak_of {s : Str} (h1 : ¬ ['\\', '\n'] <:+: s) (h2 : ¬ ['\\', '\r', '\n'] <:+: s)
    (h3 : ∃ c, s.getLast? = some c ∧ c ≠ '\\' ∧ c ≠ '\r') : NoBreak s := by
  obtain ⟨c, hc, a1, a2⟩ := h3
  refine ⟨ninf h1, ninf3 h2, ?_, ?_⟩
  · intro u e
    rw [e] at hc
    simp at hc
    exact a1 hc.symm
  · intro u e
    rw [e] at hc
    simp at hc
    exact a2 hc.symm

theorem blank_of {s : Str} (h : s.all (fun c => c = ' ' || c = '\t' || c = '\x0b' || c = '\x0c') = true) : Blank s := by
  intro c hc
  have := List.all_eq_true.1 h c hc
  simp at this
  unfold blankC
  rcases this with ((h | h) | h) | h
  · exact Or.inl h
  · exact Or.inr (Or.inl h)
  · exact Or.inr (Or.inr (Or.inl h))
  · exact Or.inr (Or.inr (Or.inr h))

theorem ident_of {x : Str} (h : ∃ c r, x = c :: r ∧ isIdStart c = true ∧ r.all isIdChar = true) : Ident x := by
  obtain ⟨c, r, h1, h2, h3⟩ := h
  exact ⟨c, r, h1, h2, List.all_eq_true.1 h3⟩

/-- A header: a guard, a condition continued on a second line, a definition with a comment, an
inclusion, other lines. -/
def text : Str :=
  ("// #include <no.h>\n" ++
  "#ifndef _H\n" ++
  "  # define _H\n" ++
  "#if defined(A) && \\\n B > 2 /* both */\r\n" ++
  "#pragma once\n" ++
  "int x; #endif\n" ++
  "#\tinclude \"a/b.h\"\t// for b\n" ++
  "#define F(x,y) ((x)+(y))\n" ++
  "#define LEN 12  \n" ++
  "#undef LEN /* no more */\n" ++
  "   \n" ++
  "#else // A\n" ++
  "#endif\n").toList

def ls : List Str :=
  ["// #include <no.h>".toList, "#ifndef _H".toList, "  # define _H".toList, "#if defined(A) &&  B > 2 /* both */\r".toList,
   "#pragma once".toList, "int x; #endif".toList, "#\tinclude \"a/b.h\"\t// for b".toList, "#define F(x,y) ((x)+(y))".toList,
   "#define LEN 12  ".toList, "#undef LEN /* no more */".toList, "   ".toList, "#else // A".toList, "#endif".toList]

def ds : List (Word × List (Option Str)) :=
  [(.ifndef, [some "_H".toList]), (.define, [some "_H".toList, none, some []]),
   (.if_, [some "defined(A) &&  B > 2".toList]), (.include, [some "\"a/b.h\"".toList]),
   (.define, [some "F".toList, some "(x,y)".toList, some "((x)+(y))".toList]),
   (.define, [some "LEN".toList, none, some "12  ".toList]), (.undef, [some "LEN".toList]), (.else_, []), (.endif, [])]

theorem joined : Joined text (unlines ls) := by
  have h := Joined.lf (p := "// #include <no.h>\n#ifndef _H\n  # define _H\n#if defined(A) && ".toList)
    (noBreak_of (by decide +kernel) (by decide +kernel) ⟨' ', by decide +kernel⟩)
    (Joined.last (p := (" B > 2 /* both */\r\n#pragma once\nint x; #endif\n#\tinclude \"a/b.h\"\t// for b\n#define F(x,y) ((x)+(y))\n" ++
      "#define LEN 12  \n#undef LEN /* no more */\n   \n#else // A\n#endif\n").toList)
      (noBreak_of (by decide +kernel) (by decide +kernel) ⟨'\n', by decide +kernel⟩))
  have e : text = "// #include <no.h>\n#ifndef _H\n  # define _H\n#if defined(A) && ".toList ++ '\\' :: '\n' ::
    (" B > 2 /* both */\r\n#pragma once\nint x; #endif\n#\tinclude \"a/b.h\"\t// for b\n#define F(x,y) ((x)+(y))\n" ++
      "#define LEN 12  \n#undef LEN /* no more */\n   \n#else // A\n#endif\n").toList := by decide +kernel
  have e2 : unlines ls = "// #include <no.h>\n#ifndef _H\n  # define _H\n#if defined(A) && ".toList ++
    (" B > 2 /* both */\r\n#pragma once\nint x; #endif\n#\tinclude \"a/b.h\"\t// for b\n#define F(x,y) ((x)+(y))\n" ++
      "#define LEN 12  \n#undef LEN /* no more */\n   \n#else // A\n#endif\n").toList := by decide +kernel
  rw [e, e2]
  exact h

/-- A line whose first character that is not white space is not `#`. -/
theorem other_of {l b r : Str} {c : Char} (h : l = b ++ c :: r) (hb : ∀ d ∈ b, d ≠ '#') (hc : isWs c = false) (hc2 : c ≠ '#') : IsOther l := by
  refine Or.inl fun pre s e => ?_
  rw [h] at e
  rcases List.append_eq_append_iff.1 e with ⟨a, h1, h2⟩ | ⟨a, h1, h2⟩
  · cases a with
    | nil => simp at h2; exact absurd h2.1 hc2
    | cons d a =>
      simp at h2
      exact ⟨c, by rw [h1, h2.1]; simp, hc⟩
  · cases a with
    | nil => simp at h2; exact absurd h2.1.symm hc2
    | cons d a =>
      simp at h2
      exact absurd h2.1.symm (hb d (by rw [h1]; simp))

theorem lines : Lines ls ds := by
  refine .other (by decide +kernel) (other_of (b := []) (c := '/') (r := "/ #include <no.h>".toList) (by decide +kernel) (by simp) (by decide) (by decide)) ?_
  refine .dir (by decide +kernel) ⟨[], [], " _H".toList, by decide +kernel, (by intro c h; cases h), (by intro c h; cases h), (by simp; decide),
    Rest.name (sep := [' ']) (x := ['_', 'H']) (tail := []) (Or.inr rfl) (blank_of rfl) (by simp) (ident_of ⟨'_', ['H'], rfl, by decide, by decide⟩)
      (.blanks ((by intro c h; cases h)))⟩ ?_
  refine .dir (by decide +kernel) ⟨[' ', ' '], [' '], " _H".toList, by decide +kernel, blank_of rfl, blank_of rfl, (by simp; decide),
    Rest.defineEmpty (sep := [' ']) (x := ['_', 'H']) (tail := []) (blank_of rfl) (by simp) (ident_of ⟨'_', ['H'], rfl, by decide, by decide⟩)
      (.blanks ((by intro c h; cases h)))⟩ ?_
  refine .dir (by decide +kernel) ⟨[], [], " defined(A) &&  B > 2 /* both */\r".toList, by decide +kernel, (by intro c h; cases h), (by intro c h; cases h),
    (by simp; decide), ?_⟩ ?_
  · have := Rest.text (w := .if_) (sep := [' ']) (a := "defined(A) &&  B > 2".toList) (Or.inl rfl) (blank_of rfl)
      ⟨'d', "efined(A) &&  B > 2".toList, by decide +kernel, by decide⟩
      (plain_of (by decide +kernel) (by decide +kernel) (by decide +kernel) ⟨'2', by decide +kernel⟩)
      (.blockCr (bs := [' ']) (blank_of rfl) " both ".toList)
    have e : [' '] ++ "defined(A) &&  B > 2".toList ++ ([' '] ++ '/' :: '*' :: (" both ".toList ++ ['*', '/', '\r'])) =
      " defined(A) &&  B > 2 /* both */\r".toList := by decide +kernel
    rw [e] at this
    simpa using this
  refine .other (by decide +kernel) (Or.inr ⟨[], [], "pragma once".toList, by decide +kernel, (by intro c h; cases h), (by intro c h; cases h),
    ⟨'p', "ragma once".toList, by decide +kernel, by decide⟩, ?_⟩) ?_
  · intro w _ ⟨v, hv⟩
    have := congrArg (after w.text) hv
    rw [after_append] at this
    have h2 : after w.text "pragma once".toList = none := by cases w <;> decide +kernel
    rw [h2] at this
    cases this
  refine .other (by decide +kernel) (other_of (b := []) (c := 'i') (r := "nt x; #endif".toList) (by decide +kernel) (by simp) (by decide) (by decide)) ?_
  refine .dir (by decide +kernel) ⟨[], ['\t'], " \"a/b.h\"\t// for b".toList, by decide +kernel, (by intro c h; cases h), blank_of rfl, (by simp; decide), ?_⟩ ?_
  · have := Rest.text (w := .include) (sep := [' ']) (a := "\"a/b.h\"".toList) (by simp) (blank_of rfl)
      ⟨'"', "a/b.h\"".toList, by decide +kernel, by decide⟩
      (plain_of (by decide +kernel) (by decide +kernel) (by decide +kernel) ⟨'"', by decide +kernel⟩)
      (.line (bs := ['\t']) (blank_of rfl) " for b".toList)
    have e : [' '] ++ "\"a/b.h\"".toList ++ (['\t'] ++ '/' :: '/' :: " for b".toList) = " \"a/b.h\"\t// for b".toList := by decide +kernel
    rw [e] at this
    simpa using this
  refine .dir (by decide +kernel) ⟨[], [], " F(x,y) ((x)+(y))".toList, by decide +kernel, (by intro c h; cases h), (by intro c h; cases h), (by simp; decide), ?_⟩ ?_
  · have := Rest.defineArgs (sep := [' ']) (x := ['F']) (ps := "x,y".toList) (sep' := [' ']) (body := "((x)+(y))".toList) (blank_of rfl) (by simp)
      (ident_of ⟨'F', [], rfl, by decide, by decide⟩) (by decide +kernel) (blank_of rfl) ⟨'(', "(x)+(y))".toList, by decide +kernel, by decide⟩
      (plain_of (by decide +kernel) (by decide +kernel) (by decide +kernel) ⟨')', by decide +kernel⟩) (.blanks (bs := []) ((by intro c h; cases h)))
    have e : [' '] ++ ['F'] ++ '(' :: "x,y".toList ++ ')' :: [' '] ++ "((x)+(y))".toList ++ [] = " F(x,y) ((x)+(y))".toList := by decide +kernel
    rw [e] at this
    have e2 : '(' :: "x,y".toList ++ [')'] = "(x,y)".toList := by decide +kernel
    rw [e2] at this
    simpa using this
  refine .dir (by decide +kernel) ⟨[], [], " LEN 12  ".toList, by decide +kernel, (by intro c h; cases h), (by intro c h; cases h), (by simp; decide), ?_⟩ ?_
  · have := Rest.define (sep := [' ']) (x := "LEN".toList) (sep' := [' ']) (body := "12".toList) (blank_of rfl) (by simp)
      (ident_of ⟨'L', ['E', 'N'], by decide +kernel, by decide, by decide⟩) (blank_of rfl) (by simp) ⟨'1', ['2'], by decide +kernel, by decide⟩
      (plain_of (by decide +kernel) (by decide +kernel) (by decide +kernel) ⟨'2', by decide +kernel⟩) (.blanks (bs := [' ', ' ']) (blank_of rfl))
    have e : [' '] ++ "LEN".toList ++ [' '] ++ "12".toList ++ [' ', ' '] = " LEN 12  ".toList := by decide +kernel
    have e2 : "12".toList ++ [' ', ' '] = "12  ".toList := by decide +kernel
    rw [e, e2] at this
    exact this
  refine .dir (by decide +kernel) ⟨[], [], " LEN /* no more */".toList, by decide +kernel, (by intro c h; cases h), (by intro c h; cases h), (by simp; decide), ?_⟩ ?_
  · have := Rest.undef (sep := [' ']) (x := "LEN".toList) (blank_of rfl) (by simp)
      (ident_of ⟨'L', ['E', 'N'], by decide +kernel, by decide, by decide⟩) (.block (bs := [' ']) (blank_of rfl) " no more ".toList)
    have e : [' '] ++ "LEN".toList ++ ([' '] ++ '/' :: '*' :: (" no more ".toList ++ ['*', '/'])) = " LEN /* no more */".toList := by decide +kernel
    rw [e] at this
    exact this
  refine .other (by decide +kernel) (Or.inl ?_) ?_
  · intro pre r e
    exact absurd (show '#' ∈ "   ".toList by rw [e]; simp) (by decide +kernel)
  refine .dir (by decide +kernel) ⟨[], [], " // A".toList, by decide +kernel, (by intro c h; cases h), (by intro c h; cases h), (by simp; decide), .word (Or.inl rfl)⟩ ?_
  refine .dir (by decide +kernel) ⟨[], [], [], by decide +kernel, (by intro c h; cases h), (by intro c h; cases h), by simp, .word (Or.inr rfl)⟩ ?_
  exact .nil

example : tupleize text = ds := C90_directives_found_partial text ls ds joined lines

/-! ### What the full property says and the code does not do -/

/-- `#include_next` is read as `#include` of something. -/
theorem C90_include_next_counterexample :
    tupleize "#include_next <x.h>\n".toList = [(.include, [some "_next <x.h>".toList])] := by decide +kernel

/-- White space after the name of `#ifdef` becomes part of the name. -/
theorem C90_ifdef_blank_counterexample :
    tupleize "#ifdef FOO \n".toList = [(.ifdef, [some "FOO ".toList])] := by decide +kernel

/-- What is between two block comments is lost. -/
theorem C90_two_comments_counterexample :
    tupleize "#if A /* x */ && B /* y */\n".toList = [(.if_, [some "A".toList])] := by decide +kernel

/-- Two slashes within a file name begin a comment. -/
theorem C90_slashes_counterexample :
    tupleize "#include <sys//t.h>\n".toList = [(.include, [some "<sys".toList])] := by decide +kernel

/-- A `#` alone on its line takes the next line with it. -/
theorem C90_null_directive_counterexample :
    tupleize "#\nelse\n".toList = [(.else_, [])] := by decide +kernel

/-- Another directive whose name begins like one of the table. -/
theorem C90_elifdef_counterexample :
    tupleize "#elifdef X\n".toList = [(.elif, [some "def X".toList])] := by decide +kernel

/-- Directives within a block comment count. -/
theorem C90_in_comment_counterexample :
    tupleize "/*\n#include <x.h>\n*/\n".toList = [(.include, [some "<x.h>".toList])] := by decide +kernel

/-- `#if` without a condition is dropped, its `#endif` is not. -/
theorem C90_empty_if_counterexample :
    tupleize "#if\n#endif\n".toList = [(.endif, [])] := by decide +kernel

end Verif.CppText.Ex
