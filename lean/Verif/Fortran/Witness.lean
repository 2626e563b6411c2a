import Verif.Fortran.Props2

/-!
# C99: a pair of files that meets the hypotheses, and files the patterns get wrong
-/

namespace Verif.Fortran

open Spec (Text Blank Printable Reads SameName firstWord secondWord Quiet Free Name Tail Sep Stmt
  Line moreText procedureWords fileText)

/-! ## Checking that a text is free -/

/-- What follows each semicolon. -/
def semis : Text → List Text
  | [] => []
  | c :: t => if c = ';' then t :: semis t else semis t

theorem mem_semis : ∀ (u v : Text), v ∈ semis (u ++ ';' :: v)
  | [], v => by simp [semis]
  | c :: u, v => by
    rw [List.cons_append, semis]
    split
    · exact List.mem_cons_of_mem _ (mem_semis u v)
    · exact mem_semis u v

instance (t : Text) : Decidable (Quiet t) := inferInstanceAs (Decidable (_ ∧ _ ∧ (_ → _)))
instance (t : Text) : Decidable (Printable t) :=
  inferInstanceAs (Decidable (∀ c ∈ t, Spec.blank c = true ∨ (32 < c.toNat ∧ c.toNat < 127)))
instance (t : Text) : Decidable (Blank t) := inferInstanceAs (Decidable (∀ c ∈ t, Spec.blank c = true))
instance (t : Text) : Decidable (Name t) :=
  inferInstanceAs (Decidable (t ≠ [] ∧ ∀ c ∈ t, Spec.wordChar c = true))
instance (a b : Text) : Decidable (SameName a b) :=
  inferInstanceAs (Decidable (a.map Char.toLower = b.map Char.toLower))
instance (k : String) (t : Text) : Decidable (Reads k t) :=
  inferInstanceAs (Decidable (t.map Char.toLower = k.toList))

theorem free_of (t : Text) (h : Printable t ∧ ∀ v ∈ semis t, Quiet v) : Free t :=
  ⟨h.1, fun u v e => h.2 v (by rw [e]; exact mem_semis u v)⟩

theorem tail_of (t : Text) (h : Printable t ∧ ∀ v ∈ semis t, Quiet v)
    (h' : ∀ c ∈ t.head?, Spec.wordChar c = false) : Tail t :=
  ⟨free_of t h, fun c u e => h' c (by rw [e]; rfl)⟩

/-! ## Two files -/

/-- ```
  MODULE Solver ! the solver; see the book
module procedure step; x = 1
END MODULE Solver
``` -/
def solverFile : List Line :=
  [.mod "  ".toList "MODULE".toList " ".toList "Solver".toList " ! the solver; see the book\r".toList [],
   .stmts (.other "module procedure step".toList) [.other " x = 1".toList],
   .stmts (.other "END MODULE Solver".toList) [],
   .stmts (.other []) []]

/-- ```
module mine; Use, Non_Intrinsic :: SOLVER, only: step ! ; or; all
  use :: mine
	include 'Pars.inc' ! parameters
y = 2; use linalg
``` -/
def userFile : List Line :=
  [.mod [] "module".toList " ".toList "mine".toList []
     [.use " ".toList "Use".toList (.nature [] " ".toList "Non_Intrinsic".toList " ".toList " ".toList)
        "SOLVER".toList ", only: step ! ; or; all".toList],
   .stmts (.use "  ".toList "use".toList (.colons " ".toList " ".toList) "MINE".toList []) [],
   .incl "\t".toList "include".toList " ".toList '\'' "Pars.inc".toList '\'' " ! parameters".toList,
   .stmts (.other "y = 2".toList)
     [.use " ".toList "use".toList (.gap " ".toList) "linalg".toList []]]

theorem solverFile_proper : Spec.Proper solverFile := by
  intro l hl
  simp only [solverFile, List.mem_cons, List.not_mem_nil, or_false] at hl
  rcases hl with rfl | rfl | rfl | rfl
  · exact ⟨by decide, by decide, by decide, by decide, by decide,
      tail_of _ (by decide +kernel) (by decide), by decide +kernel, by simp⟩
  · refine ⟨⟨free_of _ (by decide +kernel), by decide +kernel⟩, ?_⟩
    intro x hx
    simp only [List.mem_cons, List.not_mem_nil, or_false] at hx
    subst hx
    exact ⟨free_of _ (by decide +kernel), by decide +kernel⟩
  · exact ⟨⟨free_of _ (by decide +kernel), by decide +kernel⟩, by simp⟩
  · exact ⟨⟨free_of _ (by decide +kernel), by decide +kernel⟩, by simp⟩

theorem userFile_proper : Spec.Proper userFile := by
  intro l hl
  simp only [userFile, List.mem_cons, List.not_mem_nil, or_false] at hl
  rcases hl with rfl | rfl | rfl | rfl
  · refine ⟨by decide, by decide, by decide, by decide, by decide,
      tail_of _ (by decide +kernel) (by decide), by decide +kernel, ?_⟩
    intro x hx
    simp only [List.mem_cons, List.not_mem_nil, or_false] at hx
    subst hx
    exact ⟨by decide, by decide,
      ⟨by decide, by decide, Or.inr (by decide), by decide, by decide⟩, by decide,
      tail_of _ (by decide +kernel) (by decide)⟩
  · exact ⟨⟨by decide, by decide, ⟨by decide, by decide⟩, by decide,
      tail_of _ (by decide +kernel) (by decide)⟩, by simp⟩
  · exact ⟨by decide, by decide, by decide, by decide, Or.inl rfl, by decide, by decide +kernel,
      by decide +kernel, free_of _ (by decide +kernel)⟩
  · refine ⟨⟨free_of _ (by decide +kernel), by decide +kernel⟩, ?_⟩
    intro x hx
    simp only [List.mem_cons, List.not_mem_nil, or_false] at hx
    subst hx
    exact ⟨by decide, by decide, ⟨by decide, by decide⟩, by decide,
      tail_of _ (by decide +kernel) (by decide)⟩

/-- The object file of the user depends on `mod/solver.mod`, which compiling the solver makes. -/
example :
    ("mod", "solver.mod".toList) ∈ emitTargets "mod" ".mod".toList (fileText solverFile) ∧
    ("mod", "solver.mod".toList) ∈
      scanNodes (fun d n => d == "mod" && n == "solver.mod".toList) "src" ["inc", "mod"] ".mod".toList
        (fileText userFile) :=
  C99_use_depends_on_definition_partial (fun d n => d == "mod" && n == "solver.mod".toList) "mod" "src"
    ["inc", "mod"] ["src", "inc"] [] ".mod".toList solverFile userFile solverFile_proper userFile_proper
    "Solver".toList "SOLVER".toList (by decide) (by decide) (by decide +kernel)
    (by decide +kernel)
    (by
      intro t ht
      obtain ⟨m, hm, rfl⟩ := (C99_emit_targets_partial "mod" ".mod".toList solverFile solverFile_proper t).1 ht
      simp [Spec.modules, solverFile, Line.modules] at hm
      subst hm
      decide +kernel)
    rfl (by decide +kernel)

/-- What the scanner looks for in the second file: not `mine.mod`, which it defines itself. -/
example : scanNames ".mod".toList (fileText userFile) =
    ["Pars.inc".toList, "solver.mod".toList, "linalg.mod".toList] := by decide +kernel

/-! ## What the patterns get wrong -/

/-- A module whose name begins with `function` (or `pure`, `procedure`, …) is not seen to be defined:
no target, and who uses it looks for a file nobody makes. -/
theorem C99_counterexample_prefix :
    findDefs "module functions\nend module functions\n".toList = [] ∧
    findUses "use functions\n".toList = ["functions".toList] := by decide +kernel

/-- A function of a submodule with its type before it is taken for a module of that name. -/
theorem C99_counterexample_typed_function :
    findDefs "module integer function f(x)\n".toList = ["integer".toList] := by decide +kernel

/-- A `use` in a comment, after a semicolon, counts. -/
theorem C99_counterexample_comment :
    findUses "! as before; use bar\n".toList = ["bar".toList] := by decide +kernel

/-- A comment that ends in `; use` takes the next line for the name of the module: here the module
`bar` is not found. -/
theorem C99_counterexample_swallow :
    findUses "! for later; use\nuse bar\n".toList = ["use".toList] := by decide +kernel

/-- A `use` that goes on in the next line is not seen. -/
theorem C99_counterexample_continuation :
    findUses "use &\n  bar\n".toList = [] := by decide +kernel

/-- A module that is not the first statement of its line is not seen. -/
theorem C99_counterexample_second_statement :
    findDefs "end module a; module b\n".toList = [] := by decide +kernel

/-- If `$FORTRANMODDIR` is not searched, nothing depends on the module file, although it is a
target: the dependency is silently left out (a warning that is off by default). -/
theorem C99_counterexample_moddir {D : Type} (there : D → Text → Bool) (srcDir : D) (path : List D)
    (suffix : Text) (text : Text) (modDir : D) (h : modDir ∉ srcDir :: path) (n : Text) :
    (modDir, n) ∉ scanNodes there srcDir path suffix text := by
  intro hm
  rw [scanNodes, List.mem_filterMap] at hm
  obtain ⟨x, _, hx⟩ := hm
  rcases hf : findDir there (srcDir :: path) x with _ | d
  · rw [hf] at hx; simp at hx
  · rw [hf] at hx
    simp only [Option.map_some, Option.some.injEq, Prod.mk.injEq] at hx
    rw [findDir] at hf
    exact h (hx.1 ▸ List.mem_of_find?_eq_some hf)

end Verif.Fortran
