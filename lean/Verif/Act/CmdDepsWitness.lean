import Verif.Act.CmdDepsProps
import Verif.Act.ContentsWitness
/-!
# C85: concrete cases and what is missed
-/
namespace Verif.Sgn.DEx
open Verif.Subst Verif.Sgn.CEx
open Verif.Subst.Witness (env noLocals)

/-- A disk with the given programs and other files; the current directory is `/w`. -/
def disk (progs files : List String) : Disk where
  isfile p := (progs ++ files).any fun s => decide (s.toList = p)
  executable p := progs.any fun s => decide (s.toList = p)
  norm p := p
  abs p := "/w/".toList ++ p

def path : List Str := ["/usr/local/bin".toList, "/usr/bin".toList]

def d1 : Disk := disk ["/usr/bin/gcc", "/usr/bin/cd", "gen.sh", "./gen.sh", "/usr/bin/python"] ["gcc", "tool.py"]


def gccCmd : Single := { body := .text com, varlist := ["DIR".toList], chdir := none }

theorem gccRuns : ShellRuns d1 path "gcc".toList "/usr/bin/gcc".toList :=
  .found ["/usr/local/bin".toList] "/usr/bin".toList [] (by decide) rfl
    (by constructor <;> decide +kernel)
    (by
      intro q hq h
      simp only [List.mem_cons, List.not_mem_nil, or_false] at hq
      subst hq
      exact absurd h.1 (by decide +kernel))

/-- C85 applies: `gcc` is a dependency. -/
theorem applied : ∃ deps, CEx.ex.scanned e1 6 noLocals d1 path .light [] true false = .ok deps ∧
    "/usr/bin/gcc".toList ∈ deps := by
  have hsome : CEx.ex.scanned e1 6 noLocals d1 path .light [] true false = .ok ["/usr/bin/gcc".toList] := by
    decide +kernel
  refine ⟨_, hsome, ?_⟩
  exact C85_program_is_dependency_partial CEx.ex e1 6 noLocals d1 path [] gccCmd (by simp [CEx.ex, Exec.singles, Exec.actions, Act.singles, gccCmd])
    com_neat1 (.str com) rfl "gcc".toList _ (by decide +kernel :
      substList e1 .cmd 6 noLocals (.str com) = .ok ["gcc".toList :: ["-g".toList, "-O2".toList, "-Iinc".toList,
        "-o".toList, "x.o".toList, "-c".toList, "a.c".toList, "b.c".toList]])
    (by intro c hc; cases hc; decide) (by decide) (by decide) _ gccRuns false _ hsome

/-- ... and with `IMPLICIT_COMMAND_DEPENDENCIES=2` the script of an interpreter too, also
after `&&`. -/
theorem thorough_applied :
    heavyDeps e1 6 d1 path (some 2) [] [["cd".toList, "sub".toList, "&&".toList, "python".toList, "tool.py".toList, "x".toList]] =
      .ok ["/usr/bin/cd".toList, "/usr/bin/python".toList, "/w/tool.py".toList] ∧
    "/w/tool.py".toList ∈ ["/usr/bin/cd".toList, "/usr/bin/python".toList, "/w/tool.py".toList] := by
  have h : heavyDeps e1 6 d1 path (some 2) [] [["cd".toList, "sub".toList, "&&".toList, "python".toList, "tool.py".toList, "x".toList]] =
      .ok ["/usr/bin/cd".toList, "/usr/bin/python".toList, "/w/tool.py".toList] := by decide +kernel
  refine ⟨h, (C85_thorough e1 6 d1 path (some 2) [] _ _ h _).2 ?_⟩
  refine ⟨by simp, _, List.mem_cons_self .., "tool.py".toList, 1,
    ⟨["cd".toList, "sub".toList, "&&".toList], ["python".toList], ["x".toList], rfl, Or.inr rfl, by decide, rfl⟩, ?_, by decide, by decide,
    by decide, Or.inl ⟨by decide +kernel, by decide +kernel⟩⟩
  rintro c hc
  cases hc
  decide

/-! ### What is missed -/

/-- **C85, what fails (1)** A program named by a relative path with a `/` is looked for on
the search path only: it is run, but is no dependency. -/
theorem counterexample_relative_path :
    ShellRuns d1 path "./gen.sh".toList "./gen.sh".toList ∧
    (one (.text "./gen.sh x".toList)).scanned e1 6 noLocals d1 path .light [] true false = .ok [] :=
  ⟨.named (by decide) (by constructor <;> decide +kernel), by decide +kernel⟩

/-- **C85, what fails (2)** The programs of a target without sources are not looked for. -/
theorem counterexample_no_sources :
    (one (.text "gcc --version".toList)).scanned e1 6 noLocals d1 path .light [] true false = .ok ["/usr/bin/gcc".toList] ∧
    (one (.text "gcc --version".toList)).scanned e1 6 noLocals d1 path .light [] false false = .ok [] := by
  decide +kernel

/-- **C85, what fails (3)** By default only the first word counts: `cd sub && gcc x.c` depends
on a program called `cd`, if there is one, and not on `gcc`. -/
theorem counterexample_after_and :
    (one (.text "cd sub && gcc x.c".toList)).scanned e1 6 noLocals d1 path .light [] true false = .ok ["/usr/bin/cd".toList] := by
  decide +kernel

def d2 : Disk := disk ["/opt/my tools/gen", "/opt/my"] []

/-- **C85, what fails (4)** The name is cut at blanks once more: `/opt/my tools/gen`, given as a
word of its own, is looked for as `/opt/my`. -/
theorem counterexample_blank_in_name :
    substList e1 .cmd 6 noLocals (.seq [.str "/opt/my tools/gen".toList, .str "x".toList]) =
      .ok [["/opt/my tools/gen".toList, "x".toList]] ∧
    (one (.words ["/opt/my tools/gen".toList, "x".toList])).scanned e1 6 noLocals d2 path .light [] true false =
      .ok ["/opt/my".toList] := by
  decide +kernel

/-- **C85, what fails (5)** In the thorough mode a file in the current directory with the name of
the program hides it, although the shell runs the one on the search path. -/
theorem counterexample_file_hides_program :
    ShellRuns d1 path "gcc".toList "/usr/bin/gcc".toList ∧
    heavyDeps e1 6 d1 path none [] [["gcc".toList, "-c".toList, "x.c".toList]] = .ok ["/w/gcc".toList] :=
  ⟨gccRuns, by decide +kernel⟩

end Verif.Sgn.DEx
