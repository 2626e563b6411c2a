import Verif.CompDb.Main

/-!
# C114: examples and counterexamples
-/

namespace Verif.CompDb.Ex
open Verif.Shell (Word Readable FirstFine shell commandLine)

def top : Path := ["h".toList, "my p".toList]

/-- `/h/my p` with the SConstruct; `build` is a variant directory of `src`, not duplicated; `gen.c` is built. -/
def W : World where
  nodes := {
    cwd := top
    sconstruct := top
    isDir := fun n => decide (n = top ++ ["build".toList])
    srcdir := fun n => if n = top ++ ["build".toList] then some (top ++ ["src".toList]) else none
    duplicate := fun _ => false
    derived := fun n => decide (n = top ++ ["build".toList, "gen.c".toList])
    onDisk := fun _ => true
    rfile := id }
  words := fun ce _ t s => [[⟨"gcc".toList, false⟩, ⟨"-o".toList, false⟩, ⟨Verif.Attrs.getPath top t, true⟩, ⟨ce.overrides, false⟩, ⟨Verif.Attrs.getPath top s, true⟩]]

def ao : Path := top ++ ["build".toList, "a.o".toList]
def ac : Path := top ++ ["build".toList, "a.c".toList]
def go : Path := top ++ ["build".toList, "gen.o".toList]
def gc : Path := top ++ ["build".toList, "gen.c".toList]
def c : Str := ".c".toList

/-- One environment with the C compiler and the database; a clone of it; a generated source and one with overrides. -/
def evs : List Ev :=
  [.newEnv, .tool 0 .cc, .tool 0 .compdb, .compile false ao ac c ⟨0, "-O2".toList⟩, .clone 0, .compile false go gc c ⟨1, "-g".toList⟩, .compile true ao ac c ⟨1, "-fPIC".toList⟩]

/-- Everything is recorded once. -/
example : (run evs).entries = (run evs).compiles ∧ (run evs).entries =
    [⟨ao, ac, ⟨0, "-O2".toList⟩, .cccom⟩, ⟨go, gc, ⟨1, "-g".toList⟩, .cccom⟩, ⟨ao, ac, ⟨1, "-fPIC".toList⟩, .shcccom⟩] := by decide +kernel

/-- The file. -/
example : database W ⟨false, some fun o => o != "build/gen.o".toList⟩ (evs.take 6) =
    "[\n    {\n        \"command\": \"gcc -o build/a.o -O2 build/a.c\",\n        \"directory\": \"/h/my p\",\n        \"file\": \"src/a.c\",\n        \"output\": \"build/a.o\"\n    }\n]\n".toList := by decide +kernel

/-- The generated source is named where it is built. -/
example : (readJson (database W ⟨false, none⟩ evs)).map (fun ms => ms.map fun m => (m.lookup "file".toList).getD []) = some ["src/a.c".toList, "build/gen.c".toList, "src/a.c".toList] := by decide +kernel

/-- The hypotheses of `C114_database` and of `C114_once_simple` are met. -/
example : ∃ rs : List Record, readJson (database W ⟨true, none⟩ evs) = some (rs.map Record.members) ∧ rs.length = 3 := by
  obtain ⟨rs, h1, h2⟩ := C114_database W ⟨true, none⟩ evs rfl (by unfold Verif.Attrs.Proper Verif.FS.GoodName; decide +kernel) (by unfold Verif.Attrs.Proper Verif.FS.GoodName; decide +kernel)
  have hl : ∀ (l : List Entry) (rs : List Record), List.Forall₂ (Describes W ⟨true, none⟩) l rs → rs.length = l.length := by
    intro l rs h
    induction h with
    | nil => rfl
    | cons _ _ ih => simp [ih]
  exact ⟨rs, h1, by rw [hl _ _ h2]; decide +kernel⟩

example : (run ([.newEnv, .tool 0 .cxx, .tool 0 .cc] ++ .tool 0 .compdb :: [.compile false ao ac c ⟨0, "-g".toList⟩, .compile true go gc ".cpp".toList ⟨0, []⟩])).entries.map (fun e => (e.target, e.source, e.env.overrides)) =
    [(ao, ac, "-g".toList), (go, gc, [])] := by
  have := C114_once_simple [.cxx, .cc] (by decide) [(false, ao, ac, c, "-g".toList), (true, go, gc, ".cpp".toList, [])] (by decide) (by decide +kernel)
  exact (congrArg (List.map fun e => (e.target, e.source, e.env.overrides)) this.1).trans this.2

/-- The hypotheses of `C114_command_partial` are met. -/
example : process (W.words ⟨0, "-DX=a b".toList⟩ .cccom ao ac) = ([[⟨"gcc".toList, false⟩, ⟨"-o".toList, false⟩, ⟨"build/a.o".toList, true⟩, ⟨"-DX=a b".toList, false⟩, ⟨"build/a.c".toList, true⟩]], false, false) ∧
    (∀ w ∈ [(⟨"gcc".toList, false⟩ : Word), ⟨"-o".toList, false⟩, ⟨"build/a.o".toList, true⟩, ⟨"-DX=a b".toList, false⟩, ⟨"build/a.c".toList, true⟩], Readable ⟨w.data, false⟩) := by decide +kernel

example : jsonStr "a\"\\\n\x7f é𝄞".toList = "\"a\\\"\\\\\\n\\u007f \\u00e9\\ud834\\udd1e\"".toList := by decide +kernel

/-! ## Counterexamples -/

/-- The tool loaded before the language, or the language loaded again afterwards: nothing is recorded. -/
theorem C114_tool_order :
    (run [.newEnv, .tool 0 .compdb, .tool 0 .cc, .compile false ao ac c ⟨0, []⟩]).entries = [] ∧
    (run [.newEnv, .tool 0 .cc, .tool 0 .compdb, .tool 0 .cc, .compile false ao ac c ⟨0, []⟩]).entries = [] ∧
    (run [.newEnv, .tool 0 .cc, .tool 0 .compdb, .tool 0 .cc, .compile false ao ac c ⟨0, []⟩]).compiles = [⟨ao, ac, ⟨0, []⟩, .cccom⟩] := by decide +kernel

/-- What was set up before the tool was loaded is missing. -/
theorem C114_earlier_calls_missing :
    (run [.newEnv, .tool 0 .cc, .compile false ao ac c ⟨0, []⟩, .tool 0 .compdb]).entries = [] ∧
    (run [.newEnv, .tool 0 .cc, .compile false ao ac c ⟨0, []⟩, .tool 0 .compdb]).compiles = [⟨ao, ac, ⟨0, []⟩, .cccom⟩] := by decide +kernel

/-- The tool loaded into a clone: every compilation of the environment it was cloned from is recorded too, twice where that had the tool; and a language loaded into a clone makes the first one's entries stop. -/
theorem C114_clones_interfere :
    (run [.newEnv, .tool 0 .cc, .tool 0 .compdb, .clone 0, .tool 1 .compdb, .compile false ao ac c ⟨0, []⟩]).entries = [⟨ao, ac, ⟨0, []⟩, .cccom⟩, ⟨ao, ac, ⟨0, []⟩, .cccom⟩] ∧
    (run [.newEnv, .tool 0 .cc, .clone 0, .tool 1 .compdb, .compile false ao ac c ⟨0, []⟩]).entries = [⟨ao, ac, ⟨0, []⟩, .cccom⟩] ∧
    (run [.newEnv, .tool 0 .cc, .tool 0 .compdb, .clone 0, .tool 1 .cc, .compile false ao ac c ⟨0, []⟩]).entries = [] := by decide +kernel

/-- The same object asked for by two programs is recorded twice. -/
theorem C114_same_object_twice :
    (run [.newEnv, .tool 0 .cc, .tool 0 .compdb, .compile false ao ac c ⟨0, []⟩, .compile false ao ac c ⟨0, []⟩]).entries = [⟨ao, ac, ⟨0, []⟩, .cccom⟩, ⟨ao, ac, ⟨0, []⟩, .cccom⟩] := by decide +kernel

/-- A file name with a dollar sign, and one with a quote and a blank: the command that is run has the right arguments, the one in the database has not. -/
theorem C114_names_not_escaped :
    let ls : List (List Word) := [[⟨"gcc".toList, false⟩, ⟨"a$b.c".toList, true⟩]]
    let ms : List (List Word) := [[⟨"gcc".toList, false⟩, ⟨"a\" b.c".toList, true⟩]]
    (executed ls).map shell = [some ["gcc".toList, "a$b.c".toList]] ∧ shell (strfunction ls) = none ∧
    (executed ms).map shell = [some ["gcc".toList, "a\" b.c".toList]] ∧ shell (strfunction ms) = none := by decide +kernel

/-- A backslash in a name is lost in silence. -/
theorem C114_backslash_lost :
    let ls : List (List Word) := [[⟨"gcc".toList, false⟩, ⟨"a\\b.c".toList, true⟩]]
    (executed ls).map shell = [some ["gcc".toList, "a\\b.c".toList]] ∧ shell (strfunction ls) = some ["gcc".toList, "ab.c".toList] := by decide +kernel

/-- Of a command of two lines only the first is in the database; of a silent one nothing. -/
theorem C114_lines_lost :
    strfunction [[⟨"gcc".toList, false⟩, ⟨"a.c".toList, false⟩], [⟨"strip".toList, false⟩, ⟨"a.o".toList, false⟩]] = "gcc a.c".toList ∧
    strfunction [[⟨"@gcc".toList, false⟩, ⟨"a.c".toList, false⟩]] = [] ∧ executed [[⟨"@gcc".toList, false⟩, ⟨"a.c".toList, false⟩]] = ["gcc a.c".toList] := by decide +kernel

end Verif.CompDb.Ex
