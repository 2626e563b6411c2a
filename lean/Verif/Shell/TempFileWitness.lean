import Verif.Shell.TempFileProps
import Verif.Act.ContentsWitness
/-!
# C86: concrete cases, and the limits
-/
namespace Verif.TempFile.Ex
open Verif.Subst Verif.Subst.Witness

def tenv (srcs : List Str) (flag : Str) : Env := env
  [("LINK".toList, .str "ld".toList),
   ("FLAG".toList, .str flag),
   ("OBJS".toList, .seq (srcs.map fun s => .obj s s))]

def cmd : Str := "$LINK $FLAG $OBJS".toList
def E0 : Env := tenv ["a.o".toList, "my b.o".toList, "c.o".toList] "-s".toList
def C0 : Cfg := ⟨10, " ".toList⟩
def words0 : List Str := ["ld".toList, "-s".toList, "a.o".toList, "my b.o".toList, "c.o".toList]
def W0 : Nat → Str → List Str := fun _ _ => words0
def S0 : St Nat := { memo := fun _ _ => none, files := fun _ => none }

theorem words_eq : substList E0 .cmd 6 noLocals (.str cmd) = .ok [words0] := by decide +kernel

def plainWordB (a : Str) : Bool := !a.isEmpty && a.all fun c => Verif.Sgn.CEx.okB c && !isBlank c

theorem plainWordB_sound {a : Str} (h : plainWordB a = true) : plainWord a := by
  simp only [plainWordB, Bool.and_eq_true, Bool.not_eq_true', List.all_eq_true] at h
  exact ⟨fun ha => by simp [ha] at h, fun c hc => ⟨Verif.Sgn.CEx.okB_sound (h.2 c hc).1, (h.2 c hc).2⟩⟩

def plainArgB (a : Str) : Bool :=
  !a.isEmpty && a.all fun c => c != '\\' && c != '"' && c != '\'' && (!isAsciiSpace c || c == ' ' || c == '\t')

theorem plainArgB_sound {a : Str} (h : plainArgB a = true) : plainArg a := by
  simp only [plainArgB, Bool.and_eq_true, Bool.not_eq_true', List.all_eq_true, bne_iff_ne, Bool.or_eq_true,
    beq_iff_eq] at h
  refine ⟨fun ha => by simp [ha] at h, fun c hc => ?_⟩
  obtain ⟨⟨⟨h1, h2⟩, h3⟩, h4⟩ := h.2 c hc
  refine ⟨h1, h2, h3, fun hs => ?_⟩
  rcases h4 with (h4 | h4) | h4
  · rw [hs] at h4; cases h4
  · exact Or.inl h4
  · exact Or.inr h4

/-- What the first call (for printing) returns. -/
theorem first_some : (match call C0 E0 6 noLocals S0 0 cmd "t1".toList with | .ok _ => true | .error _ => false) = true := by
  decide +kernel

def first : Val × St Nat :=
  match call C0 E0 6 noLocals S0 0 cmd "t1".toList with
  | .ok r => r
  | .error _ => (.none, S0)

theorem first_eq : call C0 E0 6 noLocals S0 0 cmd "t1".toList = .ok (first.1, first.2) := by
  have h := first_some
  unfold first
  split at h
  · rename_i r hr; rw [hr]
  · cases h

theorem reach1 : Reach C0 W0 first.2 :=
  .call E0 6 noLocals 0 cmd "t1".toList _ [] .init words_eq rfl (plainWordB_sound (by decide +kernel)) first_eq

theorem second_some : (match call C0 E0 6 noLocals first.2 0 cmd "t2".toList with | .ok _ => true | .error _ => false) = true := by
  decide +kernel

/-- **C86 applied**: the command is printed, then run: the second call finds the file of
the first, and the linker sees the five words, the one with the blank included. -/
example : ∃ v S', call C0 E0 6 noLocals first.2 0 cmd "t2".toList = .ok (v, S') ∧
    ∃ argv, substList E0 .cmd 6 noLocals v = .ok [argv] ∧ expandArgv S'.files argv = words0 := by
  have h := second_some
  split at h
  · rename_i r hr
    refine ⟨r.1, r.2, hr, ?_⟩
    exact C86_same_arguments_partial C0 W0 first.2 r.2 reach1 E0 4 noLocals 0 cmd "t2".toList r.1 (by decide)
      (by decide +kernel) words_eq "ld".toList words0.tail rfl (plainWordB_sound (by decide +kernel))
      (fun a ha => plainArgB_sound ((by decide +kernel : ∀ a ∈ words0.tail, plainArgB a = true) a ha))
      (by decide +kernel) (by decide +kernel) (plainWordB_sound (by decide +kernel)) hr
  · cases h

/-- Short enough: nothing is changed. -/
example : ∀ v S', call ⟨20, " ".toList⟩ E0 6 noLocals S0 0 cmd "t1".toList = .ok (v, S') → v = .str cmd ∧ S' = S0 := by
  intro v S' h
  exact (C86_only_if_too_long ⟨20, " ".toList⟩ S0 S' E0 6 noLocals 0 cmd "t1".toList v words0 [] words_eq
    (fun l hl => by cases hl) h).1 (by decide)

/-- The signature: two limits on the length of the line, one signature. -/
def sigEnv (v : Val) : Env := env
  [("LINK".toList, .str "ld".toList), ("COM".toList, tempVal v "$LINK -s".toList)]

def vShort : Val := .str "$LINK -s".toList
def vLong : Val := .seq [.str "ld".toList, .str "@t1".toList]

theorem sig_of (v : Val) (hv : v = vShort ∨ v = vLong) :
    subst (sigEnv v) .sig 6 noLocals "${COM}".toList = .ok "ld -s".toList := by
  have h := C86_signature_is_that_of_the_command (sigEnv v) 4 noLocals "COM".toList "$LINK -s".toList v (by decide) rfl (by decide)
  have e : ('$' :: '{' :: "COM".toList ++ ['}']) = "${COM}".toList := by decide
  rw [e] at h
  rw [h]
  rcases hv with rfl | rfl <;> decide +kernel

/-! ### The limits -/

/-- The words the program gets in the end. -/
def run (C : Cfg) (E : Env) (S : St Nat) (cmd tmp : Str) : Option (List (List Str)) :=
  match call C E 6 noLocals S 0 cmd tmp with
  | .error _ => none
  | .ok (v, S') =>
    match substList E .cmd 6 noLocals v with
    | .ok l => some (l.map (expandArgv S'.files))
    | .error _ => none

/-- A command of two lines: if its first line is long the second is not run; if it is short
both are. -/
theorem second_line_lost :
    run ⟨10, " ".toList⟩ E0 S0 "$LINK $FLAG $OBJS\nstrip x".toList "t1".toList = some [words0] ∧
    run ⟨40, " ".toList⟩ E0 S0 "$LINK $FLAG $OBJS\nstrip x".toList "t1".toList =
      some [words0, ["strip".toList, "x".toList]] := by
  constructor <;> decide +kernel

/-- A quote in an argument reaches the program of a short command and not that of a long
one: `-DV="1.0"` becomes `-DV=1.0`. -/
theorem quotes_lost :
    run ⟨20, " ".toList⟩ (tenv ["a.c".toList] "-DV=\"1.0\"".toList) S0 cmd "t1".toList =
      some [["ld".toList, "-DV=\"1.0\"".toList, "a.c".toList]] ∧
    run ⟨10, " ".toList⟩ (tenv ["a.c".toList] "-DV=\"1.0\"".toList) S0 cmd "t1".toList =
      some [["ld".toList, "-DV=1.0".toList, "a.c".toList]] := by
  constructor <;> decide +kernel

/-- A backslash too. -/
theorem backslash_lost :
    run ⟨10, " ".toList⟩ (tenv ["dir\\a.c".toList] "-s".toList) S0 cmd "t1".toList =
      some [["ld".toList, "-s".toList, "dira.c".toList]] := by
  decide +kernel

/-- The file of a target is made once per process: if the words of the command have changed
since (an interactive session with a new source found, a batch with `$CHANGED_SOURCES`),
the old file is used again. -/
theorem old_file_used_again :
    run C0 (tenv ["a.o".toList, "new.o".toList, "c.o".toList] "-s".toList) first.2 cmd "t2".toList = some [words0] := by
  decide +kernel

end Verif.TempFile.Ex
