import Verif.Scan.CTextProps
/-!
# C87: concrete cases, and the limits
-/
namespace Verif.CScan.Ex

/-! ### A checker for `Tame` -/

def tameLineB (line : Str) : Bool :=
  match startOf line with
  | none => true
  | some (b, r) => !(r.takeWhile inName).isEmpty && (r.dropWhile inName).head? == some (closing b)

def tameB (text : Str) : Bool := (lines text).all tameLineB

theorem tameB_sound {text : Str} (h : tameB text = true) : Tame text := by
  intro line hl b r hb
  have h1 := List.all_eq_true.1 h line hl
  have hs := (startOf_iff line b r).2 hb
  simp only [tameLineB, hs, Bool.and_eq_true, Bool.not_eq_true', List.isEmpty_eq_false_iff, beq_iff_eq] at h1
  have hin : ∀ c ∈ r.takeWhile inName, inName c = true := List.all_eq_true.1 List.all_takeWhile
  have hg : '>' ∉ r.takeWhile inName := fun hm => absurd (hin _ hm) (by decide)
  have hq : '"' ∉ r.takeWhile inName := fun hm => absurd (hin _ hm) (by decide)
  refine ⟨r.takeWhile inName, ⟨(r.dropWhile inName).tail, ?_, h1.1, ?_⟩, hg, hq⟩
  · have e : r = r.takeWhile inName ++ [closing b] ++ (r.dropWhile inName).tail := by
      refine (List.takeWhile_append_dropWhile (p := inName) (l := r)).symm.trans ?_
      cases hd : r.dropWhile inName with
      | nil => rw [hd] at h1; cases h1.2
      | cons c t => rw [hd] at h1; simp at h1; simp [h1.2]
    rw [← e]; exact hb
  · unfold closing; split
    · exact hg
    · exact hq

/-! ### A small project -/

/-- Files: 0 `main.c`, 1 `a.h`, 2 `inc/b.h`, 3 `inc/c.h`, 4 `b.h` (next to `main.c`). Directories: 0, and
1 = `inc`, which is the path. -/
def text : Nat → Option Str
  | 0 => some "// test\n#include <stdio.h>\n #  include\t\"a.h\" // x\nint main() {}\n#ifdef X\n#include <b.h>\n#endif\n".toList
  | 1 => some "#include \"b.h\"\n#define S \"#include\"".toList
  | 2 => some "#import \"c.h\"".toList
  | 3 => some "#include \"b.h\"\n".toList
  | 4 => some "".toList
  | _ => none

def has (d : Nat) (n : Str) : Option Nat :=
  if d = 0 then
    if n = "a.h".toList then some 1 else if n = "b.h".toList then some 4 else none
  else if n = "b.h".toList then some 2 else if n = "c.h".toList then some 3 else none

def P : Proj Nat Nat := { text := text, dir := fun v => if v = 2 ∨ v = 3 then 1 else 0, has := has, path := [1] }

theorem tame_all : ∀ v t, P.text v = some t → Tame t := by
  intro v t ht
  have h : ∀ v, v ∈ [0, 1, 2, 3, 4] → ∀ t, text v = some t → tameB t = true := by decide +kernel
  have hv : v ∈ [0, 1, 2, 3, 4] := by
    match v, ht with
    | 0, _ | 1, _ | 2, _ | 3, _ | 4, _ => simp
    | n + 5, ht => cases ht
  exact tameB_sound (h v hv t ht)

theorem has_in : ∀ d n v, P.has d n = some v → v ∈ [1, 2, 3, 4] := by
  intro d n v h
  simp only [P, has] at h
  split at h
  · split at h
    · cases h; simp
    · split at h
      · cases h; simp
      · cases h
  · split at h
    · cases h; simp
    · split at h
      · cases h; simp
      · cases h

/-- **C87 applied**: whatever is defined, what the compiler reads are dependencies. -/
example : ∃ n0 deps, (∀ n, n0 ≤ n → Scan.getImplicitDeps (scanEnv P) none 0 n = some deps) ∧ 0 ∉ deps ∧
    (∀ Obeys : Nat → Char → Str → Prop, (∀ v b n, Obeys v b n → ∃ t, P.text v = some t ∧ Includes t b n) →
      ∀ g, Reads P Obeys 0 g → g = 0 ∨ g ∈ deps) ∧ (∀ g ∈ deps, CanRead P 0 g) :=
  C87_every_file_read_is_a_dependency_partial P _ has_in tame_all 0

/-- These are all four headers: each finds the `b.h` the compiler would. -/
theorem deps_eq : Scan.getImplicitDeps (scanEnv P) none 0 10 = some [1, 2, 4, 3] := by decide +kernel

/-- With `X` defined the compiler does read `inc/c.h`, through `<b.h>`. -/
theorem reads_c : Reads P (fun v b n => ∃ t, P.text v = some t ∧ Includes t b n) 0 3 := by
  have d0 : ∃ t, P.text 0 = some t ∧ Includes t '<' "b.h".toList :=
    ⟨_, rfl, (C87_exactly_the_directives_partial _ (tame_all 0 _ rfl) _ _).1 (by decide +kernel)⟩
  have d2 : ∃ t, P.text 2 = some t ∧ Includes t '"' "c.h".toList :=
    ⟨_, rfl, (C87_exactly_the_directives_partial _ (tame_all 2 _ rfl) _ _).1 (by decide +kernel)⟩
  refine .step (.step .start d0 ⟨[], 1, [], rfl, ?_, by simp⟩) d2 ⟨[], 1, [1], rfl, ?_, by simp⟩
  · exact (by decide +kernel : P.has 1 "b.h".toList = some 2)
  · exact (by decide +kernel : P.has 1 "c.h".toList = some 3)

/-! ### The limits -/

/-- A comment that mentions `#include <` hides the next directive: the name reaches over
the end of the line, up to the next bracket. -/
theorem next_directive_hidden :
    let t := "/*\n#include <your header\n*/\n#include \"config.h\"\n".toList
    Includes t '"' "config.h".toList ∧
    findIncludes t = [('<', "your header\n*/\n#include ".toList)] := by
  refine ⟨⟨"#include \"config.h\"".toList, by decide +kernel, [], ?_, by decide, by decide⟩, by decide +kernel⟩
  exact ⟨[], [], "include".toList, " ".toList, by simp [Blanks], by simp [Blanks], by simp [Blanks], Or.inl rfl, Or.inr rfl, rfl⟩

/-- A directive after a comment on its line, with a comment inside, with a macro, or on two
lines is not found. -/
theorem other_forms_missed :
    findIncludes "/* all */ #include \"a.h\"\n".toList = [] ∧
    findIncludes "#include /* all */ \"a.h\"\n".toList = [] ∧
    findIncludes "#define H \"a.h\"\n#include H\n".toList = [] ∧
    findIncludes "#include \\\n\"a.h\"\n".toList = [] ∧
    findIncludes "#include_next \"a.h\"\n".toList = [] := by decide +kernel

/-- A name with `>` in quotes is cut off. -/
theorem name_cut_off : findIncludes "#include \"a>b.h\"\n".toList = [('"', "a".toList)] := by decide +kernel

/-- `<x>` that is only in the directory of the source is a dependency, although the compiler does not
find it there. -/
theorem angle_found_in_source_directory :
    found { P with text := fun _ => some "#include <a.h>".toList } 0 = [1] ∧
    ¬ ∃ g, Resolves { P with text := fun _ => some "#include <a.h>".toList } 0 '<' "a.h".toList g := by
  refine ⟨by decide +kernel, ?_⟩
  rintro ⟨g, h⟩
  rw [Resolves, ← findFile_iff] at h
  have : findFile has "a.h".toList [1] = none := by decide +kernel
  change findFile has "a.h".toList [1] = some g at h
  rw [this] at h; cases h

end Verif.CScan.Ex
