import Verif.Attrs.More

/-!
# C111: examples and counterexamples
-/

namespace Verif.Attrs.Ex
open Verif.FS (Str GoodName)

abbrev digit : Char → Bool := Char.isDigit

/-- `/h/p` with the SConstruct; `/h/p/build` is a variant directory of `/h/p/src`, not duplicated. -/
def W : World where
  cwd := ["h".toList, "p".toList]
  sconstruct := ["h".toList, "p".toList]
  isDir n := decide (n = ["h".toList, "p".toList, "build".toList]) || decide (n = ["h".toList, "p".toList, "src".toList])
  srcdir n := if n = ["h".toList, "p".toList, "build".toList] then some ["h".toList, "p".toList, "src".toList] else none
  duplicate _ := false
  derived _ := false
  onDisk n := decide (n = ["h".toList, "p".toList, "src".toList, "a.c".toList]) || decide (n = ["h".toList, "p".toList, "src".toList])
  rfile n := n

def lib : Path := ["h".toList, "p".toList, "lib".toList, "v1.2".toList, "libz.so.1".toList]
def out : Path := ["h".toList, "q".toList, "x.tar.gz".toList]
def srcA : Path := ["h".toList, "p".toList, "src".toList, "a.c".toList]
def bldA : Path := ["h".toList, "p".toList, "build".toList, "a.c".toList]

/-- Two directories below the variant directory. -/
example : srcnode W (["h".toList, "p".toList, "build".toList] ++ ["x".toList, "y".toList] ++ ["a.c".toList]) = ["h".toList, "p".toList, "src".toList] ++ ["x".toList, "y".toList] ++ ["a.c".toList] :=
  C111_srcnode W _ _ _ _ (by decide +kernel) (by
    intro p hp hne
    have h3 : ([ "h".toList, "p".toList, "build".toList] ++ p) ≠ ["h".toList, "p".toList, "build".toList] := by
      intro h
      exact hne (by simpa using h)
    exact if_neg h3) (by decide +kernel)

/-- A node below the current directory, with a number for a suffix and a dot in a directory's name: every attribute. -/
example : (attr digit W lib .base).show W = "lib/v1.2/libz.so.1".toList ∧ (attr digit W lib .suffix).show W = [] ∧ (attr digit W lib .filebase).show W = "libz.so.1".toList ∧
    (attr digit W lib .dir).show W = "lib/v1.2".toList ∧ (attr digit W lib .abspath).show W = "/h/p/lib/v1.2/libz.so.1".toList ∧ (attr digit W lib .windows).show W = "lib\\v1.2\\libz.so.1".toList ∧
    (attr digit W lib .file).sig = "libz.so.1_file".toList := by decide +kernel

/-- A node outside the project: its path is absolute, its relpath is not. -/
example : getPath W.cwd out = "/h/q/x.tar.gz".toList ∧ (attr digit W out .base).show W = "/h/q/x.tar".toList ∧ (attr digit W out .suffix).show W = ".gz".toList ∧
    (attr digit W out .relpath).show W = "../q/x.tar.gz".toList := by decide +kernel

theorem proper_iff (n : Path) : Proper n ↔ ∀ c ∈ n, c ≠ [] ∧ c ≠ ['.'] ∧ c ≠ ['.', '.'] ∧ '/' ∉ c := Iff.rfl

instance (n : Path) : Decidable (Proper n) := decidable_of_iff _ (proper_iff n).symm

/-- The hypotheses of the theorems above are met by such nodes. -/
example : Proper lib ∧ Proper out ∧ Proper srcA ∧ Proper bldA ∧ lib ≠ W.cwd ∧ Proper (srcnode W bldA) := by decide +kernel

theorem ext_gz : IsExt digit ".gz".toList := ⟨"gz".toList, rfl, by decide, by decide, .inr ⟨'g', by decide, by decide⟩⟩

example : splitext digit ("x.tar".toList ++ ".gz".toList) = ("x.tar".toList, ".gz".toList) := C111_splitext_unique digit _ _ _ ⟨rfl, .inl ext_gz, fun h => absurd h (by decide)⟩

/-- No variant directory is above `src`, so `${SOURCE.dir}/${SOURCE.file}` is the file. -/
theorem plain_src : Plain W (dir srcA) := by
  intro p hp
  have hx : p ≠ ["h".toList, "p".toList, "build".toList] := by
    rintro rfl
    obtain ⟨t, ht⟩ := hp
    have e : dir srcA = ["h".toList, "p".toList, "src".toList] := rfl
    rw [e] at ht
    simp only [List.cons_append, List.cons.injEq, true_and] at ht
    exact absurd ht.1 (by decide)
  exact if_neg hx

example : opens W.cwd ((attr digit W srcA .dir).show W ++ '/' :: (attr digit W srcA .file).show W) = some srcA :=
  C111_dir_file digit W srcA (by decide +kernel) (by decide) (.inl plain_src)

/-- A source named through the variant directory: `srcdir` and `file` name the real file. -/
example : opens W.cwd ((attr digit W bldA .srcdir).show W ++ '/' :: (attr digit W bldA .file).show W) = some srcA := by
  have h := C111_srcdir_file digit W bldA (by decide +kernel) (by decide) (by decide +kernel) (by
    have : dir (srcnode W bldA) = dir srcA := by decide +kernel
    rw [this]; exact plain_src)
  have e : srcnode W bldA = srcA := by decide +kernel
  rw [e] at h; exact h

/-- `gcc -c a.c`: `a.c` and `a.cpp` get the same object, `b.c` another. -/
example : targetFromSource digit [] [] ".o".toList ["p".toList, "a.c".toList] = ["p".toList, "a.o".toList] ∧ targetFromSource digit [] [] ".o".toList ["p".toList, "a.cpp".toList] = ["p".toList, "a.o".toList] ∧
    targetFromSource digit [] [] ".o".toList ["p".toList, "b.c".toList] ≠ ["p".toList, "a.o".toList] := by decide +kernel

/-! ## Against -/

/-- The source of a file in the variant directory found in a repository. -/
example : opens W.cwd ((attr digit { W with rfile := fun n => if n = srcA then ["repo".toList, "a.c".toList] else n } bldA .rsrcpath).show W) = some ["repo".toList, "a.c".toList] :=
  (C111_repository digit { W with rfile := fun n => if n = srcA then ["repo".toList, "a.c".toList] else n } bldA ["repo".toList, "a.c".toList] (by decide +kernel)
    (by intro c hc; simp only [List.mem_cons, List.not_mem_nil, or_false] at hc; rcases hc with rfl | rfl <;> (unfold GoodName; decide +kernel))
    (by
      intro p hp
      refine if_neg fun h => ?_
      subst h
      exact absurd hp (by decide +kernel))).1

/-- Not what `os.path.splitext` does, although the comment says so: a dot file is all suffix, and a number is no suffix. -/
theorem C111_not_os_splitext : splitext digit ".bashrc".toList = ([], ".bashrc".toList) ∧ splitext digit "libz.1".toList = ("libz.1".toList, []) := by decide +kernel

/-- Two dot files get the same target from a builder that replaces the suffix, and one that has no name. -/
theorem C111_dotfiles_collide : targetFromSource digit [] [] ".o".toList ["p".toList, ".a".toList] = ["p".toList, ".o".toList] ∧
    targetFromSource digit [] [] ".o".toList ["p".toList, ".b".toList] = ["p".toList, ".o".toList] := by decide +kernel

/-- The current directory itself: its base is empty, and base and suffix together name nothing. -/
theorem C111_cwd_base : (attr digit W W.cwd .base).show W = [] ∧ opens W.cwd ((attr digit W W.cwd .base).show W ++ (attr digit W W.cwd .suffix).show W) = none := by decide +kernel

/-- A source in a variant directory that is not duplicated: it is shown as the source file, but its base, its abspath and its relpath name a file in the variant directory, where there is none. -/
theorem C111_variant_pieces_disagree : str W bldA = "src/a.c".toList ∧ (attr digit W bldA .dir).show W = "src".toList ∧ (attr digit W bldA .base).show W = "build/a".toList ∧
    (attr digit W bldA .abspath).show W = "/h/p/build/a.c".toList ∧ (attr digit W bldA .relpath).show W = "build/a.c".toList ∧ (attr digit W bldA .posix).show W = "src/a.c".toList ∧
    (attr digit W bldA .windows).show W = "build\\a.c".toList ∧ W.onDisk bldA = false := by decide +kernel

/-- The command's signature is the same when a source moves to a directory of the same name, and the same for every place when it is shown by base or path. -/
theorem C111_signature_blind : (attr digit W srcA .base).sig = (attr digit W bldA .base).sig ∧ (attr digit W srcA .base).show W ≠ (attr digit W bldA .base).show W ∧
    (Val.node srcA).sig = (Val.node bldA).sig := by decide +kernel

/-- A file called `x_base` has the signature of the base of a file called `x`. -/
theorem C111_signature_names_mixed : (Val.node ["x_base".toList]).sig = (attr digit W ["x".toList] .base).sig := by decide +kernel

/-- A source whose name begins with `#`: its target is not beside it, but in the top-level directory, without the `#`. -/
theorem C111_hash_target : targetFromSource digit ["top".toList] [] ".o".toList ["top".toList, "sub".toList, "#a.c".toList] = ["top".toList, "a.o".toList] := by decide +kernel

/-- While the SConscript of a subdirectory is read, the same node has another path than later. -/
theorem C111_path_moves : getPath ["h".toList, "p".toList, "src".toList] srcA = "a.c".toList ∧ getPath W.cwd srcA = "src/a.c".toList := by decide +kernel

end Verif.Attrs.Ex
