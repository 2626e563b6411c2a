import Verif.PyScan.Find

/-!
# C107: examples and counterexamples
-/

namespace Verif.PyScan

/-- A path, from a text with slashes. -/
def path (s : String) : Path := if s.toList = [] then [] else split '/' s.toList

/-- A project. -/
def project : List Path := (["src/main.py", "src/util.py", "lib/pkg/__init__.py", "lib/pkg/a.py", "lib/pkg/b.py", "lib/pkg/sub/__init__.py",
  "lib/pkg/sub/c.py", "lib/pkg/other/__init__.py", "lib/pkg/other/d.py"]).map path

def there (l : List Path) (p : Path) : Bool := l.contains p

def scanText (l : List Path) (search : List String) (dir : String) (text : String) : List Path :=
  scan (there l) (search.map path) (path dir) text.toList

example : scanText project ["lib", "src"] "src" "import os\nimport util\nfrom pkg import a, b as x\nimport pkg.sub.c as c\n" =
    ["lib/pkg/__init__.py", "lib/pkg/a.py", "lib/pkg/b.py", "lib/pkg/__init__.py", "src/util.py", "lib/pkg/sub/c.py", "lib/pkg/__init__.py",
      "lib/pkg/sub/__init__.py"].map path := by decide +kernel

theorem ident_of {s : Str} (h : (decide (s ≠ []) && s.all fun c => !sp c && decide (c ≠ ',') && decide (c ≠ '.')) = true) : Ident s := by
  simp only [Bool.and_eq_true, decide_eq_true_eq, List.all_eq_true, Bool.not_eq_true'] at h
  exact ⟨h.1, fun c hc => ⟨(h.2 c hc).1.1, (h.2 c hc).1.2, (h.2 c hc).2⟩⟩

theorem blank_of' {s : Str} (h : (s.all fun c => decide (c = ' ') || decide (c = '\t')) = true) : Blank s := by
  simp only [List.all_eq_true, Bool.or_eq_true, decide_eq_true_eq] at h
  exact h

/-- A line with several names, the last one renamed, and a comment. -/
theorem exampleLine : Line "    from pkg import a , b as x  # and so on".toList (.frm 0 ["pkg".toList] ["a".toList, "b".toList]) := by
  have h := Line.frm (ind := "    ".toList) (b := " ".toList) (b' := " ".toList) (b'' := " ".toList) (dots := 0) (mod := ["pkg".toList])
    (names := [([], "a".toList, " ".toList)]) (tail := " as x  # and so on".toList) (last := (" ".toList, "b".toList))
    (blank_of' (by decide)) (blank_of' (by decide)) (by decide) (blank_of' (by decide)) (by decide) (blank_of' (by decide)) (by decide) (by simp)
    (by intro x hx; simp only [List.mem_singleton] at hx; subst hx; exact ident_of (by decide))
    (by
      intro x hx
      simp only [List.mem_singleton] at hx
      subst hx
      exact ⟨blank_of' (by decide), ident_of (by decide), blank_of' (by decide)⟩)
    (blank_of' (by decide)) (ident_of (by decide)) (Or.inr ⟨' ', "as x  # and so on".toList, by decide, Or.inl rfl, by decide⟩) (by decide)
  have e : "    from pkg import a , b as x  # and so on".toList = "    ".toList ++ "from".toList ++ " ".toList ++
      (List.replicate 0 '.' ++ dotted ["pkg".toList]) ++ " ".toList ++ "import".toList ++ " ".toList ++
      listed ([([], "a".toList, " ".toList)] ++ [((" ".toList, "b".toList).1, (" ".toList, "b".toList).2, [])]) ++ " as x  # and so on".toList := by
    decide
  rw [e]
  exact h

/-- Python may read `lib/pkg/b.py` for that line. -/
theorem exampleReads : Reads (there project) [path "lib", path "src"] (path "src") (.frm 0 ["pkg".toList] ["a".toList, "b".toList])
    (path "lib/pkg/b.py") := by
  have hp : Provides (there project) (path "lib") "pkg".toList (path "lib/pkg/__init__.py") true := by
    have : path "lib/pkg/__init__.py" = path "lib" ++ ["pkg".toList, initPy] := by decide
    rw [this]
    exact .package (by decide)
  have hb : Provides (there project) (path "lib/pkg/__init__.py").dropLast "b".toList (path "lib/pkg/b.py") false := by
    have : path "lib/pkg/b.py" = (path "lib/pkg/__init__.py").dropLast ++ ["b".toList ++ dotPy] := by decide
    rw [this]
    exact .module (by decide) (by decide)
  exact .absName ⟨_, _, _, rfl, ⟨_, _, .here hp⟩, .last hp⟩ (by simp) hb

/-- The hypotheses of `C107_found_partial` are met: directories of modules are packages. -/
example : Regular (there project) [path "lib", path "src"] := by
  intro d hd a x l h
  have hm : d ++ a :: x :: l ∈ project := by simpa [there] using h
  have key : ∀ p ∈ project, ∀ d ∈ [path "lib", path "src"], ∀ a x l, p = d ++ a :: x :: l → there project (d ++ [a, initPy]) = true := by
    have dec : ∀ p ∈ project, ∀ d ∈ [path "lib", path "src"], d <+: p → (p.drop d.length).length ≥ 2 →
        there project (d ++ [(p.drop d.length).headD [], initPy]) = true := by decide +kernel
    intro p hp d hd a x l e
    subst e
    have := dec _ hp d hd (by simp) (by simp)
    simpa using this
  exact key _ hm d hd a x l rfl

/-- **Counterexample.** `import util, pkg`: neither is found. -/
theorem C107_counterexample_list : scanText project ["lib", "src"] "src" "import util, pkg\n" = [] ∧
    scanText project ["lib", "src"] "src" "import util\nimport pkg\n" = ["src/util.py", "lib/pkg/__init__.py", "lib/pkg/__init__.py"].map path := by
  decide +kernel

/-- **Counterexample.** `import util; import pkg`: neither is found. -/
theorem C107_counterexample_semicolon : scanText project ["lib", "src"] "src" "import util; import pkg\n" = [] := by decide +kernel

/-- **Counterexample.** Names in parentheses are not found. -/
theorem C107_counterexample_parentheses : path "lib/pkg/a.py" ∉ scanText project ["lib", "src"] "src" "from pkg import (a, b)\n" ∧
    path "lib/pkg/b.py" ∉ scanText project ["lib", "src"] "src" "from pkg import (a, b)\n" := by decide +kernel

/-- **Counterexample.** A name that is renamed is found only if it is the last one. -/
theorem C107_counterexample_as : path "lib/pkg/a.py" ∉ scanText project ["lib", "src"] "src" "from pkg import a as x, b\n" ∧
    path "lib/pkg/a.py" ∈ scanText project ["lib", "src"] "src" "from pkg import b, a as x\n" := by decide +kernel

/-- **Counterexample.** In `lib/pkg/sub/c.py`: Python reads `other/__init__.py` on the way to `other/d.py`; the scanner does not find it. -/
theorem C107_counterexample_relative :
    Reads (there project) [path "lib", path "src"] (path "lib/pkg/sub") (.frm 2 ["other".toList, "d".toList] ["f".toList])
      (path "lib/pkg/other/__init__.py") ∧
    path "lib/pkg/other/__init__.py" ∉ scanText project ["lib", "src"] "lib/pkg/sub" "from ..other.d import f\n" := by
  constructor
  · have e : path "lib/pkg/other/__init__.py" = upDir (path "lib/pkg/sub") 2 ++ ["other".toList, initPy] := by decide
    have h1 : Provides (there project) (upDir (path "lib/pkg/sub") 2) "other".toList (upDir (path "lib/pkg/sub") 2 ++ ["other".toList, initPy]) true :=
      .package (by decide)
    have h2 : Provides (there project) (upDir (path "lib/pkg/sub") 2 ++ ["other".toList]) "d".toList
        (upDir (path "lib/pkg/sub") 2 ++ ["other".toList] ++ ["d".toList ++ dotPy]) false := .module (by decide) (by decide)
    rw [e]
    exact .rel (k := 1) (.step h1 (.last h2)) (by simp)
  · decide +kernel

/-- **Counterexample.** The same name in the directory of the script and in one of `PYTHONPATH`: Python reads the first, the scanner names
the second. -/
theorem C107_counterexample_order :
    Reads (there [path "src/util.py", path "lib/util.py"]) [path "src", path "lib"] (path "src") (.imp ["util".toList]) (path "src/util.py") ∧
    scan (there [path "src/util.py", path "lib/util.py"]) ((searchPath "lib".toList (some "src".toList)).map fun s => [s]) (path "src")
      "import util\n".toList = [path "lib/util.py"] := by
  constructor
  · have hp : Provides (there [path "src/util.py", path "lib/util.py"]) (path "src") "util".toList (path "src/util.py") false := by
      have : path "src/util.py" = path "src" ++ ["util".toList ++ dotPy] := by decide
      rw [this]
      exact .module (by decide) (by decide)
    exact .imp ⟨_, _, _, rfl, ⟨_, _, .here hp⟩, .last hp⟩ (by simp)
  · decide +kernel

/-- **Counterexample.** Without `PYTHONPATH`, the scanner looks in the directory with the empty name (the current one) first. -/
theorem C107_counterexample_unset : searchPath [] (some "src".toList) = [[], "src".toList] := by decide

/-- **Counterexample.** A name from a directory that is not a package (Python: a namespace package) is not found. -/
theorem C107_counterexample_namespace : scanText [path "lib/ns/a.py"] ["lib", "src"] "src" "from ns import a\n" = [] := by decide +kernel

end Verif.PyScan
