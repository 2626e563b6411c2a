/-
What a scanner finds in one file: /repo/SCons/Scanner/__init__.py, Classic.scan
(367-405) with the include names remembered in the node, and
/repo/SCons/Scanner/C.py, SConsCPPConditionalScanner.find_include_file (259-275).
-/
namespace Verif.Scan.Find

/-! ### The names remembered in a node (C42) -/

/-- A scanner of class `Classic`: the names it finds in a text
(`find_include_names`, Scanner/__init__.py:364-365), and the file each refers to
(`find_include`, 355-358, 411-425; the search path is that of the scanner). -/
structure Classic (Text Nm V : Type) where
  names : Text → List Nm
  find : Nm → Option V

variable {Text Nm V : Type}

/-- The node's attribute `includes`, `none` when not yet scanned (Node/__init__.py:609,
reset by `clear`, 887), and its contents. -/
structure Node (Text Nm : Type) where
  text : Text
  includes : Option (List Nm)

/-- `Classic.scan` (Scanner/__init__.py:367-405). The order of the result (`sorted`) is
not modelled. -/
def scan (c : Classic Text Nm V) (n : Node Text Nm) : Node Text Nm × List V :=
  let names := match n.includes with
    | some l => l
    | none => c.names n.text
  ({ n with includes := some names }, names.filterMap c.find)

/-- What happens to a node: it is scanned by one of the scanners, or cleared with a new
text (after it was built, Node/__init__.py:880-890). -/
inductive Ev (Text Nm V : Type) where
  | scan (c : Classic Text Nm V)
  | clear (t : Text)

def apply (n : Node Text Nm) : Ev Text Nm V → Node Text Nm
  | .scan c => (scan c n).1
  | .clear t => { text := t, includes := none }

/-- **C42** If all scanners that scan a node look for the same names, what a scanner
finds is always what is in the text now, whatever was done to the node before.
Partial: `C42_counterexample_two_scanners`. -/
theorem C42_found_is_what_the_text_says_partial (names : Text → List Nm) (t0 : Text)
    (evs : List (Ev Text Nm V)) (h : ∀ c, Ev.scan c ∈ evs → c.names = names) (c : Classic Text Nm V)
    (hc : c.names = names) :
    (scan c (evs.foldl apply { text := t0, includes := none })).2 =
      (names (evs.foldl apply { text := t0, includes := none }).text).filterMap c.find := by
  suffices ∀ n : Node Text Nm, (n.includes = none ∨ n.includes = some (names n.text)) →
      (scan c (evs.foldl apply n)).2 = (names (evs.foldl apply n).text).filterMap c.find from
    this _ (.inl rfl)
  induction evs with
  | nil =>
    intro n hn
    simp only [List.foldl_nil, scan]
    rcases hn with hn | hn <;> simp [hn, hc]
  | cons e evs ih =>
    intro n hn
    simp only [List.foldl_cons]
    apply ih (fun c hc => h c (List.mem_cons_of_mem _ hc))
    cases e with
    | clear t => exact .inl rfl
    | scan c' =>
      right
      have := h c' List.mem_cons_self
      simp only [apply, scan]
      rcases hn with hn | hn <;> simp [hn, this]

/-- **C42, what fails** the names are remembered per node, not per scanner: once a
scanner has scanned a file, a scanner with another idea of what an include is
does not look at the text any more, and misses dependencies. -/
theorem C42_counterexample_two_scanners :
    let hash : Classic (List Nat) Nat Nat := ⟨fun t => t.filter (· < 10), some⟩
    let imp : Classic (List Nat) Nat Nat := ⟨fun t => t.filter (10 ≤ ·), some⟩
    (scan imp { text := [1, 12], includes := none }).2 = [12] ∧
    (scan imp (scan hash { text := [1, 12], includes := none }).1).2 = [1] := by decide

example : (scan (⟨id, some⟩ : Classic (List Nat) Nat Nat)
    ([Ev.scan ⟨id, fun _ => none⟩, .clear [3, 4], .scan ⟨id, some⟩].foldl apply { text := [1], includes := none })).2 =
    [3, 4] := by decide

/-! ### The search path of the conditional scanner (C43) -/

variable {D Fn : Type}

/-- `SCons.Node.FS.find_file` (FS.py:3783-3827): the first directory that has the
file. -/
def findFile (has : D → Fn → Bool) (paths : List D) (f : Fn) : Option D :=
  paths.find? (fun d => has d f)

/-- `SConsCPPConditionalScanner.find_include_file` (Scanner/C.py:259-275) for
`quote = '<'`: the directories where something was found before are searched
first. `cpppath` is `self.searchpath['<']`; `under d p` stands for
`result_path.startswith(p.get_abspath())`. Returns the directory in which the file
was found, and the new `_known_paths`. -/
def findInclude (has : D → Fn → Bool) (under : D → D → Bool) (cpppath known : List D) (f : Fn) :
    Option D × List D :=
  match findFile has (known ++ cpppath) f with
  | none => (none, known)
  | some d =>
    match cpppath.find? (fun p => under d p) with
    | none => (some d, known)
    | some p => (some d, known ++ [p])

/-- The directories found for a sequence of includes. -/
def findAll (has : D → Fn → Bool) (under : D → D → Bool) (cpppath : List D) : List D → List Fn → List (Option D)
  | _, [] => []
  | known, f :: fs =>
    let (d, known') := findInclude has under cpppath known f
    d :: findAll has under cpppath known' fs

/-- **C43** If a file that is included is in at most one directory of the search path,
the conditional scanner finds it where the compiler does: in the first directory
of the search path that has it. Partial: false in general, see
`C43_counterexample_known_paths`. -/
theorem C43_search_order_partial (has : D → Fn → Bool) (under : D → D → Bool) (cpppath : List D)
    (fs : List Fn)
    (h1 : ∀ f ∈ fs, ∀ d ∈ cpppath, ∀ d' ∈ cpppath, has d f = true → has d' f = true → d = d') :
    findAll has under cpppath [] fs = fs.map (findFile has cpppath) := by
  suffices ∀ known : List D, (∀ d ∈ known, d ∈ cpppath) →
      findAll has under cpppath known fs = fs.map (findFile has cpppath) from this [] (by simp)
  induction fs with
  | nil => intro known _; rfl
  | cons f fs ih =>
    intro known hk
    have key : findFile has (known ++ cpppath) f = findFile has cpppath f := by
      unfold findFile
      rw [List.find?_append]
      cases hf : known.find? (fun d => has d f) with
      | none => rfl
      | some d =>
        have hd := List.find?_some hf
        have hm := hk d (List.mem_of_find?_eq_some hf)
        cases hc : cpppath.find? (fun d => has d f) with
        | none => exact absurd hd (by simpa using List.find?_eq_none.1 hc d hm)
        | some d' =>
          have := h1 f List.mem_cons_self d hm d' (List.mem_of_find?_eq_some hc) hd (List.find?_some (p := fun d => has d f) hc)
          simp [this]
    have ih := ih (fun g hg => h1 g (List.mem_cons_of_mem _ hg))
    simp only [findAll, List.map_cons]
    unfold findInclude
    rw [key]
    cases hc : findFile has cpppath f with
    | none => simp only; rw [ih known hk]
    | some d =>
      simp only
      cases hp : cpppath.find? (fun p => under d p) with
      | none => simp only; rw [ih known hk]
      | some p =>
        simp only
        rw [ih (known ++ [p])]
        intro x hx
        rcases List.mem_append.1 hx with hx | hx
        · exact hk x hx
        · simp at hx; subst hx; exact List.mem_of_find?_eq_some hp

/-- **C43, what fails** `CPPPATH = [1, 2]`; `a.h` (10) is only in directory 2, `b.h` (11) in
both. After `#include <a.h>` the scanner finds `<b.h>` in directory 2, the compiler
uses the one in directory 1: the target does not depend on the header it is built
from. -/
theorem C43_counterexample_known_paths :
    let has : Nat → Nat → Bool := fun d f => decide ((d, f) ∈ [(2, 10), (1, 11), (2, 11)])
    findAll has (· == ·) [1, 2] [] [10, 11] = [some 2, some 2] ∧
    [10, 11].map (findFile has [1, 2]) = [some 2, some 1] := by decide

example : findAll (fun d f => decide ((d, f) ∈ [(2, 10), (1, 11)])) (fun a b : Nat => a == b) [1, 2] [] [10, 11, 12] =
    [some 2, some 1, none] := by decide

end Verif.Scan.Find
