import Verif.Tex.Props

/-! # C98: concrete documents, and what goes wrong -/

namespace Verif.Tex
namespace Ex

def empty : Files Nat := fun _ => none

def loc0 (F : Files Nat) : L Nat := ⟨F, fun _ => none, [], 0, false, fun _ => false, false, F⟩

/-- A document with a table of contents, an index, and a bibliography.  The table of contents is right only when the bibliography is
there, and the index when the table of contents is; the log asks for another run while the auxiliary file changes. -/
def paper : Doc Nat where
  retries := 6
  latexOut F
    | .suf .toc => some (if (F (.suf .bbl)).isSome then 2 else 1)
    | .suf .idx => some (if (F (.suf .toc)).isSome then 2 else 1)
    | .aux 0 => some 7
    | .aux (n + 1) => F (.aux (n + 1))
    | _ => none
  latexOk _ := true
  log F := F (.aux 0) != some 7
  fls _ := [0]
  bibdata n c := n == 0 && c == some 7
  bibOut n c := if n = 0 then c.map (· + 1) else none
  mkOut _ c := c.map (· + 10)
  uses s := s == .idx

theorem paper_programs : Programs paper where
  honest F h n := by
    simp [paper] at h
    cases n with
    | zero => simp [paper, h]
    | succ n => rfl
  single F n := by simp [paper]
  bib F F' n := by
    cases n with
    | zero => rfl
    | succ n => simp [paper]
  data F F' n := by
    cases n with
    | zero => rfl
    | succ n => simp [paper]

/-- A letter: nothing but text. -/
def letter : Doc Nat where
  retries := 6
  latexOut F
    | .aux n => F (.aux n)
    | _ => none
  latexOk _ := true
  log _ := false
  fls _ := []
  bibdata _ _ := false
  bibOut _ _ := none
  mkOut _ c := c.map (· + 10)
  uses _ := false

def sys (F : Files Nat) (d e : Doc Nat) : St Nat where
  ng := 0
  flag := false
  ths i := if i = 0 then ⟨d, .init, loc0 F⟩ else ⟨e, .init, loc0 empty⟩

theorem fresh (D : Doc Nat) (h : ∀ s, D.mkOut s none = none) (x : Suf) : UpToDate D empty x := by
  intro c hc
  rw [show empty (.suf x) = none from rfl, h] at hc
  simp at hc

/-- The paper and the letter, one after the other in the middle of the letter's work: hypotheses and result. -/
theorem applied :
    let s := sys empty paper letter
    let t := (run s ([1, 1] ++ List.replicate 90 0 ++ List.replicate 20 1)).ths 0
    Programs (s.ths 0).doc ∧ (s.ths 0).pc = .init ∧ (∀ x, UpToDate (s.ths 0).doc (s.ths 0).loc.files x) ∧
    0 ∉ [1, 1] ∧ 0 ∉ List.replicate 20 1 ∧
    t.pc = .done true ∧ t.loc.exhausted = false ∧ t.loc.count = 3 ∧ t.loc.files (.suf .toc) = some 2 ∧
    t.loc.files (.suf .bbl) = some 8 ∧ t.loc.files (.made .idx) = some 12 := by
  refine ⟨paper_programs, rfl, fresh paper (fun _ => rfl), by decide, by decide, ?_⟩
  decide +kernel

end Ex

/-- Two documents at once: the letter sets the global flag to false between the paper's comparison and its test, and the paper
is left without table of contents, with success and without message. -/
theorem C98_counterexample_parallel :
    let s := Ex.sys Ex.empty Ex.paper Ex.letter
    let t := (run s ([0, 0, 0] ++ List.replicate 12 0 ++ [1, 1, 1] ++ [0, 0])).ths 0
    t.pc = .done true ∧ t.loc.exhausted = false ∧ t.loc.count = 1 ∧
    t.loc.before (.suf .toc) = none ∧ t.loc.files (.suf .toc) = some 1 ∧ t.loc.before (.made .idx) ≠ t.loc.files (.made .idx) := by
  decide +kernel

namespace Ex

/-- An index is all the paper has. -/
def indexed (ok : Bool) : Doc Nat where
  retries := 6
  latexOut F
    | .suf .idx => some 5
    | .aux n => F (.aux n)
    | _ => none
  latexOk _ := ok
  log _ := false
  fls _ := []
  bibdata _ _ := false
  bibOut _ _ := none
  mkOut _ c := c.map (· + 10)
  uses s := s == .idx

/-- What the failed run leaves. -/
def leftover : Files Nat := ((run (sys empty (indexed false) letter) [0, 0]).ths 0).loc.files

end Ex

/-- After a failed run the index is never made: its input is there and does not change, although the second run succeeds. -/
theorem C98_counterexample_failed :
    ((run (Ex.sys Ex.empty (Ex.indexed false) Ex.letter) [0, 0]).ths 0).pc = .done false ∧
    (let t := (run (Ex.sys Ex.leftover (Ex.indexed true) Ex.letter) (List.replicate 40 0)).ths 0
     t.pc = .done true ∧ t.loc.exhausted = false ∧ t.loc.files (.suf .idx) = some 5 ∧
     t.doc.mkOut .idx (t.loc.files (.suf .idx)) = some 15 ∧ t.loc.files (.made .idx) = none) ∧
    (let t := (run (Ex.sys Ex.empty (Ex.indexed true) Ex.letter) (List.replicate 40 0)).ths 0
     t.pc = .done true ∧ t.loc.files (.made .idx) = some 15) := by
  decide +kernel

namespace Ex

/-- A book with a bibliography for its first chapter. -/
def book : Doc Nat where
  retries := 6
  latexOut F
    | .aux 1 => some 7
    | .aux n => F (.aux n)
    | _ => none
  latexOk _ := true
  log F := F (.aux 1) != some 7
  fls _ := [0, 1]
  bibdata n c := n == 1 && c == some 7
  bibOut _ c := c.map (· + 1)
  mkOut _ c := c.map (· + 10)
  uses _ := false

/-- Built before with another database: the chapter's bibliography is an old one. -/
def old : Files Nat := fun x => match x with
  | .aux 1 => some 7
  | .bblOf 1 => some 3
  | _ => none

end Ex

/-- The new bibliography of a chapter is made, and LaTeX is not run again to read it. -/
theorem C98_counterexample_chapters :
    let t := (run (Ex.sys Ex.old Ex.book Ex.letter) (List.replicate 40 0)).ths 0
    t.pc = .done true ∧ t.loc.exhausted = false ∧ t.loc.count = 1 ∧
    t.loc.before (.bblOf 1) = some 3 ∧ t.loc.files (.bblOf 1) = some 8 := by
  decide +kernel

/-- A document without glossaries fails when another document of the project has one: the list is global. -/
theorem C98_counterexample_glossary :
    ((run (Ex.sys Ex.empty Ex.letter Ex.letter) (List.replicate 40 0)).ths 0).pc = .done true ∧
    ((run { Ex.sys Ex.empty Ex.letter Ex.letter with ng := 1 } (List.replicate 40 0)).ths 0).pc = .done false := by
  decide +kernel

end Verif.Tex
