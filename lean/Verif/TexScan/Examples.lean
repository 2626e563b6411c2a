import Verif.TexScan.Find

/-!
# C108: examples and counterexamples
-/

namespace Verif.TexScan

/-! ## A project that can be run -/

def at' (d : Str) (n : Str) : Str := if d = [] then n else if d.getLast? = some '/' then d ++ n else d ++ '/' :: n

/-- A project with these files; directories are paths, `[]` is the directory of the document. -/
def proj (files : List (String × String)) (tex bib : List String) : Proj Str Str where
  find d n := if (files.map fun f => f.1.toList).contains (at' d n) then some (at' d n) else none
  subdir d s := if s = ['.'] then d else at' d (if s.take 2 = ['.', '/'] then s.drop 2 else s)
  text v := ((files.find? fun f => f.1.toList == v).map fun f => f.2.toList).getD []
  paths v := match v with
    | .texinputs => (tex.map String.toList, [])
    | .bibinputs => (bib.map String.toList, [])
  gfx := [".eps".toList, ".ps".toList]

/-- The loop, run. -/
def run (p : Proj Str Str) (dir : Str) : Nat → St Str → Option (St Str)
  | 0, _ => none
  | n + 1, s => match s.queue with
    | [] => some s
    | i :: q => run p dir n (turn p dir i { s with queue := q })

theorem run_loop {p : Proj Str Str} {dir : Str} : ∀ {n : Nat} {s s' : St Str}, run p dir n s = some s' → Loop p dir s s' := by
  intro n
  induction n with
  | zero => intro s s' h; simp [run] at h
  | succ n ih =>
    intro s s' h
    simp only [run] at h
    cases hq : s.queue with
    | nil => rw [hq] at h; cases h; exact .done hq
    | cons i q => rw [hq] at h; exact .turn hq (ih h)

theorem loop_det {p : Proj Str Str} {dir : Str} {s a b : St Str} (ha : Loop p dir s a) (hb : Loop p dir s b) : a = b := by
  induction ha with
  | done hq => cases hb with
    | done => rfl
    | turn hq' => rw [hq] at hq'; cases hq'
  | turn hq _ ih => cases hb with
    | done hq' => rw [hq] at hq'; cases hq'
    | turn hq' h => rw [hq] at hq'; cases hq'; exact ih h

def found (p : Proj Str Str) (m : Memo Str) (main : String) : Option (List Str) := (run p [] 40 (start p m main.toList)).map St.nodes

theorem found_result {p : Proj Str Str} {m : Memo Str} {main : String} {l : List Str} (h : found p m main = some l) :
    (∃ m', Result p m [] main.toList (l, m')) ∧ ∀ r, Result p m [] main.toList r → r.1 = l := by
  unfold found at h
  cases hr : run p [] 40 (start p m main.toList) with
  | none => rw [hr] at h; simp at h
  | some s =>
    rw [hr] at h
    simp only [Option.map_some, Option.some.injEq] at h
    subst h
    refine ⟨⟨s.memo, s, run_loop hr, rfl⟩, ?_⟩
    rintro r ⟨t, ht, rfl⟩
    rw [loop_det ht (run_loop hr)]

def nothing : Memo Str := fun _ => none

/-! ## Documents that can be checked -/

def optionCheck (w o : Str) : Bool :=
  decide (o = []) || (decide (w ∈ withOption) && decide (o = '[' :: (o.drop 1).dropLast ++ [']']) && decide ((o.drop 1).dropLast ≠ []) &&
    decide (']' ∉ (o.drop 1).dropLast) && decide ('\n' ∉ (o.drop 1).dropLast))

theorem option_of {w o : Str} (h : optionCheck w o = true) : Option' w o := by
  simp only [optionCheck, Bool.or_eq_true, Bool.and_eq_true, decide_eq_true_eq] at h
  rcases h with h | ⟨⟨⟨⟨h1, h2⟩, h3⟩, h4⟩, h5⟩
  · exact Or.inl h
  · exact Or.inr ⟨h1, _, h2, h3, h4, h5⟩

def docCheck : List Seg → Bool
  | [] => true
  | .chr c :: l => decide (c ≠ '\\') && docCheck l
  | .ctl c :: l => !letter c && (decide (c ≠ '\\') || (render l).head?.all fun x => !letter x) && docCheck l
  | .mac n :: l => n.all letter && decide (n ∉ oneArg ++ dirFile) && (render l).head?.all (fun x => !letter x) && docCheck l
  | .cmd w o b names :: l => decide (w ∈ oneArg) && optionCheck w o && b.all sp && decide (names ≠ []) &&
      names.all (fun n => n.all fun c => decide (c ≠ ',') && decide (c ≠ '}')) && decide (((render l).dropWhile sp).head? ≠ some '{') && docCheck l

theorem doc_of : ∀ {l : List Seg}, docCheck l = true → Doc l
  | [], _ => .nil
  | .chr c :: l, h => by
    simp only [docCheck, Bool.and_eq_true, decide_eq_true_eq] at h
    exact .chr h.1 (doc_of h.2)
  | .ctl c :: l, h => by
    simp only [docCheck, Bool.and_eq_true, Bool.or_eq_true, decide_eq_true_eq, Bool.not_eq_true'] at h
    refine .ctl h.1.1 (fun hc x hx => ?_) (doc_of h.2)
    rcases h.1.2 with h1 | h1
    · exact absurd hc h1
    · rw [hx] at h1; simpa using h1
  | .mac n :: l, h => by
    simp only [docCheck, Bool.and_eq_true, decide_eq_true_eq, List.all_eq_true] at h
    refine .mac h.1.1.1 h.1.1.2 (fun x hx => ?_) (doc_of h.2)
    have := h.1.2; rw [hx] at this; simpa using this
  | .cmd w o b names :: l, h => by
    simp only [docCheck, Bool.and_eq_true, decide_eq_true_eq, List.all_eq_true] at h
    exact .cmd h.1.1.1.1.1.1 (option_of h.1.1.1.1.1.2) h.1.1.1.1.2 h.1.1.1.2 h.1.1.2 h.1.2 (doc_of h.2)

def chars (s : String) : List Seg := s.toList.map Seg.chr

/-! ## Good cases -/

def mainText : String :=
  "\\documentclass{book}\n\\usepackage[a4]{style}\n% \\input{old}\n\\begin{document} 10\\% of\\\\ \\input{ch%\n   1} \\include {ch2}\n\\includegraphics[w=2]{pic}\\bibliography{a,b}\n\\usetheme{X}\n"

def book : List (String × String) :=
  [("main.tex", mainText),
   ("ch1.tex", "\\input{part.tex}"), ("part.tex", "\\input{ch1}"), ("ch2.tex", ""), ("sty/style.sty", ""), ("old.tex", ""), ("pic.ps", ""),
   ("bib/a.bib", ""), ("b.bib", ""), ("sty/beamerthemeX.sty", "")]

def bookProj : Proj Str Str := proj book ["sty"] ["bib"]

theorem bookFound : found bookProj nothing "main.tex" =
    some (["sty/style.sty", "part.tex", "ch1.tex", "ch2.tex", "pic.ps", "bib/a.bib", "b.bib", "sty/beamerthemeX.sty"].map String.toList) := by decide +kernel

/-- The document, in pieces. -/
def mainDoc : List Seg :=
  [.mac "documentclass".toList] ++ chars "{book}\n" ++ [.cmd "usepackage".toList "[a4]".toList [] ["style".toList]] ++ chars "\n" ++
    [.mac "begin".toList] ++ chars "{document} 10" ++ [.ctl '%'] ++ chars " of" ++ [.ctl '\\'] ++ chars " " ++ [.cmd "input".toList [] [] ["ch1".toList]] ++
    chars " " ++ [.cmd "include".toList [] " ".toList ["ch2".toList]] ++ chars "\n" ++ [.cmd "includegraphics".toList "[w=2]".toList [] ["pic".toList]] ++
    [.cmd "bibliography".toList [] [] ["a".toList, "b".toList]] ++ chars "\n" ++ [.cmd "usetheme".toList [] [] ["X".toList]] ++ chars "\n"

theorem not_within {x s : Str} (h : (List.range (s.length + 1)).all (fun i => !(x.isPrefixOf (s.drop i))) = true) : ¬ Within x s := by
  rintro ⟨u, v, rfl⟩
  simp only [List.all_eq_true, List.mem_range, Bool.not_eq_true'] at h
  have := h u.length (by simp; omega)
  rw [List.append_assoc, List.drop_left] at this
  rw [← Bool.not_eq_true, List.isPrefixOf_iff_prefix] at this
  exact this (List.prefix_append _ _)

theorem mainIsDoc' : IsDoc mainText.toList mainDoc := by
  refine ⟨doc_of (by decide +kernel), by decide +kernel, not_within (by decide +kernel)⟩

theorem mainIsDoc : IsDoc (bookProj.text "main.tex".toList) mainDoc := by
  have : bookProj.text "main.tex".toList = mainText.toList := by decide +kernel
  rw [this]; exact mainIsDoc'

theorem partIsDoc' : IsDoc "\\input{part.tex}".toList [.cmd "input".toList [] [] ["part.tex".toList]] := by
  refine ⟨doc_of (by decide +kernel), by decide +kernel, not_within (by decide +kernel)⟩

theorem partIsDoc : IsDoc (bookProj.text "ch1.tex".toList) [.cmd "input".toList [] [] ["part.tex".toList]] := by
  have : bookProj.text "ch1.tex".toList = "\\input{part.tex}".toList := by decide +kernel
  rw [this]; exact partIsDoc'

/-- Nothing. -/
theorem plainIsDoc : IsDoc [] [] := ⟨.nil, rfl, not_within (by decide)⟩

theorem bookDocs : ∀ v, ∃ l, IsDoc (bookProj.text v) l := by
  intro v
  have : ∀ (L : List (String × String)), (∀ f ∈ L, ∃ l, IsDoc f.2.toList l) →
      ∃ l, IsDoc (((L.find? fun f => f.1.toList == v).map fun f => f.2.toList).getD []) l := by
    intro L hL
    cases h : L.find? fun f => f.1.toList == v with
    | none => exact ⟨[], plainIsDoc⟩
    | some f => exact hL f (List.mem_of_find?_eq_some h)
  refine this book ?_
  have empty : ∃ l, IsDoc "".toList l := ⟨[], plainIsDoc⟩
  intro f hf
  simp only [book, List.mem_cons, List.not_mem_nil, or_false] at hf
  rcases hf with rfl | rfl | rfl | rfl | rfl | rfl | rfl | rfl | rfl | rfl
  · exact ⟨mainDoc, mainIsDoc'⟩
  · exact ⟨_, partIsDoc'⟩
  · exact ⟨[.cmd "input".toList [] [] ["ch1".toList]], doc_of (by decide +kernel), by decide +kernel, not_within (by decide +kernel)⟩
  all_goals exact empty

theorem bookSub : ∀ d, bookProj.subdir d ['.'] = d := fun _ => rfl

theorem nothingFresh : Fresh bookProj nothing := by intro v l h; cases h

/-- LaTeX reads the picture. -/
theorem readsPic : TexReads bookProj [] "main.tex".toList "pic.ps".toList := by
  refine ⟨mainDoc, mainIsDoc, "includegraphics".toList, "[w=2]".toList, [], ["pic".toList], by simp [mainDoc], "pic".toList, by simp, ?_⟩
  exact .mk (a := ["pic.eps".toList]) (x := "pic.ps".toList) (b := []) (ds := []) (d := []) (es := ["sty".toList])
    (.bare (by decide) (by decide) (by decide)) (by decide) (by decide +kernel) (by decide +kernel) (by decide) (by decide +kernel)

theorem readsCh1 : TexReads bookProj [] "main.tex".toList "ch1.tex".toList := by
  refine ⟨mainDoc, mainIsDoc, "input".toList, [], [], ["ch1".toList], by simp [mainDoc], "ch1".toList, by simp, ?_⟩
  exact .mk (a := []) (x := "ch1.tex".toList) (b := []) (ds := []) (d := []) (es := ["sty".toList])
    (.bare (by decide) (by decide) (by decide)) (by decide) (by decide +kernel) (by decide +kernel) (by decide) (by decide +kernel)

theorem readsPart : TexReads bookProj [] "ch1.tex".toList "part.tex".toList := by
  refine ⟨_, partIsDoc, "input".toList, [], [], ["part.tex".toList], by simp, "part.tex".toList, by simp, ?_⟩
  have h := FileOf.mk (p := bookProj) (dir := []) (w := "input".toList) (n := "par".toList ++ 't' :: '.' :: "tex".toList) (f := "part.tex".toList)
    (a := []) (x := "part.tex".toList) (b := []) (ds := []) (d := []) (es := ["sty".toList])
    (.full (by decide) (by decide) (by decide) (by decide) (by decide) (by decide)) (by decide) (by decide +kernel) (by decide +kernel) (by decide) (by decide +kernel)
  exact h

theorem readsTheme : TexReads bookProj [] "main.tex".toList "sty/beamerthemeX.sty".toList := by
  refine ⟨mainDoc, mainIsDoc, "usetheme".toList, [], [], ["X".toList], by simp [mainDoc], "X".toList, by simp, ?_⟩
  have h := FileOf.mk (p := bookProj) (dir := []) (w := "use".toList ++ [] ++ "theme".toList) (n := "X".toList) (f := "sty/beamerthemeX.sty".toList)
    (a := []) (x := "beamerthemeX.sty".toList) (b := []) (ds := [[]]) (d := "sty".toList) (es := [])
    (.theme (by simp)) (by decide) (by decide +kernel) (by decide +kernel) (by decide +kernel) (by decide +kernel)
  exact h

/-- The theorems apply to this project. -/
theorem C108_example {r : List Str × Memo Str} (h : Result bookProj nothing [] "main.tex".toList r) :
    "pic.ps".toList ∈ r.1 ∧ "part.tex".toList ∈ r.1 ∧ "sty/beamerthemeX.sty".toList ∈ r.1 ∧ "old.tex".toList ∉ r.1 := by
  have hf := fun {f} => C108_found_partial (f := f) bookSub (docs_noSubdirs bookDocs) nothingFresh h
  refine ⟨hf (.one readsPic), hf (.more (.one readsCh1) readsPart), hf (.one readsTheme), ?_⟩
  rw [(found_result bookFound).2 r h]
  decide +kernel

/-! ## What is missing -/

/-- An option that goes over two lines stays in the type, and the file is not found. -/
theorem C108_option_two_lines :
    scanText ['.'] "\\usepackage[a,\nb]{style}".toList = [⟨"usepackage[a,\nb]".toList, ['.'], "style".toList⟩] ∧
      found (proj [("main.tex", "\\usepackage[a,\nb]{style}"), ("style.sty", "")] [] []) nothing "main.tex" = some [] := by
  constructor <;> decide +kernel

/-- A space after a comma stays in the name. -/
theorem C108_comma_space :
    found (proj [("main.tex", "\\bibliography{a, b}"), ("a.bib", ""), ("b.bib", "")] [] []) nothing "main.tex" = some ["a.bib".toList] := by decide +kernel

/-- A command with an empty option is not seen. -/
theorem C108_empty_option :
    found (proj [("main.tex", "\\usepackage[]{style}"), ("style.sty", "")] [] []) nothing "main.tex" = some [] := by decide +kernel

/-- A group after a command is taken for its second argument, with all that is in it up to the first `}`. -/
theorem C108_group :
    found (proj [("main.tex", "\\input{a} {\\small \\input{b}}"), ("a.tex", ""), ("b.tex", "")] [] []) nothing "main.tex" = some ["a.tex".toList] := by
  decide +kernel

/-- A name with a dot is not given an ending, although LaTeX tries `ch1.2.tex`, and `\include` always adds `.tex`. -/
theorem C108_dots :
    found (proj [("main.tex", "\\input{ch1.2}\\include{a.b}"), ("ch1.2.tex", ""), ("a.b.tex", "")] [] []) nothing "main.tex" = some [] := by decide +kernel

/-- Commands with a star are not seen. -/
theorem C108_star :
    found (proj [("main.tex", "\\includegraphics*{a.eps}"), ("a.eps", "")] [] []) nothing "main.tex" = some [] := by decide +kernel

/-- After `\\`, a percent sign is not seen as the beginning of a comment: what is behind it is a dependency. -/
theorem C108_newline_comment :
    found (proj [("main.tex", "a\\\\% \\input{old}"), ("old.tex", "")] [] []) nothing "main.tex" = some ["old.tex".toList] ∧
      tex .normal "a\\\\% \\input{old}".toList = "a\\\\".toList := by constructor <;> decide +kernel

/-- `\import` does not look where `TEXINPUTS` says. -/
theorem C108_import_path :
    found (proj [("main.tex", "\\import{x/}{a}"), ("t/x/a.tex", "")] ["t"] []) nothing "main.tex" = some [] ∧
      found (proj [("main.tex", "\\input{x/a}"), ("t/x/a.tex", "")] ["t"] []) nothing "main.tex" = some ["t/x/a.tex".toList] := by
  constructor <;> decide +kernel

/-- `\import` from a subdirectory works, and so do the files the imported file reads from there. -/
example : found (proj [("main.tex", "\\import{x/}{a}"), ("x/a.tex", "\\input{b}"), ("x/b.tex", "")] [] []) nothing "main.tex" = some ["x/b.tex".toList, "x/a.tex".toList] := by
  decide +kernel

def shared : Proj Str Str := proj [("one.tex", "\\import{x/}{a}"), ("two.tex", "\\input{x/a}"), ("x/a.tex", "\\input{b}"), ("x/b.tex", ""), ("b.tex", "")] [] []

/-- What is remembered with a file was scanned for the first document that reads it: for the second document, which reads it from another
directory, the wrong file is found. -/
theorem C108_history :
    ((run shared [] 40 (start shared nothing "one.tex".toList)).bind fun s => found shared s.memo "two.tex") = some (["x/b.tex", "x/a.tex"].map String.toList) ∧
      found shared nothing "two.tex" = some (["b.tex", "x/a.tex"].map String.toList) := by
  constructor <;> decide +kernel

end Verif.TexScan
