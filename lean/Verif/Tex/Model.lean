/-!
# C98: running LaTeX until the document is finished

Models /repo/SCons/Tool/tex.py `InternalLaTeXAuxAction` 191-491 (the loop 280-463, `check_content_hash` 255-276, the global
variable `must_rerun_latex` 50) for any number of documents built by threads at the same time, and the global list
`newglossary_suffix` (105, 242, 427, 650).

The programs are parameters: what LaTeX writes is any function of the files it finds, BibTeX's output of the
auxiliary file, MakeIndex's of its input.  LaTeX writes auxiliary files and the files that are checked, BibTeX
the bibliography, MakeIndex the index; nothing else.

Simplifications: contents stand for their hashes (no collisions); the auxiliary files are numbered, 0 is the main one, or the
`.bcf` file when biber is used; a program that fails writes nothing, except LaTeX; what the log says
(the three regular expressions 71-81, 446-460) is one Boolean; the renaming of the output (466-470) and the
handling of the environment variables (214-216, 480-489) are left out.
-/

namespace Verif.Tex

/-- The suffixes (tex.py:53-56) that are watched, and those of new glossaries. -/
inductive Suf where
  | toc | lof | lot | out | nav | snm | bbl | idx | nlo | glo | acn | ng (i : Nat)
deriving DecidableEq, Repr

/-- The files next to the document. -/
inductive Name where
  /-- the document's base name with a suffix -/
  | suf (s : Suf)
  /-- what MakeIndex makes of it (`.ind`, `.nls`, `.gls`, `.acr`, ...) -/
  | made (s : Suf)
  /-- an auxiliary file -/
  | aux (n : Nat)
  /-- the bibliography of an auxiliary file other than the main one -/
  | bblOf (n : Nat)
deriving DecidableEq, Repr

abbrev Files (C : Type) := Name → Option C

def Files.set {C : Type} (F : Files C) (x : Name) (c : Option C) : Files C := fun y => if y = x then c else F y

/-- The bibliography BibTeX makes of an auxiliary file. -/
def bblName : Nat → Name
  | 0 => .suf .bbl
  | n + 1 => .bblOf (n + 1)

/-- What LaTeX writes. -/
def Name.byLatex : Name → Bool
  | .suf .bbl => false
  | .suf _ => true
  | .made _ => false
  | .aux _ => true
  | .bblOf _ => false

/-- A document and the programs. -/
structure Doc (C : Type) where
  /-- `$LATEXRETRIES` -/
  retries : Nat
  /-- the contents LaTeX writes, when it finds these files -/
  latexOut : Files C → Name → Option C
  latexOk : Files C → Bool
  /-- the log asks for another run -/
  log : Files C → Bool
  /-- the auxiliary files that were opened for writing (`.fls`) -/
  fls : Files C → List Nat
  /-- an auxiliary file asks for a bibliography -/
  bibdata : Nat → Option C → Bool
  bibOut : Nat → Option C → Option C
  /-- MakeIndex; `none`: it fails -/
  mkOut : Suf → Option C → Option C
  /-- `\makeindex` and the like are in the source -/
  uses : Suf → Bool

/-- The files after LaTeX ran. -/
def Doc.latex {C : Type} (D : Doc C) (F : Files C) : Files C := fun x => if x.byLatex then D.latexOut F x else F x

/-- The parts of one pass after LaTeX (tex.py:326-463). -/
inductive Op where
  | bib (n : Nat)
  | index (s : Suf)
  | check (s : Suf)
  | logs
deriving DecidableEq, Repr

/-- tex.py:53 -/
def checkSuffixes : List Suf := [.toc, .lof, .lot, .out, .nav, .snm]

/-- The order of the parts; `ng` is the length of `newglossary_suffix`. -/
def ops (ng : Nat) (auxs : List Nat) : List Op :=
  auxs.map .bib ++ [.index .idx] ++ checkSuffixes.map .check ++ [.index .nlo, .index .glo, .index .acn] ++
    (List.range ng).map (fun i => .index (.ng i)) ++ [.logs]

/-- Whether a failure of MakeIndex ends the action (381, 400, 412, 424, 444). -/
def fatal : Suf → Bool
  | .nlo => false
  | .glo => false
  | _ => true

/-- The local variables of a call. -/
structure L (C : Type) where
  files : Files C
  saved : Suf → Option C
  already : List Nat
  count : Nat
  /-- what the log of the last run said -/
  log : Bool
  /-- `run_makeindex` and the others -/
  first : Suf → Bool
  /-- the message about the number of retries was printed -/
  exhausted : Bool
  /-- the files the last run of LaTeX found (not in the code) -/
  before : Files C

/-- Where a call is. -/
inductive PC where
  | init
  | head
  | clear
  | doing (l : List Op)
  | done (ok : Bool)
deriving DecidableEq, Repr

/-- `check_content_hash`: whether it changed; the local variables; the global flag. -/
def check {C : Type} [DecidableEq C] (l : L C) (flag : Bool) (s : Suf) : Bool × L C × Bool :=
  if l.saved s = l.files (.suf s) then (false, l, flag)
  else (true, { l with saved := fun t => if t = s then l.files (.suf s) else l.saved t }, true)

/-- One part of a pass: the local variables, the flag, and whether to go on. -/
def exec {C : Type} [DecidableEq C] (D : Doc C) (l : L C) (flag : Bool) : Op → L C × Bool × Bool
  | .bib n =>
    if n ∈ l.already then (l, flag, true)
    else
      let l := { l with already := l.already ++ [n] }
      if D.bibdata n (l.files (.aux n)) then
        let l := { l with files := l.files.set (bblName n) (D.bibOut n (l.files (.aux n))) }
        let r := check l flag .bbl
        (r.2.1, r.2.2, true)
      else (l, flag, true)
  | .index s =>
    let r := check l flag s
    let l := r.2.1
    if r.1 ∨ (l.count = 1 ∧ l.first s) then
      match D.mkOut s (l.files (.suf s)) with
      | some c => ({ l with files := l.files.set (.made s) (some c) }, r.2.2, true)
      | none => (l, r.2.2, !fatal s)
    else (l, r.2.2, true)
  | .check s =>
    let r := check l flag s
    (r.2.1, r.2.2, true)
  | .logs =>
    let flag := flag || l.log
    ({ l with exhausted := l.exhausted || (decide (D.retries ≤ l.count) && flag) }, flag, true)

/-- A call of the action. -/
structure Th (C : Type) where
  doc : Doc C
  pc : PC
  loc : L C

/-- The next step of a call; `ng`: the length of `newglossary_suffix`. -/
def step {C : Type} [DecidableEq C] (ng : Nat) (flag : Bool) (t : Th C) : Bool × Th C :=
  match t.pc with
  | .init => (true, { t with
      pc := .head
      loc := { t.loc with
        saved := fun s => t.loc.files (.suf s)
        already := []
        count := 0
        first := fun s => match s with
          | .ng _ => true
          | s => t.doc.uses s && (t.loc.files (.suf s)).isNone
        exhausted := false } })
  | .head =>
    if flag ∧ t.loc.count < t.doc.retries then
      if t.doc.latexOk t.loc.files then
        (flag, { t with pc := .clear, loc := { t.loc with
          files := t.doc.latex t.loc.files
          log := t.doc.log t.loc.files
          before := t.loc.files
          count := t.loc.count + 1 } })
      else (flag, { t with pc := .done false, loc := { t.loc with
          files := t.doc.latex t.loc.files
          before := t.loc.files } })
    else (flag, { t with pc := .done (decide (0 < t.loc.count)) })
  | .clear => (false, { t with pc := .doing (ops ng (t.doc.fls t.loc.before)) })
  | .doing [] => (flag, { t with pc := .head })
  | .doing (o :: os) =>
    let r := exec t.doc t.loc flag o
    (r.2.1, { t with pc := if r.2.2 then .doing os else .done false, loc := r.1 })
  | .done ok => (flag, { t with pc := .done ok })

/-- All calls, `newglossary_suffix`, `must_rerun_latex`. -/
structure St (C : Type) where
  ng : Nat
  flag : Bool
  ths : Nat → Th C

/-- Call `i` takes a step. -/
def stepAt {C : Type} [DecidableEq C] (s : St C) (i : Nat) : St C :=
  let r := step s.ng s.flag (s.ths i)
  { s with flag := r.1, ths := fun j => if j = i then r.2 else s.ths j }

def run {C : Type} [DecidableEq C] (s : St C) (sched : List Nat) : St C := sched.foldl stepAt s

end Verif.Tex
