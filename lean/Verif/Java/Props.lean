import Verif.Java.Parse
/-!
# C91: the class files found are those the compiler makes
-/
namespace Verif.Java

/-! ### Specification: Java sources and their class files -/

/-- Comments and literals. -/
inductive Kind where
  | line
  | block
  | string
  | char

def Kind.opens : Kind → Tok
  | .line => .line
  | .block => .copen
  | .string => .dq
  | .char => .sq

def Kind.closes : Kind → Tok
  | .line => .nl
  | .block => .cclose
  | .string => .dq
  | .char => .sq

/-- What may be between the parts of `new T(...) {`. -/
inductive Gap where
  | nl
  | generic (s : Str)
  | comment (block : Bool) (ts : List Tok)

def Gap.toks : Gap → List Tok
  | .nl => [.nl]
  | .generic s => [.generic s]
  | .comment false ts => .line :: ts ++ [.nl]
  | .comment true ts => .copen :: ts ++ [.cclose]

def Gap.ok : Gap → Bool
  | .comment false ts => decide (Tok.nl ∉ ts)
  | .comment true ts => decide (Tok.cclose ∉ ts)
  | _ => true

/-- The structure of a Java text. -/
inductive Code where
  | nil
  /-- any other token -/
  | tok (t : Tok) (rest : Code)
  /-- a point and what follows it -/
  | attr (t : Tok) (rest : Code)
  /-- a comment or a literal -/
  | skipped (k : Kind) (ts : List Tok) (rest : Code)
  /-- `( ... )` -/
  | par (inner rest : Code)
  /-- `{ ... }`: the body of a method, a loop, a lambda, ... -/
  | block (inner rest : Code)
  /-- `class Name ... { ... }`, also `interface` and `enum` -/
  | cls (kw : Tok) (newlines : Nat) (name : Str) (header : List Tok) (body rest : Code)
  /-- `new T(...)` -/
  | obj (type : Str) (g1 : List Gap) (args : Code) (g2 : List Gap) (rest : Code)
  /-- `new T(...) { ... }` -/
  | anon (type : Str) (g1 : List Gap) (args : Code) (g2 : List Gap) (body rest : Code)
  /-- `new T[...]` -/
  | arr (type : Str) (rest : Code)

/-- The tokens of the text. -/
def Code.toks : Code → List Tok
  | .nil => []
  | .tok t r => t :: r.toks
  | .attr t r => .dot :: t :: r.toks
  | .skipped k ts r => k.opens :: (ts ++ k.closes :: r.toks)
  | .par c r => .lp :: (c.toks ++ .rp :: r.toks)
  | .block c r => .lb :: (c.toks ++ .rb :: r.toks)
  | .cls kw n name h c r => kw :: (List.replicate n .nl ++ .word name :: (h ++ .lb :: (c.toks ++ .rb :: r.toks)))
  | .obj t g1 a g2 r => .new :: .word t :: (g1.flatMap Gap.toks ++ .lp :: (a.toks ++ .rp :: (g2.flatMap Gap.toks ++ r.toks)))
  | .anon t g1 a g2 c r =>
    .new :: .word t :: (g1.flatMap Gap.toks ++ .lp :: (a.toks ++ .rp :: (g2.flatMap Gap.toks ++ .lb :: (c.toks ++ .rb :: r.toks))))
  | .arr t r => .new :: .word t :: r.toks

/-- How many local classes of each name, and how many anonymous classes, a class has had. -/
structure Counts where
  loc : Str → Nat
  anon : Nat

def Counts.zero : Counts := ⟨fun _ => 0, 0⟩

/-- The classes of a text, each as the parts of its binary name (Java Language Specification
13.1): a member of a class is named after the class and itself; a local class (one within a
block) after the class it is in, a number and itself; an anonymous class after the class it is
in and a number. `encl`: the class around; `blk`: within a block of it; `n`: the numbers used
in that class so far. -/
def Code.files (encl : List Str) (blk : Bool) : Code → Counts → List (List Str) × Counts
  | .nil, n => ([], n)
  | .tok _ r, n => r.files encl blk n
  | .attr _ r, n => r.files encl blk n
  | .skipped _ _ r, n => r.files encl blk n
  | .par c r, n =>
    let p := c.files encl blk n
    let q := r.files encl blk p.2
    (p.1 ++ q.1, q.2)
  | .block c r, n =>
    let p := c.files encl true n
    let q := r.files encl blk p.2
    (p.1 ++ q.1, q.2)
  | .cls _ _ name _ c r, n =>
    if encl ≠ [] ∧ blk = true then
      let flat := encl ++ [num (n.loc name + 1) ++ name]
      let q := r.files encl blk { n with loc := fun x => if x = name then n.loc name + 1 else n.loc x }
      ((c.files flat false Counts.zero).1 ++ flat :: q.1, q.2)
    else
      let flat := encl ++ [name]
      let q := r.files encl blk n
      ((c.files flat false Counts.zero).1 ++ flat :: q.1, q.2)
  | .obj _ _ a _ r, n =>
    let p := a.files encl blk n
    let q := r.files encl blk p.2
    (p.1 ++ q.1, q.2)
  | .anon _ _ a _ c r, n =>
    let p := a.files encl blk n
    let flat := encl ++ [num (p.2.anon + 1)]
    let q := r.files encl blk { p.2 with anon := p.2.anon + 1 }
    (p.1 ++ (flat :: (c.files flat false Counts.zero).1 ++ q.1), q.2)
  | .arr _ r, n => r.files encl blk n

/-- Tokens without meaning here. -/
def plain : Tok → Bool
  | .nl | .word _ | .generic _ | .sym _ => true
  | _ => false

/-- What may follow a point. -/
def attrOk : Tok → Bool
  | .nl | .word _ | .generic _ | .sym _ | .class_ | .dot => true
  | _ => false

def isKw : Tok → Bool
  | .class_ | .interface | .enum => true
  | _ => false

/-- What follows a `new T(...)` that is no anonymous class: no brace, no parenthesis. -/
def Code.ends (c : Code) : Bool :=
  match c.toks.head? with
  | some .lb | some .lp | some .nl | some (.generic _) | some .line | some .copen => false
  | _ => true

/-- No named classes. -/
def Code.noCls : Code → Bool
  | .nil => true
  | .tok _ r | .attr _ r | .skipped _ _ r | .arr _ r => r.noCls
  | .par c r | .block c r => c.noCls && r.noCls
  | .cls _ _ _ _ _ _ => false
  | .obj _ _ a _ r => a.noCls && r.noCls
  | .anon _ _ a _ c r => a.noCls && c.noCls && r.noCls

/-- The texts for which the theorem holds: `new` only within classes, no named classes in
anonymous classes or in the arguments of `new`. -/
def Code.ok (inClass : Bool) : Code → Bool
  | .nil => true
  | .tok t r => plain t && r.ok inClass
  | .attr t r => attrOk t && r.ok inClass
  | .skipped k ts r => decide (k.closes ∉ ts) && r.ok inClass
  | .par c r | .block c r => c.ok inClass && r.ok inClass
  | .cls kw _ _ h c r => isKw kw && h.all plain && c.ok true && r.ok inClass
  | .obj _ g1 a g2 r => inClass && g1.all Gap.ok && g2.all Gap.ok && a.ok true && a.noCls && r.ends && r.ok inClass
  | .anon _ g1 a g2 c r =>
    inClass && g1.all Gap.ok && g2.all Gap.ok && a.ok true && a.noCls && c.ok true && c.noCls && r.ok inClass
  | .arr _ r => inClass && r.ends && r.ok inClass

/-- A file: comments, the package declaration, the classes. -/
structure Source where
  pre : Code
  package : Option Str
  main : Code

def Source.toks (f : Source) : List Tok :=
  f.pre.toks ++ ((match f.package with | some p => [.package, .word p] | none => []) ++ f.main.toks)

/-- The class files: `A$B`, ... -/
def Source.files (f : Source) : List Str :=
  (f.main.files [] false Counts.zero).1.map (List.intercalate ['$'])

/-- The directory: points are slashes. -/
def Source.dir (f : Source) : Option Str := f.package.map fun p => p.map fun c => if c = '.' then '/' else c

/-! ### Lemmas -/

theorem run_append (v : Version) (s : St) (g : Glob) (xs ys : List Tok) :
    run v s g (xs ++ ys) = (run v s g xs).bind fun p => run v p.1 p.2 ys := by
  induction xs generalizing s g with
  | nil => rfl
  | cons t ts ih =>
    simp only [List.cons_append, run]
    cases step v s g t with
    | none => rfl
    | some p => simp [ih]

theorem run_cons {v : Version} {s s' : St} {g g' : Glob} {t : Tok} (h : step v s g t = some (s', g')) (ts : List Tok) :
    run v s g (t :: ts) = run v s' g' ts := by
  simp [run, h]

theorem run_ignore (v : Version) (u : Tok) (old : St) (g : Glob) (ts rest : List Tok) (h : u ∉ ts) :
    run v (.ignore u old) g (ts ++ u :: rest) = run v old g rest := by
  induction ts with
  | nil => simp [run, step]
  | cons t ts ih =>
    have h1 : t ≠ u := fun e => h (by simp [e])
    have h2 : u ∉ ts := fun e => h (by simp [e])
    simp [run, step, h1, ih h2]

theorem step_open (k : Kind) (g : Glob) :
    step .modern .outer g k.opens = some (.ignore k.closes .outer, g) ∧
    (∀ n old, step .modern (.scope n old) g k.opens = some (.ignore k.closes (.scope n old), g)) ∧
    (∀ l old, 0 < l → step .modern (.anon l old) g k.opens = some (.ignore k.closes (.anon l old), g)) := by
  cases k
  · exact ⟨rfl, fun _ _ => rfl, fun _ _ _ => rfl⟩
  · exact ⟨rfl, fun _ _ => rfl, fun _ _ _ => rfl⟩
  · exact ⟨rfl, fun _ _ => rfl, fun l old h => by simp [step, h, Kind.opens, Kind.closes]⟩
  · exact ⟨rfl, fun _ _ => rfl, fun l old h => by simp [step, h, Kind.opens, Kind.closes]⟩

/-- Gaps do not leave the state that waits for a brace. -/
theorem run_gaps (g : Glob) (l : Nat) (old : St) (gs : List Gap) (h : gs.all Gap.ok = true) (rest : List Tok) :
    run .modern (.anon l old) g (gs.flatMap Gap.toks ++ rest) = run .modern (.anon l old) g rest := by
  induction gs with
  | nil => rfl
  | cons x gs ih =>
    simp only [List.all_cons, Bool.and_eq_true] at h
    simp only [List.flatMap_cons, List.append_assoc]
    cases x with
    | nl => simp [Gap.toks, run, step, ih h.2]
    | generic s => simp [Gap.toks, run, step, ih h.2]
    | comment b ts =>
      cases b with
      | false =>
        have h1 : Tok.nl ∉ ts := by simpa [Gap.ok] using h.1
        have := run_ignore .modern .nl (.anon l old) g ts (gs.flatMap Gap.toks ++ rest) h1
        simp only [Gap.toks, List.cons_append, List.append_assoc, run, step, Option.bind_some, List.nil_append]
        rw [this, ih h.2]
      | true =>
        have h1 : Tok.cclose ∉ ts := by simpa [Gap.ok] using h.1
        have := run_ignore .modern .cclose (.anon l old) g ts (gs.flatMap Gap.toks ++ rest) h1
        simp only [Gap.toks, List.cons_append, List.append_assoc, run, step, Option.bind_some, List.nil_append]
        rw [this, ih h.2]

/-- A state that waits for a brace gives other tokens to the state before. -/
theorem step_back (s : St) (g : Glob) (t : Tok)
    (h : t ≠ .lb ∧ t ≠ .lp ∧ t ≠ .nl ∧ (∀ x, t ≠ .generic x) ∧ t ≠ .line ∧ t ≠ .copen) :
    step .modern (.anon 0 s) g t = step .modern s g t := by
  obtain ⟨h1, h2, h3, h4, h5, h6⟩ := h
  cases t <;> simp at h1 h2 h3 h4 h5 h6 <;> (conv => lhs; unfold step) <;> simp

theorem run_ends (s : St) (g : Glob) (c : Code) (h : c.ends = true) (hne : c.toks ≠ []) :
    run .modern (.anon 0 s) g c.toks = run .modern s g c.toks := by
  unfold Code.ends at h
  cases ht : c.toks with
  | nil => exact absurd ht hne
  | cons t ts =>
    rw [ht] at h
    have : step .modern (.anon 0 s) g t = step .modern s g t := by
      apply step_back
      refine ⟨?_, ?_, ?_, ?_, ?_, ?_⟩
      · rintro rfl; simp at h
      · rintro rfl; simp at h
      · rintro rfl; simp at h
      · rintro x rfl; simp at h
      · rintro rfl; simp at h
      · rintro rfl; simp at h
    simp [run, this]

/-- States in which text of an anonymous class or the arguments of `new` is read. -/
def Ctx (st : St) : Prop := (∃ n old, st = .scope n old ∧ 1 ≤ n) ∨ ∃ l old, st = .anon l old ∧ 0 < l

/-- The state after a text is that before, or waits for a brace that will not come. -/
def Back (st st' : St) : Prop := st' = st ∨ st' = .anon 0 st

/-- What text without named classes changes. -/
structure Frame (g g' : Glob) : Prop where
  classes : g'.classes = g.classes
  stackBrackets : g'.stackBrackets = g.stackBrackets
  brackets : g'.brackets = g.brackets
  locals : g'.locals = g.locals
  package : g'.package = g.package

theorem Frame.refl (g : Glob) : Frame g g := ⟨rfl, rfl, rfl, rfl, rfl⟩

theorem Frame.trans {a b c : Glob} (h : Frame a b) (k : Frame b c) : Frame a c :=
  ⟨k.classes.trans h.classes, k.stackBrackets.trans h.stackBrackets, k.brackets.trans h.brackets, k.locals.trans h.locals,
    k.package.trans h.package⟩

theorem Back.close {st st' : St} (h : Back st st') (g : Glob) (t : Tok) (ht : t = .rp ∨ t = .rb) :
    step .modern st' g t = step .modern st g t := by
  rcases h with rfl | rfl
  · rfl
  · apply step_back
    rcases ht with rfl | rfl <;> simp

/-- The class around: that of the named classes and the anonymous ones. -/
def encl (g : Glob) (a : List Nat) : List Str := g.classes.reverse ++ (a.map num).reverse

def join (l : List Str) : Str := List.intercalate ['$'] l

/-- The result of a run over text. -/
def Runs (st : St) (g : Glob) (c : Code) (a : List Nat) (k : Nat) (S : List (List Nat)) : Prop :=
  ∃ st' g', Back st st' ∧ run .modern st g c.toks = some (st', g') ∧ Frame g g' ∧
    ∀ blk loc, g'.outputs = g.outputs ++ (c.files (encl g a) blk ⟨loc, k⟩).1.map join ∧
      g'.anon = ((c.files (encl g a) blk ⟨loc, k⟩).2.anon :: a) :: S

/-- The counters of local classes do not matter without named classes. -/
theorem files_noCls (c : Code) (h : c.noCls = true) (e : List Str) : ∀ (blk blk' : Bool) (n n' : Counts), n.anon = n'.anon →
    (c.files e blk n).1 = (c.files e blk' n').1 ∧ (c.files e blk n).2.anon = (c.files e blk' n').2.anon := by
  induction c generalizing e with
  | nil => intro _ _ n n' hn; exact ⟨rfl, hn⟩
  | tok t r ih => exact ih h e
  | attr t r ih => exact ih h e
  | skipped k ts r ih => exact ih h e
  | arr t r ih => exact ih h e
  | par c r ihc ihr =>
    simp only [Code.noCls, Bool.and_eq_true] at h
    intro blk blk' n n' hn
    obtain ⟨a1, a2⟩ := ihc h.1 e blk blk' n n' hn
    obtain ⟨b1, b2⟩ := ihr h.2 e blk blk' _ _ a2
    exact ⟨by simp only [Code.files, a1, b1], b2⟩
  | block c r ihc ihr =>
    simp only [Code.noCls, Bool.and_eq_true] at h
    intro blk blk' n n' hn
    obtain ⟨a1, a2⟩ := ihc h.1 e true true n n' hn
    obtain ⟨b1, b2⟩ := ihr h.2 e blk blk' _ _ a2
    exact ⟨by simp only [Code.files, a1, b1], b2⟩
  | cls _ _ _ _ _ _ _ _ => cases h
  | obj t g1 a g2 r iha ihr =>
    simp only [Code.noCls, Bool.and_eq_true] at h
    intro blk blk' n n' hn
    obtain ⟨a1, a2⟩ := iha h.1 e blk blk' n n' hn
    obtain ⟨b1, b2⟩ := ihr h.2 e blk blk' _ _ a2
    exact ⟨by simp only [Code.files, a1, b1], b2⟩
  | anon t g1 a g2 c r iha ihc ihr =>
    simp only [Code.noCls, Bool.and_eq_true] at h
    intro blk blk' n n' hn
    obtain ⟨a1, a2⟩ := iha h.1.1 e blk blk' n n' hn
    have := ihr h.2 e blk blk' { (a.files e blk n).2 with anon := (a.files e blk n).2.anon + 1 }
      { (a.files e blk' n').2 with anon := (a.files e blk' n').2.anon + 1 } (by simp [a2])
    obtain ⟨b1, b2⟩ := this
    refine ⟨?_, b2⟩
    simp only [Code.files]
    rw [a1, b1, a2]

theorem encl_frame {g g' : Glob} (h : Frame g g') (a : List Nat) : encl g' a = encl g a := by
  unfold encl; rw [h.classes]

/-- `new T(...)` -/
theorem run_args {st : St} {g : Glob} {args : Code} {a : List Nat} {k : Nat} {S : List (List Nat)}
    (hA : Runs (.anon 1 st) g args a k S) (t : Str) (g1 g2 : List Gap) (h1 : g1.all Gap.ok = true) (h2 : g2.all Gap.ok = true) :
    ∃ g', (∀ rest, run .modern (.skip (.anon 0 st)) g
        (.word t :: (g1.flatMap Gap.toks ++ .lp :: (args.toks ++ .rp :: (g2.flatMap Gap.toks ++ rest)))) =
          run .modern (.anon 0 st) g' rest) ∧ Frame g g' ∧
      ∀ blk loc, g'.outputs = g.outputs ++ (args.files (encl g a) blk ⟨loc, k⟩).1.map join ∧
        g'.anon = ((args.files (encl g a) blk ⟨loc, k⟩).2.anon :: a) :: S := by
  obtain ⟨st', g', hb, hr, hf, ho⟩ := hA
  refine ⟨g', fun rest => ?_, hf, ho⟩
  have hs : step .modern (.skip (.anon 0 st)) g (.word t) = some (.anon 0 st, g) := by simp [step]
  rw [run_cons hs, run_gaps _ _ _ _ h1]
  have hl : step .modern (.anon 0 st) g .lp = some (.anon 1 st, g) := by simp [step]
  rw [run_cons hl, run_append, hr]
  simp only [Option.bind_some]
  have hc : step .modern st' g' .rp = some (.anon 0 st, g') := by
    rw [hb.close g' .rp (Or.inl rfl)]; simp [step]
  rw [run_cons hc, run_gaps _ _ _ _ h2]

/-- `new T(...) { ... }` -/
theorem run_body {st : St} {g : Glob} {body : Code} {a : List Nat} {k : Nat} {S : List (List Nat)} (hg : g.anon = (k :: a) :: S)
    (hB : ∀ g', Frame g g' → g'.anon = (0 :: (k + 1) :: a) :: S → Runs (.scope 1 st) g' body ((k + 1) :: a) 0 S) :
    ∃ g', (∀ rest, run .modern (.anon 0 st) g (.lb :: (body.toks ++ .rb :: rest)) = run .modern st g' rest) ∧ Frame g g' ∧
      g'.anon = ((k + 1) :: a) :: S ∧
      g'.outputs = g.outputs ++ ((encl g a ++ [num (k + 1)]) :: (body.files (encl g a ++ [num (k + 1)]) false Counts.zero).1).map join := by
  obtain ⟨ga, hga⟩ : ∃ ga : Glob, ga = { g with stackAnonBrackets := g.brackets :: g.stackAnonBrackets, outputs := g.outputs ++ [joinName (((k + 1) :: a).map num ++ g.classes)], nextAnon := g.nextAnon + 1, anon := (0 :: (k + 1) :: a) :: S } := ⟨_, rfl⟩
  have hadd : g.addAnon .modern = some ga := by
    unfold Glob.addAnon
    rw [hg, hga]
    simp
  have hfa : Frame g ga := by subst hga; exact ⟨rfl, rfl, rfl, rfl, rfl⟩
  have haa : ga.anon = (0 :: (k + 1) :: a) :: S := by subst hga; rfl
  obtain ⟨st', gb, hb, hr, hf, ho⟩ := hB ga hfa haa
  obtain ⟨ho1, ho2⟩ := ho false (fun _ => 0)
  have he : encl ga ((k + 1) :: a) = encl g a ++ [num (k + 1)] := by
    rw [encl_frame hfa]; simp [encl]
  rw [he] at ho1 ho2
  refine ⟨{ gb with anon := ((k + 1) :: a) :: S }, fun rest => ?_, ?_, rfl, ?_⟩
  · have hs : step .modern (.anon 0 st) g .lb = some (.scope 1 st, ga) := by simp [step, hadd]
    rw [run_cons hs, run_append, hr]
    simp only [Option.bind_some]
    have hc : step .modern st' gb .rb = some (st, { gb with anon := ((k + 1) :: a) :: S }) := by
      rw [hb.close gb .rb (Or.inr rfl)]
      simp [step, Tok.ignoreUntil, Glob.popAnon, ho2]
    rw [run_cons hc]
  · exact hfa.trans ⟨hf.classes, hf.stackBrackets, hf.brackets, hf.locals, hf.package⟩
  · show gb.outputs = _
    rw [ho1]
    subst hga
    simp only [List.append_assoc, List.map_cons, List.singleton_append]
    congr 2
    simp [joinName, join, encl]

theorem step_plain_ctx {st : St} (h : Ctx st) (g : Glob) {t : Tok} (ht : plain t = true) : step .modern st g t = some (st, g) := by
  rcases h with ⟨n, old, rfl, _⟩ | ⟨l, old, rfl, hl⟩
  · cases t <;> simp [plain] at ht <;> simp [step, Tok.ignoreUntil]
  · cases t <;> simp [plain] at ht <;> simp [step, hl]

theorem run_attr_ctx {st : St} (h : Ctx st) (g : Glob) {t : Tok} (ht : attrOk t = true) (rest : List Tok) :
    run .modern st g (.dot :: t :: rest) = run .modern st g rest := by
  rcases h with ⟨n, old, rfl, _⟩ | ⟨l, old, rfl, hl⟩
  · simp [run, step, Tok.ignoreUntil]
  · cases t <;> simp [attrOk] at ht <;> simp [run, step, hl]

theorem Runs.step_cons {st : St} {g : Glob} {t : Tok} {c c' : Code} {a : List Nat} {k : Nat} {S : List (List Nat)}
    (h : ∀ rest, run .modern st g (t :: rest) = run .modern st g rest) (hc : c'.toks = t :: c.toks)
    (hf : ∀ e blk n, c'.files e blk n = c.files e blk n) (hr : Runs st g c a k S) : Runs st g c' a k S := by
  obtain ⟨st', g', h1, h2, h3, h4⟩ := hr
  refine ⟨st', g', h1, ?_, h3, ?_⟩
  · rw [hc, h]; exact h2
  · intro blk loc; rw [hf]; exact h4 blk loc

/-- Two texts one after the other. -/
theorem Runs.seq {st : St} {g g1 : Glob} {c : Code} {a : List Nat} {k k1 : Nat} {S : List (List Nat)} {out : List (List Str)} {r : Code}
    {front : List Tok}
    (hfront : ∀ rest, run .modern st g (front ++ rest) = run .modern st g1 rest) (hf : Frame g g1)
    (hout : g1.outputs = g.outputs ++ out.map join)
    (htoks : c.toks = front ++ r.toks)
    (hfiles : ∀ blk loc, ∃ loc', c.files (encl g a) blk ⟨loc, k⟩ =
        (out ++ (r.files (encl g a) blk ⟨loc', k1⟩).1, (r.files (encl g a) blk ⟨loc', k1⟩).2))
    (hr : Runs st g1 r a k1 S) : Runs st g c a k S := by
  obtain ⟨st', g', h1, h2, h3, h4⟩ := hr
  refine ⟨st', g', h1, ?_, hf.trans h3, ?_⟩
  · rw [htoks, hfront, h2]
  · intro blk loc
    obtain ⟨loc', e⟩ := hfiles blk loc
    obtain ⟨q1, q2⟩ := h4 blk loc'
    rw [encl_frame hf] at q1 q2
    rw [e, q1, hout]
    exact ⟨by simp, q2⟩

theorem run_ends_any (st : St) (g : Glob) {r : Code} (h : r.ends = true) {a : List Nat} {k : Nat} {S : List (List Nat)}
    (hr : Runs st g r a k S) :
    ∃ st' g', Back st st' ∧ run .modern (.anon 0 st) g r.toks = some (st', g') ∧ Frame g g' ∧
      ∀ blk loc, g'.outputs = g.outputs ++ (r.files (encl g a) blk ⟨loc, k⟩).1.map join ∧
        g'.anon = ((r.files (encl g a) blk ⟨loc, k⟩).2.anon :: a) :: S := by
  obtain ⟨st', g', h1, h2, h3, h4⟩ := hr
  by_cases hne : r.toks = []
  · rw [hne] at h2 ⊢
    simp only [run, Option.some.injEq, Prod.mk.injEq] at h2
    obtain ⟨rfl, rfl⟩ := h2
    exact ⟨.anon 0 st, g, Or.inr rfl, rfl, h3, h4⟩
  · exact ⟨st', g', h1, by rw [run_ends st g r h hne, h2], h3, h4⟩

theorem counts_eta (n : Counts) : n = ⟨n.loc, n.anon⟩ := rfl

/-- Text without named classes, in an anonymous class or in arguments. -/
theorem ctx_run (c : Code) (hok : c.ok true = true) (hn : c.noCls = true) : ∀ (st : St) (g : Glob) (a : List Nat) (k : Nat) (S : List (List Nat)),
    Ctx st → g.anon = (k :: a) :: S → Runs st g c a k S := by
  induction c with
  | nil =>
    intro st g a k S _ hg
    exact ⟨st, g, Or.inl rfl, rfl, Frame.refl g, fun _ _ => ⟨by simp [Code.files], by simp [Code.files, hg]⟩⟩
  | tok t r ih =>
    intro st g a k S hst hg
    simp only [Code.ok, Bool.and_eq_true] at hok
    exact Runs.step_cons (t := t) (fun rest => run_cons (step_plain_ctx hst g hok.1) rest) rfl (fun _ _ _ => rfl) (ih hok.2 hn st g a k S hst hg)
  | attr t r ih =>
    intro st g a k S hst hg
    simp only [Code.ok, Bool.and_eq_true] at hok
    exact Runs.seq (front := [.dot, t]) (out := []) (k1 := k) (r := r) (fun rest => run_attr_ctx hst g hok.1 rest) (Frame.refl g) (by simp) rfl
      (fun blk loc => ⟨loc, rfl⟩) (ih hok.2 hn st g a k S hst hg)
  | skipped kd ts r ih =>
    intro st g a k S hst hg
    simp only [Code.ok, Bool.and_eq_true, decide_eq_true_eq] at hok
    refine Runs.seq (front := kd.opens :: (ts ++ [kd.closes])) (out := []) (k1 := k) (r := r) (fun rest => ?_) (Frame.refl g) (by simp) (by simp [Code.toks])
      (fun blk loc => ⟨loc, rfl⟩) (ih hok.2 hn st g a k S hst hg)
    obtain ⟨_, o2, o3⟩ := step_open kd g
    have ho : step .modern st g kd.opens = some (.ignore kd.closes st, g) := by
      rcases hst with ⟨n, old, rfl, _⟩ | ⟨l, old, rfl, hl⟩
      · exact o2 n old
      · exact o3 l old hl
    rw [List.cons_append, run_cons ho]
    simpa using run_ignore .modern kd.closes st g ts rest hok.1
  | par c r ihc ihr =>
    intro st g a k S hst hg
    simp only [Code.ok, Code.noCls, Bool.and_eq_true] at hok hn
    obtain ⟨st1, hst1, hl, hrp⟩ : ∃ st1, Ctx st1 ∧ step .modern st g .lp = some (st1, g) ∧ ∀ g', step .modern st1 g' .rp = some (st, g') := by
      rcases hst with ⟨n, old, rfl, hn⟩ | ⟨l, old, rfl, hl⟩
      · exact ⟨.scope n old, Or.inl ⟨n, old, rfl, hn⟩, rfl, fun _ => rfl⟩
      · exact ⟨.anon (l + 1) old, Or.inr ⟨l + 1, old, rfl, by omega⟩, rfl, fun _ => by simp [step]⟩
    obtain ⟨st2, g2, hb, hr2, hf2, ho2⟩ := ihc hok.1 hn.1 st1 g a k S hst1 hg
    have ho := ho2 false (fun _ => 0)
    refine Runs.seq (front := .lp :: (c.toks ++ [.rp])) (out := (c.files (encl g a) false ⟨fun _ => 0, k⟩).1) (r := r)
      (g1 := g2) (k1 := (c.files (encl g a) false ⟨fun _ => 0, k⟩).2.anon) (fun rest => ?_) hf2 ho.1 (by simp [Code.toks])
      (fun blk loc => ?_) (ihr hok.2 hn.2 st g2 a _ S hst ho.2)
    · rw [List.cons_append, run_cons hl, List.append_assoc, run_append, hr2]
      simp only [Option.bind_some, List.singleton_append]
      exact run_cons ((hb.close g2 .rp (Or.inl rfl)).trans (hrp g2)) rest
    · obtain ⟨e1, e2⟩ := files_noCls c hn.1 (encl g a) blk false ⟨loc, k⟩ ⟨fun _ => 0, k⟩ rfl
      refine ⟨(c.files (encl g a) blk ⟨loc, k⟩).2.loc, ?_⟩
      simp only [Code.files]
      rw [e1, ← e2]
  | block c r ihc ihr =>
    intro st g a k S hst hg
    simp only [Code.ok, Code.noCls, Bool.and_eq_true] at hok hn
    obtain ⟨st1, hst1, hl, hrb⟩ : ∃ st1, Ctx st1 ∧ step .modern st g .lb = some (st1, g) ∧ ∀ g', step .modern st1 g' .rb = some (st, g') := by
      rcases hst with ⟨n, old, rfl, hn⟩ | ⟨l, old, rfl, hl⟩
      · refine ⟨.scope (n + 1) old, Or.inl ⟨n + 1, old, rfl, by omega⟩, rfl, fun g' => ?_⟩
        have e1 : n + 1 - 1 = n := by omega
        have e2 : n ≠ 0 := by omega
        simp [step, Tok.ignoreUntil, e1, e2]
      · exact ⟨.anon l old, Or.inr ⟨l, old, rfl, hl⟩, by simp [step, hl], fun _ => by simp [step, hl]⟩
    obtain ⟨st2, g2, hb, hr2, hf2, ho2⟩ := ihc hok.1 hn.1 st1 g a k S hst1 hg
    have ho := ho2 false (fun _ => 0)
    refine Runs.seq (front := .lb :: (c.toks ++ [.rb])) (out := (c.files (encl g a) false ⟨fun _ => 0, k⟩).1) (r := r)
      (g1 := g2) (k1 := (c.files (encl g a) false ⟨fun _ => 0, k⟩).2.anon) (fun rest => ?_) hf2 ho.1 (by simp [Code.toks])
      (fun blk loc => ?_) (ihr hok.2 hn.2 st g2 a _ S hst ho.2)
    · rw [List.cons_append, run_cons hl, List.append_assoc, run_append, hr2]
      simp only [Option.bind_some, List.singleton_append]
      exact run_cons ((hb.close g2 .rb (Or.inr rfl)).trans (hrb g2)) rest
    · obtain ⟨e1, e2⟩ := files_noCls c hn.1 (encl g a) true false ⟨loc, k⟩ ⟨fun _ => 0, k⟩ rfl
      refine ⟨(c.files (encl g a) true ⟨loc, k⟩).2.loc, ?_⟩
      simp only [Code.files]
      rw [e1, ← e2]
  | cls _ _ _ _ _ _ _ _ => cases hn
  | obj t g1 args g2 r iha ihr =>
    intro st g a k S hst hg
    simp only [Code.ok, Code.noCls, Bool.and_eq_true, Bool.true_and] at hok hn
    obtain ⟨⟨⟨⟨⟨k1, k2⟩, k3⟩, k4⟩, k5⟩, k6⟩ := hok
    obtain ⟨ga, hra, hfa, hoa⟩ := run_args (iha k3 k4 (.anon 1 st) g a k S (Or.inr ⟨1, st, rfl, by omega⟩) hg) t g1 g2 k1 k2
    have ho := hoa false (fun _ => 0)
    have hnew : step .modern st g .new = some (.skip (.anon 0 st), g) := by
      rcases hst with ⟨n, old, rfl, _⟩ | ⟨l, old, rfl, hl⟩
      · rfl
      · simp [step, hl]
    obtain ⟨st', g', w1, w2, w3, w4⟩ := run_ends_any st ga k5 (ihr k6 hn.2 st ga a _ S hst ho.2)
    refine ⟨st', g', w1, ?_, hfa.trans w3, fun blk loc => ?_⟩
    · simp only [Code.toks]
      rw [run_cons hnew, hra, w2]
    · obtain ⟨e1, e2⟩ := files_noCls args k4 (encl g a) blk false ⟨loc, k⟩ ⟨fun _ => 0, k⟩ rfl
      obtain ⟨q1, q2⟩ := w4 blk (args.files (encl g a) blk ⟨loc, k⟩).2.loc
      rw [encl_frame hfa, ← e2] at q1 q2
      simp only [Code.files]
      rw [q1, q2, ho.1, e1]
      exact ⟨by simp, rfl⟩
  | anon t g1 args g2 body r iha ihc ihr =>
    intro st g a k S hst hg
    simp only [Code.ok, Code.noCls, Bool.and_eq_true, Bool.true_and] at hok hn
    obtain ⟨⟨⟨⟨⟨⟨k1, k2⟩, k3⟩, k4⟩, k5⟩, k6⟩, k7⟩ := hok
    obtain ⟨ga, hra, hfa, hoa⟩ := run_args (iha k3 k4 (.anon 1 st) g a k S (Or.inr ⟨1, st, rfl, by omega⟩) hg) t g1 g2 k1 k2
    have ho := hoa false (fun _ => 0)
    have hnew : step .modern st g .new = some (.skip (.anon 0 st), g) := by
      rcases hst with ⟨n, old, rfl, _⟩ | ⟨l, old, rfl, hl⟩
      · rfl
      · simp [step, hl]
    obtain ⟨gb, hrb, hfb, hab, hob⟩ := run_body (body := body) (st := st) ho.2
      (fun g' _ hg' => ihc k5 k6 (.scope 1 st) g' _ 0 S (Or.inl ⟨1, st, rfl, by omega⟩) hg')
    refine Runs.seq (front := .new :: .word t :: (g1.flatMap Gap.toks ++ .lp :: (args.toks ++ .rp :: (g2.flatMap Gap.toks ++ .lb :: (body.toks ++ [.rb])))))
      (g1 := gb) (r := r) (k1 := (args.files (encl g a) false ⟨fun _ => 0, k⟩).2.anon + 1)
      (out := (args.files (encl g a) false ⟨fun _ => 0, k⟩).1 ++ (encl g a ++ [num ((args.files (encl g a) false ⟨fun _ => 0, k⟩).2.anon + 1)]) ::
        (body.files (encl g a ++ [num ((args.files (encl g a) false ⟨fun _ => 0, k⟩).2.anon + 1)]) false Counts.zero).1)
      (fun rest => ?_) (hfa.trans hfb) ?_ (by simp [Code.toks]) (fun blk loc => ?_) (ihr k7 hn.2 st gb a _ S hst hab)
    · have := hra (.lb :: (body.toks ++ .rb :: rest))
      rw [hrb] at this
      rw [List.cons_append, run_cons hnew]
      simpa using this
    · rw [hob, ho.1, encl_frame hfa]
      simp
    · obtain ⟨e1, e2⟩ := files_noCls args k4 (encl g a) blk false ⟨loc, k⟩ ⟨fun _ => 0, k⟩ rfl
      refine ⟨(args.files (encl g a) blk ⟨loc, k⟩).2.loc, ?_⟩
      simp only [Code.files]
      rw [e1, e2]
      simp
  | arr t r ih =>
    intro st g a k S hst hg
    simp only [Code.ok, Code.noCls, Bool.and_eq_true, Bool.true_and] at hok hn
    have hnew : step .modern st g .new = some (.skip (.anon 0 st), g) := by
      rcases hst with ⟨n, old, rfl, _⟩ | ⟨l, old, rfl, hl⟩
      · rfl
      · simp [step, hl]
    obtain ⟨st', g', w1, w2, w3, w4⟩ := run_ends_any st g hok.1 (ih hok.2 hn st g a k S hst hg)
    refine ⟨st', g', w1, ?_, w3, w4⟩
    simp only [Code.toks]
    rw [run_cons hnew]
    have hs : step .modern (.skip (.anon 0 st)) g (.word t) = some (.anon 0 st, g) := by simp [step]
    rw [run_cons hs, w2]

/-! ### Named classes -/

/-- The machine is between two tokens of a class (or outside all classes). -/
def Inv (inClass : Bool) (g : Glob) (blk : Bool) (n : Counts) : Prop :=
  if inClass then
    g.classes ≠ [] ∧ (∃ d ls, g.locals = d :: ls ∧ ∀ x, count d x = n.loc x) ∧
    (∃ b bs, g.stackBrackets = b :: bs ∧ b + 1 ≤ g.brackets ∧ (blk = true ↔ b + 1 < g.brackets)) ∧
    ∃ S, g.anon = [n.anon] :: S
  else g.classes = [] ∧ g.locals = [] ∧ g.stackBrackets = []

/-- What text in a class changes. -/
structure Outer (g g' : Glob) : Prop where
  classes : g'.classes = g.classes
  stackBrackets : g'.stackBrackets = g.stackBrackets
  brackets : g'.brackets = g.brackets
  locals : g'.locals.tail = g.locals.tail
  anon : g'.anon.tail = g.anon.tail
  package : g'.package = g.package

theorem Outer.refl (g : Glob) : Outer g g := ⟨rfl, rfl, rfl, rfl, rfl, rfl⟩

theorem Outer.trans {a b c : Glob} (h : Outer a b) (k : Outer b c) : Outer a c :=
  ⟨k.classes.trans h.classes, k.stackBrackets.trans h.stackBrackets, k.brackets.trans h.brackets, k.locals.trans h.locals,
    k.anon.trans h.anon, k.package.trans h.package⟩

/-- The result of a run over text outside anonymous classes. -/
def RunsO (inClass : Bool) (g : Glob) (c : Code) (blk : Bool) (n : Counts) : Prop :=
  ∃ st' g', Back .outer st' ∧ run .modern .outer g c.toks = some (st', g') ∧ Outer g g' ∧
    g'.outputs = g.outputs ++ (c.files g.classes.reverse blk n).1.map join ∧
    Inv inClass g' blk (c.files g.classes.reverse blk n).2

theorem RunsO.seq {inClass : Bool} {g g1 : Glob} {c r : Code} {blk : Bool} {n n1 : Counts} {out : List (List Str)} {front : List Tok}
    (hfront : ∀ rest, run .modern .outer g (front ++ rest) = run .modern .outer g1 rest) (hf : Outer g g1)
    (hout : g1.outputs = g.outputs ++ out.map join) (htoks : c.toks = front ++ r.toks)
    (hfiles : c.files g.classes.reverse blk n = (out ++ (r.files g.classes.reverse blk n1).1, (r.files g.classes.reverse blk n1).2))
    (hr : RunsO inClass g1 r blk n1) : RunsO inClass g c blk n := by
  obtain ⟨st', g', h1, h2, h3, h4, h5⟩ := hr
  rw [hf.classes] at h4 h5
  refine ⟨st', g', h1, ?_, hf.trans h3, ?_, ?_⟩
  · rw [htoks, hfront, h2]
  · rw [hfiles, h4, hout]; simp
  · rw [hfiles]; exact h5

theorem step_plain_outer (g : Glob) {t : Tok} (ht : plain t = true) : step .modern .outer g t = some (.outer, g) := by
  cases t <;> simp [plain] at ht <;> rfl

theorem run_plain_outer (g : Glob) (h : List Tok) (hh : h.all plain = true) (rest : List Tok) :
    run .modern .outer g (h ++ rest) = run .modern .outer g rest := by
  induction h with
  | nil => rfl
  | cons t h ih =>
    simp only [List.all_cons, Bool.and_eq_true] at hh
    rw [List.cons_append, run_cons (step_plain_outer g hh.1), ih hh.2]

theorem run_nls (g : Glob) (n : Nat) (rest : List Tok) :
    run .modern .cls g (List.replicate n .nl ++ rest) = run .modern .cls g rest := by
  induction n with
  | zero => rfl
  | succ n ih =>
    rw [List.replicate_succ, List.cons_append, run_cons (s' := .cls) (g' := g) (by simp [step]), ih]

theorem encl_nil (g : Glob) : encl g [] = g.classes.reverse := by simp [encl]

/-- A class closes. -/
theorem close_class {g : Glob} {b : Int} {bs : List Int} {c : Str} {cs : List Str} {l : List (Str × Nat)} {ls : List (List (Str × Nat))}
    {a : List Nat} {as : List (List Nat)} (h1 : g.stackBrackets = b :: bs) (h2 : g.brackets = b + 1) (h3 : g.classes = c :: cs)
    (h4 : g.locals = l :: ls) (h5 : g.anon = a :: as) :
    g.close .modern = some { g with brackets := b, outputs := g.outputs ++ [joinName g.classes], locals := ls, classes := cs, anon := as, stackBrackets := bs } := by
  unfold Glob.close
  have e : g.brackets - 1 = b := by omega
  simp only [h1, e, if_true, h3, h4, h5]
  simp only [Option.bind_some]
  cases hs : g.stackAnonBrackets with
  | nil => simp
  | cons x xs => simp

/-- A block closes. -/
theorem close_block {g : Glob} (h : ∀ b bs, g.stackBrackets = b :: bs → g.brackets - 1 ≠ b) :
    g.close .modern = some { g with brackets := g.brackets - 1 } := by
  unfold Glob.close
  cases hb : g.stackBrackets with
  | nil =>
    simp only [hb]
    simp only [Option.bind_some]
    cases hs : g.stackAnonBrackets with
    | nil => simp
    | cons x xs => simp
  | cons b bs =>
    have := h b bs hb
    simp only [hb, this, if_false]
    simp only [Option.bind_some]
    cases hs : g.stackAnonBrackets with
    | nil => simp
    | cons x xs => simp

theorem outer_of_frame {g g' : Glob} (h : Frame g g') (ha : g'.anon.tail = g.anon.tail) : Outer g g' :=
  ⟨h.classes, h.stackBrackets, h.brackets, by rw [h.locals], ha, h.package⟩

/-- No local classes are counted without named classes. -/
theorem files_loc : ∀ (c : Code), c.noCls = true → ∀ (e : List Str) (blk : Bool) (n : Counts), (c.files e blk n).2.loc = n.loc := by
  intro c
  induction c with
  | nil => intro _ e blk n; rfl
  | tok t r ih => intro h e blk n; exact ih h e blk n
  | attr t r ih => intro h e blk n; exact ih h e blk n
  | skipped k ts r ih => intro h e blk n; exact ih h e blk n
  | arr t r ih => intro h e blk n; exact ih h e blk n
  | par c r ihc ihr => intro h e blk n; simp only [Code.noCls, Bool.and_eq_true] at h; simp only [Code.files]; rw [ihr h.2, ihc h.1]
  | block c r ihc ihr => intro h e blk n; simp only [Code.noCls, Bool.and_eq_true] at h; simp only [Code.files]; rw [ihr h.2, ihc h.1]
  | cls _ _ _ _ _ _ _ _ => intro h; cases h
  | obj t g1 a g2 r iha ihr => intro h e blk n; simp only [Code.noCls, Bool.and_eq_true] at h; simp only [Code.files]; rw [ihr h.2, iha h.1]
  | anon t g1 a g2 c r iha ihc ihr => intro h e blk n; simp only [Code.noCls, Bool.and_eq_true] at h; simp only [Code.files]; rw [ihr h.2, iha h.1.1]

/-- The text of a class, or of a file. -/
theorem outer_run (c : Code) : ∀ (inClass : Bool), c.ok inClass = true → ∀ (g : Glob) (blk : Bool) (n : Counts),
    Inv inClass g blk n → RunsO inClass g c blk n := by
  induction c with
  | nil =>
    intro ic _ g blk n hI
    exact ⟨.outer, g, Or.inl rfl, rfl, Outer.refl g, by simp [Code.files], hI⟩
  | tok t r ih =>
    intro ic hok g blk n hI
    simp only [Code.ok, Bool.and_eq_true] at hok
    exact RunsO.seq (front := [t]) (out := []) (n1 := n) (r := r) (fun rest => run_cons (step_plain_outer g hok.1) rest) (Outer.refl g) (by simp) rfl rfl
      (ih ic hok.2 g blk n hI)
  | attr t r ih =>
    intro ic hok g blk n hI
    simp only [Code.ok, Bool.and_eq_true] at hok
    refine RunsO.seq (front := [.dot, t]) (out := []) (n1 := n) (r := r) (fun rest => ?_) (Outer.refl g) (by simp) rfl rfl (ih ic hok.2 g blk n hI)
    simp [run, step, Tok.ignoreUntil]
  | skipped kd ts r ih =>
    intro ic hok g blk n hI
    simp only [Code.ok, Bool.and_eq_true, decide_eq_true_eq] at hok
    refine RunsO.seq (front := kd.opens :: (ts ++ [kd.closes])) (out := []) (n1 := n) (r := r) (fun rest => ?_) (Outer.refl g) (by simp)
      (by simp [Code.toks]) rfl (ih ic hok.2 g blk n hI)
    rw [List.cons_append, run_cons (step_open kd g).1]
    simpa using run_ignore .modern kd.closes .outer g ts rest hok.1
  | par c r ihc ihr =>
    intro ic hok g blk n hI
    simp only [Code.ok, Bool.and_eq_true] at hok
    obtain ⟨st2, g2, hb, hr2, hf2, ho2, hI2⟩ := ihc ic hok.1 g blk n hI
    refine RunsO.seq (front := .lp :: (c.toks ++ [.rp])) (out := (c.files g.classes.reverse blk n).1) (g1 := g2)
      (n1 := (c.files g.classes.reverse blk n).2) (r := r) (fun rest => ?_) hf2 ho2 (by simp [Code.toks]) rfl (ihr ic hok.2 g2 blk _ hI2)
    rw [List.cons_append, run_cons (s' := .outer) (g' := g) rfl, List.append_assoc, run_append, hr2]
    simp only [Option.bind_some, List.singleton_append]
    exact run_cons ((hb.close g2 .rp (Or.inl rfl)).trans rfl) rest
  | block c r ihc ihr =>
    intro ic hok g blk n hI
    simp only [Code.ok, Bool.and_eq_true] at hok
    have hI' : Inv ic { g with brackets := g.brackets + 1 } true n := by
      cases ic with
      | false => exact hI
      | true =>
        obtain ⟨i1, i2, ⟨b, bs, i3, i4, _⟩, i5⟩ := hI
        refine ⟨i1, i2, ⟨b, bs, i3, ?_, ?_⟩, i5⟩
        · show b + 1 ≤ g.brackets + 1; omega
        · simp only [true_iff]; show b + 1 < g.brackets + 1; omega
    obtain ⟨st2, g2, hb, hr2, hf2, ho2, hI2⟩ := ihc ic hok.1 _ true n hI'
    have hbr : g2.brackets = g.brackets + 1 := hf2.brackets
    have hcl : g2.close .modern = some { g2 with brackets := g.brackets } := by
      rw [close_block]
      · have : g2.brackets - 1 = g.brackets := by omega
        rw [this]
      · intro b bs e
        cases ic with
        | false => rw [hI2.2.2] at e; cases e
        | true =>
          obtain ⟨_, _, ⟨b', bs', i3, i4, _⟩, _⟩ := hI
          have : g2.stackBrackets = g.stackBrackets := hf2.stackBrackets
          rw [this, i3] at e
          cases e
          omega
    have hI3 : Inv ic { g2 with brackets := g.brackets } blk (c.files g.classes.reverse true n).2 := by
      cases ic with
      | false => exact hI2
      | true =>
        obtain ⟨i1, i2, _, i5⟩ := hI2
        obtain ⟨_, _, ⟨b, bs, j3, j4, j5⟩, _⟩ := hI
        exact ⟨i1, i2, ⟨b, bs, hf2.stackBrackets.trans j3, j4, j5⟩, i5⟩
    refine RunsO.seq (front := .lb :: (c.toks ++ [.rb])) (out := (c.files g.classes.reverse true n).1) (g1 := { g2 with brackets := g.brackets })
      (n1 := (c.files g.classes.reverse true n).2) (r := r) (fun rest => ?_)
      ⟨hf2.classes, hf2.stackBrackets, rfl, hf2.locals, hf2.anon, hf2.package⟩ ho2 (by simp [Code.toks]) rfl (ihr ic hok.2 _ blk _ hI3)
    rw [List.cons_append, run_cons (s' := .outer) (g' := { g with brackets := g.brackets + 1 }) rfl, List.append_assoc, run_append, hr2]
    simp only [Option.bind_some, List.singleton_append]
    refine run_cons ((hb.close g2 .rb (Or.inr rfl)).trans ?_) rest
    simp [step, Tok.ignoreUntil, hcl]
  | cls kw nls name h c r ihc ihr =>
    intro ic hok g blk n hI
    simp only [Code.ok, Bool.and_eq_true] at hok
    obtain ⟨⟨⟨k1, k2⟩, k3⟩, k4⟩ := hok
    -- the keyword
    obtain ⟨ga, hga⟩ : ∃ ga : Glob, ga = { g with nextAnon := if g.classes = [] then 1 else g.nextAnon, stackBrackets := g.brackets :: g.stackBrackets } := ⟨_, rfl⟩
    have hkw : step .modern .outer g kw = some (.cls, ga) := by
      subst hga
      cases kw <;> simp [isKw] at k1 <;> rfl
    -- the name
    have hname : ∃ (full : Str) (ls' : List (List (Str × Nat))) (n' : Counts),
        ga.named name = some { ga with locals := [] :: ls', classes := full :: g.classes, anon := [0] :: g.anon } ∧
        ls'.tail = g.locals.tail ∧ (∀ h c r, (Code.cls kw nls name h c r).files g.classes.reverse blk n =
          ((c.files (g.classes.reverse ++ [full]) false Counts.zero).1 ++ (g.classes.reverse ++ [full]) :: (r.files g.classes.reverse blk n').1,
            (r.files g.classes.reverse blk n').2)) ∧
        (∀ g', g'.classes = g.classes → g'.stackBrackets = g.stackBrackets → g'.brackets = g.brackets → g'.locals = ls' → g'.anon = g.anon →
          Inv ic g' blk n') := by
      cases ic with
      | false =>
        obtain ⟨i1, i2, i3⟩ := hI
        refine ⟨name, [], n, ?_, ?_, ?_, ?_⟩
        · subst hga; unfold Glob.named; simp [i2]
        · rw [i2]
        · intro h c r; simp [Code.files, i1]
        · intro g' e1 e2 e3 e4 e5
          exact ⟨e1.trans i1, e4, e2.trans i3⟩
      | true =>
        obtain ⟨i1, ⟨d, ls, i2, i2'⟩, ⟨b, bs, i3, i4, i5⟩, ⟨S, i6⟩⟩ := hI
        cases blk with
        | false =>
          have hnb : ¬ b + 1 < g.brackets := fun hlt => by have := i5.2 hlt; cases this
          refine ⟨name, d :: ls, n, ?_, ?_, ?_, ?_⟩
          · subst hga
            unfold Glob.named
            simp [i2, i3, hnb]
          · rw [i2]
          · intro h c r; simp [Code.files]
          · intro g' e1 e2 e3 e4 e5
            exact ⟨by rw [e1]; exact i1, ⟨d, ls, e4, i2'⟩, ⟨b, bs, e2.trans i3, by rw [e3]; exact i4, by rw [e3]; exact i5⟩, ⟨S, e5.trans i6⟩⟩
        | true =>
          have hlt : b + 1 < g.brackets := i5.1 rfl
          refine ⟨num (n.loc name + 1) ++ name, ((name, n.loc name + 1) :: d) :: ls,
            { n with loc := fun x => if x = name then n.loc name + 1 else n.loc x }, ?_, ?_, ?_, ?_⟩
          · subst hga
            unfold Glob.named
            simp [i2, i3, hlt, i2']
          · rw [i2]; rfl
          · intro h c r
            have hne : g.classes.reverse ≠ [] := by simpa using i1
            simp [Code.files, i1]
          · intro g' e1 e2 e3 e4 e5
            refine ⟨by rw [e1]; exact i1, ⟨_, ls, e4, ?_⟩, ⟨b, bs, e2.trans i3, by rw [e3]; exact i4, by rw [e3]; exact i5⟩, ⟨S, e5.trans i6⟩⟩
            intro x
            by_cases hx : x = name
            · subst hx; simp [count]
            · have hx' : (x == name) = false := by simpa using hx
              simp only [count, List.lookup, hx', hx, if_false]
              exact i2' x
    obtain ⟨full, ls', n', hn1, hn2, hn3, hn4⟩ := hname
    obtain ⟨gb, hgb⟩ : ∃ gb : Glob, gb = { ga with locals := [] :: ls', classes := full :: g.classes, anon := [0] :: g.anon, brackets := ga.brackets + 1 } := ⟨_, rfl⟩
    have hIb : Inv true gb false Counts.zero := by
      subst hgb
      subst hga
      refine ⟨by simp, ⟨[], ls', rfl, fun x => rfl⟩, ⟨g.brackets, g.stackBrackets, rfl, ?_, ?_⟩, ⟨g.anon, rfl⟩⟩
      · exact Int.le_refl _
      · constructor
        · intro h; cases h
        · intro h; exact absurd h (Int.lt_irrefl _)
    obtain ⟨st2, g2, hb2, hr2, hf2, ho2, hI2⟩ := ihc true k3 gb false Counts.zero hIb
    have c1 : g2.classes = full :: g.classes := by rw [hf2.classes, hgb]
    have c2 : g2.stackBrackets = g.brackets :: g.stackBrackets := by rw [hf2.stackBrackets, hgb, hga]
    have c3 : g2.brackets = g.brackets + 1 := by rw [hf2.brackets, hgb, hga]
    obtain ⟨_, ⟨d2, ls2, c4, _⟩, _, ⟨S2, c5⟩⟩ := hI2
    have c4' : ls2 = ls' := by
      have := hf2.locals
      rw [c4, hgb] at this
      exact this
    have c5' : S2 = g.anon := by
      have := hf2.anon
      rw [c5, hgb] at this
      exact this
    subst c4'
    subst c5'
    have hcl := close_class c2 c3 c1 c4 c5
    obtain ⟨g3, hg3⟩ : ∃ g3 : Glob, g3 = { g2 with brackets := g.brackets, outputs := g2.outputs ++ [joinName g2.classes], locals := ls2, classes := g.classes, anon := g.anon, stackBrackets := g.stackBrackets } := ⟨_, rfl⟩
    have hI3 : Inv ic g3 blk n' := by
      subst hg3
      exact hn4 _ rfl rfl rfl rfl rfl
    refine RunsO.seq (front := kw :: (List.replicate nls .nl ++ .word name :: (h ++ .lb :: (c.toks ++ [.rb])))) (g1 := g3)
      (out := (c.files (g.classes.reverse ++ [full]) false Counts.zero).1 ++ [g.classes.reverse ++ [full]]) (n1 := n') (r := r)
      (fun rest => ?_) ?_ ?_ (by simp [Code.toks]) ?_ (ihr ic k4 g3 blk n' hI3)
    · rw [List.cons_append, run_cons hkw]
      simp only [List.append_assoc, List.cons_append]
      rw [run_nls]
      have hs : step .modern .cls ga (.word name) = some (.outer, { ga with locals := [] :: ls2, classes := full :: g.classes, anon := [0] :: g.anon }) := by
        simp [step, Tok.text, hn1]
      rw [run_cons hs, run_plain_outer _ _ k2]
      have hl : step .modern .outer { ga with locals := [] :: ls2, classes := full :: g.classes, anon := [0] :: g.anon } .lb = some (.outer, gb) := by
        subst hgb; rfl
      rw [run_cons hl, run_append, hr2]
      simp only [Option.bind_some, List.nil_append]
      refine run_cons ((hb2.close g2 .rb (Or.inr rfl)).trans ?_) rest
      subst hg3
      simp [step, Tok.ignoreUntil, hcl]
    · subst hg3
      refine ⟨rfl, rfl, rfl, hn2, rfl, ?_⟩
      show g2.package = g.package
      rw [hf2.package, hgb, hga]
    · subst hg3
      show g2.outputs ++ [joinName g2.classes] = _
      rw [ho2, c1]
      have e1 : gb.outputs = g.outputs := by rw [hgb, hga]
      have e2 : gb.classes.reverse = g.classes.reverse ++ [full] := by rw [hgb]; simp
      rw [e1, e2]
      simp [joinName, join]
    · rw [hn3]
      simp
  | obj t g1 args g2 r iha ihr =>
    intro ic hok g blk n hI
    simp only [Code.ok, Bool.and_eq_true] at hok
    obtain ⟨⟨⟨⟨⟨⟨k0, k1⟩, k2⟩, k3⟩, k4⟩, k5⟩, k6⟩ := hok
    subst k0
    obtain ⟨i1, i2, i3, ⟨S, i4⟩⟩ := hI
    obtain ⟨ga, hra, hfa, hoa⟩ := run_args (ctx_run args k3 k4 (.anon 1 .outer) g [] n.anon S (Or.inr ⟨1, .outer, rfl, by omega⟩) i4) t g1 g2 k1 k2
    obtain ⟨o1, o2⟩ := hoa blk n.loc
    rw [encl_nil] at o1 o2
    have hnew : step .modern .outer g .new = some (.skip (.anon 0 .outer), g) := by simp [step, Tok.ignoreUntil, i1]
    have hI1 : Inv true ga blk (args.files g.classes.reverse blk n).2 := by
      obtain ⟨d, ls, j1, j2⟩ := i2
      obtain ⟨b, bs, j3, j4, j5⟩ := i3
      refine ⟨by rw [hfa.classes]; exact i1, ⟨d, ls, hfa.locals.trans j1, ?_⟩, ⟨b, bs, hfa.stackBrackets.trans j3, by rw [hfa.brackets]; exact j4, by rw [hfa.brackets]; exact j5⟩, ⟨S, o2⟩⟩
      intro x; rw [files_loc args k4]; exact j2 x
    obtain ⟨st', g', w1, w2, w3, w4, w5⟩ := ihr true k6 ga blk _ hI1
    rw [hfa.classes] at w4 w5
    have hoA : Outer g ga := outer_of_frame hfa (by rw [o2, i4]; rfl)
    by_cases hne : r.toks = []
    · rw [hne] at w2
      simp only [run, Option.some.injEq, Prod.mk.injEq] at w2
      obtain ⟨_, w2⟩ := w2
      subst w2
      refine ⟨.anon 0 .outer, ga, Or.inr rfl, ?_, hoA, ?_, ?_⟩
      · simp only [Code.toks, hne]
        rw [run_cons hnew, hra]
        rfl
      · simp only [Code.files, List.map_append]
        rw [← List.append_assoc, ← o1]
        exact w4
      · exact w5
    · refine ⟨st', g', w1, ?_, hoA.trans w3, ?_, w5⟩
      · simp only [Code.toks]
        rw [run_cons hnew, hra, run_ends _ _ _ k5 hne, w2]
      · simp only [Code.files, List.map_append]
        rw [← List.append_assoc, ← o1]
        exact w4
  | anon t g1 args g2 body r iha ihc ihr =>
    intro ic hok g blk n hI
    simp only [Code.ok, Bool.and_eq_true] at hok
    obtain ⟨⟨⟨⟨⟨⟨⟨k0, k1⟩, k2⟩, k3⟩, k4⟩, k5⟩, k6⟩, k7⟩ := hok
    subst k0
    obtain ⟨i1, i2, i3, ⟨S, i4⟩⟩ := hI
    obtain ⟨ga, hra, hfa, hoa⟩ := run_args (ctx_run args k3 k4 (.anon 1 .outer) g [] n.anon S (Or.inr ⟨1, .outer, rfl, by omega⟩) i4) t g1 g2 k1 k2
    obtain ⟨o1, o2⟩ := hoa blk n.loc
    rw [encl_nil] at o1 o2
    have hnew : step .modern .outer g .new = some (.skip (.anon 0 .outer), g) := by simp [step, Tok.ignoreUntil, i1]
    obtain ⟨gb, hrb, hfb, hab, hob⟩ := run_body (body := body) (st := .outer) o2
      (fun g' _ hg' => ctx_run body k5 k6 (.scope 1 .outer) g' _ 0 S (Or.inl ⟨1, .outer, rfl, by omega⟩) hg')
    rw [encl_nil, hfa.classes] at hob
    have hfab := hfa.trans hfb
    have hI1 : Inv true gb blk { (args.files g.classes.reverse blk n).2 with anon := (args.files g.classes.reverse blk n).2.anon + 1 } := by
      obtain ⟨d, ls, j1, j2⟩ := i2
      obtain ⟨b, bs, j3, j4, j5⟩ := i3
      refine ⟨by rw [hfab.classes]; exact i1, ⟨d, ls, hfab.locals.trans j1, ?_⟩, ⟨b, bs, hfab.stackBrackets.trans j3, by rw [hfab.brackets]; exact j4, by rw [hfab.brackets]; exact j5⟩, ⟨S, hab⟩⟩
      intro x; show _ = (args.files g.classes.reverse blk n).2.loc x; rw [files_loc args k4]; exact j2 x
    refine RunsO.seq (front := .new :: .word t :: (g1.flatMap Gap.toks ++ .lp :: (args.toks ++ .rp :: (g2.flatMap Gap.toks ++ .lb :: (body.toks ++ [.rb])))))
      (g1 := gb) (r := r) (n1 := { (args.files g.classes.reverse blk n).2 with anon := (args.files g.classes.reverse blk n).2.anon + 1 })
      (out := (args.files g.classes.reverse blk n).1 ++ (g.classes.reverse ++ [num ((args.files g.classes.reverse blk n).2.anon + 1)]) ::
        (body.files (g.classes.reverse ++ [num ((args.files g.classes.reverse blk n).2.anon + 1)]) false Counts.zero).1)
      (fun rest => ?_) (outer_of_frame hfab (by rw [hab, i4]; rfl)) ?_ (by simp [Code.toks]) ?_ (ihr true k7 gb blk _ hI1)
    · have := hra (.lb :: (body.toks ++ .rb :: rest))
      rw [hrb] at this
      rw [List.cons_append, run_cons hnew]
      simpa using this
    · rw [hob, o1]
      simp
    · simp [Code.files]
  | arr t r ih =>
    intro ic hok g blk n hI
    simp only [Code.ok, Bool.and_eq_true] at hok
    obtain ⟨⟨k0, k1⟩, k2⟩ := hok
    subst k0
    have hnew : step .modern .outer g .new = some (.skip (.anon 0 .outer), g) := by simp [step, Tok.ignoreUntil, hI.1]
    obtain ⟨st', g', w1, w2, w3, w4, w5⟩ := ih true k2 g blk n hI
    have hs : step .modern (.skip (.anon 0 .outer)) g (.word t) = some (.anon 0 .outer, g) := by simp [step]
    by_cases hne : r.toks = []
    · rw [hne] at w2
      simp only [run, Option.some.injEq, Prod.mk.injEq] at w2
      obtain ⟨_, rfl⟩ := w2
      refine ⟨.anon 0 .outer, g, Or.inr rfl, ?_, w3, w4, w5⟩
      simp only [Code.toks, hne]
      rw [run_cons hnew, run_cons hs]
      rfl
    · refine ⟨st', g', w1, ?_, w3, w4, w5⟩
      simp only [Code.toks]
      rw [run_cons hnew, run_cons hs, run_ends _ _ _ k1 hne, w2]

/-- Outside classes nothing is waited for. -/
theorem run_top : ∀ (c : Code), c.ok false = true → c.noCls = true → ∀ (g : Glob), Inv false g false Counts.zero →
    ∃ g', Inv false g' false Counts.zero ∧ run .modern .outer g c.toks = some (.outer, g') ∧ g'.brackets = g.brackets := by
  intro c
  induction c with
  | nil => intro _ _ g hI; exact ⟨g, hI, rfl, rfl⟩
  | tok t r ih =>
    intro hk hn g hI
    simp only [Code.ok, Bool.and_eq_true] at hk
    obtain ⟨g', a1, a2, a3⟩ := ih hk.2 hn g hI
    exact ⟨g', a1, by simp only [Code.toks]; rw [run_cons (step_plain_outer g hk.1), a2], a3⟩
  | attr t r ih =>
    intro hk hn g hI
    simp only [Code.ok, Bool.and_eq_true] at hk
    obtain ⟨g', a1, a2, a3⟩ := ih hk.2 hn g hI
    exact ⟨g', a1, by simp only [Code.toks]; simpa [run, step, Tok.ignoreUntil] using a2, a3⟩
  | skipped kd ts r ih =>
    intro hk hn g hI
    simp only [Code.ok, Bool.and_eq_true, decide_eq_true_eq] at hk
    obtain ⟨g', a1, a2, a3⟩ := ih hk.2 hn g hI
    refine ⟨g', a1, ?_, a3⟩
    simp only [Code.toks]
    rw [run_cons (step_open kd g).1, run_ignore _ _ _ _ _ _ hk.1, a2]
  | par c r ihc ihr =>
    intro hk hn g hI
    simp only [Code.ok, Code.noCls, Bool.and_eq_true] at hk hn
    obtain ⟨g', a1, a2, a3⟩ := ihc hk.1 hn.1 g hI
    obtain ⟨g'', b1, b2, b3⟩ := ihr hk.2 hn.2 g' a1
    refine ⟨g'', b1, ?_, b3.trans a3⟩
    simp only [Code.toks]
    rw [run_cons (s' := .outer) (g' := g) rfl, run_append, a2]
    simp only [Option.bind_some]
    rw [run_cons (s' := .outer) (g' := g') rfl, b2]
  | block c r ihc ihr =>
    intro hk hn g hI
    simp only [Code.ok, Code.noCls, Bool.and_eq_true] at hk hn
    obtain ⟨g', a1, a2, a3⟩ := ihc hk.1 hn.1 { g with brackets := g.brackets + 1 } hI
    obtain ⟨g'', b1, b2, b3⟩ := ihr hk.2 hn.2 { g' with brackets := g'.brackets - 1 } a1
    refine ⟨g'', b1, ?_, ?_⟩
    · simp only [Code.toks]
      rw [run_cons (s' := .outer) (g' := { g with brackets := g.brackets + 1 }) rfl, run_append, a2]
      simp only [Option.bind_some]
      have hcl : g'.close .modern = some { g' with brackets := g'.brackets - 1 } :=
        close_block (fun b bs e => by rw [a1.2.2] at e; cases e)
      rw [run_cons (s' := .outer) (g' := { g' with brackets := g'.brackets - 1 }) (by simp [step, Tok.ignoreUntil, hcl]), b2]
    · rw [b3]; show g'.brackets - 1 = g.brackets; rw [a3]; show g.brackets + 1 - 1 = g.brackets; omega
  | cls _ _ _ _ _ _ _ _ => intro _ hn; cases hn
  | obj t g1 a g2 r _ _ => intro hk; simp [Code.ok] at hk
  | anon t g1 a g2 c r _ _ _ => intro hk; simp [Code.ok] at hk
  | arr t r _ => intro hk; simp [Code.ok] at hk

/-- No classes: nothing is found. -/
theorem files_none (c : Code) (e : List Str) : c.noCls = true → c.ok false = true → ∀ blk n, (c.files e blk n).1 = [] := by
  induction c with
  | nil => intro _ _ _ _; rfl
  | tok t r ih => intro h hk; simp only [Code.ok, Bool.and_eq_true] at hk; exact ih h hk.2
  | attr t r ih => intro h hk; simp only [Code.ok, Bool.and_eq_true] at hk; exact ih h hk.2
  | skipped k ts r ih => intro h hk; simp only [Code.ok, Bool.and_eq_true] at hk; exact ih h hk.2
  | par c r ihc ihr =>
    intro h hk blk n
    simp only [Code.ok, Code.noCls, Bool.and_eq_true] at hk h
    simp [Code.files, ihc h.1 hk.1, ihr h.2 hk.2]
  | block c r ihc ihr =>
    intro h hk blk n
    simp only [Code.ok, Code.noCls, Bool.and_eq_true] at hk h
    simp [Code.files, ihc h.1 hk.1, ihr h.2 hk.2]
  | cls _ _ _ _ _ _ _ _ => intro h; cases h
  | obj t g1 a g2 r _ _ => intro _ hk; simp [Code.ok] at hk
  | anon t g1 a g2 c r _ _ _ => intro _ hk; simp [Code.ok] at hk
  | arr t r _ => intro _ hk; simp [Code.ok] at hk

/-- **C91** (part). For a version of Java from 1.8 on: if the tokens of a file are those of a
source text `f` (comments, a package declaration, classes), then the names of class files
found are those of the classes of the text, each once, and the directory is that of the
package. Missing: named classes inside anonymous ones and in the arguments of `new`, records,
bodies of enumeration constants, constructor references and other forms of `new`; there the
code finds something else (counterexamples). -/
theorem C91_class_files_partial (f : Source) (hpre : f.pre.ok false = true) (hpre' : f.pre.noCls = true)
    (hmain : f.main.ok false = true) (hp : f.package ≠ some []) (text : Str) (ht : tokenize text = f.toks) :
    parseJava .modern text = some (f.dir, f.files) := by
  have hI0 : Inv false Glob.init false Counts.zero := ⟨rfl, rfl, rfl⟩
  obtain ⟨st1, g1, hb1, hr1, hf1, ho1, hI1⟩ := outer_run f.pre false hpre Glob.init false Counts.zero hI0
  rw [files_none f.pre _ hpre' hpre] at ho1
  unfold parseJava
  rw [ht]
  unfold Source.toks
  rw [run_append, hr1]
  simp only [Option.bind_some]
  have hout1 : g1.outputs = [] := by rw [ho1]; rfl
  have hpk1 : g1.package = none := by rw [hf1.package]; rfl
  have hcl1 : g1.classes = [] := by rw [hf1.classes]; rfl
  cases hpk : f.package with
  | none =>
    have hgo : ∃ g3, (∃ st3, run .modern st1 g1 f.main.toks = some (st3, g3)) ∧ g3.package = none ∧
        g3.outputs = (f.main.files [] false Counts.zero).1.map join := by
      obtain ⟨st3, g3, hb3, hr3, hf3, ho3, _⟩ := outer_run f.main false hmain g1 false Counts.zero hI1
      refine ⟨g3, ⟨st3, ?_⟩, by rw [hf3.package, hpk1], by rw [ho3, hout1, hcl1]; rfl⟩
      have hst1 : st1 = .outer := by
        rcases hb1 with h | h
        · exact h
        · -- nothing to wait for outside classes
          exfalso
          obtain ⟨g', _, e, _⟩ := run_top f.pre hpre hpre' Glob.init hI0
          rw [hr1] at e
          simp only [Option.some.injEq, Prod.mk.injEq] at e
          rw [h] at e
          cases e.1
      rw [hst1]; exact hr3
    obtain ⟨g3, ⟨st3, e1⟩, e2, e3⟩ := hgo
    simp only [List.nil_append, e1, Option.map_some, e2]
    simp [Source.dir, hpk, Source.files, e3, join]
  | some p =>
    have hs1 : step .modern st1 g1 .package = some (.package, g1) := by
      rcases hb1 with rfl | rfl
      · rfl
      · rfl
    have hs2 : step .modern .package g1 (.word p) = some (.outer, { g1 with package := some p }) := rfl
    have hI2 : Inv false { g1 with package := some p } false Counts.zero := hI1
    obtain ⟨st3, g3, hb3, hr3, hf3, ho3, _⟩ := outer_run f.main false hmain _ false Counts.zero hI2
    simp only [List.cons_append, List.nil_append]
    rw [run_cons hs1, run_cons hs2, hr3]
    have e2 : g3.package = some p := hf3.package
    have e3 : g3.outputs = (f.main.files [] false Counts.zero).1.map join := by
      rw [ho3]; show g1.outputs ++ _ = _; rw [hout1]; show [] ++ List.map join (f.main.files g1.classes.reverse false Counts.zero).1 = _; rw [hcl1]; rfl
    have hpne : p ≠ [] := fun e => hp (by rw [hpk, e])
    simp [e2, Source.dir, hpk, Source.files, e3, hpne, join]

end Verif.Java
