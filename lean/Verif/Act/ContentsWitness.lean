import Verif.Act.ContentsProps
/-!
# C84: concrete cases, and what is not noticed
-/
namespace Verif.Sgn.CEx
open Verif.Subst Verif.Subst.Witness

/-! ### A checker for `Neat` -/

def okB (c : Char) : Bool :=
  c != '$' && c != '<' && c != '>' && c != '|' && (!isSpace c || isBlank c)

theorem okB_sound {c : Char} (h : okB c = true) : okChar c := by
  simp only [okB, Bool.and_eq_true, bne_iff_ne, Bool.or_eq_true, Bool.not_eq_true'] at h
  obtain ⟨⟨⟨⟨h1, h2⟩, h3⟩, h4⟩, h5⟩ := h
  refine ⟨h1, h2, h3, h4, fun hs => ?_⟩
  rcases h5 with h | h
  · rw [hs] at h; cases h
  · exact h

def tokB (E : Env) (sub : Vars → Val → Except Err Str) (rec : Vars → Val → Bool) (lv : Vars) (wl : Bool)
    (next : Option Tok) : Tok → Bool
  | .ws s => !wl && s.all isBlank
  | .word s => s.all okB
  | .ref b k =>
    match lookup E lv k with
    | .error _ => false
    | .ok none => true
    | .ok (some v) =>
      rec (blank lv k) v &&
      (match next with
       | none => true
       | some (.ws _) => true
       | _ =>
         match tokText E sub lv (.ref b k) with
         | .ok r => endsWord r
         | .error _ => true)
  | _ => false

def toksB (E : Env) (sub : Vars → Val → Except Err Str) (rec : Vars → Val → Bool) (lv : Vars) (wl : Bool) :
    List Tok → Bool
  | [] => true
  | t :: l => tokB E sub rec lv wl l.head? t && toksB E sub rec lv wl l

def neatB (E : Env) : Nat → Vars → Bool → Val → Bool
  | 0, _, _, _ => false
  | _ + 1, _, _, .none => true
  | n + 1, lv, wl, .str s =>
    toksB E (substV E .sig n) (fun lv v => neatB E n lv false v) lv wl (tokenize E.uw s)
  | _ + 1, _, _, .obj a b => decide (a = b) && !a.isEmpty && a.all fun c => okB c && !isBlank c
  | n + 1, lv, _, .seq l => l.all (neatB E n lv true)
  | _ + 1, _, _, .fn _ _ => false

theorem toksB_sound (E : Env) (sub) (rec : Vars → Val → Bool) (rec' : Vars → Val → Prop)
    (h : ∀ lv v, rec lv v = true → rec' lv v) (lv wl) :
    ∀ l, toksB E sub rec lv wl l = true → NeatToks E sub rec' lv wl l := by
  intro l
  induction l with
  | nil => intro _; trivial
  | cons t l ih =>
    intro hl
    simp only [toksB, Bool.and_eq_true] at hl
    refine ⟨?_, ih hl.2⟩
    have ht := hl.1
    cases t with
    | ws s =>
      simp only [tokB, Bool.and_eq_true, Bool.not_eq_true', List.all_eq_true] at ht
      exact ht
    | word s =>
      simp only [tokB, List.all_eq_true] at ht
      exact fun c hc => okB_sound (ht c hc)
    | ref b k =>
      simp only [tokB] at ht
      refine ⟨fun e he => by simp [he] at ht, fun v hv => ?_⟩
      simp only [hv, Bool.and_eq_true] at ht
      refine ⟨h _ _ ht.1, fun h1 h2 r hr => ?_⟩
      have h3 := ht.2
      split at h3
      · rename_i hn; exact absurd hn h2
      · rename_i hn; exact absurd hn (h1 _)
      · rw [hr] at h3; exact h3
    | _ => simp [tokB] at ht

theorem neatB_sound (E : Env) : ∀ n lv wl v, neatB E n lv wl v = true → Neat E n lv wl v := by
  intro n
  induction n with
  | zero => intro lv wl v h; cases h
  | succ n ih =>
    intro lv wl v h
    cases v with
    | none => trivial
    | str s => exact toksB_sound E _ _ _ (fun lv v hv => ih lv false v hv) lv wl _ h
    | obj a b =>
      simp only [neatB, Bool.and_eq_true, decide_eq_true_eq, Bool.not_eq_true', List.all_eq_true] at h
      refine ⟨h.1.1, fun ha => by simp [ha] at h, fun c hc => ⟨okB_sound (h.2 c hc).1, (h.2 c hc).2⟩⟩
    | seq l =>
      simp only [neatB, List.all_eq_true] at h
      exact fun v hv => ih lv true v (h v hv)
    | fn v w => cases h

/-! ### A compiler and its flags -/

/-- `CC = 'gcc'`, `FLAGS = ['-O2', '-I$DIR']`, `DIR = 'inc'`, `EMPTY = ''`, and the given
value of `OPT`; sources and targets are in the environment too. -/
def cenv (opt : Val) : Env := env
  [("CC".toList, .str "gcc".toList),
   ("FLAGS".toList, .seq [.str "-O2".toList, .str "-I$DIR".toList]),
   ("DIR".toList, .str "inc".toList),
   ("EMPTY".toList, .str []),
   ("OPT".toList, opt),
   ("COM".toList, .str "$CC $OPT  $FLAGS $EMPTY -o".toList),
   ("TARGET".toList, .obj "x.o".toList "x.o".toList),
   ("SOURCES".toList, .seq [.obj "a.c".toList "a.c".toList, .obj "b.c".toList "b.c".toList])]

def com : Str := "$COM $TARGET -c $SOURCES $UNDEFINED".toList

def e1 : Env := cenv (.str "-g".toList)
def e2 : Env := cenv (.str "-g -pipe".toList)

theorem com_neat1 : Neat e1 6 noLocals false (.str com) := neatB_sound _ _ _ _ _ (by decide +kernel)
theorem com_neat2 : Neat e2 6 noLocals false (.str com) := neatB_sound _ _ _ _ _ (by decide +kernel)

theorem com_text : subst e2 .sig 6 noLocals com = .ok "gcc -g -pipe -O2 -Iinc -o x.o -c a.c b.c".toList := by
  decide +kernel

theorem com_words : substList e2 .cmd 6 noLocals (.str com) =
    .ok [["gcc".toList, "-g".toList, "-pipe".toList, "-O2".toList, "-Iinc".toList, "-o".toList,
      "x.o".toList, "-c".toList, "a.c".toList, "b.c".toList]] := by decide +kernel

/-- C84 applies: the command differs, so the signed text differs. -/
example : subst e1 .sig 6 noLocals com ≠ subst e2 .sig 6 noLocals com :=
  C84_changed_command_changes_signature_partial e1 e2 6 6 noLocals noLocals com com com_neat1 com_neat2
    (by decide +kernel)

/-- An executor with a command before, a list of two actions with variables, and
code after. -/
def ex : Exec where
  pre := [.one { body := .text "echo $TARGET".toList, varlist := [], chdir := none }]
  main := [.list [{ body := .text com, varlist := ["DIR".toList], chdir := none },
                  { body := .code "\x01\x02".toList, varlist := ["CC".toList, "DIR".toList], chdir := some "d".toList }]]
  post := []

theorem ex_contents : ex.contents e1 6 noLocals =
    .ok ("echo x.o" ++ "gcc -g -O2 -Iinc -o x.o -c a.c b.c" ++ "inc" ++ "\x01\x02" ++ "gcc" ++ "inc" ++ "inc" ++ "gcc").toList := by
  decide +kernel

theorem ex_contents2 : ex.contents e2 6 noLocals =
    .ok ("echo x.o" ++ "gcc -g -pipe -O2 -Iinc -o x.o -c a.c b.c" ++ "inc" ++ "\x01\x02" ++ "gcc" ++ "inc" ++ "inc" ++ "gcc").toList := by
  decide +kernel

theorem ex_shape : SameShape ex ex := by
  refine .cons ?_ (.cons ?_ .nil)
  · exact rfl
  · exact .cons rfl (.cons rfl .nil)

def noLongerB : List (Except Err Str) → List (Except Err Str) → Bool
  | [], [] => true
  | p :: ps, q :: qs =>
    (match p, q with
     | .ok a, .ok b => decide (a.length ≤ b.length)
     | _, _ => false) && noLongerB ps qs
  | _, _ => false

theorem noLongerB_sound : ∀ ps qs, noLongerB ps qs = true → NoLonger ps qs := by
  intro ps
  induction ps with
  | nil =>
    intro qs h
    cases qs with
    | nil => exact .nil
    | cons q qs => cases h
  | cons p ps ih =>
    intro qs h
    cases qs with
    | nil => cases h
    | cons q qs =>
      simp only [noLongerB, Bool.and_eq_true] at h
      refine .cons ?_ (ih qs h.2)
      rintro a b rfl rfl
      simpa using h.1

/-- All hypotheses of C84 hold for the two environments, and the actions differ. -/
theorem applied :
    Except.ok (ε := Err) ("echo x.o" ++ "gcc -g -O2 -Iinc -o x.o -c a.c b.c" ++ "inc" ++ "\x01\x02" ++ "gcc" ++ "inc" ++ "inc" ++ "gcc").toList ≠
    Except.ok ("echo x.o" ++ "gcc -g -pipe -O2 -Iinc -o x.o -c a.c b.c" ++ "inc" ++ "\x01\x02" ++ "gcc" ++ "inc" ++ "inc" ++ "gcc").toList := by
  have neat1 : ∀ E : Env, neatB E 6 noLocals false (.str "echo $TARGET".toList) = true →
      Neat E 6 noLocals false (.str com) →
      List.Forall₂ (NeatAction E 6 noLocals) [none, none, some "d".toList] ex.singles := by
    intro E h1 h2
    exact .cons ⟨rfl, neatB_sound _ _ _ _ _ h1⟩ (.cons ⟨rfl, h2⟩ (.cons ⟨rfl, trivial⟩ .nil))
  intro h
  injection h with h
  refine C84_changed_actions_change_contents_partial ex ex e1 e2 6 6 noLocals noLocals _ _ _ ex_shape
    (.cons trivial (.cons trivial (.cons trivial .nil)))
    (neat1 e1 (by decide +kernel) com_neat1) (neat1 e2 (by decide +kernel) com_neat2)
    (Or.inl (noLongerB_sound _ _ (by decide +kernel))) ex_contents ex_contents2 ?_ h
  intro he
  have := congrArg (fun l : List Run => l.map fun r => match r with
    | .commands _ (.ok ls) => ls
    | _ => []) he
  revert this
  decide +kernel

/-! ### What is not noticed -/

def cmds (l : List String) : Exec where
  pre := []
  main := [.list (l.map fun s => { body := .text s.toList, varlist := [], chdir := none })]
  post := []

/-- **C84, what fails (1)** Nothing separates the commands of a list: `['ab', 'c']` and
`['a', 'bc']` are signed alike. -/
theorem counterexample_command_boundary (E : Env) (n : Nat) :
    (cmds ["gen x >> y", "cat y"]).contents E n noLocals = (cmds ["gen x", " >> ycat y"]).contents E n noLocals ∧
    (cmds ["ab", "c"]).contents E n noLocals = (cmds ["a", "bc"]).contents E n noLocals ∧
    (cmds ["ab", "c"]).contents E n noLocals = .ok "abc".toList := by
  refine ⟨rfl, rfl, rfl⟩

def one (b : Body) (vl : List String := []) (d : Option Str := none) : Exec where
  pre := []
  main := [.one { body := b, varlist := vl.map String.toList, chdir := d }]
  post := []

/-- **C84, what fails (2)** A command given as a list is signed as its words joined by
blanks: `['prog', 'a b']` runs `prog` with one argument, `['prog', 'a', 'b']` with two,
and both are signed alike. -/
theorem counterexample_word_boundary :
    let w1 := ["prog".toList, "a b".toList]
    let w2 := ["prog".toList, "a".toList, "b".toList]
    (one (.words w1)).contents e1 6 noLocals = (one (.words w2)).contents e1 6 noLocals ∧
    substList e1 .cmd 6 noLocals (.seq (w1.map .str)) = .ok [w1] ∧
    substList e1 .cmd 6 noLocals (.seq (w2.map .str)) = .ok [w2] := by
  decide +kernel

/-- Two variables for the examples. -/
def ab (a b : String) : Env := env [(['A'], .str a.toList), (['B'], .str b.toList)]

/-- **C84, what fails (3)** Nothing separates the values of the variables of a
`varlist`. -/
theorem counterexample_varlist_boundary :
    (one (.code ['f']) ["A", "B"]).contents (ab "x" "yz") 6 noLocals =
    (one (.code ['f']) ["A", "B"]).contents (ab "xy" "z") 6 noLocals ∧
    (one (.code ['f']) ["A", "B"]).contents (ab "xy" "z") 6 noLocals = .ok "fxyz".toList := by
  decide +kernel

/-- **C84, what fails (4)** A value that ends in a blank: `$A$B` with `A = 'x '`, `B = 'y'`
runs `xy` but signs `x y`, like `A = 'x'`, `B = ' y'`, which runs `x` with argument `y`. -/
theorem counterexample_trailing_blank :
    subst (ab "x " "y") .sig 6 noLocals "$A$B".toList = subst (ab "x" " y") .sig 6 noLocals "$A$B".toList ∧
    substList (ab "x " "y") .cmd 6 noLocals (.str "$A$B".toList) = .ok [["xy".toList]] ∧
    substList (ab "x" " y") .cmd 6 noLocals (.str "$A$B".toList) = .ok [["x".toList, "y".toList]] := by
  decide +kernel

/-- A source file in a directory: the command gets its path, the signature its name
(`Base.for_signature`, /repo/SCons/Node/FS.py:903-907). -/
def srcIn (p : String) : Env := env [("SOURCE".toList, .obj (p ++ "/x.c").toList "x.c".toList)]

/-- **C84, what fails (5)** Only the name of a file is signed: a source moved to another
directory changes the command but not its signature. -/
theorem counterexample_other_directory :
    subst (srcIn "old") .sig 6 noLocals "cc $SOURCE".toList = subst (srcIn "new") .sig 6 noLocals "cc $SOURCE".toList ∧
    substList (srcIn "old") .cmd 6 noLocals (.str "cc $SOURCE".toList) ≠
      substList (srcIn "new") .cmd 6 noLocals (.str "cc $SOURCE".toList) := by
  decide +kernel

/-- **C84, what fails (6)** `chdir` is not signed: the same command in another directory. -/
theorem counterexample_chdir (E : Env) (n : Nat) (s : Str) :
    (one (.text s) [] (some ['d'])).contents E n noLocals = (one (.text s) [] none).contents E n noLocals := rfl

end Verif.Sgn.CEx
