import Verif.Shell.TempFile
/-!
# C86: the program gets the arguments of the command, however long
-/
namespace Verif.TempFile
open Verif.Subst

/-! ### Specification: how a program reads an argument file -/

/-- The GNU rules (libiberty, `buildargv`): arguments are separated by white space,
quotes of either kind group, a backslash takes the next character as it is. `cur`: the
argument begun, `q`: the open quote, `bs`: after a backslash. -/
def readFrom : Option Str → Option Char → Bool → Str → List Str
  | cur, _, _, [] => cur.toList
  | cur, q, true, c :: r => readFrom (some (cur.getD [] ++ [c])) q false r
  | cur, q, false, c :: r =>
    if c = '\\' then readFrom (some (cur.getD [])) q true r
    else
      match q with
      | some k =>
        if c = k then readFrom (some (cur.getD [])) none false r
        else readFrom (some (cur.getD [] ++ [c])) q false r
      | none =>
        if isAsciiSpace c then cur.toList ++ readFrom none none false r
        else if c = '"' || c = '\'' then readFrom (some (cur.getD [])) (some c) false r
        else readFrom (some (cur.getD [] ++ [c])) none false r

def readArgs (s : Str) : List Str := readFrom none none false s

/-- The arguments a program works with: an argument `@file` stands for those in the
file, if it exists. -/
def expandArgv (files : Str → Option Str) (argv : List Str) : List Str :=
  argv.flatMap fun a =>
    match a with
    | '@' :: f =>
      match files f with
      | some s => readArgs s
      | none => [a]
    | _ => [a]

/-- A character that needs no other quoting than that of blanks. -/
def plainArg (a : Str) : Prop :=
  a ≠ [] ∧ ∀ c ∈ a, c ≠ '\\' ∧ c ≠ '"' ∧ c ≠ '\'' ∧ (isAsciiSpace c = true → c = ' ' ∨ c = '\t')

/-- A word that `subst_list` leaves alone when it is an element of a list. -/
def plainWord (a : Str) : Prop := a ≠ [] ∧ ∀ c ∈ a, okChar c ∧ isBlank c = false

/-- States after any number of calls in one run, each of which found the same words for
the same target and command (`W`). -/
inductive Reach {Node : Type} [DecidableEq Node] (C : Cfg) (W : Node → Str → List Str) : St Node → Prop
  | init : Reach C W { memo := fun _ _ => none, files := fun _ => none }
  | call {S S' : St Node} (E : Env) (n : Nat) (lv : Vars) (node : Node) (cmd tmp : Str) (v : Val) (rest : List (List Str)) :
      Reach C W S → substList E .cmd n lv (.str cmd) = .ok (W node cmd :: rest) → S.files tmp = none → plainWord ('@' :: tmp) →
      call C E n lv S node cmd tmp = .ok (v, S') → Reach C W S'

/-! ### Reading what was written -/

theorem read_plain (a r : Str) (cur : Str) (h : ∀ c ∈ a, c ≠ '\\' ∧ c ≠ '"' ∧ c ≠ '\'' ∧ isAsciiSpace c = false) :
    readFrom (some cur) none false (a ++ r) = readFrom (some (cur ++ a)) none false r := by
  induction a generalizing cur with
  | nil => simp
  | cons c a ih =>
    obtain ⟨h1, h2, h3, h4⟩ := h c (by simp)
    rw [List.cons_append, readFrom, if_neg h1]
    simp only [h4, Bool.false_eq_true, if_false, h2, h3, decide_false, Bool.or_self, Option.getD_some]
    rw [ih (cur ++ [c]) fun d hd => h d (by simp [hd])]
    simp

theorem read_quoted (a r : Str) (cur : Str) (h : ∀ c ∈ a, c ≠ '\\' ∧ c ≠ '"') :
    readFrom (some cur) (some '"') false (a ++ '"' :: r) = readFrom (some (cur ++ a)) none false r := by
  induction a generalizing cur with
  | nil =>
    simp only [List.nil_append]
    rw [readFrom, if_neg (by decide)]
    simp
  | cons c a ih =>
    obtain ⟨h1, h2⟩ := h c (by simp)
    rw [List.cons_append, readFrom, if_neg h1]
    simp only [h2, if_false, Option.getD_some]
    rw [ih (cur ++ [c]) fun d hd => h d (by simp [hd])]
    simp

theorem readFrom_none (q : Option Char) (a : Str) (h : a ≠ []) (hsp : ∀ c, a.head? = some c → isAsciiSpace c = false)
    (r : Str) : readFrom none none false (a ++ r) = readFrom (some []) none false (a ++ r) := by
  cases a with
  | nil => exact absurd rfl h
  | cons c a =>
    have h' := hsp c rfl
    rw [List.cons_append, readFrom]
    conv_rhs => rw [readFrom]
    simp [h']

theorem read_arg (a r : Str) (h : plainArg a) :
    readFrom none none false (quoteSpaces a ++ r) = readFrom (some a) none false r := by
  unfold quoteSpaces
  split
  · simp only [List.cons_append, List.append_assoc, List.nil_append]
    rw [readFrom, if_neg (by decide)]
    have hq : isAsciiSpace '"' = false := by decide
    simp only [hq, Bool.false_eq_true, if_false, decide_true, Bool.true_or, if_true, Option.getD_none]
    rw [read_quoted a r [] fun c hc => ⟨(h.2 c hc).1, (h.2 c hc).2.1⟩]
    simp
  · rename_i hsp
    simp only [List.contains_eq_mem, Bool.or_eq_true, decide_eq_true_eq, not_or] at hsp
    have hno : ∀ c ∈ a, isAsciiSpace c = false := by
      intro c hc
      cases hs : isAsciiSpace c with
      | false => rfl
      | true =>
        rcases (h.2 c hc).2.2.2 hs with rfl | rfl
        · exact absurd hc hsp.1
        · exact absurd hc hsp.2
    rw [readFrom_none none a h.1 fun c hc => hno c (List.mem_of_head? hc), read_plain a r [] fun c hc =>
      ⟨(h.2 c hc).1, (h.2 c hc).2.1, (h.2 c hc).2.2.1, hno c hc⟩]
    simp

theorem read_spaces (j r : Str) (cur : Option Str) (hj : ∀ c ∈ j, isAsciiSpace c = true) (hne : j ≠ []) :
    readFrom cur none false (j ++ r) = cur.toList ++ readFrom none none false r := by
  have hbs : ∀ c, isAsciiSpace c = true → c ≠ '\\' := by rintro c h rfl; revert h; decide
  induction j generalizing cur with
  | nil => exact absurd rfl hne
  | cons c j ih =>
    rw [List.cons_append, readFrom, if_neg (hbs c (hj c (by simp)))]
    simp only [hj c (by simp), if_true]
    cases j with
    | nil => rfl
    | cons c' j =>
      rw [ih none (fun d hd => hj d (by simp [hd])) (by simp)]
      simp

/-- What is written to the file is read back, argument by argument. -/
theorem read_fileText (j : Str) (args : List Str) (hj : j ≠ []) (hjs : ∀ c ∈ j, isAsciiSpace c = true)
    (h : ∀ a ∈ args, plainArg a) : readArgs (fileText j args) = args := by
  have hnl : ∀ cur : Option Str, readFrom cur none false ['\n'] = cur.toList := by
    intro cur
    have := read_spaces ['\n'] [] cur (by intro c hc; simp at hc; subst hc; decide) (by simp)
    simpa [readFrom] using this
  unfold readArgs fileText
  induction args with
  | nil => simpa [joinWith] using hnl none
  | cons a l ih =>
    cases l with
    | nil =>
      simp only [List.map_cons, List.map_nil, joinWith]
      rw [read_arg a _ (h a (by simp)), hnl]
      rfl
    | cons b l =>
      have e : joinWith j (List.map quoteSpaces (a :: b :: l)) ++ ['\n'] =
          quoteSpaces a ++ (j ++ (joinWith j (List.map quoteSpaces (b :: l)) ++ ['\n'])) := by
        simp [joinWith]
      rw [e, read_arg a _ (h a (by simp)), read_spaces j _ _ hjs hj, ih fun x hx => h x (by simp [hx])]
      rfl

/-! ### Histories of calls -/

structure Inv {Node : Type} (C : Cfg) (W : Node → Str → List Str) (S : St Node) : Prop where
  memo : ∀ x c l, S.memo x c = some l → ∃ prog args tmp, W x c = prog :: args ∧ l = [prog, '@' :: tmp] ∧
    plainWord ('@' :: tmp) ∧ S.files tmp = some (fileText C.join args)

variable {Node : Type} [DecidableEq Node]

/-- What a call does. -/
theorem call_cases {C : Cfg} {E : Env} {n : Nat} {lv : Vars} {S S' : St Node} {node : Node} {cmd tmp : Str} {v : Val}
    {words : List Str} {rest} (hw : substList E .cmd n lv (.str cmd) = .ok (words :: rest))
    (h : call C E n lv S node cmd tmp = .ok (v, S')) :
    (lineLength words ≤ C.maxline ∧ v = .str cmd ∧ S' = S) ∨
    (C.maxline < lineLength words ∧ ∃ l, S.memo node cmd = some l ∧ v = .seq (l.map .str) ∧ S' = S) ∨
    (C.maxline < lineLength words ∧ S.memo node cmd = none ∧ ∃ prog args, words = prog :: args ∧
      v = .seq ([prog, '@' :: tmp].map .str) ∧
      S' = { memo := fun x c => if x = node ∧ c = cmd then some [prog, '@' :: tmp] else S.memo x c,
             files := fun f => if f = tmp then some (fileText C.join args) else S.files f }) := by
  unfold call at h
  rw [hw] at h
  dsimp only at h
  split at h
  · rename_i hle
    cases h
    exact Or.inl ⟨hle, rfl, rfl⟩
  · rename_i hle
    right
    split at h
    · rename_i l hl
      cases h
      exact Or.inl ⟨by omega, l, hl, rfl, rfl⟩
    · rename_i hl
      split at h
      · cases h
      · rename_i prog args
        cases h
        exact Or.inr ⟨by omega, hl, prog, args, rfl, rfl, rfl⟩

theorem Inv.call {C : Cfg} {W} {E : Env} {n : Nat} {lv : Vars} {S S' : St Node} {node : Node} {cmd tmp : Str} {v : Val} {rest}
    (hI : Inv C W S) (hw : substList E .cmd n lv (.str cmd) = .ok (W node cmd :: rest)) (hf : S.files tmp = none)
    (ht : plainWord ('@' :: tmp)) (h : TempFile.call C E n lv S node cmd tmp = .ok (v, S')) : Inv C W S' := by
  rcases call_cases hw h with ⟨_, _, rfl⟩ | ⟨_, _, _, _, rfl⟩ | ⟨_, _, prog, args, h1, _, rfl⟩
  · exact hI
  · exact hI
  · constructor
    intro x c l hl
    dsimp only at hl ⊢
    split at hl
    · rename_i hx
      cases hl
      refine ⟨prog, args, tmp, by rw [hx.1, hx.2]; exact h1, rfl, ht, by simp⟩
    · obtain ⟨p, a, t, e1, e2, e3, e4⟩ := hI.memo x c l hl
      refine ⟨p, a, t, e1, e2, e3, ?_⟩
      rw [if_neg]
      · exact e4
      · rintro rfl; rw [hf] at e4; cases e4

theorem Reach.inv {C : Cfg} {W} {S : St Node} (h : Reach C W S) : Inv C W S := by
  induction h with
  | init => exact ⟨fun x c l h => by cases h⟩
  | call E n lv node cmd tmp v rest _ hw hf ht hc ih => exact ih.call hw hf ht hc

/-- Elements of a list that are plain words are the words of the command. -/
theorem run_list (E : Env) (n : Nat) (lv : Vars) (l : List Str) (h : ∀ a ∈ l, plainWord a) :
    substList E .cmd (n + 2) lv (.seq (l.map .str)) = .ok [l] := by
  have hneat : Neat E (n + 2) lv false (.seq (l.map .str)) := by
    intro v hv
    obtain ⟨a, ha, rfl⟩ := List.mem_map.1 hv
    have hw := h a ha
    have htok : tokenize E.uw a = [.word a] := tokenize_word E.uw a hw.1 (by
      rw [List.all_eq_true]
      intro c hc
      obtain ⟨hok, hb⟩ := hw.2 c hc
      have hs : isSpace c = false := by
        cases hs : isSpace c with
        | false => rfl
        | true => rw [hok.2.2.2.2 hs] at hb; cases hb
      simp [isWordChar, hs, hok.1])
    show NeatToks E _ _ lv true (tokenize E.uw a)
    rw [htok]
    exact ⟨fun c hc => (hw.2 c hc).1, trivial⟩
  obtain ⟨r, h1, _, h3⟩ := neat_steps E .cmd (n + 2) lv false _ hneat
  obtain ⟨st', k1, k2⟩ := h3 [] .init ⟨⟨rfl, rfl, rfl⟩, fun hc => absurd rfl hc⟩ (by simp [OkText])
  have hr : r = joinSp l := by
    have : ∀ l : List Str, (∀ a ∈ l, plainWord a) → (l.map Val.str).mapM (substV E .sig (n + 1) lv) = .ok l := by
      intro l
      induction l with
      | nil => intro _; rfl
      | cons a l ih =>
        intro hl
        rw [List.map_cons, List.mapM_cons, substV_text E .sig n lv a fun hm => ((hl a (by simp)).2 _ hm).1.1 rfl,
          ih fun b hb => hl b (by simp [hb])]
        rfl
    simp only [substV, this l h, bind, Except.bind, pure, Except.pure, Except.ok.injEq] at h1
    exact h1.symm
  have hcut : ∀ l : List Str, (∀ a ∈ l, plainWord a) → cut (joinSp l) = l := by
    intro l
    induction l with
    | nil => intro _; rfl
    | cons a l ih =>
      intro hl
      have ha := hl a (by simp)
      have hfa := fields_word a fun c hc => (ha.2 c hc).2
      cases l with
      | nil => simp [joinSp, cut, hfa, ha.1]
      | cons b l =>
        have ih' := ih fun x hx => hl x (by simp [hx])
        simp only [joinSp]
        unfold cut at ih' ⊢
        have hb : fields (' ' :: joinSp (b :: l)) = [] :: fields (joinSp (b :: l)) := by simp [fields, isBlank]
        rw [fields_append a _ [] a _ _ (by simpa using hfa) hb]
        simp only [List.nil_append, List.append_nil]
        rw [List.filter_cons, ih']
        simp [ha.1]
  simp only [substList, k1, bind, Except.bind, pure, Except.pure, LS.result, k2.done, k2.cur, List.nil_append]
  rw [hr, hcut l h]

theorem expandArgv_plain (files : Str → Option Str) (l : List Str) (h : ∀ a ∈ l, a.head? ≠ some '@') :
    expandArgv files l = l := by
  induction l with
  | nil => rfl
  | cons a l ih =>
    have ih' := ih fun b hb => h b (by simp [hb])
    unfold expandArgv at ih' ⊢
    rw [List.flatMap_cons, ih']
    have ha := h a (by simp)
    split
    · simp at ha
    · rfl

/-- **C86** Whatever its length, and whatever was called before in this run: the command
that is run gives the program exactly the words of the command, directly or through the
file. (Missing: commands of several lines, quotes and backslashes in the arguments, and
commands whose words change within a run; see the counterexamples.) -/
theorem C86_same_arguments_partial (C : Cfg) (W : Node → Str → List Str) (S S' : St Node) (hS : Reach C W S)
    (E : Env) (n : Nat) (lv : Vars) (node : Node) (cmd tmp : Str) (v : Val)
    (hj : C.join ≠ []) (hjs : ∀ c ∈ C.join, isAsciiSpace c = true)
    (hone : substList E .cmd (n + 2) lv (.str cmd) = .ok [W node cmd])
    (prog : Str) (args : List Str) (hw : W node cmd = prog :: args)
    (hprog : plainWord prog) (hargs : ∀ a ∈ args, plainArg a) (hat : ∀ a ∈ prog :: args, a.head? ≠ some '@')
    (hf : S.files tmp = none) (ht : plainWord ('@' :: tmp))
    (hc : call C E (n + 2) lv S node cmd tmp = .ok (v, S')) :
    ∃ argv, substList E .cmd (n + 2) lv v = .ok [argv] ∧ expandArgv S'.files argv = prog :: args := by
  have hread : ∀ t, S'.files t = some (fileText C.join args) → expandArgv S'.files [prog, '@' :: t] = prog :: args := by
    intro t ht'
    have h1 := expandArgv_plain S'.files [prog] (by
      intro a ha; simp at ha; subst ha; exact hat _ (by simp))
    unfold expandArgv at h1 ⊢
    have : [prog, '@' :: t] = [prog] ++ ['@' :: t] := rfl
    rw [this, List.flatMap_append, h1]
    simp only [List.flatMap_cons, List.flatMap_nil, List.append_nil, ht']
    rw [read_fileText C.join args hj hjs hargs]
    rfl
  rcases call_cases hone hc with ⟨_, rfl, rfl⟩ | ⟨_, l, hl, rfl, rfl⟩ | ⟨_, _, p, a, e1, rfl, rfl⟩
  · exact ⟨prog :: args, by rw [hone, hw], expandArgv_plain _ _ hat⟩
  · obtain ⟨p, a, t, e1, rfl, e3, e4⟩ := hS.inv.memo node cmd l hl
    rw [hw] at e1
    simp only [List.cons.injEq] at e1
    obtain ⟨rfl, rfl⟩ := e1
    refine ⟨_, run_list E n lv _ ?_, hread t e4⟩
    intro x hx
    simp only [List.mem_cons, List.not_mem_nil, or_false] at hx
    rcases hx with rfl | rfl
    · exact hprog
    · exact e3
  · rw [hw] at e1
    simp only [List.cons.injEq] at e1
    obtain ⟨rfl, rfl⟩ := e1
    refine ⟨_, run_list E n lv _ ?_, hread tmp (by simp)⟩
    intro x hx
    simp only [List.mem_cons, List.not_mem_nil, or_false] at hx
    rcases hx with rfl | rfl
    · exact hprog
    · exact ht

/-- **C86** A command whose words, joined by blanks, fit into `MAXLINELENGTH` is left alone
and no file is written; any other becomes one of two words. -/
theorem C86_only_if_too_long (C : Cfg) (S S' : St Node) (E : Env) (n : Nat) (lv : Vars) (node : Node)
    (cmd tmp : Str) (v : Val) (words : List Str) (rest : List (List Str))
    (hw : substList E .cmd n lv (.str cmd) = .ok (words :: rest))
    (hm : ∀ l, S.memo node cmd = some l → l.length = 2)
    (hc : call C E n lv S node cmd tmp = .ok (v, S')) :
    ((joinSp words).length ≤ C.maxline → v = .str cmd ∧ S' = S) ∧
    (C.maxline < (joinSp words).length → ∃ a b, v = .seq [.str a, .str b]) := by
  have hlen : ∀ l : List Str, lineLength l = (joinSp l).length := by
    intro l
    induction l with
    | nil => rfl
    | cons a l ih =>
      cases l with
      | nil => simp [lineLength, joinSp]
      | cons b l =>
        simp only [lineLength, joinSp, List.map_cons, List.sum_cons, List.length_append, List.length_cons] at ih ⊢
        omega
  rw [← hlen]
  rcases call_cases hw hc with ⟨h1, h2, h3⟩ | ⟨h1, l, h2, h3, h4⟩ | ⟨h1, _, p, a, h2, h3, h4⟩
  · exact ⟨fun _ => ⟨h2, h3⟩, fun h => absurd h (by omega)⟩
  · refine ⟨fun h => absurd h (by omega), fun _ => ?_⟩
    have := hm l h2
    match l, this with
    | [x, y], _ => exact ⟨x, y, h3⟩
  · exact ⟨fun h => absurd h (by omega), fun _ => ⟨p, '@' :: tmp, h3⟩⟩

/-- **C86** The signature is that of the command itself, whether a file is used or not. -/
theorem C86_signature_is_that_of_the_command (E : Env) (n : Nat) (lv : Vars) (T cmd : Str) (v : Val) (hT : '}' ∉ T)
    (hl : lookup E lv T = .ok (some (tempVal v cmd))) (hd : '$' ∈ cmd) :
    subst E .sig (n + 2) lv ('$' :: '{' :: T ++ ['}']) = subst E .sig n (blank lv T) cmd := by
  have htok : tokenize E.uw ('$' :: '{' :: T ++ ['}']) = [.ref true T] := tokenize_braced E.uw T hT
  have h1 : '$' ∈ '$' :: '{' :: T ++ ['}'] := by simp
  unfold subst
  rw [if_pos h1, if_pos hd]
  simp only [substV, htok, List.mapM_cons, List.mapM_nil, tokText, hl, tempVal, Val.plain?, bind, Except.bind, pure, Except.pure]
  simp only [if_true]
  cases substV E .sig n (blank lv T) (.str cmd) <;> simp

end Verif.TempFile
