import Verif.Text.FileProps
import Verif.Subst.Signed

/-!
# C92: does the signature see a change of the file?
-/

namespace Verif.Text
open Verif.Subst

/-- A word: not empty, no blanks, none of the characters `$`, `<`, `>`, `|`. -/
def Word (w : Str) : Prop := w ≠ [] ∧ ∀ c ∈ w, okChar c ∧ isBlank c = false

theorem Word.nodollar {w : Str} (h : Word w) : '$' ∉ w := fun hm => (h.2 _ hm).1.1 rfl

theorem cut_joinSp : ∀ l : List Str, (∀ w ∈ l, Word w) → cut (joinSp l) = l := by
  intro l
  induction l with
  | nil => intro _; simp [joinSp, cut, fields]
  | cons w l ih =>
    intro h
    have hw := h w List.mem_cons_self
    have hb : ∀ c ∈ w, isBlank c = false := fun c hc => (hw.2 c hc).2
    cases l with
    | nil =>
      simp only [joinSp, cut, fields_word w hb]
      simp [hw.1]
    | cons w' l =>
      have ih' := ih fun x hx => h x (List.mem_cons_of_mem _ hx)
      simp only [joinSp]
      obtain ⟨hd, tl, he⟩ : ∃ hd tl, fields (joinSp (w' :: l)) = hd :: tl := by
        cases hf : fields (joinSp (w' :: l)) with
        | nil => exact absurd hf (fields_ne _)
        | cons a b => exact ⟨a, b, rfl⟩
      have h1 : fields (w ++ ' ' :: joinSp (w' :: l)) = w :: hd :: tl := by
        have hsp : fields (' ' :: joinSp (w' :: l)) = [] :: hd :: tl := by
          have := fields_append [' '] (joinSp (w' :: l)) [[]] [] hd tl (by
            simpa using fields_blank ' ' (by decide)) he
          simpa using this
        have := fields_append w (' ' :: joinSp (w' :: l)) [] w [] (hd :: tl) (by
          simpa using fields_word w hb) hsp
        simpa using this
      simp only [cut, h1] at ih' ⊢
      rw [he] at ih'
      rw [List.filter_cons_of_pos (by simpa using hw.1), ih']

theorem okText_joinSp : ∀ l : List Str, (∀ w ∈ l, Word w) → OkText (joinSp l) := by
  intro l
  induction l with
  | nil => intro _ c hc; simp [joinSp] at hc
  | cons w l ih =>
    intro h
    have hw : OkText w := fun c hc => ((h w List.mem_cons_self).2 c hc).1
    have ih' := ih fun x hx => h x (List.mem_cons_of_mem _ hx)
    cases l with
    | nil => simpa [joinSp] using hw
    | cons w' l =>
      simp only [joinSp]
      refine OkText.append hw ?_
      intro c hc
      rcases List.mem_cons.1 hc with rfl | hc
      · exact isBlank_ok (by decide)
      · exact ih' c hc

theorem joinSp_pairs : ∀ l : List (Str × Str),
    joinSp (l.map fun e => joinSp [e.1, e.2]) = joinSp (l.flatMap fun e => [e.1, e.2]) := by
  intro l
  induction l with
  | nil => rfl
  | cons e l ih =>
    cases l with
    | nil => rfl
    | cons e' l =>
      simp only [List.map_cons, List.flatMap_cons, List.cons_append, List.nil_append, joinSp] at ih ⊢
      rw [ih]
      simp

theorem flatMap_pairs_inj : ∀ l l' : List (Str × Str),
    (l.flatMap fun e => [e.1, e.2]) = (l'.flatMap fun e => [e.1, e.2]) → l = l' := by
  intro l
  induction l with
  | nil => intro l' h; cases l' with
    | nil => rfl
    | cons a l' => simp at h
  | cons a l ih =>
    intro l' h
    cases l' with
    | nil => simp at h
    | cons b l' =>
      simp only [List.flatMap_cons, List.cons_append, List.nil_append, List.cons.injEq] at h
      rw [ih l' h.2.2]
      congr 1
      exact Prod.ext h.1 h.2.1

theorem tokenize_braced (uw : Char → Bool) (name : Str) (h : '}' ∉ name) :
    tokenize uw (['$', '{'] ++ name ++ ['}']) = [.ref true name] := by
  have h1 : (name ++ ['}']).takeWhile (· != '}') = name := by
    induction name with
    | nil => rfl
    | cons a l ih =>
      simp only [List.mem_cons, not_or] at h
      simp only [List.cons_append, List.takeWhile]
      rw [show (a != '}') = true by simpa using fun e => h.1 e.symm]
      simp [ih h.2]
  have h2 : (name ++ ['}']).dropWhile (· != '}') = ['}'] := by
    clear h1
    induction name with
    | nil => rfl
    | cons a l ih =>
      simp only [List.mem_cons, not_or] at h
      simp only [List.cons_append, List.dropWhile]
      rw [show (a != '}') = true by simpa using fun e => h.1 e.symm]
      simp [ih h.2]
  simp [tokenize, tokF, nextTok, dollarTok, h1, h2, show isIdStart '{' = false from by decide]

theorem subst_braced (E : Env) (n : Nat) (lv : Vars) (name : Str) (h : '}' ∉ name) :
    subst E .sig (n + 1) lv (['$', '{'] ++ name ++ ['}']) = (do
      let t ← tokText E (substV E .sig n) lv (.ref true name)
      post .sig t) := by
  unfold subst
  rw [if_pos (by simp), substV, tokenize_braced E.uw name h]
  simp only [List.mapM_cons, List.mapM_nil, bind, Except.bind, pure, Except.pure]
  cases tokText E (substV E .sig n) lv (.ref true name) <;> simp

/-- A sequence of words is signed as these words. -/
theorem sign_seq (T : TEnv) (l : List (Str × Str)) (n : Nat) (hf : T.fuel = n + 4)
    (hlv : T.lv nameDict = none) (hd : T.dict = some (.seq (l.map fun e => (e.1, .str e.2))))
    (hw : ∀ e ∈ l, Word e.1 ∧ Word e.2) :
    ∃ r, signVar T nameDict = .ok r ∧ cut r = l.flatMap fun e => [e.1, e.2] := by
  have hwords : ∀ w ∈ (l.flatMap fun e => [e.1, e.2]), Word w := by
    intro w hm
    obtain ⟨e, he, hm⟩ := List.mem_flatMap.1 hm
    simp only [List.mem_cons, List.not_mem_nil, or_false] at hm
    rcases hm with rfl | rfl
    · exact (hw e he).1
    · exact (hw e he).2
  have hlook : lookup T.env T.lv nameDict
      = .ok (some (.seq (l.map fun e => .seq [.str e.1, .str e.2]))) := by
    simp only [lookup, hlv, TEnv.env, if_true, hd, Option.map_some, SDict.val, List.map_map, checkNone]
    rfl
  have hin : ∀ lv, substV T.env .sig (n + 3) lv (.seq (l.map fun e => .seq [.str e.1, .str e.2]))
      = .ok (joinSp (l.flatMap fun e => [e.1, e.2])) := by
    intro lv
    have hm : (l.map fun e => Val.seq [.str e.1, .str e.2]).mapM (substV T.env .sig (n + 2) lv)
        = .ok (l.map fun e => joinSp [e.1, e.2]) := by
      clear hlook hwords hd
      induction l with
      | nil => rfl
      | cons e l ih =>
        have := ih fun e he => hw e (List.mem_cons_of_mem _ he)
        obtain ⟨h1, h2⟩ := hw e List.mem_cons_self
        have hp : substV T.env .sig (n + 2) lv (.seq [.str e.1, .str e.2]) = .ok (joinSp [e.1, e.2]) := by
          rw [substV]
          simp only [List.mapM_cons, substV_text T.env .sig n lv e.1 h1.nodollar,
            substV_text T.env .sig n lv e.2 h2.nodollar, List.mapM_nil, bind, Except.bind, pure,
            Except.pure]
        simp only [List.map_cons, List.mapM_cons, this, hp, bind, Except.bind, pure, Except.pure]
    rw [substV]
    simp only [hm, bind, Except.bind, pure, Except.pure, joinSp_pairs]
  obtain ⟨r, h1, h2⟩ := post_sig _ (okText_joinSp _ hwords)
  refine ⟨r, ?_, by rw [h2, cut_joinSp _ hwords]⟩
  rw [signVar, hf, subst_braced _ _ _ _ (by decide)]
  simp only [tokText, hlook, bind, Except.bind, Val.plain?, hin, h1]

/-- **C92** If `SUBST_DICT` is a sequence and only words are in it, any change of it
changes the signature of the action. `LINESEPARATOR`, the prefix and the suffix are the
same. -/
theorem C92_changed_entries_change_signature_partial (T T' : TEnv) (code : Str) (ixes : List Str)
    (l l' : List (Str × Str)) (n n' : Nat) (hf : T.fuel = n + 4) (hf' : T'.fuel = n' + 4)
    (hlv : T.lv nameDict = none) (hlv' : T'.lv nameDict = none)
    (hd : T.dict = some (.seq (l.map fun e => (e.1, .str e.2))))
    (hd' : T'.dict = some (.seq (l'.map fun e => (e.1, .str e.2))))
    (hw : ∀ e ∈ l, Word e.1 ∧ Word e.2) (hw' : ∀ e ∈ l', Word e.1 ∧ Word e.2)
    (rest : Str) (hrest : signVars T (nameSep :: ixes) = .ok rest)
    (hrest' : signVars T' (nameSep :: ixes) = .ok rest)
    (hne : l ≠ l') : contents T code ixes ≠ contents T' code ixes := by
  obtain ⟨r, h1, h2⟩ := sign_seq T l n hf hlv hd hw
  obtain ⟨r', h1', h2'⟩ := sign_seq T' l' n' hf' hlv' hd' hw'
  intro he
  have e1 : contents T code ixes = .ok (code ++ (r ++ rest)) := by
    rw [contents, signVars, h1]
    simp only [hrest, bind, Except.bind, pure, Except.pure]
  have e2 : contents T' code ixes = .ok (code ++ (r' ++ rest)) := by
    rw [contents, signVars, h1']
    simp only [hrest', bind, Except.bind, pure, Except.pure]
  rw [e1, e2] at he
  have : r = r' := by
    simp only [Except.ok.injEq] at he
    exact List.append_cancel_right (List.append_cancel_left he)
  rw [this, h2'] at h2
  exact hne (flatMap_pairs_inj l l' h2.symm)

theorem dropWhile_all {p : Char → Bool} {s : Str} (h : ∀ c ∈ s, p c = true) : s.dropWhile p = [] := by
  induction s with
  | nil => rfl
  | cons a l ih =>
    simp only [List.dropWhile, h a List.mem_cons_self]
    exact ih fun c hc => h c (List.mem_cons_of_mem _ hc)

/-- Why the full claim fails. **Every** separator of white space only is signed as nothing:
a change from one to another changes the file and not the signature. -/
theorem C92_blank_separators_are_not_signed (T : TEnv) (n : Nat) (s : Str) (hf : T.fuel = n + 1)
    (hlv : T.lv nameSep = none) (hs : T.linesep = some s) (hb : ∀ c ∈ s, isSpace c = true) :
    signVar T nameSep = .ok [] := by
  have hd : '$' ∉ s := fun hm => absurd (hb _ hm) (by decide)
  have hlook : lookup T.env T.lv nameSep = .ok (some (.str s)) := by
    simp only [lookup, hlv, TEnv.env, hs]
    rw [if_neg (by decide), if_pos trivial]
    rfl
  have hpost : post .sig s = .ok [] := by
    have hc : strip (compress false s) = [] := by
      unfold strip
      rw [dropWhile_all (p := isSpace) (s := compress false s)]
      · rfl
      · intro c hc
        rcases compress_mem _ _ c hc with hm | rfl
        · exact hb c hm
        · decide
    simp only [post, splitM_plain _ s hd, removeGo, Option.map_some, joinSp, finish, hc, collapse]
  rw [signVar, hf, subst_braced _ _ _ _ (by decide)]
  simp only [tokText, hlook, bind, Except.bind, Val.plain?, hd, if_false, pure, Except.pure, hpost]

end Verif.Text
