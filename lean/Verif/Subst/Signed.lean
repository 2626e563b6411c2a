import Verif.Subst.List
import Mathlib.Data.List.Induction
/-!
# C84: the text that is signed is the command that is run

`CommandAction.get_presig` (/repo/SCons/Action.py:1105-1118) signs the text
`scons_subst(cmd, SUBST_SIG)`; `CommandAction.process` (1004-1027) runs the words
`scons_subst_list(cmd, SUBST_CMD)`.  The two are computed by different classes
(`StringSubber`, `ListSubber`).  Here: for commands written as text, the words run
are the words of the text signed.
-/
namespace Verif.Subst

/-! ### Specification -/

def isBlank (c : Char) : Bool := c = ' ' || c = '\t'

/-- The text between consecutive blanks. -/
def fields : Str → List Str
  | [] => [[]]
  | c :: r =>
    if isBlank c then [] :: fields r
    else match fields r with
      | g :: gs => (c :: g) :: gs
      | [] => [[c]]

/-- The words of a text: the non-empty runs of characters other than blanks. -/
def cut (s : Str) : List Str := (fields s).filter (· ≠ [])

/-- Does the text end in a character that is not a blank? -/
def endsWord (t : Str) : Bool := (t.getLast?.map fun c => !isBlank c).getD false

/-- A character without a meaning of its own in a command: no `$`, no redirection,
no white space other than blanks. -/
def okChar (c : Char) : Prop := c ≠ '$' ∧ c ≠ '<' ∧ c ≠ '>' ∧ c ≠ '|' ∧ (isSpace c = true → isBlank c = true)

def OkText (t : Str) : Prop := ∀ c ∈ t, okChar c

/-- One token of a neat text, followed by `next`.  Markers, escapes and lone `$` are
excluded.  A variable that is followed directly by more text must expand to a text
that ends in a word. -/
def NeatTok (E : Env) (sub : Vars → Val → Except Err Str) (rec : Vars → Val → Prop) (lv : Vars) (wl : Bool)
    (next : Option Tok) : Tok → Prop
  | .ws s => wl = false ∧ ∀ c ∈ s, isBlank c = true
  | .word s => OkText s
  | .ref b k =>
    (∀ e, lookup E lv k ≠ .error e) ∧
    (∀ v, lookup E lv k = .ok (some v) →
      rec (blank lv k) v ∧
      ((∀ s, next ≠ some (.ws s)) → next ≠ none →
        ∀ r, tokText E sub lv (.ref b k) = .ok r → endsWord r = true))
  | _ => False

def NeatToks (E : Env) (sub : Vars → Val → Except Err Str) (rec : Vars → Val → Prop) (lv : Vars) (wl : Bool) :
    List Tok → Prop
  | [] => True
  | t :: l => NeatTok E sub rec lv wl l.head? t ∧ NeatToks E sub rec lv wl l

/-- Values that are plain text, or lists of words. -/
def Neat (E : Env) : Nat → Vars → Bool → Val → Prop
  | 0, _, _, _ => False
  | _ + 1, _, _, .none => True
  | n + 1, lv, wl, .str s =>
    NeatToks E (substV E .sig n) (fun lv v => Neat E n lv false v) lv wl (tokenize E.uw s)
  | _ + 1, _, _, .obj a b => a = b ∧ a ≠ [] ∧ ∀ c ∈ a, okChar c ∧ isBlank c = false
  | n + 1, lv, _, .seq l => ∀ v ∈ l, Neat E n lv true v
  | n + 1, lv, wl, .fn v w => v = w ∧ Neat E n lv wl v

/-! ### Words of a text -/

theorem fields_ne (s : Str) : fields s ≠ [] := by
  cases s with
  | nil => simp [fields]
  | cons c r => simp only [fields]; split <;> (try split) <;> simp

theorem fields_append (a b : Str) : ∀ i l h t, fields a = i ++ [l] → fields b = h :: t →
    fields (a ++ b) = i ++ (l ++ h) :: t := by
  induction a with
  | nil =>
    intro i l h t ha hb
    have : i = [] ∧ l = [] := by
      simp only [fields] at ha
      cases i with
      | nil => simpa using ha.symm
      | cons x i => simp at ha
    obtain ⟨rfl, rfl⟩ := this
    simpa using hb
  | cons c a ih =>
    intro i l h t ha hb
    simp only [List.cons_append, fields] at ha ⊢
    split at ha
    · rename_i hc
      rw [if_pos hc]
      cases i with
      | nil =>
        simp only [List.nil_append, List.cons.injEq] at ha
        exact absurd ha.2 (fields_ne a)
      | cons x i =>
        simp only [List.cons_append, List.cons.injEq] at ha
        rw [ih i l h t ha.2 hb, ha.1]
        rfl
    · rename_i hc
      rw [if_neg hc]
      split at ha
      · rename_i g gs hg
        cases i with
        | nil =>
          simp only [List.nil_append, List.cons.injEq] at ha
          obtain ⟨rfl, rfl⟩ := ha
          rw [ih [] g h t (by simpa using hg) hb]
          rfl
        | cons x i =>
          simp only [List.cons_append, List.cons.injEq] at ha
          obtain ⟨rfl, rfl⟩ := ha
          rw [ih (g :: i) l h t (by simpa using hg) hb]
          rfl
      · rename_i hg; exact absurd hg (fields_ne a)

theorem fields_word (w : Str) (h : ∀ c ∈ w, isBlank c = false) : fields w = [w] := by
  induction w with
  | nil => rfl
  | cons c r ih =>
    simp only [fields, h c (by simp), ih fun d hd => h d (by simp [hd])]
    rfl

theorem fields_blank (b : Char) (h : isBlank b = true) : fields [b] = [[], []] := by
  simp [fields, h]

theorem fields_snoc (t : Str) : ∃ i l, fields t = i ++ [l] :=
  ⟨_, _, (List.dropLast_concat_getLast (fields_ne t)).symm⟩

theorem endsWord_append (t w : Str) (h : w ≠ []) : endsWord (t ++ w) = endsWord w := by
  unfold endsWord
  rw [List.getLast?_append]
  cases hw : w.getLast? with
  | none => simp [List.getLast?_eq_none_iff] at hw; exact absurd hw h
  | some c => rfl

/-- The last field is empty exactly if the text ends in a blank, or is empty. -/
theorem fields_last (t : Str) (i l) (h : fields t = i ++ [l]) : l ≠ [] ↔ endsWord t = true := by
  induction t using List.reverseRecOn generalizing i l with
  | nil =>
    simp only [fields] at h
    cases i with
    | nil => simp at h; simp [h, endsWord]
    | cons x i => simp at h
  | append_singleton t c ih =>
    obtain ⟨i', l', ht⟩ := fields_snoc t
    rw [endsWord_append _ _ (by simp)]
    cases hc : isBlank c with
    | true =>
      rw [fields_append t [c] i' l' _ _ ht (fields_blank c hc)] at h
      have : i' ++ [l' ++ [], []] = (i' ++ [l']) ++ [[]] := by simp
      rw [this] at h
      have := (List.append_inj' h rfl).2
      simp only [List.cons.injEq, and_true] at this
      simp [← this, endsWord, hc]
    | false =>
      have hw : fields [c] = [c] :: [] := fields_word [c] (by simpa using hc)
      rw [fields_append t [c] i' l' _ _ ht hw] at h
      have := (List.append_inj' h rfl).2
      simp only [List.cons.injEq, and_true] at this
      simp [← this, endsWord, hc]

theorem cut_blank (t b : Str) (h : ∀ c ∈ b, isBlank c = true) : cut (t ++ b) = cut t := by
  induction b generalizing t with
  | nil => simp
  | cons c b ih =>
    have : t ++ c :: b = (t ++ [c]) ++ b := by simp
    rw [this, ih _ fun d hd => h d (by simp [hd])]
    obtain ⟨i, l, ht⟩ := fields_snoc t
    unfold cut
    rw [fields_append t [c] i l _ _ ht (fields_blank c (h c (by simp))), ht]
    by_cases hl : l = [] <;> simp [List.filter_append, hl]

/-- A word after a blank (or at the start) is a new word. -/
theorem cut_new (t w : Str) (ht : endsWord t = false) (hw : w ≠ []) (h : ∀ c ∈ w, isBlank c = false) :
    cut (t ++ w) = cut t ++ [w] := by
  obtain ⟨i, l, hl⟩ := fields_snoc t
  have : l = [] := by
    have := (fields_last t i l hl)
    rw [ht] at this
    simpa using this
  subst this
  unfold cut
  rw [fields_append t w i [] _ _ hl (fields_word w h), hl]
  simp [hw]

/-- A word after a word becomes part of it. -/
theorem cut_glue (t w : Str) (ht : endsWord t = true) (h : ∀ c ∈ w, isBlank c = false) :
    ∃ i l, cut t = i ++ [l] ∧ cut (t ++ w) = i ++ [l ++ w] := by
  obtain ⟨i, l, hl⟩ := fields_snoc t
  have hne : l ≠ [] := (fields_last t i l hl).2 ht
  refine ⟨i.filter (· ≠ []), l, ?_, ?_⟩
  · simp [cut, hl, hne]
  · unfold cut
    rw [fields_append t w i l _ _ hl (fields_word w h)]
    simp [hne]

theorem mem_fields (t : Str) : ∀ w ∈ fields t, ∀ c ∈ w, c ∈ t := by
  induction t with
  | nil => simp [fields]
  | cons c r ih =>
    intro w hw d hd
    simp only [fields] at hw
    split at hw
    · rcases List.mem_cons.1 hw with rfl | hw
      · cases hd
      · exact List.mem_cons_of_mem _ (ih w hw d hd)
    · split at hw
      · rename_i g gs hg
        rcases List.mem_cons.1 hw with rfl | hw
        · rcases List.mem_cons.1 hd with rfl | hd
          · simp
          · exact List.mem_cons_of_mem _ (ih g (by simp [hg]) d hd)
        · exact List.mem_cons_of_mem _ (ih w (by simp [hg, hw]) d hd)
      · simp at hw; subst hw; simp at hd; simp [hd]

theorem OkText.append {a b : Str} (ha : OkText a) (hb : OkText b) : OkText (a ++ b) := by
  intro c hc
  rcases List.mem_append.1 hc with h | h
  · exact ha c h
  · exact hb c h

theorem notRedir {t : Str} (h : OkText t) {w : Str} (hw : w ∈ cut t) : isRedir w = false := by
  unfold isRedir
  split
  · rename_i c hc
    have hm := mem_fields t w (List.mem_filter.1 hw).1 c (List.mem_of_getLast? hc)
    obtain ⟨_, h1, h2, h3, _⟩ := h c hm
    simp [h1, h2, h3]
  · rfl

/-! ### The machine and the text -/

/-- The words collected so far are the words of the text so far. -/
structure W (t : Str) (st : LS) : Prop where
  cur : st.cur = cut t
  done : st.done = []
  strip : st.strip = false

/-- ... and the machine knows whether it is inside a word. -/
structure S (t : Str) (st : LS) : Prop extends W t st where
  glue : st.cur ≠ [] → st.glue = endsWord t

theorem cut_nil_of {t : Str} (h : endsWord t = true) : cut t ≠ [] := by
  obtain ⟨i, l, h1, _⟩ := cut_glue t [] h (by simp)
  simp [h1]

theorem S.append {t st} (m : Mode) (h : S t st) (ht : OkText t) {w : Str} (hw : w ≠ [])
    (hb : ∀ c ∈ w, isBlank c = false) : S (t ++ w) (st.append m w) := by
  have hend : endsWord (t ++ w) = true := by
    rw [endsWord_append _ _ hw]
    unfold endsWord
    cases hl : w.getLast? with
    | none => exact absurd (List.getLast?_eq_none_iff.1 hl) hw
    | some c => simp [hb c (List.mem_of_getLast? hl)]
  unfold LS.append LS.append2
  by_cases hc : st.cur = []
  · have hne : endsWord t = false := by
      cases he : endsWord t with
      | false => rfl
      | true => exact absurd (h.cur ▸ hc) (cut_nil_of he)
    have hcut := cut_new t w hne hw hb
    have key : (if st.glue = true then LS.addCur m st w w else LS.addNew m st w) =
        { st with cur := [w], glue := true } := by
      unfold LS.addCur LS.addNew
      simp [hc, h.strip]
    rw [key]
    refine ⟨⟨?_, h.done, h.strip⟩, fun _ => ?_⟩
    · rw [hcut, ← h.cur, hc]; rfl
    · exact hend.symm
  · have hg := h.glue hc
    cases he : endsWord t with
    | false =>
      rw [hg, he]
      have hcut := cut_new t w he hw hb
      refine ⟨⟨?_, ?_, ?_⟩, fun _ => ?_⟩
      · simp [LS.addNew, hcut, h.cur, h.strip]
      · simp [LS.addNew, h.done, h.strip]
      · simp [LS.addNew, h.strip]
      · simp [LS.addNew, hend, h.strip]
    | true =>
      rw [hg, he]
      obtain ⟨i, l, h1, h2⟩ := cut_glue t w he hb
      have hr : isRedir l = false := notRedir ht (by rw [h1]; simp)
      have key : LS.addCur m st w w = { st with cur := i ++ [l ++ w] } := by
        unfold LS.addCur
        simp [h.cur, h1, hr, h.strip]
      simp only [if_true]
      rw [key]
      refine ⟨⟨h2.symm, h.done, h.strip⟩, fun _ => ?_⟩
      rw [hend]
      exact hg.trans he

theorem W.nextWord {t st} (h : W t st) {b : Str} (hne : b ≠ []) (hb : ∀ c ∈ b, isBlank c = true) :
    S (t ++ b) st.nextWord := by
  refine ⟨⟨?_, h.done, h.strip⟩, fun _ => ?_⟩
  · rw [cut_blank t b hb]; exact h.cur
  · rw [endsWord_append _ _ hne]
    unfold endsWord
    cases hl : b.getLast? with
    | none => exact absurd (List.getLast?_eq_none_iff.1 hl) hne
    | some c => simp [LS.nextWord, hb c (List.mem_of_getLast? hl)]

theorem W.thisWord {t st} (h : W t st) : W t st.thisWord := ⟨h.cur, h.done, h.strip⟩

theorem W.thisWord_ends {t st} (h : W t st) (he : endsWord t = true) : S t st.thisWord :=
  ⟨⟨h.cur, h.done, h.strip⟩, fun _ => he.symm⟩

/-- Both expansions of a value succeed and keep in step. -/
def Steps (E : Env) (m : Mode) (n : Nat) (lv : Vars) (wl : Bool) (v : Val) : Prop :=
  ∃ r, substV E .sig n lv v = .ok r ∧ OkText r ∧
    ∀ t st, S t st → OkText t →
      ∃ st', substL E m n lv wl v st = .ok st' ∧ W (t ++ r) st'

theorem okText_of_mem {s : Str} {uw} (h : ∀ t ∈ tokenize uw s, OkText t.text) : OkText s := by
  intro c hc
  rw [← tokenize_lossless uw s] at hc
  obtain ⟨x, hx, hc⟩ := List.mem_flatten.1 hc
  obtain ⟨t, ht, rfl⟩ := List.mem_map.1 hx
  exact h t ht c hc

theorem tok_ne (uw) (s : Str) : ∀ t ∈ tokenize uw s, t.text ≠ [] := by
  intro t ht
  refine tok_induction uw (fun s => ∀ t ∈ tokenize uw s, t.text ≠ []) ?_ ?_ s t ht
  · intro t ht; cases ht
  · intro c r ih t ht
    rw [tokenize_cons] at ht
    rcases List.mem_cons.1 ht with rfl | ht
    · exact nextTok_text_ne uw c r
    · exact ih t ht

/-- Word tokens contain no white space. -/
theorem word_noSpace (uw) (s : Str) : ∀ w, Tok.word w ∈ tokenize uw s → ∀ c ∈ w, isSpace c = false := by
  intro w hw
  refine tok_induction uw (fun s => ∀ w, Tok.word w ∈ tokenize uw s → ∀ c ∈ w, isSpace c = false) ?_ ?_ s w hw
  · intro w hw; cases hw
  · intro c r ih w hw
    rw [tokenize_cons] at hw
    rcases List.mem_cons.1 hw with h | h
    · intro d hd
      unfold nextTok at h
      split at h
      · cases r with
        | nil => cases h
        | cons e r =>
          simp only [dollarTok] at h
          repeat' split at h
          all_goals cases h
      · split at h
        · cases h
        · rename_i h1 h2
          cases h
          rcases List.mem_cons.1 hd with rfl | hd
          · simpa using h2
          · have := mem_takeWhile_holds hd
            simp only [isWordChar, Bool.and_eq_true, Bool.not_eq_true'] at this
            exact this.1
    · exact ih w h

theorem blank_isSpace {c : Char} (h : isBlank c = true) : isSpace c = true ∧ isAsciiSpace c = true ∧ c ≠ '\n' := by
  simp only [isBlank, Bool.or_eq_true, decide_eq_true_eq] at h
  rcases h with rfl | rfl <;> decide

theorem notBlank_of {c : Char} (h : isSpace c = false) : isBlank c = false := by
  cases hb : isBlank c with
  | false => rfl
  | true => rw [(blank_isSpace hb).1] at h; cases h

theorem isBlank_ok {c : Char} (h : isBlank c = true) : okChar c := by
  simp only [isBlank, Bool.or_eq_true, decide_eq_true_eq] at h
  rcases h with rfl | rfl <;> simp [okChar] <;> decide

theorem toks_step (E : Env) (m : Mode) (n : Nat) (lv : Vars) (wl : Bool)
    (ih : ∀ lv wl v, Neat E n lv wl v → Steps E m n lv wl v)
    (l : List Tok) (hne : ∀ t ∈ l, t.text ≠ [])
    (hsp : ∀ w, Tok.word w ∈ l → ∀ c ∈ w, isSpace c = false)
    (h : NeatToks E (substV E .sig n) (fun lv v => Neat E n lv false v) lv wl l) :
    ∃ rs, l.mapM (tokText E (substV E .sig n) lv) = .ok rs ∧ OkText rs.flatten ∧
      ∀ t st, S t st ∨ (W t st ∧ ((∃ s, l.head? = some (.ws s)) ∨ l = [])) → OkText t →
        ∃ st', l.foldlM (tokStep E m (substL E m n) lv wl) st = .ok st' ∧ W (t ++ rs.flatten) st' := by
  induction l with
  | nil =>
    refine ⟨[], rfl, by simp [OkText], fun t st hS _ => ⟨st, rfl, ?_⟩⟩
    rcases hS with hS | hS
    · simpa using hS.toW
    · simpa using hS.1
  | cons k l ihl =>
    obtain ⟨hk, hl⟩ := h
    obtain ⟨rs, hrs, hok, hmach⟩ := ihl (fun t ht => hne t (by simp [ht])) (fun w hw => hsp w (by simp [hw])) hl
    -- what is needed of the first token
    suffices H : ∃ r, tokText E (substV E .sig n) lv k = .ok r ∧ OkText r ∧
        ∀ t st, S t st ∨ (W t st ∧ ((∃ s, (k :: l).head? = some (.ws s)) ∨ k :: l = [])) → OkText t →
          ∃ st', tokStep E m (substL E m n) lv wl st k = .ok st' ∧
            (S (t ++ r) st' ∨ (W (t ++ r) st' ∧ ((∃ s, l.head? = some (.ws s)) ∨ l = []))) by
      obtain ⟨r, hr, hr', hst⟩ := H
      refine ⟨r :: rs, ?_, ?_, ?_⟩
      · rw [List.mapM_cons, hr, hrs]; rfl
      · rw [List.flatten_cons]; exact hr'.append hok
      · intro t st hS ht
        obtain ⟨st1, h1, h2⟩ := hst t st hS ht
        obtain ⟨st2, h3, h4⟩ := hmach (t ++ r) st1 h2 (ht.append hr')
        refine ⟨st2, ?_, ?_⟩
        · rw [List.foldlM_cons, h1]; exact h3
        · rw [List.flatten_cons, ← List.append_assoc]; exact h4
    cases k with
    | ws s =>
      obtain ⟨rfl, hb⟩ := hk
      have hs : s ≠ [] := hne (.ws s) (by simp)
      refine ⟨s, rfl, fun c hc => isBlank_ok (hb c hc), fun t st hS ht => ⟨st.nextWord, ?_, Or.inl ?_⟩⟩
      · cases s with
        | nil => exact absurd rfl hs
        | cons c s =>
          have hn : '\n' ∉ c :: s := fun hm => (blank_isSpace (hb _ hm)).2.2 rfl
          simp [tokStep, (blank_isSpace (hb c (by simp))).2.1, hn]
      · rcases hS with hS | hS
        · exact hS.toW.nextWord hs hb
        · exact hS.1.nextWord hs hb
    | word s =>
      have hs : s ≠ [] := hne (.word s) (by simp)
      have hb : ∀ c ∈ s, isBlank c = false := fun c hc => notBlank_of (hsp s (by simp) c hc)
      refine ⟨s, rfl, hk, fun t st hS ht => ⟨st.append m s, rfl, Or.inl ?_⟩⟩
      rcases hS with hS | hS
      · exact hS.append m ht hs hb
      · rcases hS.2 with ⟨x, hx⟩ | hx <;> cases hx
    | ref b key =>
      obtain ⟨herr, hv⟩ := hk
      cases hlook : lookup E lv key with
      | error e => exact absurd hlook (herr e)
      | ok o =>
        cases o with
        | none =>
          refine ⟨[], ?_, by simp [OkText], fun t st hS ht => ⟨st, ?_, Or.inl ?_⟩⟩
          · simp [tokText, hlook, bind, Except.bind, pure, Except.pure]
          · simp [tokStep, hlook, bind, Except.bind, pure, Except.pure]
          · rcases hS with hS | hS
            · simpa using hS
            · rcases hS.2 with ⟨x, hx⟩ | hx <;> cases hx
        | some v =>
          obtain ⟨hneat, hend⟩ := hv v hlook
          obtain ⟨r, hr, hrok, hmach'⟩ := ih _ _ _ hneat
          have htt : tokText E (substV E .sig n) lv (.ref b key) = .ok r := by
            simp only [tokText, hlook, bind, Except.bind]
            split
            · rename_i s hs
              cases v with
              | str x =>
                simp only [Val.plain?] at hs
                split at hs
                · cases hs
                · rename_i hd
                  simp only [Option.some.injEq] at hs
                  subst hs
                  cases n with
                  | zero => cases hr
                  | succ n =>
                    rw [substV_text E .sig n _ x hd] at hr
                    exact hr
              | _ => simp [Val.plain?] at hs
            · exact hr
          refine ⟨r, htt, hrok, fun t st hS ht => ?_⟩
          have hS : S t st := by
            rcases hS with hS | hS
            · exact hS
            · rcases hS.2 with ⟨x, hx⟩ | hx <;> cases hx
          have hcase : (∃ st', tokStep E m (substL E m n) lv wl st (.ref b key) = .ok st' ∧ S (t ++ r) st') ∨
              (∃ st', tokStep E m (substL E m n) lv wl st (.ref b key) = .ok st'.thisWord ∧ W (t ++ r) st') := by
            cases hx : v.expanded? with
            | some s =>
              left
              have hvs : v = .str s ∧ s ≠ [] ∧ s.all isWordChar = true := by
                cases v with
                | str x =>
                  cases x with
                  | nil => simp [Val.expanded?] at hx
                  | cons c x =>
                    simp only [Val.expanded?] at hx
                    split at hx
                    · cases hx; exact ⟨rfl, by simp, by assumption⟩
                    · cases hx
                | _ => simp [Val.expanded?] at hx
              obtain ⟨rfl, hsne, hall⟩ := hvs
              have hwc : ∀ c ∈ s, isSpace c = false ∧ c ≠ '$' := by
                intro c hc
                have := List.all_eq_true.1 hall c hc
                simp only [isWordChar, Bool.and_eq_true, Bool.not_eq_true', bne_iff_ne] at this
                exact this
              have hrs : r = s := by
                cases n with
                | zero => cases hr
                | succ n =>
                  rw [substV_text E .sig n _ s fun hm => (hwc _ hm).2 rfl] at hr
                  cases hr; rfl
              subst hrs
              refine ⟨st.append m r, ?_, hS.append m ht hsne fun c hc => notBlank_of (hwc c hc).1⟩
              simp [tokStep, hlook, hx, bind, Except.bind, pure, Except.pure]
            | none =>
              right
              obtain ⟨st', h1, h2⟩ := hmach' t st hS ht
              refine ⟨st', ?_, h2⟩
              simp [tokStep, hlook, hx, h1, bind, Except.bind, pure, Except.pure]
          rcases hcase with ⟨st', h1, h2⟩ | ⟨st', h1, h2⟩
          · exact ⟨st', h1, Or.inl h2⟩
          · refine ⟨st'.thisWord, h1, ?_⟩
            cases hnx : l.head? with
            | none =>
              right
              exact ⟨h2.thisWord, Or.inr (by simpa using hnx)⟩
            | some k' =>
              by_cases hws : ∃ s, k' = .ws s
              · obtain ⟨s, rfl⟩ := hws
                exact Or.inr ⟨h2.thisWord, Or.inl ⟨s, rfl⟩⟩
              · left
                apply h2.thisWord_ends
                have he : endsWord r = true := hend (by
                  intro s hs
                  rw [hnx] at hs
                  cases hs
                  exact hws ⟨s, rfl⟩) (by rw [hnx]; simp) r htt
                have hrn : r ≠ [] := by rintro rfl; simp [endsWord] at he
                rw [endsWord_append _ _ hrn]; exact he
    | _ => exact absurd hk (by simp [NeatTok])

theorem neat_steps (E : Env) (m : Mode) : ∀ n lv wl v, Neat E n lv wl v → Steps E m n lv wl v := by
  intro n
  induction n with
  | zero => intro lv wl v h; exact absurd h (by simp [Neat])
  | succ n ih =>
    intro lv wl v h
    cases v with
    | none =>
      refine ⟨[], rfl, by simp [OkText], fun t st hS _ => ⟨_, rfl, ?_⟩⟩
      simpa using hS.toW.thisWord
    | str s =>
      obtain ⟨rs, h1, h2, h3⟩ := toks_step E m n lv wl ih (tokenize E.uw s) (tok_ne E.uw s) (word_noSpace E.uw s) h
      refine ⟨rs.flatten, ?_, h2, fun t st hS ht => ?_⟩
      · simp [substV, h1, bind, Except.bind, pure, Except.pure]
      · exact h3 t st (Or.inl hS) ht
    | obj a b =>
      obtain ⟨rfl, hne, hok⟩ := h
      refine ⟨a, by simp [substV], fun c hc => (hok c hc).1, fun t st hS ht => ⟨_, rfl, ?_⟩⟩
      have := (hS.append m ht hne fun c hc => (hok c hc).2).toW
      simpa [LS.append] using this
    | fn v w =>
      obtain ⟨rfl, h⟩ := h
      obtain ⟨r, h1, h2, h3⟩ := ih lv wl v h
      refine ⟨r, by simpa [substV] using h1, h2, fun t st hS ht => ?_⟩
      simpa [substL] using h3 t st hS ht
    | seq l =>
      have key : ∀ l : List Val, (∀ v ∈ l, Neat E n lv true v) →
          ∃ rs, l.mapM (substV E .sig n lv) = .ok rs ∧ OkText (joinSp rs) ∧
            ∀ t st, S t st → OkText t → ∃ st', l.foldlM (fun st v => do
                let st ← substL E m n lv true v st
                pure st.nextWord) st = Except.ok st' ∧ W (t ++ joinSp rs) st' := by
        intro l
        induction l with
        | nil =>
          intro _
          refine ⟨[], rfl, by simp [OkText, joinSp], fun t st hS _ => ⟨st, rfl, ?_⟩⟩
          simpa [joinSp] using hS.toW
        | cons v l ihl =>
          intro hl
          obtain ⟨r, h1, h2, h3⟩ := ih lv true v (hl v (by simp))
          obtain ⟨rs, k1, k2, k3⟩ := ihl fun v hv => hl v (by simp [hv])
          refine ⟨r :: rs, ?_, ?_, ?_⟩
          · rw [List.mapM_cons, h1, k1]; rfl
          · cases rs with
            | nil => simpa [joinSp] using h2
            | cons r' rs =>
              simp only [joinSp]
              refine h2.append ?_
              intro c hc
              rcases List.mem_cons.1 hc with rfl | hc
              · exact isBlank_ok (by decide)
              · exact k2 c hc
          · intro t st hS ht
            obtain ⟨st1, a1, a2⟩ := h3 t st hS ht
            have hS1 : S (t ++ r ++ [' ']) st1.nextWord := a2.nextWord (by simp) (by simp [isBlank])
            obtain ⟨st2, b1, b2⟩ := k3 _ _ hS1 ((ht.append h2).append (by
              intro c hc; simp at hc; subst hc; exact isBlank_ok (by decide)))
            refine ⟨st2, ?_, ?_⟩
            · rw [List.foldlM_cons, a1]; exact b1
            · cases rs with
              | nil =>
                simp only [joinSp, List.append_nil] at b2 ⊢
                have := cut_blank (t ++ r) [' '] (by simp [isBlank])
                exact ⟨b2.cur.trans this, b2.done, b2.strip⟩
              | cons r' rs =>
                simp only [joinSp]
                simpa [List.append_assoc] using b2
      obtain ⟨rs, h1, h2, h3⟩ := key l h
      refine ⟨joinSp rs, by simp [substV, h1, bind, Except.bind, pure, Except.pure], h2, fun t st hS ht => ?_⟩
      obtain ⟨st', k1, k2⟩ := h3 t st hS ht
      exact ⟨st', by simpa [substL] using k1, k2⟩

/-! ### What is done to the text at the end -/

theorem cut_cons_blank (c : Char) (r : Str) (h : isBlank c = true) : cut (c :: r) = cut r := by
  simp [cut, fields, h]

/-- Cutting depends on the rest of the text only through its fields. -/
theorem fields_cons_congr (c : Char) (r r' : Str) (hb : isBlank c = false)
    (h : cut r = cut r') (he : (fields r).head? = (fields r').head?) : cut (c :: r) = cut (c :: r') := by
  unfold cut at *
  simp only [fields, hb, Bool.false_eq_true, if_false]
  cases hr : fields r with
  | nil => exact absurd hr (fields_ne r)
  | cons g gs =>
    cases hr' : fields r' with
    | nil => exact absurd hr' (fields_ne r')
    | cons g' gs' =>
      rw [hr, hr'] at he h
      simp only [List.head?_cons, Option.some.injEq] at he
      subst he
      by_cases hg : g = []
      · subst hg; simpa using h
      · simpa [hg] using h

theorem head_fields_blank (c : Char) (r : Str) (h : isBlank c = true) : (fields (c :: r)).head? = some [] := by
  simp [fields, h]

theorem head_fields_cons (c : Char) (r : Str) (h : isBlank c = false) :
    (fields (c :: r)).head? = (fields r).head?.map (c :: ·) := by
  simp only [fields, h, Bool.false_eq_true, if_false]
  cases hr : fields r with
  | nil => exact absurd hr (fields_ne r)
  | cons g gs => rfl

/-- Compressing runs of blanks does not change the words. -/
theorem cut_compress (s : Str) : cut (compress false s) = cut s ∧
    (fields (compress false s)).head? = (fields s).head? ∧ cut (compress true s) = cut s := by
  induction s with
  | nil => exact ⟨rfl, rfl, rfl⟩
  | cons c r ih =>
    obtain ⟨h1, h2, h3⟩ := ih
    by_cases hc : isBlank c = true
    · have hc' : (c = ' ' || c = '\t') = true := hc
      simp only [compress, hc', if_true]
      cases hb : closesBrace r with
      | true =>
        simp only [if_true]
        rw [cut_cons_blank c _ hc, cut_cons_blank c _ hc]
        exact ⟨h1, by rw [head_fields_blank c _ hc, head_fields_blank c _ hc], h1⟩
      | false =>
        simp only [Bool.false_eq_true, if_false, if_true]
        rw [cut_cons_blank ' ' _ (by decide), cut_cons_blank c _ hc]
        exact ⟨h3, by rw [head_fields_blank ' ' _ (by decide), head_fields_blank c _ hc], h3⟩
    · have hc' : ¬ (c = ' ' || c = '\t') = true := hc
      have hcf : isBlank c = false := by simpa using hc
      simp only [compress, hc', Bool.false_eq_true, if_false]
      refine ⟨fields_cons_congr c _ _ hcf h1 h2, ?_, fields_cons_congr c _ _ hcf h1 h2⟩
      rw [head_fields_cons c _ hcf, head_fields_cons c _ hcf, h2]

theorem compress_mem (b : Bool) (s : Str) : ∀ c ∈ compress b s, c ∈ s ∨ c = ' ' := by
  induction s generalizing b with
  | nil => simp [compress]
  | cons x r ih =>
    intro c hc
    simp only [compress] at hc
    repeat' split at hc
    all_goals
      first
      | (rcases List.mem_cons.1 hc with rfl | hc
         · simp
         · rcases ih _ c hc with h | h <;> simp [h])
      | (rcases ih _ c hc with h | h <;> simp [h])

theorem cut_dropWhile (s : Str) (h : ∀ c ∈ s, isSpace c = true → isBlank c = true) :
    cut (s.dropWhile isSpace) = cut s := by
  induction s with
  | nil => rfl
  | cons c r ih =>
    rw [List.dropWhile_cons]
    split
    · rename_i hs
      rw [ih fun d hd => h d (by simp [hd]), cut_cons_blank c r (h c (by simp) hs)]
    · rfl

theorem cut_dropEnd (s : Str) (h : ∀ c ∈ s, isSpace c = true → isBlank c = true) :
    cut ((s.reverse.dropWhile isSpace).reverse) = cut s := by
  induction s using List.reverseRecOn with
  | nil => rfl
  | append_singleton t c ih =>
    rw [List.reverse_append]
    simp only [List.reverse_cons, List.reverse_nil, List.nil_append, List.singleton_append,
      List.dropWhile_cons]
    split
    · rename_i hs
      rw [ih fun d hd => h d (by simp [hd]), cut_blank t [c]]
      intro d hd; simp at hd; subst hd; exact h _ (by simp) hs
    · simp

theorem cut_strip (s : Str) (h : ∀ c ∈ s, isSpace c = true → isBlank c = true) : cut (strip s) = cut s := by
  unfold strip
  rw [cut_dropEnd _ fun c hc => h c ((List.dropWhile_sublist _).subset hc), cut_dropWhile s h]

theorem splitM_plain (pd : Bool) (r : Str) (h : '$' ∉ r) : splitM pd r = [.text r] := by
  induction r generalizing pd with
  | nil => rfl
  | cons c r ih =>
    rw [List.mem_cons, not_or] at h
    have hc : c ≠ '$' := fun e => h.1 e.symm
    unfold splitM
    simp [hc, ih _ h.2, consHead]

/-- The text that is signed has the words of the expanded text. -/
theorem post_sig (r : Str) (h : OkText r) : ∃ r', post .sig r = .ok r' ∧ cut r' = cut r := by
  have hd : '$' ∉ r := fun hm => (h _ hm).1 rfl
  have hok : OkText (strip (compress false r)) := by
    intro c hc
    unfold strip at hc
    rw [List.mem_reverse] at hc
    have := (List.dropWhile_sublist _).subset hc
    rw [List.mem_reverse] at this
    have := (List.dropWhile_sublist _).subset this
    rcases compress_mem _ _ c this with hm | rfl
    · exact h c hm
    · exact isBlank_ok (by decide)
  refine ⟨finish r, ?_, ?_⟩
  · simp only [post, splitM_plain _ r hd, removeGo, Option.map_some]
    rfl
  · simp only [finish]
    rw [collapse_text' _ fun hm => (hok _ hm).1 rfl, cut_strip, (cut_compress r).1]
    intro c hc
    rcases compress_mem _ _ c hc with hm | rfl
    · exact (h c hm).2.2.2.2
    · intro _; decide

/-- The words of a command, for whatever purpose, are the words of the text that is
signed. -/
theorem neat_words (E : Env) (m : Mode) (n : Nat) (lv : Vars) (s : Str)
    (h : Neat E n lv false (.str s)) :
    ∃ r, subst E .sig n lv s = .ok r ∧ substList E m n lv (.str s) = .ok [cut r] := by
  obtain ⟨r, h1, h2, h3⟩ := neat_steps E m n lv false _ h
  obtain ⟨st', k1, k2⟩ := h3 [] .init ⟨⟨rfl, rfl, rfl⟩, fun hc => absurd rfl hc⟩ (by simp [OkText])
  have hl : substList E m n lv (.str s) = .ok [cut r] := by
    simp only [substList, k1, bind, Except.bind, pure, Except.pure, LS.result, k2.done, k2.cur]
    simp
  by_cases hd : '$' ∈ s
  · obtain ⟨r', p1, p2⟩ := post_sig r h2
    refine ⟨r', ?_, by rw [p2]; exact hl⟩
    simp [subst, hd, h1, bind, Except.bind, p1]
  · refine ⟨s, by simp [subst, hd], ?_⟩
    have : r = s := by
      cases n with
      | zero => cases h1
      | succ n => rw [substV_text E .sig n lv s hd] at h1; cases h1; rfl
    rw [this] at hl; exact hl

/-- **C84** The words that are run are the words of the text that is signed. -/
theorem C84_command_is_the_signed_text_partial (E : Env) (n : Nat) (lv : Vars) (s : Str)
    (h : Neat E n lv false (.str s)) :
    ∃ r, subst E .sig n lv s = .ok r ∧ substList E .cmd n lv (.str s) = .ok [cut r] :=
  neat_words E .cmd n lv s h

/-- **C84** If the command that is run changes, the text that is signed changes. -/
theorem C84_changed_command_changes_signature_partial (E E' : Env) (n n' : Nat) (lv lv' : Vars) (s s' : Str)
    (h : Neat E n lv false (.str s)) (h' : Neat E' n' lv' false (.str s'))
    (hne : substList E .cmd n lv (.str s) ≠ substList E' .cmd n' lv' (.str s')) :
    subst E .sig n lv s ≠ subst E' .sig n' lv' s' := by
  obtain ⟨r, h1, h2⟩ := C84_command_is_the_signed_text_partial E n lv s h
  obtain ⟨r', h1', h2'⟩ := C84_command_is_the_signed_text_partial E' n' lv' s' h'
  intro he
  rw [h1, h1'] at he
  cases he
  exact hne (h2.trans h2'.symm)

end Verif.Subst
