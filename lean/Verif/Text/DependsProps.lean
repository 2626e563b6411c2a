import Verif.Text.Depends

/-!
# C93: theorems

Specification: the dependency files that compilers write for `make`. A file is a list of
rules, comments and empty lines. A rule is a line of names, blanks, a colon and line
continuations (a backslash at the end of a line).
-/

namespace Verif.Depends
open Verif.Subst (Str isSpace)

/-- What a rule is made of. `cont a b c` is a line continuation: blanks `a`, a backslash,
blanks `b`, the end of the line, blanks `c`. -/
inductive Tk where
  | name (w : Str)
  | blanks (b : Str)
  | cont (a b c : Str)

def Blank (b : Str) : Prop := ∀ c ∈ b, c = ' ' ∨ c = '\t'

def Tk.text : Tk → Str
  | .name w => w
  | .blanks b => b
  | .cont a b c => a ++ ['\\'] ++ b ++ ['\n'] ++ c

/-- Blanks are blanks. A continuation has a blank before the backslash or on the next line. Names
are not empty, have no white space, and no backslash at the end. -/
def Tk.Ok : Tk → Prop
  | .name w => w ≠ [] ∧ (∀ c ∈ w, isSpace c = false) ∧ w.getLast? ≠ some '\\'
  | .blanks b => b ≠ [] ∧ Blank b
  | .cont a b c => (a ≠ [] ∨ c ≠ []) ∧ Blank a ∧ Blank b ∧ Blank c

def Tk.isName : Tk → Bool
  | .name _ => true
  | _ => false

def Tk.name? : Tk → Option Str
  | .name w => some w
  | _ => none

/-- No name directly after another. -/
def Spaced : List Tk → Prop
  | [] => True
  | [_] => True
  | a :: b :: r => (a.isName = true → b.isName = false) ∧ Spaced (b :: r)

def side (l : List Tk) : Str := l.flatMap Tk.text

/-- A rule `targets: dependencies`, a comment, or a line of blanks. -/
inductive Item where
  | rule (l r : List Tk)
  | comment (s : Str)
  | empty (b : Str)

def Item.text : Item → Str
  | .rule l r => side l ++ [':'] ++ side r ++ ['\n']
  | .comment s => '#' :: s ++ ['\n']
  | .empty b => b ++ ['\n']

/-- No colon in the names of targets; the first target does not begin with `#`; a comment
does not end with a backslash. -/
def Item.Ok : Item → Prop
  | .rule l r => (∀ t ∈ l, t.Ok) ∧ (∀ t ∈ r, t.Ok) ∧ Spaced l ∧ Spaced r ∧
      (∀ w, .name w ∈ l → ':' ∉ w) ∧ (∀ w l', l = .name w :: l' → w.head? ≠ some '#')
  | .comment s => '\n' ∉ s ∧ (∀ c ∈ s, isSpace c = true → c = ' ' ∨ c = '\t') ∧
      ∀ a b, s = a ++ '\\' :: b → ¬ Blank b
  | .empty b => Blank b

/-- The targets and dependencies of a rule. -/
def Item.rule? : Item → Option (List Str × List Str)
  | .rule l r => some (l.filterMap Tk.name?, r.filterMap Tk.name?)
  | _ => none

/-! ### Lines -/

theorem physGo_line (cur a r : Str) (h : '\n' ∉ a) :
    physGo cur (a ++ '\n' :: r) = (cur.reverse ++ a ++ ['\n']) :: physGo [] r := by
  induction a generalizing cur with
  | nil => simp [physGo]
  | cons c a ih =>
    simp only [List.mem_cons, not_or] at h
    have hc : c ≠ '\n' := fun e => h.1 e.symm
    simp only [List.cons_append, physGo, hc, if_false]
    rw [ih _ h.2]
    simp

theorem physLines_line (a r : Str) (h : '\n' ∉ a) :
    physLines (a ++ '\n' :: r) = (a ++ ['\n']) :: physLines r := by
  simpa [physLines] using physGo_line [] a r h

theorem blank_space {b : Str} (h : Blank b) : ∀ c ∈ b, isSpace c = true := by
  intro c hc
  rcases h c hc with rfl | rfl <;> decide

theorem blank_nonl {b : Str} (h : Blank b) : '\n' ∉ b := by
  intro hm
  rcases h _ hm with h | h <;> exact absurd h (by decide)

theorem rstrip_space (a b : Str) (h : ∀ c ∈ b, isSpace c = true) : rstrip (a ++ b) = rstrip a := by
  simp only [rstrip, List.reverse_append]
  congr 1
  have h' : ∀ c ∈ b.reverse, isSpace c = true := fun c hc => h c (List.mem_reverse.1 hc)
  generalize b.reverse = x at h'
  induction x with
  | nil => rfl
  | cons y x ih =>
    simp only [List.cons_append, List.dropWhile, h' y List.mem_cons_self]
    exact ih fun c hc => h' c (List.mem_cons_of_mem _ hc)

theorem rstrip_last (a : Str) (c : Char) (h : isSpace c = false) : rstrip (a ++ [c]) = a ++ [c] := by
  simp [rstrip, List.reverse_append, List.dropWhile, h]

/-- The line so far does not continue. -/
def NB (s : Str) : Prop := (rstrip s).getLast? ≠ some '\\'

theorem NB_blank {a b : Str} (h : NB a) (hb : Blank b) : NB (a ++ b) := by
  unfold NB; rw [rstrip_space _ _ (blank_space hb)]; exact h

theorem NB_last {a : Str} {c : Char} (h : isSpace c = false) (hc : c ≠ '\\') : NB (a ++ [c]) := by
  unfold NB; rw [rstrip_last _ _ h]; simp [hc]

theorem NB_nil : NB [] := by simp [NB, rstrip]

theorem NB_name {a w : Str} (h1 : w ≠ []) (h2 : ∀ c ∈ w, isSpace c = false)
    (h3 : w.getLast? ≠ some '\\') : NB (a ++ w) := by
  have hw : w = w.dropLast ++ [w.getLast h1] := (List.dropLast_concat_getLast h1).symm
  rw [hw, ← List.append_assoc]
  refine NB_last (h2 _ (List.getLast_mem h1)) ?_
  intro e
  apply h3
  rw [List.getLast?_eq_some_getLast h1, e]

/-- The text of a rule on one line. -/
def Tk.flat : Tk → Str
  | .name w => w
  | .blanks b => b
  | .cont a _ c => a ++ c

def flats (l : List Tk) : Str := l.flatMap Tk.flat

/-- Reading the rest of a side: `cur` is the line so far, `k` what follows. -/
theorem logical_side (l : List Tk) (hl : ∀ t ∈ l, t.Ok) (k : Str) (out : Str → List Str)
    (hk : ∀ acc cur, NB cur → '\n' ∉ cur →
      logicalGo acc (physLines (cur ++ k)) = out (acc.flatten ++ cur)) :
    ∀ acc cur, NB cur → '\n' ∉ cur →
      logicalGo acc (physLines (cur ++ (side l ++ k))) = out (acc.flatten ++ cur ++ flats l) := by
  induction l with
  | nil => intro acc cur h1 h2; simpa [side, flats] using hk acc cur h1 h2
  | cons t l ih =>
    intro acc cur h1 h2
    have ih' := ih fun t ht => hl t (List.mem_cons_of_mem _ ht)
    have ht := hl t List.mem_cons_self
    have hs : side (t :: l) ++ k = t.text ++ (side l ++ k) := by simp [side]
    have hf : flats (t :: l) = t.flat ++ flats l := by simp [flats]
    rw [hs, hf]
    cases t with
    | name w =>
      obtain ⟨w1, w2, w3⟩ := ht
      have hn : '\n' ∉ w := fun hm => absurd (w2 _ hm) (by decide)
      have := ih' acc (cur ++ w) (NB_name w1 w2 w3) (by simp [h2, hn])
      simpa [Tk.text, Tk.flat] using this
    | blanks b =>
      obtain ⟨_, hb⟩ := ht
      have := ih' acc (cur ++ b) (NB_blank h1 hb) (by simp [h2, blank_nonl hb])
      simpa [Tk.text, Tk.flat] using this
    | cont a b c =>
      obtain ⟨_, ha, hb, hc⟩ := ht
      have hline : cur ++ (Tk.text (.cont a b c) ++ (side l ++ k))
          = (cur ++ a ++ ['\\'] ++ b) ++ '\n' :: (c ++ (side l ++ k)) := by simp [Tk.text]
      have hnl : '\n' ∉ cur ++ a ++ ['\\'] ++ b := by
        simp [h2, blank_nonl ha, blank_nonl hb]
      rw [hline, physLines_line _ _ hnl, logicalGo.eq_def]
      have hr : rstrip (cur ++ a ++ ['\\'] ++ b ++ ['\n']) = cur ++ a ++ ['\\'] := by
        rw [rstrip_space _ ['\n'] (by decide), rstrip_space _ b (blank_space hb),
          rstrip_last _ _ (by decide)]
      simp only [hr]
      rw [if_pos (by simp)]
      have hNB : NB c := by simpa using NB_blank NB_nil hc
      have := ih' (acc ++ [(cur ++ a ++ ['\\']).dropLast]) c hNB (blank_nonl hc)
      rw [this, List.dropLast_concat]
      simp [Tk.flat]

theorem logical_end (rest : Str) (acc : List Str) (cur : Str) (h1 : NB cur) (h2 : '\n' ∉ cur) :
    logicalGo acc (physLines (cur ++ '\n' :: rest))
      = (acc.flatten ++ cur ++ ['\n']) :: logicalGo [] (physLines rest) := by
  rw [physLines_line _ _ h2, logicalGo.eq_def]
  have hr : rstrip (cur ++ ['\n']) = rstrip cur := rstrip_space _ _ (by decide)
  simp only [hr]
  rw [if_neg h1]
  simp

theorem logical_rule (l r : List Tk) (hl : ∀ t ∈ l, t.Ok) (hr : ∀ t ∈ r, t.Ok) (rest : Str) :
    logicalGo [] (physLines ((Item.rule l r).text ++ rest))
      = (flats l ++ [':'] ++ flats r ++ ['\n']) :: logicalGo [] (physLines rest) := by
  have h2 := logical_side r hr ('\n' :: rest) (fun x => (x ++ ['\n']) :: logicalGo [] (physLines rest))
    (fun acc cur a b => by simpa using logical_end rest acc cur a b)
  have h1 := logical_side l hl (':' :: (side r ++ '\n' :: rest))
    (fun x => (x ++ [':'] ++ flats r ++ ['\n']) :: logicalGo [] (physLines rest))
    (fun acc cur a b => by
      have := h2 acc (cur ++ [':']) (NB_last (by decide) (by decide)) (by simp [b])
      simpa using this)
    [] [] NB_nil (by simp)
  simpa [Item.text] using h1

/-! ### Names -/

theorem wordsGo_blank (b r : Str) (h : ∀ c ∈ b, isSpace c = true) : wordsGo [] (b ++ r) = wordsGo [] r := by
  induction b with
  | nil => rfl
  | cons c b ih =>
    simp only [List.cons_append, wordsGo, h c List.mem_cons_self, if_true]
    exact ih fun c hc => h c (List.mem_cons_of_mem _ hc)

theorem wordsGo_sep (w b r : Str) (hw : w ≠ []) (hb : b ≠ []) (h : ∀ c ∈ b, isSpace c = true) :
    wordsGo w (b ++ r) = w.reverse :: wordsGo [] r := by
  cases b with
  | nil => exact absurd rfl hb
  | cons c b =>
    simp only [List.cons_append, wordsGo, h c List.mem_cons_self, if_true, hw, if_false]
    rw [wordsGo_blank _ _ fun c hc => h c (List.mem_cons_of_mem _ hc)]

theorem wordsGo_word (x w r : Str) (h : ∀ c ∈ w, isSpace c = false) :
    wordsGo x (w ++ r) = wordsGo (w.reverse ++ x) r := by
  induction w generalizing x with
  | nil => rfl
  | cons c w ih =>
    simp only [List.cons_append, wordsGo, h c List.mem_cons_self, Bool.false_eq_true, if_false]
    rw [ih _ fun c hc => h c (List.mem_cons_of_mem _ hc)]
    simp

theorem gap_space {t : Tk} (ht : t.Ok) (hn : t.isName = false) :
    t.flat ≠ [] ∧ (∀ c ∈ t.flat, isSpace c = true) ∧ t.name? = none := by
  cases t with
  | name w => simp [Tk.isName] at hn
  | blanks b => exact ⟨ht.1, blank_space ht.2, rfl⟩
  | cont a b c =>
    obtain ⟨h1, h2, _, h4⟩ := ht
    refine ⟨?_, ?_, rfl⟩
    · simp only [Tk.flat, ne_eq, List.append_eq_nil_iff, not_and]
      intro e; rcases h1 with h1 | h1
      · exact absurd e h1
      · exact h1
    · intro x hx
      simp only [Tk.flat, List.mem_append] at hx
      rcases hx with hx | hx
      · exact blank_space h2 x hx
      · exact blank_space h4 x hx

theorem words_flats (l : List Tk) (hl : ∀ t ∈ l, t.Ok) (hs : Spaced l) (e : Str)
    (he : ∀ c ∈ e, isSpace c = true) :
    wordsGo [] (flats l ++ e) = l.filterMap Tk.name? := by
  induction l with
  | nil =>
    have := wordsGo_blank e [] he
    simpa [flats, wordsGo] using this
  | cons t l ih =>
    have ht := hl t List.mem_cons_self
    have hl' : ∀ t ∈ l, t.Ok := fun t ht => hl t (List.mem_cons_of_mem _ ht)
    have hs' : Spaced l := by
      cases l with
      | nil => trivial
      | cons b r => exact hs.2
    have IH := ih hl' hs'
    have hf : flats (t :: l) ++ e = t.flat ++ (flats l ++ e) := by simp [flats]
    rw [hf]
    cases hn : t.isName with
    | false =>
      obtain ⟨_, g2, g3⟩ := gap_space ht hn
      rw [wordsGo_blank _ _ g2, IH]
      simp [List.filterMap_cons, g3]
    | true =>
      cases t with
      | blanks b => simp [Tk.isName] at hn
      | cont a b c => simp [Tk.isName] at hn
      | name w =>
        obtain ⟨w1, w2, _⟩ := ht
        have hwr : w.reverse ++ [] ≠ [] := by simpa using w1
        rw [show (Tk.name w).flat = w from rfl, wordsGo_word _ _ _ w2]
        cases l with
        | nil =>
          simp only [flats, List.flatMap_nil, List.nil_append]
          cases e with
          | nil => simp [wordsGo, w1, Tk.name?]
          | cons c e =>
            have := wordsGo_sep (w.reverse ++ []) (c :: e) [] hwr (by simp) he
            simp only [List.append_nil] at this ⊢
            rw [this]
            simp [wordsGo, Tk.name?]
        | cons b r =>
          have hb := hs.1 rfl
          obtain ⟨g1, g2, g3⟩ := gap_space (hl' b List.mem_cons_self) hb
          have hf2 : flats (b :: r) ++ e = b.flat ++ (flats r ++ e) := by simp [flats]
          rw [hf2, wordsGo_sep _ _ _ hwr g1 g2]
          rw [hf2, wordsGo_blank _ _ g2] at IH
          rw [IH]
          simp [Tk.name?]

theorem splitColon_first (a b : Str) (h : ':' ∉ a) : splitColon (a ++ ':' :: b) = some (a, b) := by
  induction a with
  | nil => simp [splitColon]
  | cons c a ih =>
    simp only [List.mem_cons, not_or] at h
    have hc : c ≠ ':' := fun e => h.1 e.symm
    simp only [List.cons_append, splitColon, hc, if_false, ih h.2, Option.map_some]

theorem splitColon_none (a : Str) (h : ':' ∉ a) : splitColon a = none := by
  induction a with
  | nil => rfl
  | cons c a ih =>
    simp only [List.mem_cons, not_or] at h
    have hc : c ≠ ':' := fun e => h.1 e.symm
    simp only [splitColon, hc, if_false, ih h.2, Option.map_none]

theorem flats_nocolon (l : List Tk) (hl : ∀ t ∈ l, t.Ok) (hc : ∀ w, .name w ∈ l → ':' ∉ w) :
    ':' ∉ flats l := by
  intro hm
  obtain ⟨t, ht, hm⟩ := List.mem_flatMap.1 hm
  have hb : ∀ b : Str, Blank b → ':' ∉ b := fun b hb hm => by
    rcases hb _ hm with h | h <;> exact absurd h (by decide)
  cases t with
  | name w => exact hc w ht hm
  | blanks b => exact hb b (hl _ ht).2 hm
  | cont a b c =>
    obtain ⟨_, h2, _, h4⟩ := hl _ ht
    simp only [Tk.flat, List.mem_append] at hm
    rcases hm with hm | hm
    · exact hb a h2 hm
    · exact hb c h4 hm

theorem flats_head (l : List Tk) (hl : ∀ t ∈ l, t.Ok) (hh : ∀ w l', l = .name w :: l' → w.head? ≠ some '#')
    (k : Str) (hk : k.head? ≠ some '#') : (flats l ++ k).head? ≠ some '#' := by
  cases l with
  | nil => simpa [flats] using hk
  | cons t l =>
    have hf : flats (t :: l) ++ k = t.flat ++ (flats l ++ k) := by simp [flats]
    rw [hf]
    have ht := hl t List.mem_cons_self
    have hb : ∀ b x : Str, b ≠ [] → (∀ c ∈ b, isSpace c = true) → (b ++ x).head? ≠ some '#' := by
      intro b x h1 h2
      cases b with
      | nil => exact absurd rfl h1
      | cons c b =>
        simp only [List.cons_append, List.head?_cons, ne_eq, Option.some.injEq]
        intro e
        have := h2 c List.mem_cons_self
        rw [e] at this
        exact absurd this (by decide)
    cases hn : t.isName with
    | false =>
      obtain ⟨g1, g2, _⟩ := gap_space ht hn
      exact hb _ _ g1 g2
    | true =>
      cases t with
      | blanks b => simp [Tk.isName] at hn
      | cont a b c => simp [Tk.isName] at hn
      | name w =>
        have := hh w l rfl
        cases w with
        | nil => exact absurd rfl ht.1
        | cons c w => simpa [Tk.flat] using this

/-! ### The file -/

def fileText (items : List Item) : Str := items.flatMap Item.text

theorem comment_NB {s : Str} (h : Item.Ok (.comment s)) : NB ('#' :: s) := by
  obtain ⟨_, h2, h3⟩ := h
  unfold NB
  intro hg
  have hsplit : ∃ y z, '#' :: s = y ++ z ∧ rstrip ('#' :: s) = y ∧ ∀ c ∈ z, isSpace c = true := by
    refine ⟨_, (('#' :: s).reverse.takeWhile isSpace).reverse, ?_, rfl, ?_⟩
    · rw [rstrip, ← List.reverse_append, List.takeWhile_append_dropWhile, List.reverse_reverse]
    · intro c hc
      have := List.all_takeWhile (p := isSpace) (l := ('#' :: s).reverse)
      rw [List.all_eq_true] at this
      exact this c (List.mem_reverse.1 hc)
  obtain ⟨y, z, e1, e2, e3⟩ := hsplit
  rw [e2] at hg
  have hy : y ≠ [] := by rintro rfl; simp at hg
  have hy' : y = y.dropLast ++ ['\\'] := by
    have := (List.dropLast_concat_getLast hy).symm
    rw [List.getLast?_eq_some_getLast hy] at hg
    simp only [Option.some.injEq] at hg
    rw [hg] at this
    exact this
  have hz : Blank z := by
    intro c hc
    cases hd : y.dropLast with
    | nil =>
      rw [hy', hd] at e1
      simp only [List.nil_append, List.cons_append, List.cons.injEq] at e1
      exact absurd e1.1 (by decide)
    | cons a y2 =>
      rw [hy', hd] at e1
      simp only [List.cons_append, List.cons.injEq] at e1
      exact h2 c (by rw [e1.2]; simp [hc]) (e3 c hc)
  cases hd : y.dropLast with
  | nil =>
    rw [hy', hd] at e1
    simp only [List.nil_append, List.cons_append, List.cons.injEq] at e1
    exact absurd e1.1 (by decide)
  | cons a y2 =>
    rw [hy', hd] at e1
    simp only [List.cons_append, List.cons.injEq, List.append_assoc, List.nil_append] at e1
    exact h3 y2 z e1.2 hz

theorem tdList_items (items : List Item) (h : ∀ i ∈ items, i.Ok) :
    tdList (fileText items) = items.filterMap Item.rule? := by
  induction items with
  | nil => rfl
  | cons i items ih =>
    have IH := ih fun i hi => h i (List.mem_cons_of_mem _ hi)
    have hi := h i List.mem_cons_self
    have hf : fileText (i :: items) = i.text ++ fileText items := by simp [fileText]
    unfold tdList logicalLines at IH ⊢
    rw [hf]
    cases i with
    | rule l r =>
      obtain ⟨h1, h2, h3, h4, h5, h6⟩ := hi
      rw [logical_rule l r h1 h2]
      have hh : (flats l ++ [':'] ++ flats r ++ ['\n']).head? ≠ some '#' := by
        have := flats_head l h1 h6 (':' :: (flats r ++ ['\n'])) (by simp)
        simpa using this
      rw [List.filter_cons_of_pos (by simpa using hh)]
      rw [List.filterMap_cons]
      have hsc := splitColon_first (flats l) (flats r ++ ['\n']) (flats_nocolon l h1 h5)
      have hsc' : splitColon (flats l ++ [':'] ++ flats r ++ ['\n']) = some (flats l, flats r ++ ['\n']) := by
        simpa using hsc
      have hw1 : words (flats l) = l.filterMap Tk.name? := by
        have := words_flats l h1 h3 [] (by simp)
        simpa [words] using this
      have hw2 : words (flats r ++ ['\n']) = r.filterMap Tk.name? := words_flats r h2 h4 ['\n'] (by decide)
      simp only [hsc', Option.map_some, hw1, hw2, IH, List.filterMap_cons, Item.rule?]
    | comment s =>
      have hnl : '\n' ∉ '#' :: s := by
        have := hi.1
        simp [this]
      have : (Item.comment s).text ++ fileText items = ('#' :: s) ++ '\n' :: fileText items := by
        simp [Item.text]
      rw [this, logical_end _ _ _ (comment_NB hi) hnl, List.filter_cons_of_neg (by simp), IH]
      rfl
    | empty b =>
      have hb : Blank b := hi
      have : (Item.empty b).text ++ fileText items = b ++ '\n' :: fileText items := by
        simp [Item.text]
      have hNB : NB b := by simpa using NB_blank NB_nil hb
      rw [this, logical_end _ _ _ hNB (blank_nonl hb)]
      have hno : ':' ∉ b ++ ['\n'] := by
        intro hm
        simp only [List.mem_append, List.mem_cons, List.not_mem_nil, or_false] at hm
        rcases hm with hm | hm
        · rcases hb _ hm with e | e <;> exact absurd e (by decide)
        · exact absurd hm (by decide)
      have hn := splitColon_none _ hno
      have hh : (b ++ ['\n']).head? ≠ some '#' := by
        cases b with
        | nil => decide
        | cons c b =>
          have := hb c List.mem_cons_self
          simp only [List.cons_append, List.head?_cons, ne_eq, Option.some.injEq]
          rcases this with rfl | rfl <;> decide
      have e0 : (([] : List Str).flatten ++ b ++ ['\n']) = b ++ ['\n'] := by simp
      rw [e0, List.filter_cons_of_pos (by simpa using hh), List.filterMap_cons]
      simp only [hn, Option.map_none, IH]
      rfl

/-! ### The dependencies -/

section
variable {N : Type} [DecidableEq N]

theorem addChildren_spec (new l : List N) (hl : l.Nodup) :
    (addChildren l new).Nodup ∧ l <+: addChildren l new ∧ ∀ d, d ∈ addChildren l new ↔ d ∈ l ∨ d ∈ new := by
  induction new generalizing l with
  | nil => exact ⟨hl, List.prefix_rfl, by simp [addChildren]⟩
  | cons a new ih =>
    simp only [addChildren, List.foldl_cons]
    by_cases ha : a ∈ l
    · simp only [ha, if_true]
      obtain ⟨i1, i2, i3⟩ := ih l hl
      refine ⟨i1, i2, fun d => ?_⟩
      have := i3 d
      simp only [addChildren] at this
      rw [this]
      simp only [List.mem_cons]
      constructor
      · rintro (h | h) <;> simp [h]
      · rintro (h | rfl | h) <;> simp [*]
    · simp only [ha, if_false]
      obtain ⟨i1, i2, i3⟩ := ih (l ++ [a]) (by
        rw [List.nodup_append]
        refine ⟨hl, by simp, ?_⟩
        intro x hx y hy
        simp only [List.mem_singleton] at hy
        rintro rfl
        rw [hy] at hx
        exact ha hx)
      refine ⟨i1, List.IsPrefix.trans (List.prefix_append _ _) i2, fun d => ?_⟩
      have := i3 d
      simp only [addChildren] at this
      rw [this]
      simp only [List.mem_append, List.mem_cons, List.not_mem_nil, or_false, or_assoc]

theorem dependsOn_spec (node : Str → List N) (t d : List Str) (D : N → List N) (hD : ∀ x, (D x).Nodup) :
    ∀ x, (dependsOn node D t d x).Nodup ∧ D x <+: dependsOn node D t d x ∧
      ∀ y, y ∈ dependsOn node D t d x ↔ y ∈ D x ∨ (x ∈ t.flatMap node ∧ y ∈ d.flatMap node) := by
  unfold dependsOn
  generalize t.flatMap node = tl
  generalize d.flatMap node = dl
  induction tl generalizing D with
  | nil => intro x; exact ⟨hD x, List.prefix_rfl, by simp⟩
  | cons a tl ih =>
    intro x
    rw [List.foldl_cons]
    have hD' : ∀ z, ((fun y => if y = a then addChildren (D a) dl else D y) z : List N).Nodup := by
      intro z
      by_cases hz : z = a
      · simp only [hz, if_true]; exact (addChildren_spec dl (D a) (hD a)).1
      · simp only [hz, if_false]; exact hD z
    obtain ⟨i1, i2, i3⟩ := ih _ hD' x
    refine ⟨i1, ?_, ?_⟩
    · refine List.IsPrefix.trans ?_ i2
      by_cases hx : x = a
      · simp only [hx, if_true]; exact (addChildren_spec dl (D a) (hD a)).2.1
      · simp only [hx, if_false]; exact List.prefix_rfl
    · intro y
      rw [i3 y]
      by_cases hx : x = a
      · simp only [hx, if_true, (addChildren_spec dl (D a) (hD a)).2.2 y, List.mem_cons, true_or, true_and]
        constructor
        · rintro ((h | h) | h) <;> simp [h]
        · rintro (h | h) <;> simp [h]
      · simp only [hx, if_false, List.mem_cons, false_or]

theorem foldl_spec (node : Str → List N) (td : List (List Str × List Str)) (D : N → List N)
    (hD : ∀ x, (D x).Nodup) :
    ∀ x, (td.foldl (fun D p => dependsOn node D p.1 p.2) D x).Nodup ∧
      D x <+: td.foldl (fun D p => dependsOn node D p.1 p.2) D x ∧
      ∀ y, y ∈ td.foldl (fun D p => dependsOn node D p.1 p.2) D x ↔
        y ∈ D x ∨ ∃ p ∈ td, (∃ t ∈ p.1, x ∈ node t) ∧ ∃ d ∈ p.2, y ∈ node d := by
  induction td generalizing D with
  | nil => intro x; exact ⟨hD x, List.prefix_rfl, by simp⟩
  | cons p td ih =>
    intro x
    obtain ⟨h1, h2, h3⟩ := dependsOn_spec node p.1 p.2 D hD x
    obtain ⟨i1, i2, i3⟩ := ih (dependsOn node D p.1 p.2) (fun z => (dependsOn_spec node p.1 p.2 D hD z).1) x
    rw [List.foldl_cons]
    refine ⟨i1, List.IsPrefix.trans h2 i2, fun y => ?_⟩
    rw [i3 y, h3 y]
    simp only [List.mem_flatMap, List.mem_cons, exists_eq_or_imp, or_assoc]

/-- **C93** `ParseDepends` makes exactly the dependencies that are in the file: a node depends
on another afterwards if and only if it did before or a rule of the file has the one among
its targets and the other among its dependencies. Dependencies from before keep their place,
and none is there twice. -/
theorem C93_dependencies_of_the_file_partial (node : Str → List N) (items : List Item)
    (h : ∀ i ∈ items, i.Ok) (mustExist : Bool) (D : N → List N) (hD : ∀ x, (D x).Nodup) :
    ∃ D', parseDepends node (some (fileText items)) mustExist false D = .ok D' ∧
      ∀ x, (D' x).Nodup ∧ D x <+: D' x ∧ ∀ y, y ∈ D' x ↔ y ∈ D x ∨
        ∃ l r, Item.rule l r ∈ items ∧ (∃ t, .name t ∈ l ∧ x ∈ node t) ∧ ∃ d, .name d ∈ r ∧ y ∈ node d := by
  refine ⟨_, rfl, fun x => ?_⟩
  rw [tdList_items items h]
  obtain ⟨h1, h2, h3⟩ := foldl_spec node (items.filterMap Item.rule?) D hD x
  refine ⟨h1, h2, fun y => ?_⟩
  rw [h3 y]
  have hname : ∀ (l : List Tk) (P : Str → Prop), (∃ t ∈ l.filterMap Tk.name?, P t) ↔ ∃ t, .name t ∈ l ∧ P t := by
    intro l P
    simp only [List.mem_filterMap]
    constructor
    · rintro ⟨t, ⟨k, hk, e⟩, hP⟩
      cases k with
      | name w => simp only [Tk.name?, Option.some.injEq] at e; subst e; exact ⟨w, hk, hP⟩
      | blanks b => simp [Tk.name?] at e
      | cont a b c => simp [Tk.name?] at e
    · rintro ⟨t, ht, hP⟩
      exact ⟨t, ⟨.name t, ht, rfl⟩, hP⟩
  have hex : (∃ p ∈ items.filterMap Item.rule?, (∃ t ∈ p.1, x ∈ node t) ∧ ∃ d ∈ p.2, y ∈ node d) ↔
      ∃ l r, Item.rule l r ∈ items ∧ (∃ t, .name t ∈ l ∧ x ∈ node t) ∧ ∃ d, .name d ∈ r ∧ y ∈ node d := by
    constructor
    · rintro ⟨p, hp, ha, hb⟩
      obtain ⟨i, hi, e⟩ := List.mem_filterMap.1 hp
      cases i with
      | rule l r =>
        simp only [Item.rule?, Option.some.injEq] at e
        subst e
        exact ⟨l, r, hi, (hname l _).1 ha, (hname r _).1 hb⟩
      | comment s => simp [Item.rule?] at e
      | empty b => simp [Item.rule?] at e
    · rintro ⟨l, r, hi, ha, hb⟩
      exact ⟨_, List.mem_filterMap.2 ⟨_, hi, rfl⟩, (hname l _).2 ha, (hname r _).2 hb⟩
  rw [hex]

/-- **C93** With `only_one`, a file with more than one target changes nothing: it is an
error. -/
theorem C93_only_one (node : Str → List N) (items : List Item) (h : ∀ i ∈ items, i.Ok)
    (mustExist : Bool) (D : N → List N) :
    parseDepends node (some (fileText items)) mustExist true D =
      if (items.filterMap Item.rule?).flatMap (fun p => p.1) |>.length.ble 1 then
        parseDepends node (some (fileText items)) mustExist false D
      else .userError := by
  unfold parseDepends
  simp only [tdList_items items h, Bool.true_and, Bool.false_and, Bool.false_eq_true, if_false,
    decide_eq_true_eq, Nat.ble_eq]
  split <;> split <;> first | rfl | omega

/-! ### The end of the last line -/

/-- What is made of one logical line. -/
def proc (l : Str) : Option (List Str × List Str) :=
  if l.head? ≠ some '#' then (splitColon l).map fun (t, d) => (words t, words d) else none

theorem tdList_proc (s : Str) : tdList s = (logicalLines s).filterMap proc := by
  unfold tdList
  generalize logicalLines s = L
  induction L with
  | nil => rfl
  | cons l L ih =>
    simp only [List.filter_cons, List.filterMap_cons, proc]
    by_cases h : l.head? = some '#'
    · simpa [h] using ih
    · simp only [ne_eq, h, not_false_eq_true, decide_true, if_true, List.filterMap_cons]
      rw [ih]

theorem wordsGo_nl (w x : Str) : wordsGo w (x ++ ['\n']) = wordsGo w x := by
  induction x generalizing w with
  | nil =>
    have : isSpace '\n' = true := by decide
    simp only [List.nil_append, wordsGo, this, if_true]
  | cons c x ih =>
    simp only [List.cons_append, wordsGo, ih]

theorem splitColon_nl (x : Str) : splitColon (x ++ ['\n']) = (splitColon x).map fun (a, b) => (a, b ++ ['\n']) := by
  induction x with
  | nil => rfl
  | cons c x ih =>
    simp only [List.cons_append, splitColon]
    split
    · rfl
    · rw [ih]; cases splitColon x <;> rfl

theorem proc_nl (x : Str) : proc (x ++ ['\n']) = proc x := by
  cases x with
  | nil => decide
  | cons c x =>
    have e : splitColon (c :: (x ++ ['\n'])) = (splitColon (c :: x)).map fun (a, b) => (a, b ++ ['\n']) :=
      splitColon_nl (c :: x)
    simp only [proc, List.cons_append, List.head?_cons, e]
    congr 1
    cases splitColon (c :: x) with
    | none => rfl
    | some p => simp [words, wordsGo_nl]

theorem rstrip_nl (x : Str) : rstrip (x ++ ['\n']) = rstrip x := by
  have : isSpace '\n' = true := by decide
  simp [rstrip, this]

theorem physGo_nl (cur s : Str) :
    (∃ init last, physGo cur s = init ++ [last] ∧ physGo cur (s ++ ['\n']) = init ++ [last ++ ['\n']])
    ∨ physGo cur (s ++ ['\n']) = physGo cur s ++ [['\n']] := by
  induction s generalizing cur with
  | nil =>
    cases cur with
    | nil => exact .inr rfl
    | cons c cur => exact .inl ⟨[], (c :: cur).reverse, rfl, by simp [physGo]⟩
  | cons c s ih =>
    simp only [List.cons_append, physGo]
    split
    · rcases ih [] with ⟨i, l, h1, h2⟩ | h
      · exact .inl ⟨(c :: cur).reverse :: i, l, by simp [h1], by simp [h2]⟩
      · exact .inr (by simp [h])
    · exact ih _

theorem logical_more (acc L : List Str) :
    (logicalGo acc (L ++ [['\n']])).filterMap proc = (logicalGo acc L).filterMap proc := by
  induction L generalizing acc with
  | nil =>
    have h : ¬ (rstrip ['\n']).getLast? = some '\\' := by decide
    simp only [List.nil_append]
    rw [logicalGo.eq_def]
    simp only [h, if_false]
    cases acc with
    | nil => decide
    | cons a acc =>
      have e : logicalGo (a :: acc) [] = [(a :: acc).flatten] := rfl
      have e0 : logicalGo [] [] = [] := rfl
      rw [e, e0, List.flatten_append]
      have := proc_nl (a :: acc).flatten
      simp only [List.flatten_cons, List.flatten_nil, List.append_nil, List.filterMap_cons, List.filterMap_nil] at this ⊢
      rw [this]
  | cons l L ih =>
    rw [List.cons_append, logicalGo.eq_def acc (l :: L), logicalGo.eq_def acc (l :: (L ++ _))]
    simp only
    split
    · exact ih _
    · simp only [List.filterMap_cons, ih]

theorem logical_longer (acc L : List Str) (last : Str) :
    (logicalGo acc (L ++ [last ++ ['\n']])).filterMap proc = (logicalGo acc (L ++ [last])).filterMap proc := by
  induction L generalizing acc with
  | nil =>
    simp only [List.nil_append]
    rw [logicalGo.eq_def acc [last], logicalGo.eq_def acc [last ++ ['\n']]]
    simp only [rstrip_nl]
    split
    · rfl
    · have := proc_nl (acc ++ [last]).flatten
      simp only [List.flatten_append, List.flatten_cons, List.flatten_nil, List.append_nil, List.filterMap_cons] at this ⊢
      rw [← List.append_assoc, this]
  | cons l L ih =>
    rw [List.cons_append, List.cons_append, logicalGo.eq_def acc (l :: _), logicalGo.eq_def acc (l :: _)]
    simp only
    split
    · exact ih _
    · simp only [List.filterMap_cons, ih]

/-- **C93** It makes no difference whether the last line of the file has a line end. -/
theorem C93_last_line_end (node : Str → List N) (text : Str) (mustExist onlyOne : Bool) (D : N → List N) :
    parseDepends node (some (text ++ ['\n'])) mustExist onlyOne D = parseDepends node (some text) mustExist onlyOne D := by
  have h : tdList (text ++ ['\n']) = tdList text := by
    rw [tdList_proc, tdList_proc]
    simp only [logicalLines, physLines]
    rcases physGo_nl [] text with ⟨i, l, h1, h2⟩ | h
    · rw [h1, h2]; exact logical_longer [] i l
    · rw [h]; exact logical_more [] _
  simp only [parseDepends, h]

/-- **C93** A file that is not there is an error with `must_exist`, and nothing otherwise. -/
theorem C93_missing_file (node : Str → List N) (onlyOne : Bool) (D : N → List N) :
    parseDepends node none true onlyOne D = .osError ∧ parseDepends node none false onlyOne D = .ok D :=
  ⟨rfl, rfl⟩

end
end Verif.Depends
