import Verif.Cpp.Text
/-!
# C90: the directive lines are found, with their arguments
-/
namespace Verif.CppText

/-! ### Specification -/

/-- White space within a line. -/
def blankC (c : Char) : Prop := c = ' ' ∨ c = '\t' ∨ c = '\x0b' ∨ c = '\x0c'

def Blank (s : Str) : Prop := ∀ c ∈ s, blankC c

/-- No end of line after a backslash, in this piece or where it ends. -/
structure NoBreak (p : Str) : Prop where
  lf : ∀ u v, p ≠ u ++ '\\' :: '\n' :: v
  crlf : ∀ u v, p ≠ u ++ '\\' :: '\r' :: '\n' :: v
  last : ∀ u, p ≠ u ++ ['\\']
  lastCr : ∀ u, p ≠ u ++ ['\\', '\r']

/-- The second text is the first without the ends of lines that follow a backslash. -/
inductive Joined : Str → Str → Prop where
  | last {p} (h : NoBreak p) : Joined p p
  | lf {p t u} (h : NoBreak p) (ht : Joined t u) : Joined (p ++ '\\' :: '\n' :: t) (p ++ u)
  | crlf {p t u} (h : NoBreak p) (ht : Joined t u) : Joined (p ++ '\\' :: '\r' :: '\n' :: t) (p ++ u)

/-- What a line may end with, and what of it is not a comment. -/
inductive Tail : Str → Str → Prop where
  | blanks {bs} (h : Blank bs) : Tail bs bs
  | line {bs} (h : Blank bs) (text : Str) : Tail (bs ++ '/' :: '/' :: text) []
  | block {bs} (h : Blank bs) (text : Str) : Tail (bs ++ '/' :: '*' :: (text ++ ['*', '/'])) []
  | blockCr {bs} (h : Blank bs) (text : Str) : Tail (bs ++ '/' :: '*' :: (text ++ ['*', '/', '\r'])) []
  | cr {bs} (h : Blank bs) : Tail (bs ++ ['\r']) []

/-- Text without comments that does not end with white space (or a slash). -/
structure Plain (s : Str) : Prop where
  cr : '\r' ∉ s
  block : ∀ u v, s ≠ u ++ '/' :: '*' :: v
  line : ∀ u v, s ≠ u ++ '/' :: '/' :: v
  last : ∀ u c, s = u ++ [c] → ¬ blankC c ∧ c ≠ '/'
  ne : s ≠ []

/-- An identifier. -/
def Ident (x : Str) : Prop := ∃ c r, x = c :: r ∧ isIdStart c = true ∧ ∀ d ∈ r, isIdChar d = true

/-- Begins with something other than white space. -/
def Solid (a : Str) : Prop := ∃ c r, a = c :: r ∧ isWs c = false

/-- What follows the word, and the arguments. -/
inductive Rest : Word → Str → List (Option Str) → Prop where
  /-- `#if`, `#elif`, `#import`, `#include`: the rest of the line -/
  | text {w sep a tail kept} (hw : w = .if_ ∨ w = .elif ∨ w = .import ∨ w = .include) (hs : Blank sep)
      (ha : Solid a) (hp : Plain (sep ++ a)) (ht : Tail tail kept) :
      Rest w (sep ++ a ++ tail) [some (a ++ kept)]
  /-- `#ifdef`, `#ifndef`: one name -/
  | name {w sep x tail} (hw : w = .ifdef ∨ w = .ifndef) (hs : Blank sep) (hne : sep ≠ []) (hx : Ident x)
      (ht : Tail tail []) : Rest w (sep ++ x ++ tail) [some x]
  | word {w r} (hw : w = .else_ ∨ w = .endif) : Rest w r []
  /-- `#define` without an expansion -/
  | defineEmpty {sep x tail kept} (hs : Blank sep) (hne : sep ≠ []) (hx : Ident x) (ht : Tail tail kept) :
      Rest .define (sep ++ x ++ tail) [some x, none, some []]
  /-- `#define` with an expansion -/
  | define {sep x sep' body tail kept} (hs : Blank sep) (hne : sep ≠ []) (hx : Ident x) (hs' : Blank sep') (hne' : sep' ≠ [])
      (hb : Solid body) (hp : Plain (sep ++ x ++ sep' ++ body)) (ht : Tail tail kept) :
      Rest .define (sep ++ x ++ sep' ++ body ++ tail) [some x, none, some (body ++ kept)]
  /-- `#define` of a macro with arguments -/
  | defineArgs {sep x ps sep' body tail kept} (hs : Blank sep) (hne : sep ≠ []) (hx : Ident x) (hps : ')' ∉ ps)
      (hs' : Blank sep') (hb : Solid body) (hp : Plain (sep ++ x ++ '(' :: ps ++ ')' :: sep' ++ body)) (ht : Tail tail kept) :
      Rest .define (sep ++ x ++ '(' :: ps ++ ')' :: sep' ++ body ++ tail)
        [some x, some ('(' :: ps ++ [')']), some (body ++ kept)]
  | undef {sep x tail kept} (hs : Blank sep) (hne : sep ≠ []) (hx : Ident x) (ht : Tail tail kept) :
      Rest .undef (sep ++ x ++ tail) [some x]

/-- A directive line: the word ends where an identifier would end. -/
def IsDirective (line : Str) (w : Word) (args : List (Option Str)) : Prop :=
  ∃ pre gap rest, line = pre ++ '#' :: (gap ++ (w.text ++ rest)) ∧ Blank pre ∧ Blank gap ∧
    (∀ c, rest.head? = some c → isIdChar c = false) ∧ Rest w rest args

/-- A line that is no directive, or another one (`#pragma`, `#error`, `#line`, ...). -/
def IsOther (line : Str) : Prop :=
  (∀ pre r, line = pre ++ '#' :: r → ∃ c ∈ pre, isWs c = false) ∨
  (∃ pre gap r, line = pre ++ '#' :: (gap ++ r) ∧ Blank pre ∧ Blank gap ∧ Solid r ∧ ∀ w ∈ Word.order, ¬ ∃ v, r = w.text ++ v)

/-- The directives of the lines, in order. -/
inductive Lines : List Str → List (Word × List (Option Str)) → Prop where
  | nil : Lines [] []
  | other {l ls ds} (hl : '\n' ∉ l) (h : IsOther l) (hs : Lines ls ds) : Lines (l :: ls) ds
  | dir {l ls ds w args} (hl : '\n' ∉ l) (h : IsDirective l w args) (hs : Lines ls ds) : Lines (l :: ls) ((w, args) :: ds)

/-- Lines as a text. -/
def unlines (ls : List Str) : Str := ls.flatMap (· ++ ['\n'])

/-! ### Lemmas -/

theorem blank_ws {c : Char} (h : blankC c) : isWs c = true ∧ c ≠ '\n' ∧ c ≠ '\r' ∧ c ≠ '/' ∧ isIdChar c = false ∧ c ≠ '#' := by
  rcases h with rfl | rfl | rfl | rfl <;> decide

theorem id_not_ws {c : Char} (h : isIdChar c = true) : isWs c = false := by
  cases hw : isWs c with
  | false => rfl
  | true =>
    simp [isWs] at hw
    rcases hw with ((((rfl | rfl) | rfl) | rfl) | rfl) | rfl <;> exact absurd h (by decide)

theorem idStart_idChar {c : Char} (h : isIdStart c = true) : isIdChar c = true := by
  simp only [isIdStart, isIdChar, Char.isAlphanum, Bool.or_eq_true] at h ⊢
  rcases h with h | h
  · exact Or.inl h
  · exact Or.inr (Or.inl h)

theorem dropWs (b s : Str) (hb : Blank b) : (b ++ s).dropWhile isWs = s.dropWhile isWs :=
  List.dropWhile_append_of_pos fun c hc => (blank_ws (hb c hc)).1

theorem dropWs_solid {a : Str} (h : Solid a) (s : Str) : (a ++ s).dropWhile isWs = a ++ s := by
  obtain ⟨c, r, rfl, hc⟩ := h
  simp [List.dropWhile_cons, hc]

theorem after_append (p r : Str) : after p (p ++ r) = some r := by
  induction p with
  | nil => cases r <;> rfl
  | cons c p ih => simp [after, ih]

theorem after_some {p s r : Str} (h : after p s = some r) : s = p ++ r := by
  induction p generalizing s with
  | nil => cases s <;> simp_all [after]
  | cons c p ih =>
    cases s with
    | nil => cases h
    | cons d s =>
      simp only [after] at h
      split at h
      · rename_i e; rw [ih h, e]; rfl
      · cases h

theorem text_solid (w : Word) : Solid w.text := by cases w <;> exact ⟨_, _, rfl, by decide⟩

/-- The right word is found. -/
theorem firstWord_eq (w : Word) (hw : w ≠ .include_next) (rest : Str) (h : ∀ c, rest.head? = some c → isIdChar c = false) :
    firstWord (w.text ++ rest) Word.order = some (w, rest) := by
  have hd : ∀ (p : Char) (ps : Str), isIdChar p = true → after (p :: ps) rest = none := by
    intro p ps hp
    cases rest with
    | nil => rfl
    | cons c r =>
      simp only [after]
      rw [if_neg]
      rintro rfl
      rw [h p rfl] at hp
      cases hp
  have e1 := hd 'd' ['e', 'f'] (by decide)
  have e2 := hd 'n' ['d', 'e', 'f'] (by decide)
  cases w
  case include_next => exact absurd rfl hw
  all_goals simp [firstWord, tryWord, after, Word.text, Word.order, e1, e2]

theorem firstWord_none (r : Str) : ∀ ws : List Word, (∀ w ∈ ws, ¬ ∃ v, r = w.text ++ v) → firstWord r ws = none := by
  intro ws
  induction ws with
  | nil => intro _; rfl
  | cons w ws ih =>
    intro h
    have : tryWord w r = none := by
      unfold tryWord
      cases ha : after w.text r with
      | none => rfl
      | some v => exact absurd ⟨v, after_some ha⟩ (h w (by simp))
    simp [firstWord, this, ih fun w' hw' => h w' (by simp [hw'])]

/-! ### Finding -/

theorem findFrom_false (k : Nat) (l t : Str) (hk : k ≤ l.length) (hl : '\n' ∉ l) :
    findFrom k false (l ++ '\n' :: t) = findFrom 0 true t := by
  induction l generalizing k with
  | nil =>
    simp at hk
    subst hk
    simp [findFrom]
  | cons c l ih =>
    have hc : c ≠ '\n' := fun e => hl (by simp [e])
    have hl' : '\n' ∉ l := fun e => hl (by simp [e])
    cases k with
    | zero => simp [findFrom, hc, ih 0 (by simp) hl']
    | succ k => simp [findFrom, hc, ih k (by simpa using hk) hl']

/-- Skipping. -/
theorem findFrom_skip (u : Str) : ∀ (b : Bool) (r : Str), u ≠ [] → findFrom u.length b (u ++ r) = findFrom 0 (u.getLast? = some '\n') r := by
  induction u with
  | nil => intro b r h; exact absurd rfl h
  | cons c u ih =>
    intro b r _
    cases u with
    | nil => simp [findFrom]
    | cons d u =>
      have := ih (c = '\n') r (by simp)
      simp only [List.length_cons, List.cons_append, findFrom] at this ⊢
      rw [this]
      simp

/-- A match ends at the end of a line. -/
theorem matchAt_end {s : Str} {cap : Word × Str} {rest : Str} (h : matchAt s = some (cap, rest)) :
    ∃ u, s = u ++ rest ∧ u ≠ [] ∧ u.getLast? ≠ some '\n' := by
  unfold matchAt at h
  split at h
  · rename_i s1 hs1
    split at h
    · rename_i w r hw
      cases h
      have hsplit : ∀ (p : Char → Bool) (l : Str), l = l.takeWhile p ++ l.dropWhile p := fun p l => (List.takeWhile_append_dropWhile).symm
      have h1 : s = s.takeWhile isWs ++ '#' :: s1 := by rw [← hs1]; exact hsplit _ _
      have h2 := hsplit isWs s1
      obtain ⟨v, hv⟩ : ∃ v, s1.dropWhile isWs = w.text ++ v ∧ v = r := by
        clear h1 h2
        generalize s1.dropWhile isWs = x at hw
        have : ∀ ws, firstWord x ws = some (w, r) → x = w.text ++ r := by
          intro ws
          induction ws with
          | nil => intro h; cases h
          | cons w' ws ih =>
            intro h
            simp only [firstWord] at h
            split at h
            · rename_i r' hr'
              cases h
              unfold tryWord at hr'
              split at hr'
              · cases hr'
              · split at hr'
                · cases hr'
                · rename_i ha _; cases hr'; exact after_some ha
            · exact ih h
        exact ⟨r, this _ hw, rfl⟩
      obtain ⟨hv, rfl⟩ := hv
      have h3 := hsplit notNl v
      refine ⟨s.takeWhile isWs ++ '#' :: (s1.takeWhile isWs ++ (w.text ++ v.takeWhile notNl)), ?_, by simp, ?_⟩
      · conv => lhs; rw [h1, h2, hv, h3]
        simp
      · have : ∀ (x : Str), x ≠ [] → x.getLast? ≠ some '\n' → ∀ y : Str, (y ++ x).getLast? ≠ some '\n' := by
          intro x hx hx' y
          rw [List.getLast?_append]
          cases hl : x.getLast? with
          | none => exact absurd (List.getLast?_eq_none_iff.1 hl) hx
          | some c => rw [hl] at hx'; simpa using hx'
        have hwl : w.text ≠ [] ∧ w.text.getLast? ≠ some '\n' := by cases w <;> decide
        have hlast : (w.text ++ v.takeWhile notNl).getLast? ≠ some '\n' := by
          cases ht : v.takeWhile notNl with
          | nil => simpa using hwl.2
          | cons c t =>
            refine this _ (by simp) ?_ _
            intro hc
            have hm : '\n' ∈ v.takeWhile notNl := by rw [ht]; exact List.mem_of_getLast? hc
            have := List.all_eq_true.1 (List.all_takeWhile (p := notNl) (l := v)) _ hm
            simp [notNl] at this
        have e : s.takeWhile isWs ++ '#' :: (s1.takeWhile isWs ++ (w.text ++ v.takeWhile notNl)) =
            (s.takeWhile isWs ++ '#' :: s1.takeWhile isWs) ++ (w.text ++ v.takeWhile notNl) := by simp
        rw [e]
        exact this _ (by simp [hwl.1]) hlast _
    · cases h
  · cases h

theorem find_match {s : Str} {cap : Word × Str} {rest : Str} (h : matchAt s = some (cap, rest)) :
    findFrom 0 true s = cap :: findFrom 0 false rest := by
  obtain ⟨u, rfl, hu, hl⟩ := matchAt_end h
  cases u with
  | nil => exact absurd rfl hu
  | cons c u =>
    simp only [List.cons_append, findFrom, if_true] at h ⊢
    rw [h]
    dsimp only
    have e : (u ++ rest).length - rest.length = u.length := by simp
    rw [e]
    congr 1
    have := findFrom_skip (c :: u) true rest (by simp)
    simp only [List.length_cons, List.cons_append, findFrom] at this
    rw [this]
    simp [hl]

theorem find_nomatch {l t : Str} (h : matchAt (l ++ '\n' :: t) = none) (hl : '\n' ∉ l) :
    findFrom 0 true (l ++ '\n' :: t) = findFrom 0 true t := by
  cases l with
  | nil =>
    simp only [List.nil_append] at h ⊢
    simp [findFrom, h]
  | cons c l =>
    have hc : c ≠ '\n' := fun e => hl (by simp [e])
    have hl' : '\n' ∉ l := fun e => hl (by simp [e])
    simp only [List.cons_append] at h ⊢
    simp [findFrom, h, hc, findFrom_false 0 l t (by simp) hl']

theorem matchAt_ws (w s : Str) (h : ∀ c ∈ w, isWs c = true) : matchAt (w ++ s) = matchAt s := by
  unfold matchAt
  rw [List.dropWhile_append_of_pos h]

theorem find_ws {l t : Str} (h : ∀ c ∈ l, isWs c = true) (hl : '\n' ∉ l) :
    findFrom 0 true (l ++ '\n' :: t) = findFrom 0 true t := by
  have e : matchAt (l ++ '\n' :: t) = matchAt t := by
    have := matchAt_ws (l ++ ['\n']) t (by
      intro c hc
      rcases List.mem_append.1 hc with hc | hc
      · exact h c hc
      · simp at hc; subst hc; decide)
    simpa using this
  cases hm : matchAt t with
  | none => exact find_nomatch (e.trans hm) hl
  | some x =>
    obtain ⟨cap, rest⟩ := x
    rw [find_match (e.trans hm), find_match hm]

theorem text_no_nl (w : Word) : '\n' ∉ w.text := by cases w <;> decide

theorem find_other {l t : Str} (hl : '\n' ∉ l) (h : IsOther l) : findFrom 0 true (l ++ '\n' :: t) = findFrom 0 true t := by
  rcases h with h | ⟨pre, gap, r, rfl, hpre, hgap, hr, hw⟩
  · by_cases hws : ∀ c ∈ l, isWs c = true
    · exact find_ws hws hl
    · refine find_nomatch ?_ hl
      have hsplit : l = l.takeWhile isWs ++ l.dropWhile isWs := (List.takeWhile_append_dropWhile).symm
      have hne : l.dropWhile isWs ≠ [] := by
        intro e
        rw [e, List.append_nil] at hsplit
        apply hws
        intro c hc
        rw [hsplit] at hc
        exact List.all_eq_true.1 List.all_takeWhile c hc
      cases hd : l.dropWhile isWs with
      | nil => exact absurd hd hne
      | cons c r =>
        rw [hd] at hsplit
        unfold matchAt
        rw [hsplit, List.append_assoc,
          List.dropWhile_append_of_pos (fun c hc => List.all_eq_true.1 List.all_takeWhile c hc)]
        have hc : isWs c = false := by
          have := List.head?_dropWhile_not (p := isWs) l
          rw [hd] at this
          simpa using this
        rw [List.cons_append, List.dropWhile_cons, hc]
        simp only [Bool.false_eq_true, if_false]
        split
        · rename_i s1 e
          cases e
          obtain ⟨d, hd1, hd2⟩ := h _ _ hsplit
          rw [List.all_eq_true.1 List.all_takeWhile d hd1] at hd2
          cases hd2
        · rfl
  · refine find_nomatch ?_ hl
    unfold matchAt
    rw [List.append_assoc, dropWs _ _ hpre]
    have h1 : ('#' :: (gap ++ r) ++ '\n' :: t).dropWhile isWs = '#' :: (gap ++ (r ++ '\n' :: t)) := by
      rw [List.cons_append, List.dropWhile_cons]
      have : isWs '#' = false := by decide
      simp [this]
    rw [h1]
    simp only
    rw [dropWs _ _ hgap, dropWs_solid hr, firstWord_none]
    intro w hm ⟨v, hv⟩
    apply hw w hm
    rcases List.append_eq_append_iff.1 hv with ⟨a, h1, h2⟩ | ⟨a, h1, h2⟩
    · cases a with
      | nil => exact ⟨[], by simpa using h1.symm⟩
      | cons c a =>
        simp only [List.cons_append, List.cons.injEq] at h2
        exact absurd (by rw [h1]; exact List.mem_append_right _ (by rw [h2.1]; exact List.mem_cons_self)) (text_no_nl w)
    · exact ⟨a, h1⟩

theorem find_dir {pre gap rest t : Str} {w : Word} (hw : w ≠ .include_next) (hpre : Blank pre) (hgap : Blank gap)
    (hid : ∀ c, rest.head? = some c → isIdChar c = false) (hl : '\n' ∉ rest) :
    findFrom 0 true (pre ++ '#' :: (gap ++ (w.text ++ rest)) ++ '\n' :: t) = (w, rest) :: findFrom 0 true t := by
  have hm : matchAt (pre ++ '#' :: (gap ++ (w.text ++ rest)) ++ '\n' :: t) = some ((w, rest), '\n' :: t) := by
    unfold matchAt
    rw [List.append_assoc, dropWs _ _ hpre]
    have h1 : ('#' :: (gap ++ (w.text ++ rest)) ++ '\n' :: t).dropWhile isWs = '#' :: (gap ++ (w.text ++ (rest ++ '\n' :: t))) := by
      rw [List.cons_append, List.dropWhile_cons]
      have : isWs '#' = false := by decide
      simp [this]
    rw [h1]
    simp only
    rw [dropWs _ _ hgap, dropWs_solid (text_solid w), firstWord_eq w hw]
    · dsimp only
      have ht : ∀ c ∈ rest, notNl c = true := by
        intro c hc
        simp only [notNl, decide_eq_true_eq]
        rintro rfl
        exact hl hc
      rw [List.takeWhile_append_of_pos ht, List.dropWhile_append_of_pos ht]
      simp [notNl]
    · intro c hc
      cases rest with
      | nil => simp at hc; subst hc; decide
      | cons d r => exact hid c (by simpa using hc)
  rw [find_match hm]
  simp [findFrom]

/-! ### Comments -/

structure NC (s : Str) : Prop where
  cr : '\r' ∉ s
  block : ∀ u v, s ≠ u ++ '/' :: '*' :: v
  line : ∀ u v, s ≠ u ++ '/' :: '/' :: v
  last : ∀ u c, s = u ++ [c] → isWs c = false ∧ c ≠ '/'

theorem NC.tail {c : Char} {s : Str} (h : NC (c :: s)) : NC s where
  cr := fun hm => h.cr (by simp [hm])
  block := fun u v e => h.block (c :: u) v (by simp [e])
  line := fun u v e => h.line (c :: u) v (by simp [e])
  last := fun u d e => h.last (c :: u) d (by simp [e])

theorem Plain.nc {s : Str} (h : Plain s) (hn : '\n' ∉ s) : NC s where
  cr := h.cr
  block := h.block
  line := h.line
  last := by
    intro u c e
    obtain ⟨h1, h2⟩ := h.last u c e
    refine ⟨?_, h2⟩
    have h3 : c ≠ '\n' := by rintro rfl; exact hn (by simp [e])
    have h4 : c ≠ '\r' := by rintro rfl; exact h.cr (by simp [e])
    cases hw : isWs c with
    | false => rfl
    | true =>
      simp [isWs] at hw
      exfalso
      apply h1
      unfold blankC
      rcases hw with ((((h | h) | h) | h) | h) | h
      · exact Or.inl h
      · exact Or.inr (Or.inl h)
      · exact absurd h h3
      · exact absurd h h4
      · exact Or.inr (Or.inr (Or.inl h))
      · exact Or.inr (Or.inr (Or.inr h))

theorem NC.drop {s : Str} (h : NC s) : NC (s.dropWhile isWs) := by
  induction s with
  | nil => exact h
  | cons c s ih =>
    rw [List.dropWhile_cons]
    split
    · exact ih h.tail
    · exact h

theorem afterCr_none {s : Str} (h : '\r' ∉ s) : afterCr s = none := by
  induction s with
  | nil => rfl
  | cons c s ih =>
    have h1 : '\r' ∉ s := fun e => h (by simp [e])
    have h2 : c ≠ '\r' := fun e => h (by simp [e])
    simp [afterCr, ih h1, h2]

theorem NC.comment {s : Str} (h : NC s) (hne : s ≠ []) (t : Str) (hs : isWs (s.head hne) = false) :
    comment (s ++ t) = none := by
  cases s with
  | nil => exact absurd rfl hne
  | cons c s =>
    by_cases hc : c = '/'
    · subst hc
      cases s with
      | nil => exact absurd rfl (h.last [] '/' rfl).2
      | cons d s =>
        have h1 : d ≠ '*' := by rintro rfl; exact h.block [] s rfl
        have h2 : d ≠ '/' := by rintro rfl; exact h.line [] s rfl
        simp only [List.cons_append]
        unfold CppText.comment
        split
        · rename_i e; simp at e; exact absurd e.1 h1
        · rename_i e; simp at e; exact absurd e.1 h2
        · rfl
    · simp only [List.cons_append]
      unfold CppText.comment
      split
      · rename_i e; simp at e; exact absurd e.1 hc
      · rename_i e; simp at e; exact absurd e.1 hc
      · rfl

theorem NC.dropNe {s : Str} (h : NC s) (hne : s ≠ []) : s.dropWhile isWs ≠ [] := by
  intro e
  have e2 := List.dropLast_concat_getLast hne
  have := h.last _ _ e2.symm
  have hm : s.getLast hne ∈ s := List.getLast_mem hne
  have hs : s = s.takeWhile isWs ++ s.dropWhile isWs := (List.takeWhile_append_dropWhile).symm
  rw [e, List.append_nil] at hs
  have hm2 : s.getLast hne ∈ s.takeWhile isWs := by rw [← hs]; exact hm
  rw [List.all_eq_true.1 List.all_takeWhile _ hm2] at this
  cases this.1

theorem dropWhile_append_ne {p : Char → Bool} {s t : Str} (h : s.dropWhile p ≠ []) :
    (s ++ t).dropWhile p = s.dropWhile p ++ t ∧ (s ++ t).takeWhile p = s.takeWhile p := by
  induction s with
  | nil => exact absurd rfl h
  | cons c s ih =>
    rw [List.dropWhile_cons] at h
    cases hc : p c with
    | false => simp [hc]
    | true =>
      rw [hc] at h
      have := ih (by simpa using h)
      simp [hc, this]

theorem NC.matchClean {s : Str} (h : NC s) (hne : s ≠ []) (t : Str) : matchClean (s ++ t) = none := by
  unfold CppText.matchClean
  have hd := h.dropNe hne
  obtain ⟨e1, e2⟩ := dropWhile_append_ne (t := t) hd
  rw [e1, e2]
  have hh : isWs ((s.dropWhile isWs).head hd) = false := by
    have := List.head?_dropWhile_not (p := isWs) s
    rw [List.head?_eq_some_head hd] at this
    simpa using this
  rw [h.drop.comment hd t hh]
  have : '\r' ∉ s.takeWhile isWs := fun hm => h.cr (List.takeWhile_subset _ hm)
  simp [afterCr_none this]

theorem NC.clean {s : Str} (h : NC s) (t : Str) : clean 0 (s ++ t) = s ++ clean 0 t := by
  induction s with
  | nil => rfl
  | cons c s ih =>
    have hm := h.matchClean (by simp) t
    simp only [List.cons_append] at hm ⊢
    simp only [CppText.clean, hm]
    rw [ih h.tail]

theorem clean_skip (u r : Str) : clean u.length (u ++ r) = clean 0 r := by
  induction u with
  | nil => rfl
  | cons c u ih => simpa [clean] using ih

theorem clean_match {u r : Str} (h : matchClean (u ++ r) = some r) (hu : u ≠ []) : clean 0 (u ++ r) = clean 0 r := by
  cases u with
  | nil => exact absurd rfl hu
  | cons c u =>
    simp only [List.cons_append] at h ⊢
    simp only [clean, h]
    have : (u ++ r).length - r.length = u.length := by simp
    rw [this, clean_skip]

theorem afterLast_block (text r : Str) (hr : afterLast ('/' :: r) = none) : afterLast (text ++ '*' :: '/' :: r) = some r := by
  induction text with
  | nil => simp [afterLast] at hr ⊢; rw [hr]
  | cons c t ih => simp [afterLast, ih]

theorem blank_drop {b : Str} (h : Blank b) : b.dropWhile isWs = [] ∧ b.takeWhile isWs = b := by
  have : ∀ c ∈ b, isWs c = true := fun c hc => (blank_ws (h c hc)).1
  have h1 := List.dropWhile_append_of_pos (l₂ := []) this
  have h2 := List.takeWhile_append_of_pos (l₂ := []) this
  simpa using And.intro h1 h2

theorem clean_blank {b : Str} (h : Blank b) : clean 0 b = b := by
  induction b with
  | nil => rfl
  | cons c b ih =>
    have hm : matchClean (c :: b) = none := by
      unfold matchClean
      rw [(blank_drop h).1, (blank_drop h).2, afterCr_none]
      · rfl
      · intro hm; exact (blank_ws (h _ hm)).2.2.1 rfl
    simp only [clean, hm]
    rw [ih fun d hd => h d (by simp [hd])]

theorem matchClean_comment {b s rest : Str} (hb : Blank b) (hs : comment s = some rest) (hh : ∀ c, s.head? = some c → isWs c = false) :
    matchClean (b ++ s) = some rest := by
  unfold matchClean
  rw [dropWs _ _ hb]
  have : s.dropWhile isWs = s := by
    cases s with
    | nil => rfl
    | cons c s => simp [List.dropWhile_cons, hh c rfl]
  rw [this, hs]

theorem clean_tail {tail kept : Str} (h : Tail tail kept) : clean 0 tail = kept := by
  cases h with
  | blanks h => exact clean_blank h
  | @line bs h text =>
    have hm : matchClean (bs ++ '/' :: '/' :: text) = some [] := matchClean_comment h rfl (by intro c hc; simp at hc; subst hc; decide)
    have := clean_match (u := bs ++ '/' :: '/' :: text) (r := []) (by simpa using hm) (by simp)
    simpa [clean] using this
  | @block bs h text =>
    have hm : matchClean (bs ++ '/' :: '*' :: (text ++ ['*', '/'])) = some [] :=
      matchClean_comment h (by simp only [comment, afterLast_block text [] (by decide)]; rfl) (by intro c hc; simp at hc; subst hc; decide)
    have := clean_match (u := bs ++ '/' :: '*' :: (text ++ ['*', '/'])) (r := []) (by simpa using hm) (by simp)
    simpa [clean] using this
  | @blockCr bs h text =>
    have hm : matchClean (bs ++ '/' :: '*' :: (text ++ ['*', '/', '\r'])) = some ['\r'] :=
      matchClean_comment h (by simp only [comment, afterLast_block text ['\r'] (by decide)]; rfl) (by intro c hc; simp at hc; subst hc; decide)
    have := clean_match (u := bs ++ '/' :: '*' :: (text ++ ['*', '/'])) (r := ['\r']) (by simpa using hm) (by simp)
    have e : clean 0 ['\r'] = [] := by decide
    rw [e] at this
    simpa using this
  | @cr bs h =>
    have hm : matchClean (bs ++ ['\r']) = some [] := by
      unfold matchClean
      have hw : ∀ c ∈ bs, isWs c = true := fun c hc => (blank_ws (h c hc)).1
      rw [List.dropWhile_append_of_pos hw, List.takeWhile_append_of_pos hw]
      have h1 : List.dropWhile isWs ['\r'] = [] := by decide
      have h2 : List.takeWhile isWs ['\r'] = ['\r'] := by decide
      rw [h1, h2]
      have : ∀ b : Str, Blank b → afterCr (b ++ ['\r']) = some [] := by
        intro b
        induction b with
        | nil => intro _; rfl
        | cons c b ih => intro hb; simp [afterCr, ih fun d hd => hb d (by simp [hd])]
      simp [comment, this bs h]
    have := clean_match (u := bs ++ ['\r']) (r := []) (by simpa using hm) (by simp)
    simpa [clean] using this

theorem tail_kept {tail kept : Str} (h : Tail tail kept) : Blank kept := by
  cases h
  · assumption
  all_goals (intro c hc; cases hc)

/-! ### Arguments -/

theorem Ident.all {x : Str} (h : Ident x) : ∀ c ∈ x, isIdChar c = true := by
  obtain ⟨c, r, rfl, h1, h2⟩ := h
  intro d hd
  rcases List.mem_cons.1 hd with rfl | hd
  · exact idStart_idChar h1
  · exact h2 d hd

theorem Ident.solid {x : Str} (h : Ident x) : Solid x := by
  have := h.all
  obtain ⟨c, r, rfl, h1, h2⟩ := h
  exact ⟨c, r, rfl, id_not_ws (idStart_idChar h1)⟩

theorem nc_ident {sep x : Str} (hs : Blank sep) (hx : Ident x) : NC (sep ++ x) := by
  have hall : ∀ c ∈ sep ++ x, c ≠ '/' ∧ c ≠ '\r' := by
    intro c hc
    rcases List.mem_append.1 hc with hc | hc
    · exact ⟨(blank_ws (hs c hc)).2.2.2.1, (blank_ws (hs c hc)).2.2.1⟩
    · have := hx.all c hc
      constructor
      · rintro rfl; exact absurd this (by decide)
      · rintro rfl; exact absurd this (by decide)
  refine ⟨fun h => (hall _ h).2 rfl, fun u v e => (hall '/' (by rw [e]; simp)).1 rfl, fun u v e => (hall '/' (by rw [e]; simp)).1 rfl, ?_⟩
  intro u c e
  refine ⟨?_, (hall c (by rw [e]; simp)).1⟩
  have hne : x ≠ [] := by obtain ⟨c, r, rfl, _⟩ := hx; simp
  have h1 : (sep ++ x).getLast? = some c := by rw [e]; simp
  rw [List.getLast?_append] at h1
  cases hl : x.getLast? with
  | none => exact absurd (List.getLast?_eq_none_iff.1 hl) hne
  | some d =>
    rw [hl] at h1
    simp at h1
    subst h1
    exact id_not_ws (hx.all _ (List.mem_of_getLast? hl))

theorem argOf_solid {sep a : Str} (hs : Blank sep) (ha : Solid a) (k : Str) : argOf (sep ++ (a ++ k)) = some (a ++ k) := by
  unfold argOf
  rw [dropWs _ _ hs, dropWs_solid ha]
  obtain ⟨c, r, rfl, _⟩ := ha
  rfl

theorem head_ws {sep : Str} (hs : Blank sep) (hne : sep ≠ []) (r : Str) : (((sep ++ r).head?).map isWs).getD false = true := by
  cases sep with
  | nil => exact absurd rfl hne
  | cons c s => simpa using (blank_ws (hs c (by simp))).1

theorem ident_take {x : Str} (hx : Ident x) (r : Str) (hr : ∀ c, r.head? = some c → isIdChar c = false) :
    (x ++ r).takeWhile isIdChar = x ∧ (x ++ r).dropWhile isIdChar = r := by
  rw [List.takeWhile_append_of_pos hx.all, List.dropWhile_append_of_pos hx.all]
  cases r with
  | nil => simp
  | cons c r => simp [hr c rfl]

theorem blank_head {b : Str} (h : Blank b) : ∀ c, b.head? = some c → isIdChar c = false := by
  intro c hc
  exact (blank_ws (h c (List.mem_of_head? hc))).2.2.2.2.1

theorem args_rest {w : Word} {rest : Str} {args : List (Option Str)} (h : Rest w rest args) (hn : '\n' ∉ rest) :
    argsOf w (clean 0 rest) = some args := by
  cases h with
  | @text _ sep a tail kept hw hs ha hp ht =>
    have hnc := hp.nc fun hm => hn (by simp only [List.mem_append] at hm ⊢; exact Or.inl hm)
    rw [hnc.clean, clean_tail ht, List.append_assoc]
    have := argOf_solid hs ha kept
    rcases hw with rfl | rfl | rfl | rfl <;> simp [argsOf, this]
  | @name _ sep x tail hw hs hne hx ht =>
    rw [(nc_ident hs hx).clean, clean_tail ht]
    cases sep with
    | nil => exact absurd rfl hne
    | cons c sep =>
      have hc := (blank_ws (hs c (by simp))).1
      have := argOf_solid (sep := sep) (fun d hd => hs d (by simp [hd])) hx.solid []
      rcases hw with rfl | rfl <;> simpa [argsOf, hc] using this
  | word hw => rcases hw with rfl | rfl <;> rfl
  | @defineEmpty sep x tail kept hs hne hx ht =>
    have hk := tail_kept ht
    rw [(nc_ident hs hx).clean, clean_tail ht, List.append_assoc]
    obtain ⟨t1, t2⟩ := ident_take hx kept (blank_head hk)
    have hd : (sep ++ (x ++ kept)).dropWhile isWs = x ++ kept := by rw [dropWs _ _ hs, dropWs_solid hx.solid]
    unfold argsOf
    dsimp only
    rw [head_ws hs hne, hd]
    obtain ⟨c, r, rfl, h1, h2⟩ := hx
    simp only [List.cons_append] at t1 t2 ⊢
    simp only [if_true, h1, t1, t2]
    cases kept with
    | nil => rfl
    | cons d k =>
      have hd := blank_ws (hk d (by simp))
      split
      · rename_i e
        simp at e
        rw [e.1] at hd
        exact absurd hd.1 (by decide)
      · rw [(blank_drop hk).1]
  | @define sep x sep' body tail kept hs hne hx hs' hne' hb hp ht =>
    have hnc := hp.nc fun hm => hn (by simp only [List.mem_append] at hm ⊢; exact Or.inl hm)
    rw [hnc.clean, clean_tail ht]
    simp only [List.append_assoc]
    cases sep' with
    | nil => exact absurd rfl hne'
    | cons d sep' =>
      have hdw := blank_ws (hs' d (by simp))
      obtain ⟨t1, t2⟩ := ident_take hx ((d :: sep') ++ (body ++ kept)) (by intro c hc; simp at hc; subst hc; exact hdw.2.2.2.2.1)
      have hd : (sep ++ (x ++ ((d :: sep') ++ (body ++ kept)))).dropWhile isWs = x ++ ((d :: sep') ++ (body ++ kept)) := by
        rw [dropWs _ _ hs, dropWs_solid hx.solid]
      have hd2 : ((d :: sep') ++ (body ++ kept)).dropWhile isWs = body ++ kept := by rw [dropWs _ _ hs', dropWs_solid hb]
      unfold argsOf
      dsimp only
      rw [head_ws hs hne, hd]
      obtain ⟨c, r, rfl, h1, h2⟩ := hx
      simp only [List.cons_append] at t1 t2 hd2 ⊢
      simp only [if_true, h1, t1, t2]
      split
      · rename_i e
        simp at e
        rw [e.1] at hdw
        exact absurd hdw.1 (by decide)
      · rw [hd2]
  | @defineArgs sep x ps sep' body tail kept hs hne hx hps hs' hb hp ht =>
    have hnc := hp.nc fun hm => hn (by
      simp only [List.mem_append, List.mem_cons, List.cons_append] at hm ⊢
      grind)
    have e0 : sep ++ x ++ '(' :: ps ++ ')' :: sep' ++ body ++ tail = (sep ++ x ++ '(' :: ps ++ ')' :: sep' ++ body) ++ tail := by simp
    rw [e0, hnc.clean, clean_tail ht]
    have e1 : sep ++ x ++ '(' :: ps ++ ')' :: sep' ++ body ++ kept = sep ++ (x ++ '(' :: (ps ++ ')' :: (sep' ++ (body ++ kept)))) := by simp
    rw [e1]
    obtain ⟨t1, t2⟩ := ident_take hx ('(' :: (ps ++ ')' :: (sep' ++ (body ++ kept)))) (by intro c hc; simp at hc; subst hc; decide)
    have hd : (sep ++ (x ++ '(' :: (ps ++ ')' :: (sep' ++ (body ++ kept))))).dropWhile isWs = x ++ '(' :: (ps ++ ')' :: (sep' ++ (body ++ kept))) := by
      rw [dropWs _ _ hs, dropWs_solid hx.solid]
    have hq : ∀ c ∈ ps, decide (c ≠ ')') = true := by
      intro c hc
      simp only [decide_eq_true_eq]
      rintro rfl
      exact hps hc
    have p1 : (ps ++ ')' :: (sep' ++ (body ++ kept))).dropWhile (fun c => decide (c ≠ ')')) = ')' :: (sep' ++ (body ++ kept)) := by
      rw [List.dropWhile_append_of_pos hq]; simp
    have p2 : (ps ++ ')' :: (sep' ++ (body ++ kept))).takeWhile (fun c => decide (c ≠ ')')) = ps := by
      rw [List.takeWhile_append_of_pos hq]; simp
    have hd2 : (sep' ++ (body ++ kept)).dropWhile isWs = body ++ kept := by rw [dropWs _ _ hs', dropWs_solid hb]
    unfold argsOf
    dsimp only
    rw [head_ws hs hne, hd]
    obtain ⟨c, r, rfl, h1, h2⟩ := hx
    simp only [List.cons_append] at t1 t2 ⊢
    simp only [if_true, h1, t1, t2, p1, p2, hd2]
  | @undef sep x tail kept hs hne hx ht =>
    have hk := tail_kept ht
    rw [(nc_ident hs hx).clean, clean_tail ht, List.append_assoc]
    obtain ⟨t1, t2⟩ := ident_take hx kept (blank_head hk)
    have hd : (sep ++ (x ++ kept)).dropWhile isWs = x ++ kept := by rw [dropWs _ _ hs, dropWs_solid hx.solid]
    unfold argsOf
    dsimp only
    rw [head_ws hs hne, hd]
    obtain ⟨c, r, rfl, h1, h2⟩ := hx
    simp only [List.cons_append] at t1 t2 ⊢
    simp only [if_true, h1, t1]

/-! ### Line ends -/

theorem splice_append {p : Str} (h : NoBreak p) (r : Str) : splice (p ++ r) = p ++ splice r := by
  induction p with
  | nil => rfl
  | cons c p ih =>
    have h' : NoBreak p :=
      ⟨fun u v e => h.lf (c :: u) v (by simp [e]), fun u v e => h.crlf (c :: u) v (by simp [e]),
        fun u e => h.last (c :: u) (by simp [e]), fun u e => h.lastCr (c :: u) (by simp [e])⟩
    simp only [List.cons_append]
    rw [← ih h']
    conv => lhs; unfold splice
    split
    · rename_i e
      simp at e
      obtain ⟨rfl, e⟩ := e
      cases p with
      | nil => exact absurd rfl (h.last [])
      | cons d p =>
        simp at e
        exact absurd (by simp [e.1]) (h.lf [] p)
    · rename_i e
      simp at e
      obtain ⟨rfl, e⟩ := e
      cases p with
      | nil => exact absurd rfl (h.last [])
      | cons d p =>
        simp at e
        obtain ⟨rfl, e⟩ := e
        cases p with
        | nil => exact absurd rfl (h.lastCr [])
        | cons d p =>
          simp at e
          exact absurd (by simp [e.1]) (h.crlf [] p)
    · rename_i e
      simp at e
      obtain ⟨rfl, rfl⟩ := e
      rfl
    · rename_i e; simp at e

theorem splice_joined {s u : Str} (h : Joined s u) : splice s = u := by
  induction h with
  | last h => simpa [splice] using splice_append h []
  | lf h _ ih => rw [splice_append h]; simp [splice, ih]
  | crlf h _ ih => rw [splice_append h]; simp [splice, ih]

/-- **C90** (part). A text is given whose lines, after every end of line behind a backslash is
taken out, are directives as a C preprocessor reads them, or other lines. Then the conditional
C scanner gets exactly the directives, in order, each with its arguments. What is missing of
the full property is said by the counterexamples. -/
theorem C90_directives_found_partial (text : Str) (ls : List Str) (ds : List (Word × List (Option Str)))
    (hj : Joined text (unlines ls)) (hl : Lines ls ds) : tupleize text = ds := by
  unfold tupleize
  rw [splice_joined hj]
  clear hj
  induction hl with
  | nil => rfl
  | @other l ls ds hn h _ ih =>
    have e : unlines (l :: ls) = l ++ '\n' :: unlines ls := by simp [unlines]
    rw [e, find_other hn h, ih]
  | @dir l ls ds w args hn h _ ih =>
    have e : unlines (l :: ls) = l ++ '\n' :: unlines ls := by simp [unlines]
    obtain ⟨pre, gap, rest, rfl, hpre, hgap, hid, hr⟩ := h
    have hn' : '\n' ∉ rest := fun hm => hn (by simp [hm])
    have hw : w ≠ .include_next := by
      rintro rfl
      cases hr with
      | text hw => simp at hw
      | name hw => simp at hw
      | word hw => simp at hw
    rw [e, find_dir hw hpre hgap hid hn']
    have ht : tupleOf (w, rest) = some (w, args) := by simp [tupleOf, args_rest hr hn']
    simp [ht, ih]

end Verif.CppText
