import Verif.Text.File

/-!
# C92: theorems

Specification: a *template* is a text with placeholders in it. A placeholder is a name
between an opening character `o` and a closing character `c` (`@NAME@`, `{NAME}`).
Filling a template puts the value of every name that has one in the place of its
placeholder, all at once; the other placeholders stay.
-/

namespace Verif.Text
open Verif.Subst

/-- A text with placeholders: text, then any number of a name and the text after it. -/
structure Template where
  head : Str
  tail : List (Str × Str)

/-- The text of a template. -/
def Template.text (o c : Char) (t : Template) : Str :=
  t.head ++ t.tail.flatMap fun (n, l) => (o :: n) ++ (c :: l)

/-- The template with all placeholders filled whose name has a value. -/
def Template.fill (o c : Char) (f : Str → Option Str) (t : Template) : Str :=
  t.head ++ t.tail.flatMap fun (n, l) =>
    (match f n with
      | some v => v
      | none => (o :: n) ++ [c]) ++ l

/-- Every text between two placeholders has a character of class `S`. -/
def Apart (S : Char → Prop) : List (Str × Str) → Prop
  | [] => True
  | [_] => True
  | (_, l) :: r => (∃ x ∈ l, S x) ∧ Apart S r

/-- Names have no opening and no closing character in them, texts between placeholders no
opening character. If the two characters are the same, any two placeholders are kept apart by
a character that is in no name (`S`). -/
structure Tidy (o c : Char) (S : Char → Prop) (t : Template) : Prop where
  names : ∀ p ∈ t.tail, o ∉ p.1 ∧ c ∉ p.1
  head : o ∉ t.head
  lits : ∀ p ∈ t.tail, o ∉ p.2
  apart : o ≠ c ∨ Apart S t.tail

/-! ### One substitution -/

/-- Fill the placeholders of one name. -/
def step1 (n v : Str) : Str → List (Str × Str) → Str × List (Str × Str)
  | h, [] => (h, [])
  | h, (m, l) :: r =>
    let (h', r') := step1 n v l r
    if m = n then (h ++ v ++ h', r') else (h, (m, h') :: r')

def Template.step (n v : Str) (t : Template) : Template :=
  ⟨(step1 n v t.head t.tail).1, (step1 n v t.head t.tail).2⟩

theorem replGo_lit (k v : Str) (o : Char) (hk : k.head? = some o) (l r : Str) (hl : o ∉ l) :
    replGo k v 0 (l ++ r) = l ++ replGo k v 0 r := by
  induction l with
  | nil => rfl
  | cons a l ih =>
    rw [List.mem_cons, not_or] at hl
    cases k with
    | nil => simp at hk
    | cons b k =>
      simp only [List.head?_cons, Option.some.injEq] at hk
      subst hk
      have : ((b :: k).isPrefixOf (a :: (l ++ r))) = false := by
        simp [List.isPrefixOf]; intro h; exact absurd h hl.1
      simp only [List.cons_append, replGo, this, Bool.false_eq_true, if_false]
      rw [ih hl.2]

theorem replGo_skip (k v : Str) (a r : Str) : replGo k v a.length (a ++ r) = replGo k v 0 r := by
  induction a with
  | nil => rfl
  | cons x a ih => simpa [replGo] using ih

theorem split_at {c : Char} {m n r r' : Str} (hm : c ∉ m) (hn : c ∉ n)
    (h : m ++ c :: r = n ++ c :: r') : m = n := by
  induction m generalizing n with
  | nil =>
    cases n with
    | nil => rfl
    | cons b n => simp at h hn; exact absurd h.1 hn.1
  | cons a m ih =>
    cases n with
    | nil => simp at h hm; exact absurd h.1.symm hm.1
    | cons b n =>
      simp only [List.cons_append, List.cons.injEq, List.mem_cons, not_or] at h hm hn
      rw [h.1, ih hm.2 hn.2 h.2]

theorem not_prefix_other {o c : Char} {m n r : Str} (hm : c ∉ m) (hn : c ∉ n) (hne : m ≠ n) :
    ((o :: n ++ [c]).isPrefixOf (o :: m ++ c :: r)) = false := by
  rw [Bool.eq_false_iff]
  intro h
  rw [List.isPrefixOf_iff_prefix] at h
  obtain ⟨t, ht⟩ := h
  simp only [List.cons_append, List.append_assoc, List.cons.injEq, true_and, List.nil_append] at ht
  exact hne (split_at hm hn ht.symm)

def bodyText (o c : Char) (l : List (Str × Str)) : Str :=
  l.flatMap fun (n, l) => (o :: n) ++ (c :: l)

theorem replGo_body (o c : Char) (S : Char → Prop) (n v : Str) (hn : o ∉ n ∧ c ∉ n)
    (hS : ∀ x ∈ n, ¬ S x) :
    ∀ (tl : List (Str × Str)) (h : Str), (∀ p ∈ tl, o ∉ p.1 ∧ c ∉ p.1) → o ∉ h →
      (∀ p ∈ tl, o ∉ p.2) → (o ≠ c ∨ Apart S tl) →
      replGo (o :: n ++ [c]) v 0 (h ++ bodyText o c tl)
        = (step1 n v h tl).1 ++ bodyText o c (step1 n v h tl).2 := by
  intro tl
  induction tl with
  | nil =>
    intro h _ hh _ _
    rw [show bodyText o c ([] : List (Str × Str)) = [] from rfl, replGo_lit _ v o rfl h [] hh]
    simp [replGo, step1, bodyText]
  | cons p tl ih =>
    obtain ⟨m, l⟩ := p
    intro h hnm hh hl hap
    have hm := hnm (m, l) List.mem_cons_self
    have hlo : o ∉ l := hl (m, l) List.mem_cons_self
    have hap' : o ≠ c ∨ Apart S tl := hap.imp_right fun ha => by
      cases tl with
      | nil => trivial
      | cons q tl => exact ha.2
    have IH := ih l (fun p hp => hnm p (List.mem_cons_of_mem _ hp)) hlo
      (fun p hp => hl p (List.mem_cons_of_mem _ hp)) hap'
    have hb : bodyText o c ((m, l) :: tl) = (o :: m) ++ (c :: (l ++ bodyText o c tl)) := by
      simp [bodyText]
    rw [hb, replGo_lit _ v o rfl h _ hh]
    by_cases he : m = n
    · subst he
      have hp : ((o :: m ++ [c]).isPrefixOf (o :: m ++ c :: (l ++ bodyText o c tl))) = true := by
        rw [List.isPrefixOf_iff_prefix]
        exact ⟨l ++ bodyText o c tl, by simp⟩
      have h1 : replGo (o :: m ++ [c]) v 0 (o :: m ++ c :: (l ++ bodyText o c tl))
          = v ++ replGo (o :: m ++ [c]) v 0 (l ++ bodyText o c tl) := by
        simp only [List.cons_append] at hp ⊢
        rw [replGo, if_pos hp]
        congr 1
        have := replGo_skip (o :: (m ++ [c])) v (m ++ [c]) (l ++ bodyText o c tl)
        simpa using this
      rw [h1, IH]
      simp [step1]
    · have hp := not_prefix_other (o := o) (r := l ++ bodyText o c tl) hm.2 hn.2 he
      have h1 : replGo (o :: n ++ [c]) v 0 (o :: m ++ c :: (l ++ bodyText o c tl))
          = o :: replGo (o :: n ++ [c]) v 0 (m ++ c :: (l ++ bodyText o c tl)) := by
        simp only [List.cons_append] at hp ⊢
        rw [replGo, if_neg (by simp [hp])]
      rw [h1, replGo_lit _ v o rfl m _ hm.1]
      have hc : ((o :: n ++ [c]).isPrefixOf (c :: (l ++ bodyText o c tl))) = false := by
        rw [Bool.eq_false_iff]
        intro hpre
        rw [List.isPrefixOf_iff_prefix] at hpre
        obtain ⟨t, ht⟩ := hpre
        simp only [List.cons_append, List.append_assoc, List.cons.injEq, List.nil_append] at ht
        obtain ⟨hoc, ht⟩ := ht
        subst hoc
        rcases hap with ha | ha
        · exact ha rfl
        · cases tl with
          | nil =>
            have : o ∈ l := by
              have hx : o ∈ n ++ o :: t := by simp
              rw [ht] at hx
              simpa [bodyText] using hx
            exact hlo this
          | cons q tl =>
            obtain ⟨⟨x, hx, hSx⟩, _⟩ := ha
            have hb2 : bodyText o o (q :: tl) = o :: (q.1 ++ (o :: q.2) ++ bodyText o o tl) := by
              simp [bodyText]
            rw [hb2] at ht
            have := split_at hn.1 hlo ht
            rw [← this] at hx
            exact hS x hx hSx
      have h2 : replGo (o :: n ++ [c]) v 0 (c :: (l ++ bodyText o c tl))
          = c :: replGo (o :: n ++ [c]) v 0 (l ++ bodyText o c tl) := by
        simp only [List.cons_append] at hc ⊢
        rw [replGo, if_neg (by simp [hc])]
      rw [h2, IH]
      simp [step1, he, bodyText]

theorem step1_head (n v : Str) (tl : List (Str × Str)) (h : Str) :
    ∃ x, (step1 n v h tl).1 = h ++ x := by
  cases tl with
  | nil => exact ⟨[], by simp [step1]⟩
  | cons p tl =>
    obtain ⟨m, l⟩ := p
    by_cases he : m = n
    · exact ⟨v ++ (step1 n v l tl).1, by simp [step1, he]⟩
    · exact ⟨[], by simp [step1, he]⟩

theorem step1_keeps (o c : Char) (S : Char → Prop) (n v : Str) (hv : o ∉ v) :
    ∀ (tl : List (Str × Str)) (h : Str), (∀ p ∈ tl, o ∉ p.1 ∧ c ∉ p.1) → o ∉ h →
      (∀ p ∈ tl, o ∉ p.2) → (o ≠ c ∨ Apart S tl) →
      (∀ p ∈ (step1 n v h tl).2, o ∉ p.1 ∧ c ∉ p.1) ∧ o ∉ (step1 n v h tl).1 ∧
      (∀ p ∈ (step1 n v h tl).2, o ∉ p.2) ∧ (o ≠ c ∨ Apart S (step1 n v h tl).2) ∧
      ((step1 n v h tl).2 ≠ [] → tl ≠ []) := by
  intro tl
  induction tl with
  | nil => intro h _ hh _ _; simp [step1, hh, Apart]
  | cons p tl ih =>
    obtain ⟨m, l⟩ := p
    intro h hnm hh hl hap
    have hap' : o ≠ c ∨ Apart S tl := hap.imp_right fun ha => by
      cases tl with
      | nil => trivial
      | cons q tl => exact ha.2
    obtain ⟨i1, i2, i3, i4, i5⟩ := ih l (fun p hp => hnm p (List.mem_cons_of_mem _ hp))
      (hl (m, l) List.mem_cons_self) (fun p hp => hl p (List.mem_cons_of_mem _ hp)) hap'
    obtain ⟨x, hx⟩ := step1_head n v tl l
    by_cases he : m = n
    · simp only [step1, he, if_true]
      exact ⟨i1, by simp [hh, hv, i2], i3, i4, by simp⟩
    · simp only [step1, he, if_false]
      refine ⟨?_, hh, ?_, ?_, by simp⟩
      · intro p hp
        rcases List.mem_cons.1 hp with rfl | hp
        · exact hnm (m, l) List.mem_cons_self
        · exact i1 p hp
      · intro p hp
        rcases List.mem_cons.1 hp with rfl | hp
        · exact i2
        · exact i3 p hp
      · rcases hap with ha | ha
        · exact .inl ha
        · rcases i4 with i4 | i4
          · exact .inl i4
          · right
            cases hr : (step1 n v l tl).2 with
            | nil => trivial
            | cons q r' =>
              cases tl with
              | nil => simp [step1] at hr
              | cons q' tl =>
                obtain ⟨⟨y, hy, hSy⟩, _⟩ := ha
                rw [hr] at i4
                exact ⟨⟨y, by rw [hx]; simp [hy], hSy⟩, i4⟩

theorem Template.step_tidy {o c : Char} {S : Char → Prop} {t : Template} (h : Tidy o c S t)
    (n v : Str) (hv : o ∉ v) : Tidy o c S (t.step n v) := by
  obtain ⟨a, b, d, e, _⟩ := step1_keeps o c S n v hv t.tail t.head h.names h.head h.lits h.apart
  exact ⟨a, b, d, e⟩

theorem replace_step {o c : Char} {S : Char → Prop} {t : Template} (h : Tidy o c S t)
    (n v : Str) (hn : o ∉ n ∧ c ∉ n) (hS : ∀ x ∈ n, ¬ S x) :
    replace ((o :: n) ++ [c]) v (t.text o c) = (t.step n v).text o c := by
  have := replGo_body o c S n v hn hS t.tail t.head h.names h.head h.lits h.apart
  simp only [replace, List.cons_append, reduceCtorEq, if_false]
  simpa [Template.text, Template.step, bodyText] using this

/-! ### All of them -/

def bodyFill (o c : Char) (f : Str → Option Str) (l : List (Str × Str)) : Str :=
  l.flatMap fun (n, l) =>
    (match f n with
      | some v => v
      | none => (o :: n) ++ [c]) ++ l

theorem step1_fill (o c : Char) (f : Str → Option Str) (n v : Str) :
    ∀ (tl : List (Str × Str)) (h : Str),
      (step1 n v h tl).1 ++ bodyFill o c f (step1 n v h tl).2
        = h ++ bodyFill o c (fun m => if m = n then some v else f m) tl := by
  intro tl
  induction tl with
  | nil => intro h; simp [step1, bodyFill]
  | cons p tl ih =>
    obtain ⟨m, l⟩ := p
    intro h
    have := ih l
    by_cases he : m = n
    · simp only [step1, he, if_true, List.append_assoc, this]
      simp [bodyFill]
    · simp only [step1, he, if_false]
      simp only [bodyFill, List.flatMap_cons, he, if_false] at this ⊢
      simp only [List.append_assoc] at this ⊢
      rw [this]

theorem doSubst_fill (o c : Char) (S : Char → Prop) (subs : List (Str × Str))
    (hn : ∀ p ∈ subs, o ∉ p.1 ∧ c ∉ p.1 ∧ o ∉ p.2 ∧ ∀ x ∈ p.1, ¬ S x) :
    ∀ t : Template, Tidy o c S t →
      doSubst (subs.map fun p => ((o :: p.1) ++ [c], p.2)) (t.text o c)
        = t.fill o c (fun n => subs.lookup n) := by
  induction subs with
  | nil =>
    intro t _
    simp [doSubst, Template.text, Template.fill]
  | cons p subs ih =>
    obtain ⟨n, v⟩ := p
    intro t ht
    obtain ⟨h1, h2, h3, h4⟩ := hn (n, v) List.mem_cons_self
    have hs := replace_step ht n v ⟨h1, h2⟩ h4
    simp only [List.map_cons, doSubst, List.foldl_cons] at hs ⊢
    rw [hs]
    have := ih (fun p hp => hn p (List.mem_cons_of_mem _ hp)) (t.step n v) (Template.step_tidy ht n v h3)
    rw [doSubst] at this
    rw [this]
    have hf := step1_fill o c (fun n => subs.lookup n) n v t.tail t.head
    simp only [Template.fill, Template.step]
    simp only [bodyFill] at hf
    rw [hf]
    congr 2
    funext q
    obtain ⟨m, l⟩ := q
    by_cases he : m = n
    · simp [he, List.lookup]
    · simp only [he, if_false, List.lookup]
      rw [show (m == n) = false by simp [he]]

theorem writeGo_some (sep : Str) (subs : List (Str × Str)) (l : List Str) :
    writeGo sep subs (some sep) l = l.flatMap fun x => sep ++ doSubst subs x := by
  induction l with
  | nil => rfl
  | cons a l ih =>
    simp only [writeGo, ih, List.flatMap_cons]
    split <;> simp_all

theorem writeGo_join (sep : Str) (subs : List (Str × Str)) (l : List Str) :
    writeGo sep subs none l = sep.intercalate (l.map (doSubst subs)) := by
  cases l with
  | nil => rfl
  | cons a l =>
    simp only [writeGo, writeGo_some, List.nil_append, List.map_cons]
    induction l generalizing a with
    | nil => simp [List.intercalate, List.intersperse]
    | cons b l ih =>
      have := ih b
      simp only [List.intercalate, List.map_cons, List.flatMap_cons] at this ⊢
      rw [List.intersperse_cons₂, List.flatten_cons, List.flatten_cons, ← this]
      simp

/-- `LINESEPARATOR`, a newline if it is `None`. -/
def sepText : Option Str → Str
  | some s => s
  | none => ['\n']

/-- What a value of `SUBST_DICT` stands for: a string for its expansion, a function that returns a string for the
expansion of that, another object (or one returned by a function) for its text. -/
inductive Means (T : TEnv) : SVal → Str → Prop
  | str {s t : Str} : subst T.env .raw T.fuel T.lv s = .ok t → Means T (.str s) t
  | obj {shown signed : Str} : Means T (.obj shown signed) shown
  | call {code s t : Str} : subst T.env .raw T.fuel T.lv s = .ok t → Means T (.call code s) t
  | callObj {code shown : Str} : Means T (.callObj code shown) shown

theorem Means.valText {T : TEnv} {v : SVal} {t : Str} (h : Means T v t) : valText T v = .ok t := by
  cases h with
  | str h => exact h
  | obj => rfl
  | call h => exact h
  | callObj => rfl

/-- **C92** The file that `Textfile` and `Substfile` write is the sources, separated by
`LINESEPARATOR`, with every placeholder filled that `SUBST_DICT` has a value for, all at
once. `entries` are the entries of `SUBST_DICT`: a name, the string given for it, and what
this string expands to. The placeholders of all sources and entries have the same form, the
values and the text between placeholders have no opening character in them, and, if the
opening and the closing character are the same, two placeholders are kept apart. -/
theorem C92_file_is_the_filled_templates_partial (T : TEnv) (o c : Char) (S : Char → Prop)
    (d : SDict) (entries : List (Str × SVal × Str)) (ts : List Template)
    (hd : T.dict = some d)
    (hitems : d.items = entries.map fun e => ((o :: e.1) ++ [c], e.2.1))
    (hval : ∀ e ∈ entries, Means T e.2.1 e.2.2)
    (hn : ∀ e ∈ entries, o ∉ e.1 ∧ c ∉ e.1 ∧ o ∉ e.2.2 ∧ ∀ x ∈ e.1, ¬ S x)
    (ht : ∀ t ∈ ts, Tidy o c S t) :
    action T (ts.map (Template.text o c)) =
      .ok ((sepText T.linesep).intercalate
        (ts.map (Template.fill o c fun n => (entries.map fun e => (e.1, e.2.2)).lookup n))) := by
  have hsubs : subsOf T = .ok ((entries.map fun e => (e.1, e.2.2)).map
      fun p => ((o :: p.1) ++ [c], p.2)) := by
    rw [subsOf, hd]
    simp only [hitems]
    clear hitems hn
    induction entries with
    | nil => rfl
    | cons e l ih =>
      have := ih fun e he => hval e (List.mem_cons_of_mem _ he)
      simp only [List.map_cons, List.mapM_cons, bind, Except.bind, pure, Except.pure] at this ⊢
      rw [this]
      simp [(hval e List.mem_cons_self).valText]
  have hw : action T (ts.map (Template.text o c)) = .ok (writeGo (sepText T.linesep)
      ((entries.map fun e => (e.1, e.2.2)).map fun p => ((o :: p.1) ++ [c], p.2)) none
      (ts.map (Template.text o c))) := by
    simp only [action, hsubs, bind, Except.bind, pure, Except.pure]
    cases T.linesep <;> rfl
  rw [hw, writeGo_join]
  congr 2
  rw [List.map_map]
  apply List.map_congr_left
  intro t hmem
  simp only [Function.comp]
  refine doSubst_fill o c S _ ?_ t (ht t hmem)
  intro p hp
  obtain ⟨e, he, rfl⟩ := List.mem_map.1 hp
  exact hn e he

/-- **C92** Without `SUBST_DICT` the file is the sources themselves, separated by
`LINESEPARATOR`: nothing is changed, nothing is added at the end. -/
theorem C92_without_substitutions (T : TEnv) (sources : List Str) (hd : T.dict = none) :
    action T sources = .ok ((sepText T.linesep).intercalate sources) := by
  have hw : action T sources = .ok (writeGo (sepText T.linesep) [] none sources) := by
    simp only [action, subsOf, hd, bind, Except.bind, pure, Except.pure]
    cases T.linesep <;> rfl
  rw [hw, writeGo_join]
  congr 2
  exact List.map_id sources

theorem lookup_perm {l l' : List (Str × Str)} (hp : l.Perm l') (hnd : (l.map Prod.fst).Nodup) (n : Str) :
    l.lookup n = l'.lookup n := by
  induction hp with
  | nil => rfl
  | cons x _ ih =>
    simp only [List.map_cons, List.nodup_cons] at hnd
    simp only [List.lookup]
    split <;> first | rfl | exact ih hnd.2
  | swap x y l =>
    simp only [List.map_cons, List.nodup_cons, List.mem_cons, not_or] at hnd
    obtain ⟨x1, x2⟩ := x
    obtain ⟨y1, y2⟩ := y
    simp only [List.lookup]
    by_cases h1 : n == y1 <;> by_cases h2 : n == x1 <;> simp only [h1, h2]
    simp only [beq_iff_eq] at h1 h2
    exact absurd (h1.symm.trans h2) hnd.1.1
  | trans h1 _ ih1 ih2 =>
    rw [ih1 hnd]
    exact ih2 ((h1.map _).nodup_iff.1 hnd)

/-- **C92** The order of the entries of `SUBST_DICT` does not matter. -/
theorem C92_order_does_not_matter_partial (T T' : TEnv) (o c : Char) (S : Char → Prop)
    (d d' : SDict) (entries entries' : List (Str × SVal × Str)) (ts : List Template)
    (hd : T.dict = some d) (hd' : T'.dict = some d')
    (hitems : d.items = entries.map fun e => ((o :: e.1) ++ [c], e.2.1))
    (hitems' : d'.items = entries'.map fun e => ((o :: e.1) ++ [c], e.2.1))
    (hval : ∀ e ∈ entries, Means T e.2.1 e.2.2)
    (hval' : ∀ e ∈ entries', Means T' e.2.1 e.2.2)
    (hsep : T.linesep = T'.linesep)
    (hperm : entries.Perm entries') (hnd : (entries.map fun e => e.1).Nodup)
    (hn : ∀ e ∈ entries, o ∉ e.1 ∧ c ∉ e.1 ∧ o ∉ e.2.2 ∧ ∀ x ∈ e.1, ¬ S x)
    (ht : ∀ t ∈ ts, Tidy o c S t) :
    action T (ts.map (Template.text o c)) = action T' (ts.map (Template.text o c)) := by
  rw [C92_file_is_the_filled_templates_partial T o c S d entries ts hd hitems hval hn ht,
    C92_file_is_the_filled_templates_partial T' o c S d' entries' ts hd' hitems' hval'
      (fun e he => hn e (hperm.mem_iff.2 he)) ht, hsep]
  have : (fun n => (entries.map fun e => (e.1, e.2.2)).lookup n)
      = fun n => (entries'.map fun e => (e.1, e.2.2)).lookup n := by
    funext n
    apply lookup_perm (hperm.map _)
    rw [List.map_map]
    exact hnd
  rw [this]

end Verif.Text
