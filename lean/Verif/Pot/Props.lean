import Verif.Pot.Model
import Mathlib.Data.List.Infix
import Mathlib.Data.List.TakeWhile

/-!
# Message templates (C124): specification and proofs
-/

namespace Verif.Pot

/-! ## Specification -/

/-- A text: lines that end, and what comes after the last end. -/
def text (ls : List Str) (last : Str) : Str := ls.flatMap (· ++ ['\n']) ++ last

structure Lines (ls : List Str) (last : Str) : Prop where
  lines : ∀ l ∈ ls, '\n' ∉ l
  last : '\n' ∉ last

/-- The line with the date. -/
def Date (l : Str) : Prop := ∃ d, l = "\"POT-Creation-Date: ".toList ++ d ++ ['"']

instance (l : Str) : Decidable (Date l) :=
  decidable_of_iff (datePre.isPrefixOf l = true ∧ (l.drop datePre.length).getLast? = some '"') <| by
    constructor
    · rintro ⟨h1, h2⟩
      obtain ⟨r, rfl⟩ := List.isPrefixOf_iff_prefix.1 h1
      rw [List.drop_left, List.getLast?_eq_some_iff] at h2
      obtain ⟨d, rfl⟩ := h2
      exact ⟨d, by rw [List.append_assoc]; rfl⟩
    · rintro ⟨d, rfl⟩
      rw [List.append_assoc]
      exact ⟨List.isPrefixOf_iff_prefix.2 (List.prefix_append _ _), by
        rw [show ("\"POT-Creation-Date: ".toList ++ (d ++ ['"'])) = datePre ++ (d ++ ['"']) from rfl, List.drop_left]; simp⟩

/-- Two texts that differ in dates only. -/
structure Same (ls : List Str) (last : Str) (ls' : List Str) (last' : Str) : Prop where
  lines : ls.filter (¬ Date ·) = ls'.filter (¬ Date ·)
  last : (if Date last then [] else last) = (if Date last' then [] else last')

/-- An entry of a list of files, as gettext has them. -/
inductive Item where
  | name (n : Str)
  | comment (s : Str)
  | blank (s : Str)

def Item.line : Item → Str
  | .name n => n
  | .comment s => '#' :: s
  | .blank s => s

def Item.file : Item → Option Str
  | .name n => some n
  | _ => none

/-- A name of a file: not empty, no comment, no blank at the end, on one line. -/
structure NameOk (n : Str) : Prop where
  comment : n.head? ≠ some '#'
  trail : ∃ a c, n = a ++ [c] ∧ c ≠ ' ' ∧ c ≠ '\t'
  line : ∀ c ∈ n, brk c = false

def Item.Ok : Item → Prop
  | .name n => NameOk n
  | .comment s => '\n' ∉ s ∧ '\r' ∉ s
  | .blank s => ∀ c ∈ s, c = ' ' ∨ c = '\t'

/-- Where a name is: the first directory that has it, or the first one. -/
inductive At (W : World) (dirs : List Str) (n : Str) : Str → Prop
  | found {a d b} : dirs = a ++ d :: b → W.has d n = true → (∀ x ∈ a, W.has x n = false) → At W dirs n d
  | first {d b} : dirs = d :: b → (∀ x ∈ dirs, W.has x n = false) → At W dirs n d

/-! ## Lines -/

theorem cdate_iff (l : Str) : cdate l = true ↔ Date l := by
  unfold cdate
  rw [Bool.and_eq_true, decide_eq_true_eq]
  constructor
  · rintro ⟨h1, h2⟩
    obtain ⟨r, rfl⟩ := List.isPrefixOf_iff_prefix.1 h1
    rw [List.drop_left, List.getLast?_eq_some_iff] at h2
    obtain ⟨d, rfl⟩ := h2
    exact ⟨d, by rw [List.append_assoc]; rfl⟩
  · rintro ⟨d, rfl⟩
    rw [List.append_assoc]
    exact ⟨List.isPrefixOf_iff_prefix.2 (List.prefix_append _ _), by
      rw [show ("\"POT-Creation-Date: ".toList ++ (d ++ ['"'])) = datePre ++ (d ++ ['"']) from rfl, List.drop_left]; simp⟩

theorem sub_keep (p : Str → Bool) (l : Str) (h : '\n' ∉ l) (r : Str) : sub p .keep (l ++ r) = l ++ sub p .keep r := by
  induction l with
  | nil => rfl
  | cons c l ih =>
    simp only [List.mem_cons, not_or] at h
    rw [List.cons_append, sub]
    simp [ih h.2, Ne.symm h.1]

theorem sub_skip (p : Str → Bool) (l : Str) (h : '\n' ∉ l) (r : Str) : sub p .skip (l ++ r) = sub p .skip r := by
  induction l with
  | nil => rfl
  | cons c l ih =>
    simp only [List.mem_cons, not_or] at h
    rw [List.cons_append, sub]
    simp [ih h.2, Ne.symm h.1]

/-- A beginning is decided by the line. -/
theorem sub_start (p : Str → Bool) (c : Char) (t : Str) : sub p .start (c :: t) = sub p (if p ((c :: t).takeWhile (· ≠ '\n')) then .skip else .keep) (c :: t) := by
  generalize hl : (c :: t).takeWhile (· ≠ '\n') = l
  cases hp : p l
  · rw [if_neg (by simp), sub, hl, hp, sub]; simp
  · rw [if_pos rfl, sub, hl, hp, sub]; simp

theorem takeLine (l r : Str) (h : '\n' ∉ l) (hr : ∀ c, r.head? = some c → c = '\n') : (l ++ r).takeWhile (· ≠ '\n') = l := by
  induction l with
  | nil =>
    cases r with
    | nil => rfl
    | cons c r => simp [hr c rfl]
  | cons c l ih =>
    simp only [List.mem_cons, not_or] at h
    rw [List.cons_append, List.takeWhile_cons, if_pos (by simp [Ne.symm h.1]), ih h.2]

theorem sub_line (p : Str → Bool) (l : Str) (h : '\n' ∉ l) (r : Str) : sub p .start (l ++ '\n' :: r) = (if p l then [] else l ++ ['\n']) ++ sub p .start r := by
  obtain ⟨c, t, e⟩ : ∃ c t, l ++ '\n' :: r = c :: t := by cases l <;> exact ⟨_, _, rfl⟩
  rw [e, sub_start, ← e, takeLine l _ h (by intro c hc; injection hc with hc; exact hc.symm)]
  split
  · rw [sub_skip p l h, sub]; simp
  · rw [sub_keep p l h, sub]; simp

theorem sub_last (p : Str → Bool) (l : Str) (h : '\n' ∉ l) : sub p .start l = if p l then [] else l := by
  cases l with
  | nil => simp [sub]
  | cons c t =>
    have e := takeLine (c :: t) [] h (by intro c hc; cases hc)
    rw [List.append_nil] at e
    rw [sub_start, e]
    have h1 := sub_keep p (c :: t) h []
    have h2 := sub_skip p (c :: t) h []
    rw [List.append_nil] at h1 h2
    split
    · rw [h2]; rfl
    · rw [h1]; simp [sub]

theorem sub_text (p : Str → Bool) (ls : List Str) (last : Str) (h : Lines ls last) : sub p .start (text ls last) = text (ls.filter fun l => !p l) (if p last then [] else last) := by
  obtain ⟨h, hl⟩ := h
  induction ls with
  | nil => simp [text, sub_last p last hl]
  | cons l ls ih =>
    have e : text (l :: ls) last = l ++ '\n' :: text ls last := by simp [text]
    rw [e, sub_line p l (h l (by simp)), ih fun x hx => h x (by simp [hx])]
    cases hp : p l <;> simp [hp, text]

theorem text_inj {ls last ls' last'} (h : Lines ls last) (h' : Lines ls' last') (e : text ls last = text ls' last') : ls = ls' ∧ last = last' := by
  have key : ∀ (a b r s : Str), '\n' ∉ a → '\n' ∉ b → a ++ '\n' :: r = b ++ '\n' :: s → a = b ∧ r = s := by
    intro a b r s ha hb e
    have h1 := takeLine a ('\n' :: r) ha (by intro c hc; injection hc with hc; exact hc.symm)
    have h2 := takeLine b ('\n' :: s) hb (by intro c hc; injection hc with hc; exact hc.symm)
    rw [e, h2] at h1
    subst h1
    exact ⟨rfl, by simpa using e⟩
  induction ls generalizing ls' with
  | nil =>
    cases ls' with
    | nil => exact ⟨rfl, by simpa [text] using e⟩
    | cons l ls' =>
      exfalso; apply h.last
      have : last = text (l :: ls') last' := by simpa [text] using e
      rw [this]; simp [text]
  | cons l ls ih =>
    cases ls' with
    | nil =>
      exfalso; apply h'.last
      have : text (l :: ls) last = last' := by simpa [text] using e
      rw [← this]; simp [text]
    | cons l' ls' =>
      have e' : l ++ '\n' :: text ls last = l' ++ '\n' :: text ls' last' := by simpa [text] using e
      obtain ⟨rfl, e2⟩ := key _ _ _ _ (h.lines l (by simp)) (h'.lines l' (by simp)) e'
      obtain ⟨rfl, rfl⟩ := ih ⟨fun x hx => h.lines x (by simp [hx]), h.last⟩ ⟨fun x hx => h'.lines x (by simp [hx]), h'.last⟩ e2
      exact ⟨rfl, rfl⟩

theorem lines_filter {ls last} (p q : Str → Bool) (h : Lines ls last) : Lines (ls.filter p) (if q last then [] else last) :=
  ⟨fun l hl => h.lines l (List.mem_filter.1 hl).1, by
    split
    · simp
    · exact h.last⟩

theorem same_iff {ls last ls' last'} (h : Lines ls last) (h' : Lines ls' last') : sub cdate .start (text ls last) = sub cdate .start (text ls' last') ↔ Same ls last ls' last' := by
  have hc : ∀ l, cdate l = decide (Date l) := fun l => by rw [Bool.eq_iff_iff, cdate_iff]; simp
  rw [sub_text _ _ _ h, sub_text _ _ _ h']
  simp only [hc, decide_eq_true_eq]
  constructor
  · intro e
    obtain ⟨h1, h2⟩ := text_inj (by simpa using lines_filter (fun l => !decide (Date l)) (fun l => decide (Date l)) h) (by simpa using lines_filter (fun l => !decide (Date l)) (fun l => decide (Date l)) h') e
    exact ⟨by simpa using h1, h2⟩
  · rintro ⟨h1, h2⟩
    rw [h2, show (ls.filter fun l => !decide (Date l)) = ls'.filter fun l => !decide (Date l) by simpa using h1]

theorem cut (t : Str) : ∃ ls last, Lines ls last ∧ t = text ls last := by
  induction t with
  | nil => exact ⟨[], [], ⟨by simp, by simp⟩, rfl⟩
  | cons c t ih =>
    obtain ⟨ls, last, h, rfl⟩ := ih
    by_cases hc : c = '\n'
    · exact ⟨[] :: ls, last, ⟨by simpa using h.lines, h.last⟩, by simp [text, hc]⟩
    · cases ls with
      | nil => exact ⟨[], c :: last, ⟨by simp, by simpa [Ne.symm hc] using h.last⟩, by simp [text]⟩
      | cons l ls => exact ⟨(c :: l) :: ls, last, ⟨by simpa [Ne.symm hc] using h.lines, h.last⟩, by simp [text]⟩

/-! ## The template -/

/-- If xgettext found messages, the template says what it said, but for dates. -/
theorem C124_template_partial (ls : List Str) (last : Str) (h : Lines ls last) (hne : text ls last ≠ []) (old : Option Str) :
    ∃ ls' last', Lines ls' last' ∧ update 0 (text ls last) old = (0, some (text ls' last')) ∧ Same ls' last' ls last := by
  unfold update
  rw [if_neg (by simp), if_neg hne]
  cases old with
  | none => exact ⟨ls, last, h, rfl, rfl, rfl⟩
  | some o =>
    obtain ⟨ls', last', h', rfl⟩ := cut o
    simp only
    split
    · rename_i hs
      exact ⟨ls', last', h', rfl, (same_iff h' h).1 hs⟩
    · exact ⟨ls, last, h, rfl, rfl, rfl⟩

/-- A template is written if and only if it is new or other lines than dates differ. -/
theorem C124_written_iff (ls : List Str) (last : Str) (h : Lines ls last) (hne : text ls last ≠ []) (ls' : List Str) (last' : Str) (h' : Lines ls' last') :
    (Same ls' last' ls last → update 0 (text ls last) (some (text ls' last')) = (0, some (text ls' last'))) ∧
    (¬ Same ls' last' ls last → update 0 (text ls last) (some (text ls' last')) = (0, some (text ls last))) ∧
    update 0 (text ls last) none = (0, some (text ls last)) := by
  unfold update
  rw [if_neg (by simp), if_neg hne]
  exact ⟨fun h2 => if_pos ((same_iff h' h).2 h2), fun h2 => if_neg fun h3 => h2 ((same_iff h' h).1 h3), by simp [hne]⟩

/-- If xgettext fails the action fails, and the template is left alone. -/
theorem C124_failed (status : Int) (out : Str) (old : Option Str) (h : status ≠ 0) : update status out old = (status, old) := if_pos h

/-- A second run is no change, whatever the clock says. -/
theorem C124_again (out out' : Str) (old : Option Str) (hne' : out' ≠ []) (ls : List Str) (last : Str) (h : Lines ls last) (e : out = text ls last) (ls' : List Str) (last' : Str) (h' : Lines ls' last') (e' : out' = text ls' last') (hs : Same ls last ls' last') (hne : out ≠ []) :
    update 0 out' (update 0 out old).2 = update 0 out old := by
  subst e e'
  obtain ⟨l, a, hl, hu, s⟩ := C124_template_partial ls last h hne old
  rw [hu]
  exact (C124_written_iff ls' last' h' hne' l a hl).1 ⟨s.lines.trans hs.lines, s.last.trans hs.last⟩

/-! ## The list of files -/

theorem brk_nl : brk '\n' = true := by decide
theorem brk_cr : brk '\r' = true := by decide

theorem split_line (n l : Str) (hn : ∀ c ∈ n, brk c = false) (t : Str) : splitlines l (n ++ '\n' :: t) = (l ++ n) :: splitlines [] t := by
  induction n generalizing l with
  | nil =>
    rw [List.nil_append, List.append_nil]
    rw [splitlines, if_pos brk_nl]
    rintro _ e _; exact absurd e (by decide)
  | cons c n ih =>
    have hc := hn c (by simp)
    rw [List.cons_append, splitlines, if_neg (by simp [hc]), ih _ fun x hx => hn x (by simp [hx])]
    · simp
    · rintro _ rfl _; rw [brk_cr] at hc; cases hc

theorem split_last (n l : Str) (hn : ∀ c ∈ n, brk c = false) (h : l ++ n ≠ []) : splitlines l n = [l ++ n] := by
  induction n generalizing l with
  | nil =>
    cases l with
    | nil => exact absurd rfl h
    | cons c l => simp [splitlines]
  | cons c n ih =>
    have hc := hn c (by simp)
    rw [splitlines, if_neg (by simp [hc]), ih _ (fun x hx => hn x (by simp [hx])) (by simp)]
    · simp
    · rintro _ rfl _; rw [brk_cr] at hc; cases hc

theorem split_text (ns : List Str) (last : Str) (hn : ∀ n ∈ ns, ∀ c ∈ n, brk c = false) (hl : ∀ c ∈ last, brk c = false) : splitlines [] (text ns last) = ns ++ if last = [] then [] else [last] := by
  induction ns with
  | nil =>
    rw [show text [] last = last from rfl]
    split
    · rename_i h; subst h; rfl
    · rename_i h; rw [split_last last [] hl (by simpa using h)]; rfl
  | cons n ns ih =>
    rw [show text (n :: ns) last = n ++ '\n' :: text ns last by simp [text], split_line n [] (hn n (by simp)), ih fun x hx => hn x (by simp [hx])]
    rfl

theorem ws_of {c : Char} (h1 : c ≠ ' ') (h2 : c ≠ '\t') (h3 : brk c = false) : ws c = false := by
  have : c ≠ '\r' := by rintro rfl; rw [brk_cr] at h3; cases h3
  simp [ws, h1, h2, this]

theorem trail_text (ns : List Str) (last : Str) (hn : ∀ n ∈ ns, NameOk n) (hl : last = [] ∨ NameOk last) : trail (text ns last) = text ns last := by
  rcases hl with rfl | hl
  · rcases List.eq_nil_or_concat ns with rfl | ⟨ms, n, rfl⟩
    · rfl
    · obtain ⟨a, c, rfl, h1, h2⟩ := (hn n (by simp)).trail
      have hk : NameOk (a ++ [c]) := hn (a ++ [c]) (by simp)
      have hw := ws_of h1 h2 (hk.line c (by simp))
      have e : text (ms.concat (a ++ [c])) [] = (ms.flatMap (· ++ ['\n']) ++ a ++ [c]) ++ ['\n'] := by simp [text]
      rw [e]
      unfold trail
      rw [List.reverse_append]
      simp [hw]
  · obtain ⟨a, c, rfl, h1, h2⟩ := hl.trail
    have hb := hl.line c (by simp)
    have hw := ws_of h1 h2 hb
    have e : text ns (a ++ [c]) = (ns.flatMap (· ++ ['\n']) ++ a) ++ [c] := by simp [text]
    rw [e]
    unfold trail rstrip
    rw [List.reverse_append]
    split
    · rename_i r hr
      injection hr with hr _
      subst hr; rw [brk_nl] at hb; cases hb
    · simp [hw]

theorem name_blank {n : Str} (h : NameOk n) : blank n = false := by
  obtain ⟨a, c, rfl, h1, h2⟩ := h.trail
  simp [blank, ws_of h1 h2 (h.line c (by simp))]

theorem name_comment {n : Str} (h : NameOk n) : comment n = false := by
  unfold comment
  split
  · exact absurd rfl h.comment
  · rfl

theorem name_nl {n : Str} (h : NameOk n) : '\n' ∉ n := fun hh => by have := h.line _ hh; rw [brk_nl] at this; cases this

theorem name_ne {n : Str} (h : NameOk n) : n ≠ [] := by
  obtain ⟨a, c, rfl, -, -⟩ := h.trail
  simp

/-- The names of a list of files: those that are neither comments nor blank, all of them and in order, with or without a newline after the last one. -/
theorem C124_names_partial (is : List Item) (hi : ∀ i ∈ is, i.Ok) (last : Str) (hl : last = [] ∨ NameOk last) :
    depnames (text (is.map Item.line) last) = is.filterMap Item.file ++ if last = [] then [] else [last] := by
  have hls : '\n' ∉ last := by
    rcases hl with rfl | h
    · simp
    · exact name_nl h
  have h1 : Lines (is.map Item.line) last := by
    refine ⟨fun l hl => ?_, hls⟩
    obtain ⟨i, him, rfl⟩ := List.mem_map.1 hl
    have := hi i him
    cases i with
    | name n => exact name_nl this
    | comment s => simpa [Item.line] using this.1
    | blank s => exact fun hh => by rcases this _ hh with h | h <;> exact absurd h (by decide)
  have hc : comment last = false := by
    rcases hl with rfl | h
    · rfl
    · exact name_comment h
  have hb : (if blank last = true then [] else last) = last := by
    rcases hl with rfl | h
    · simp
    · rw [name_blank h]; simp
  unfold depnames
  have e : ((is.map Item.line).filter fun l => !comment l).filter (fun l => !blank l) = is.filterMap Item.file := by
    clear h1
    induction is with
    | nil => rfl
    | cons i is ih =>
      have hok := hi i (by simp)
      have := ih fun j hj => hi j (by simp [hj])
      cases i with
      | name n => simp [Item.line, Item.file, name_comment hok, name_blank hok]; simpa using this
      | comment s =>
        have : comment ('#' :: s) = true := by simp [comment, hok.2]
        simp [Item.line, List.filterMap_cons, Item.file, this]; simpa using ih fun j hj => hi j (by simp [hj])
      | blank s =>
        have : blank s = true := by
          rw [blank, List.all_eq_true]
          intro c hc
          rcases hok c hc with h | h <;> simp [ws, h]
        simp [Item.line, List.filterMap_cons, Item.file, this]; simpa using ih fun j hj => hi j (by simp [hj])
  rw [sub_text _ _ _ h1, sub_text _ _ _ (lines_filter _ _ h1), e, hc]
  simp only [Bool.false_eq_true, if_false, hb]
  have hn : ∀ n ∈ is.filterMap Item.file, NameOk n := by
    intro n hn
    obtain ⟨i, him, he⟩ := List.mem_filterMap.1 hn
    cases i with
    | name m => injection he with he; subst he; exact hi _ him
    | comment s => cases he
    | blank s => cases he
  rw [trail_text _ _ hn hl, split_text _ _ (fun n h => (hn n h).line)]
  rcases hl with rfl | h
  · simp
  · exact h.line

theorem dep_at (W : World) (d : Str) (ds : List Str) (n : Str) : ∃ x, W.dep (d :: ds) n = (x, n) ∧ At W (d :: ds) n x := by
  unfold World.dep
  split
  · rename_i x hx
    rw [List.find?_eq_some_iff_append] at hx
    obtain ⟨hx, a, b, e, ha⟩ := hx
    exact ⟨x, rfl, .found e hx (by simpa using ha)⟩
  · rename_i hx
    exact ⟨d, rfl, .first rfl (by simpa using hx)⟩

/-- A template depends on the lists of files, and on every file they name where the search path has it. -/
theorem C124_deps_partial (W : World) (xs : List Str) (path : List Str) :
    ∃ ds, W.emit (xs.map .text) path = some ds ∧ ∀ s ∈ xs, (W.cwd, s) ∈ ds ∧
      ∀ (is : List Item) (last : Str), (∀ i ∈ is, i.Ok) → (last = [] ∨ NameOk last) → W.content (W.cwd, s) = some (text (is.map Item.line) last) →
        ∀ n, (.name n ∈ is ∨ (n = last ∧ last ≠ [])) → ∃ d, (d, n) ∈ ds ∧ At W (if path = [] then [W.cwd] else path) n d := by
  have hm : ((xs.map Elem.text).mapM W.file) = some (xs.map fun s => (W.cwd, s)) := by
    induction xs with
    | nil => rfl
    | cons x xs ih => rw [List.map_cons, List.mapM_cons, ih]; rfl
  refine ⟨_, by unfold World.emit; rw [hm]; rfl, fun s hs => ⟨List.mem_append_left _ (List.mem_map_of_mem hs), ?_⟩⟩
  intro is last hi hl hcont n hn
  obtain ⟨d0, ds0, hd⟩ : ∃ d ds, (if path = [] then [W.cwd] else path) = d :: ds := by
    cases path with
    | nil => exact ⟨_, _, rfl⟩
    | cons p ps => exact ⟨p, ps, rfl⟩
  obtain ⟨x, hx, hat⟩ := dep_at W d0 ds0 n
  rw [hd]
  refine ⟨x, List.mem_append_right _ ?_, hat⟩
  unfold World.scan
  rw [hd]
  refine List.mem_flatMap.2 ⟨(W.cwd, s), List.mem_map_of_mem hs, ?_⟩
  rw [hcont]
  simp only
  rw [C124_names_partial is hi last hl, List.mem_map]
  refine ⟨n, ?_, hx⟩
  rcases hn with hn | ⟨rfl, hne⟩
  · exact List.mem_append_left _ (List.mem_filterMap.2 ⟨_, hn, rfl⟩)
  · exact List.mem_append_right _ (by simp [hne])

/-! ## Cases -/

def pot (date : String) (msg : String) : List Str := ["msgid \"\"", "msgstr \"\"", "\"POT-Creation-Date: " ++ date ++ "\"", "", "msgid \"" ++ msg ++ "\"", "msgstr \"\""].map String.toList

theorem pot_lines : Lines (pot "2024" "Hello") [] ∧ Lines (pot "2025" "Hello") [] ∧ Lines (pot "2025" "Bye") [] :=
  ⟨⟨by decide +kernel, by simp⟩, ⟨by decide +kernel, by simp⟩, ⟨by decide +kernel, by simp⟩⟩

theorem C124_sample : Same (pot "2024" "Hello") [] (pot "2025" "Hello") [] ∧ ¬ Same (pot "2024" "Hello") [] (pot "2025" "Bye") [] ∧
    update 0 (text (pot "2025" "Hello") []) (some (text (pot "2024" "Hello") [])) = (0, some (text (pot "2024" "Hello") [])) ∧
    update 0 (text (pot "2025" "Bye") []) (some (text (pot "2024" "Hello") [])) = (0, some (text (pot "2025" "Bye") [])) :=
  ⟨⟨by decide +kernel, by decide +kernel⟩, fun h => absurd h.lines (by decide +kernel), by decide +kernel, by decide +kernel⟩

def items : List Item := [.comment " sources".toList, .name "a b.c".toList, .blank " \t".toList, .name "../d.c".toList]

theorem items_ok : ∀ i ∈ items, i.Ok := by
  intro i hi
  simp only [items, List.mem_cons, List.not_mem_nil, or_false] at hi
  rcases hi with rfl | rfl | rfl | rfl
  · exact ⟨by decide +kernel, by decide +kernel⟩
  · exact ⟨by decide +kernel, ⟨"a b.".toList, 'c', by decide +kernel, by decide, by decide⟩, by decide +kernel⟩
  · show ∀ c ∈ " \t".toList, _
    decide +kernel
  · exact ⟨by decide +kernel, ⟨"../d.".toList, 'c', by decide +kernel, by decide, by decide⟩, by decide +kernel⟩

theorem C124_sample_names : depnames "# sources\na b.c\n \t\n../d.c\ne.c".toList = ["a b.c".toList, "../d.c".toList, "e.c".toList] ∧
    "# sources\na b.c\n \t\n../d.c\ne.c".toList = text (items.map Item.line) "e.c".toList ∧ NameOk "e.c".toList :=
  ⟨by decide +kernel, by decide +kernel, by decide +kernel, ⟨"e.".toList, 'c', by decide +kernel, by decide, by decide⟩, by decide +kernel⟩

def world : World where
  cwd := "po".toList
  content f := if f = ("po".toList, "POTFILES.in".toList) then some "a.c\nb.c\nc.c\n".toList else none
  has d n := (d, n) = ("src".toList, "a.c".toList) ∨ (d, n) = ("lib".toList, "b.c".toList) ∨ (d, n) = ("src".toList, "b.c".toList)

theorem C124_sample_deps : world.emit [.text "POTFILES.in".toList] ["lib".toList, "src".toList] =
    some [("po".toList, "POTFILES.in".toList), ("src".toList, "a.c".toList), ("lib".toList, "b.c".toList), ("lib".toList, "c.c".toList)] := by decide +kernel

/-! ## Where it fails -/

/-- The last message was removed from the sources, xgettext prints nothing: the template keeps it. -/
theorem C124_stale_counterexample : update 0 [] (some (text (pot "2024" "Hello") [])) = (0, some (text (pot "2024" "Hello") [])) := by decide +kernel

/-- A line of a message that looks like a date: its change is not seen. -/
theorem C124_message_counterexample : update 0 "msgid \"\"\n\"POT-Creation-Date: new text\"\n".toList (some "msgid \"\"\n\"POT-Creation-Date: old text\"\n".toList) =
    (0, some "msgid \"\"\n\"POT-Creation-Date: old text\"\n".toList) := by decide +kernel

/-- A template with carriage returns (the code writes it so on Windows, and reads it without translation) is always written. -/
theorem C124_crlf_counterexample : update 0 "\"POT-Creation-Date: 2\"\nmsgid \"a\"\n".toList (some "\"POT-Creation-Date: 1\"\r\nmsgid \"a\"\r\n".toList) = (0, some "\"POT-Creation-Date: 2\"\nmsgid \"a\"\n".toList) := by decide +kernel

/-- Blanks at the end of a line are removed on the last line only; others become part of the name. -/
theorem C124_blank_counterexample : depnames "a.c \nb.c \n".toList = ["a.c ".toList, "b.c".toList] := by decide +kernel

/-- In a list of files with carriage returns comments are names. -/
theorem C124_comment_counterexample : depnames "# sources\r\na.c\r\n".toList = ["# sources".toList, "a.c".toList] := by decide +kernel

/-- A node for a list of files ends in an exception, whatever else is given. -/
theorem C124_node_counterexample (W : World) (a b : List Elem) (f : Str × Str) (path : List Str) : W.emit (a ++ .node f :: b) path = none := by
  unfold World.emit
  have : ((a ++ Elem.node f :: b).mapM W.file) = none := by
    induction a with
    | nil => rw [List.nil_append, List.mapM_cons]; rfl
    | cons x a ih =>
      rw [List.cons_append, List.mapM_cons, ih]
      cases x <;> rfl
  rw [this]; rfl

end Verif.Pot
