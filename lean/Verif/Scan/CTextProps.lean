import Verif.Scan.CText
import Verif.Scan.Props
/-!
# C87: every file the compiler includes is found
-/
namespace Verif.CScan

/-! ### Specification: directives, as in the C standard (6.10.2) -/

/-- Blanks of a directive. -/
def Blanks (w : Str) : Prop := ∀ c ∈ w, c = ' ' ∨ c = '\t'

/-- The line begins like an include directive with a literal name; `b` is the bracket. -/
def Begins (line : Str) (b : Char) (r : Str) : Prop :=
  ∃ w1 w2 kw w3, Blanks w1 ∧ Blanks w2 ∧ Blanks w3 ∧ (kw = "include".toList ∨ kw = "import".toList) ∧
    (b = '<' ∨ b = '"') ∧ line = w1 ++ ['#'] ++ w2 ++ kw ++ w3 ++ [b] ++ r

def closing (b : Char) : Char := if b = '<' then '>' else '"'

/-- An include directive, with anything after it. -/
def Directive (line : Str) (b : Char) (name : Str) : Prop :=
  ∃ r, Begins line b (name ++ [closing b] ++ r) ∧ name ≠ [] ∧ closing b ∉ name

/-- The lines of a text. -/
def lines : Str → List Str
  | [] => [[]]
  | c :: s =>
    if c = '\n' then [] :: lines s
    else
      match lines s with
      | [] => [[c]]
      | l :: ls => (c :: l) :: ls

/-- The text has this directive, on a line. -/
def Includes (text : Str) (b : Char) (name : Str) : Prop := ∃ line ∈ lines text, Directive line b name

/-- All that looks like an include directive is one, and its name has no brackets of the
other kind. -/
def Tame (text : Str) : Prop :=
  ∀ line ∈ lines text, ∀ b r, Begins line b r → ∃ name, Directive line b name ∧ '>' ∉ name ∧ '"' ∉ name

/-! ### The expression up to the bracket -/

theorem blank_iff (c : Char) : blank c = true ↔ c = ' ' ∨ c = '\t' := by simp [blank]

theorem dropWhile_blanks (w s : Str) (h : Blanks w) (hs : ∀ c, s.head? = some c → blank c = false) :
    (w ++ s).dropWhile blank = s := by
  induction w with
  | nil =>
    cases s with
    | nil => rfl
    | cons c s => simp [hs c rfl]
  | cons c w ih =>
    have hc : blank c = true := (blank_iff c).2 (h c (by simp))
    rw [List.cons_append, List.dropWhile_cons, hc, if_pos rfl]
    exact ih fun d hd => h d (by simp [hd])

theorem split_blanks (s : Str) : ∃ w, Blanks w ∧ s = w ++ s.dropWhile blank := by
  refine ⟨s.takeWhile blank, fun c hc => (blank_iff c).1 ?_, ?_⟩
  · exact List.all_eq_true.1 (List.all_takeWhile) c hc
  exact (List.takeWhile_append_dropWhile).symm

theorem after_iff (p s r : Str) : after p s = some r ↔ s = p ++ r := by
  induction p generalizing s with
  | nil => simp [after, eq_comm]
  | cons a p ih =>
    cases s with
    | nil => simp [after]
    | cons c s =>
      simp only [after]
      by_cases h : a = c
      · subst h; simp [ih]
      · simp [h, Ne.symm h]

theorem afterKeyword_iff (s r : Str) : afterKeyword s = some r ↔ ∃ kw, (kw = kwInclude ∨ kw = kwImport) ∧ s = kw ++ r := by
  unfold afterKeyword
  cases h : after kwInclude s with
  | some r' =>
    rw [after_iff] at h
    subst h
    constructor
    · intro h; cases h; exact ⟨_, Or.inl rfl, rfl⟩
    · rintro ⟨kw, rfl | rfl, h⟩
      · rw [List.append_cancel_left h]
      · simp [kwInclude, kwImport] at h
  | none =>
    dsimp only
    rw [after_iff]
    constructor
    · intro h; exact ⟨_, Or.inr rfl, h⟩
    · rintro ⟨kw, rfl | rfl, h'⟩
      · rw [(after_iff kwInclude s r).2 h'] at h; cases h
      · exact h'

theorem startOf_iff (s : Str) (b : Char) (r : Str) : startOf s = some (b, r) ↔ Begins s b r := by
  constructor
  · intro h
    unfold startOf at h
    obtain ⟨w1, hw1, e1⟩ := split_blanks s
    split at h
    · rename_i s1 hs1
      rw [hs1] at e1
      obtain ⟨w2, hw2, e2⟩ := split_blanks s1
      split at h
      · cases h
      · rename_i s2 hs2
        obtain ⟨kw, hkw, e3⟩ := (afterKeyword_iff _ _).1 hs2
        obtain ⟨w3, hw3, e4⟩ := split_blanks s2
        split at h
        · rename_i c s3 hs3
          split at h
          · rename_i hc
            cases h
            refine ⟨w1, w2, kw, w3, hw1, hw2, hw3, hkw, by simpa using hc, ?_⟩
            rw [e1, e2, e3, e4, hs3]
            simp
          · cases h
        · cases h
    · cases h
  · rintro ⟨w1, w2, kw, w3, h1, h2, h3, hkw, hb, rfl⟩
    have e1 : (w1 ++ ['#'] ++ w2 ++ kw ++ w3 ++ [b] ++ r).dropWhile blank = '#' :: (w2 ++ kw ++ w3 ++ [b] ++ r) := by
      have := dropWhile_blanks w1 ('#' :: (w2 ++ kw ++ w3 ++ [b] ++ r)) h1 (by intro c hc; simp at hc; subst hc; decide)
      simpa using this
    have e2 : (w2 ++ kw ++ w3 ++ [b] ++ r).dropWhile blank = kw ++ (w3 ++ [b] ++ r) := by
      have := dropWhile_blanks w2 (kw ++ (w3 ++ [b] ++ r)) h2 (by
        intro c hc
        rcases hkw with rfl | rfl <;> (simp at hc; subst hc; decide))
      simpa using this
    have e3 : (w3 ++ [b] ++ r).dropWhile blank = b :: r := by
      have := dropWhile_blanks w3 (b :: r) h3 (by
        intro c hc; simp at hc; subst hc
        rcases hb with rfl | rfl <;> decide)
      simpa using this
    have e4 : afterKeyword (kw ++ (w3 ++ [b] ++ r)) = some (w3 ++ [b] ++ r) := (afterKeyword_iff _ _).2 ⟨kw, hkw, rfl⟩
    unfold startOf
    rw [e1]
    simp only [e2, e4, e3]
    rcases hb with rfl | rfl <;> simp

/-! ### One line -/

theorem begins_no_newline {line : Str} {b : Char} {r : Str} (h : Begins line b r) :
    ∃ p, line = p ++ b :: r ∧ '\n' ∉ p ∧ b ≠ '\n' := by
  obtain ⟨w1, w2, kw, w3, h1, h2, h3, hkw, hb, rfl⟩ := h
  refine ⟨w1 ++ ['#'] ++ w2 ++ kw ++ w3, by simp, ?_, by rcases hb with rfl | rfl <;> decide⟩
  intro hm
  have hw : ∀ w, Blanks w → '\n' ∉ w := by
    intro w hw hm
    rcases hw _ hm with h | h <;> exact absurd h (by decide)
  simp only [List.mem_append, List.mem_cons, List.not_mem_nil, or_false] at hm
  rcases hm with (((hm | hm) | hm) | hm) | hm
  · exact hw _ h1 hm
  · exact absurd hm (by decide)
  · exact hw _ h2 hm
  · rcases hkw with rfl | rfl <;> exact absurd hm (by decide)
  · exact hw _ h3 hm

theorem Begins.append {line : Str} {b : Char} {r : Str} (h : Begins line b r) (t : Str) : Begins (line ++ t) b (r ++ t) := by
  obtain ⟨w1, w2, kw, w3, h1, h2, h3, hkw, hb, rfl⟩ := h
  exact ⟨w1, w2, kw, w3, h1, h2, h3, hkw, hb, by simp⟩

/-- A beginning never reaches beyond its line. -/
theorem begins_line (line : Str) (hl : '\n' ∉ line) (t : Str) (b : Char) (r' : Str)
    (h : Begins (line ++ '\n' :: t) b r') : ∃ r, Begins line b r ∧ r' = r ++ '\n' :: t := by
  obtain ⟨p, hp, hnp, hb⟩ := begins_no_newline h
  -- `p ++ [b]` is a prefix of the line
  have : ∃ r, line = p ++ b :: r ∧ r' = r ++ '\n' :: t := by
    clear h
    induction p generalizing line with
    | nil =>
      cases line with
      | nil =>
        simp only [List.nil_append, List.cons.injEq] at hp
        exact absurd hp.1.symm hb
      | cons c line =>
        simp only [List.cons_append, List.nil_append, List.cons.injEq] at hp
        exact ⟨line, by rw [hp.1]; rfl, hp.2.symm⟩
    | cons a p ih =>
      cases line with
      | nil =>
        simp only [List.nil_append, List.cons_append, List.cons.injEq] at hp
        exact absurd (by rw [← hp.1]; simp) hnp
      | cons c line =>
        simp only [List.cons_append, List.cons.injEq] at hp
        obtain ⟨r, h1, h2⟩ := ih line (fun hm => hl (by simp [hm])) hp.2 fun hm => hnp (by simp [hm])
        exact ⟨r, by rw [h1, hp.1]; rfl, h2⟩
  obtain ⟨r, h1, h2⟩ := this
  refine ⟨r, ?_, h2⟩
  obtain ⟨w1, w2, kw, w3, g1, g2, g3, hkw, hb', e⟩ := h
  refine ⟨w1, w2, kw, w3, g1, g2, g3, hkw, hb', ?_⟩
  rw [h2] at e
  apply List.append_cancel_right (bs := '\n' :: t)
  rw [e]; simp

theorem begins_det {line : Str} {b b' : Char} {r r' : Str} (h : Begins line b r) (h' : Begins line b' r') : b = b' ∧ r = r' := by
  rw [← startOf_iff] at h h'
  rw [h] at h'
  cases h'
  exact ⟨rfl, rfl⟩

theorem matchAt_none_of (s : Str) (h : ∀ b r, ¬ Begins s b r) : matchAt s = none := by
  have : startOf s = none := by
    cases hs : startOf s with
    | none => rfl
    | some p => exact absurd ((startOf_iff s p.1 p.2).1 hs) (h _ _)
  simp [matchAt, this]

theorem matchAt_directive (line : Str) (b : Char) (name r : Str) (h : Begins line b (name ++ closing b :: r)) (hne : name ≠ [])
    (h1 : '>' ∉ name) (h2 : '"' ∉ name) : matchAt line = some ((b, name), r) := by
  have hs := (startOf_iff _ _ _).2 h
  have hin : ∀ c ∈ name, inName c = true := by
    intro c hc
    simp only [inName, ne_eq, Bool.and_eq_true, decide_eq_true_eq]
    exact ⟨fun e => h1 (e ▸ hc), fun e => h2 (e ▸ hc)⟩
  have hcl : inName (closing b) = false := by unfold closing; split <;> decide
  have t1 : (name ++ closing b :: r).takeWhile inName = name := by
    rw [List.takeWhile_append_of_pos hin]; simp [hcl]
  have t2 : (name ++ closing b :: r).dropWhile inName = closing b :: r := by
    rw [List.dropWhile_append_of_pos hin]; simp [hcl]
  simp [matchAt, hs, t1, t2, hne]

/-! ### Whole texts -/

theorem findFrom_false (k : Nat) (l t : Str) (hk : k ≤ l.length) (hl : '\n' ∉ l) :
    findFrom k false (l ++ '\n' :: t) = findFrom 0 true t := by
  induction l generalizing k with
  | nil =>
    simp at hk
    subst hk
    simp [findFrom]
  | cons c l ih =>
    have hc : c ≠ '\n' := fun e => hl (by simp [e])
    have hl' : '\n' ∉ l := fun e => hl (by simp [e])
    cases k with
    | zero => simp [findFrom, hc, ih 0 (by simp) hl']
    | succ k => simp [findFrom, hc, ih k (by simpa using hk) hl']

theorem findFrom_false_end (k : Nat) (l : Str) (hl : '\n' ∉ l) : findFrom k false l = [] := by
  induction l generalizing k with
  | nil => cases k <;> rfl
  | cons c l ih =>
    have hc : c ≠ '\n' := fun e => hl (by simp [e])
    have hl' : '\n' ∉ l := fun e => hl (by simp [e])
    cases k with
    | zero => simp [findFrom, hc, ih 0 hl']
    | succ k => simp [findFrom, hc, ih k hl']

theorem lines_append (l t : Str) (hl : '\n' ∉ l) : lines (l ++ '\n' :: t) = l :: lines t := by
  induction l with
  | nil => simp [lines]
  | cons c l ih =>
    have hc : c ≠ '\n' := fun e => hl (by simp [e])
    rw [List.cons_append, lines, if_neg hc, ih fun e => hl (by simp [e])]

theorem lines_single (l : Str) (hl : '\n' ∉ l) : lines l = [l] := by
  induction l with
  | nil => rfl
  | cons c l ih =>
    have hc : c ≠ '\n' := fun e => hl (by simp [e])
    rw [lines, if_neg hc, ih fun e => hl (by simp [e])]

theorem split_line (t : Str) : ('\n' ∉ t) ∨ ∃ l r, t = l ++ '\n' :: r ∧ '\n' ∉ l := by
  by_cases h : '\n' ∈ t
  · obtain ⟨l, r, e, hl⟩ := List.eq_append_cons_of_mem h
    exact Or.inr ⟨l, r, e, hl⟩
  · exact Or.inl h

/-- What is found in one line, `t` being the rest of the text. -/
theorem findFrom_line (line t : Str) (hl : '\n' ∉ line)
    (htame : ∀ b r, Begins line b r → ∃ name, Directive line b name ∧ '>' ∉ name ∧ '"' ∉ name) :
    ∃ caps, findFrom 0 true (line ++ '\n' :: t) = caps ++ findFrom 0 true t ∧ findFrom 0 true line = caps ∧
      ∀ b n, (b, n) ∈ caps ↔ Directive line b n := by
  by_cases hb : ∃ b r, Begins line b r
  · obtain ⟨b, r0, hb⟩ := hb
    obtain ⟨name, ⟨r, h1, h2, h3⟩, h4, h5⟩ := htame b r0 hb
    have h1' : Begins line b (name ++ closing b :: r) := by simpa using h1
    have h1t : Begins (line ++ '\n' :: t) b (name ++ closing b :: (r ++ '\n' :: t)) := by
      simpa using h1'.append ('\n' :: t)
    have m1 := matchAt_directive _ _ _ _ h1' h2 h4 h5
    have m2 := matchAt_directive _ _ _ _ h1t h2 h4 h5
    refine ⟨[(b, name)], ?_, ?_, ?_⟩
    · cases line with
      | nil => obtain ⟨p, hp, _⟩ := begins_no_newline hb; simp at hp
      | cons c line =>
        have hc : c ≠ '\n' := fun e => hl (by simp [e])
        rw [List.cons_append] at m2 ⊢
        rw [findFrom]
        simp only [if_true, m2, hc, decide_false, List.cons_append, List.nil_append, List.cons.injEq, true_and]
        refine findFrom_false _ line t ?_ fun e => hl (by simp [e])
        simp only [List.length_append, List.length_cons]
        omega
    · cases line with
      | nil => obtain ⟨p, hp, _⟩ := begins_no_newline hb; simp at hp
      | cons c line =>
        have hc : c ≠ '\n' := fun e => hl (by simp [e])
        rw [findFrom]
        simp only [if_true, m1, hc, decide_false, List.cons.injEq, true_and]
        exact findFrom_false_end _ line fun e => hl (by simp [e])
    · intro b' n'
      constructor
      · intro h
        simp only [List.mem_cons, Prod.mk.injEq, List.not_mem_nil, or_false] at h
        obtain ⟨rfl, rfl⟩ := h
        exact ⟨r, h1, h2, h3⟩
      · rintro ⟨r', g1, g2, g3⟩
        obtain ⟨rfl, e⟩ := begins_det h1 g1
        -- both names end at the first closing bracket
        have : ∀ (x y : Str) (c : Char) (u v : Str), c ∉ x → c ∉ y → x ++ c :: u = y ++ c :: v → x = y := by
          intro x
          induction x with
          | nil =>
            intro y c u v _ hy e
            cases y with
            | nil => rfl
            | cons a y => simp at e; exact absurd (by simp [e.1]) hy
          | cons a x ih =>
            intro y c u v hx hy e
            cases y with
            | nil => simp at e; exact absurd (by simp [e.1]) hx
            | cons a' y =>
              simp only [List.cons_append, List.cons.injEq] at e
              rw [e.1, ih y c u v (fun h => hx (by simp [h])) (fun h => hy (by simp [h])) e.2]
        have := this name n' (closing b) r r' h3 g3 (by simpa using e)
        simp [this]
  · have hno : ∀ b r, ¬ Begins line b r := fun b r h => hb ⟨b, r, h⟩
    have m1 := matchAt_none_of line hno
    have m2 := matchAt_none_of (line ++ '\n' :: t) fun b r h => by
      obtain ⟨r, h, _⟩ := begins_line line hl t b r h
      exact hno _ _ h
    refine ⟨[], ?_, ?_, ?_⟩
    · cases line with
      | nil =>
        rw [List.nil_append] at m2 ⊢
        rw [findFrom]
        simp [m2]
      | cons c line =>
        have hc : c ≠ '\n' := fun e => hl (by simp [e])
        rw [List.cons_append] at m2 ⊢
        rw [findFrom]
        simp only [if_true, m2, hc, decide_false, List.nil_append]
        exact findFrom_false 0 line t (by simp) fun e => hl (by simp [e])
    · cases line with
      | nil => rfl
      | cons c line =>
        have hc : c ≠ '\n' := fun e => hl (by simp [e])
        rw [findFrom]
        simp only [if_true, m1, hc, decide_false]
        exact findFrom_false_end 0 line fun e => hl (by simp [e])
    · intro b n
      simp only [List.not_mem_nil, false_iff]
      rintro ⟨r, h, _⟩
      exact hno _ _ h

/-- **C87** In a text in which everything that looks like an include directive is one,
exactly the directives are found. (Missing: texts in which something else looks like the
beginning of a directive, and directives that are not written on one line without
comments and macros; see the counterexamples.) -/
theorem C87_exactly_the_directives_partial (text : Str) (h : Tame text) (b : Char) (name : Str) :
    (b, name) ∈ findIncludes text ↔ Includes text b name := by
  unfold findIncludes
  induction hn : text.length using Nat.strongRecOn generalizing text with
  | _ n ih =>
    rcases split_line text with hl | ⟨l, t, rfl, hl⟩
    · have hlines := lines_single text hl
      obtain ⟨caps, _, h2, h3⟩ := findFrom_line text [] hl (h text (by rw [hlines]; simp))
      rw [h2, h3]
      simp [Includes, hlines]
    · have hlines := lines_append l t hl
      obtain ⟨caps, h1, _, h3⟩ := findFrom_line l t hl (h l (by rw [hlines]; simp))
      rw [h1, List.mem_append, h3, ih t.length (by rw [← hn]; simp; omega) t (fun x hx => h x (by rw [hlines]; simp [hx])) rfl]
      simp [Includes, hlines]

/-! ### The files -/

variable {D V : Type}

/-- The first directory of the list that has the file. -/
def FirstIn (has : D → Str → Option V) (ds : List D) (n : Str) (g : V) : Prop :=
  ∃ x d y, ds = x ++ d :: y ∧ has d n = some g ∧ ∀ d' ∈ x, has d' n = none

theorem findFile_iff (has : D → Str → Option V) (n : Str) (ds : List D) (g : V) :
    findFile has n ds = some g ↔ FirstIn has ds n g := by
  induction ds with
  | nil => simp [findFile, FirstIn]
  | cons d ds ih =>
    simp only [findFile]
    cases hd : has d n with
    | some v =>
      dsimp only
      constructor
      · intro h; cases h; exact ⟨[], d, ds, rfl, hd, by simp⟩
      · rintro ⟨x, d', y, e, h1, h2⟩
        cases x with
        | nil =>
          simp only [List.nil_append, List.cons.injEq] at e
          rw [← e.1, hd] at h1; exact h1
        | cons a x =>
          simp only [List.cons_append, List.cons.injEq] at e
          have := h2 a (by simp)
          rw [← e.1, hd] at this; cases this
    | none =>
      dsimp only
      rw [ih]
      constructor
      · rintro ⟨x, d', y, rfl, h1, h2⟩
        refine ⟨d :: x, d', y, rfl, h1, ?_⟩
        intro a ha
        rcases List.mem_cons.1 ha with rfl | ha
        · exact hd
        · exact h2 a ha
      · rintro ⟨x, d', y, e, h1, h2⟩
        cases x with
        | nil =>
          simp only [List.nil_append, List.cons.injEq] at e
          rw [← e.1, hd] at h1; cases h1
        | cons a x =>
          simp only [List.cons_append, List.cons.injEq] at e
          exact ⟨x, d', y, e.2, h1, fun b hb => h2 b (by simp [hb])⟩

/-- What a compiler does with a directive: `"x"` is looked for in the directory of the
file with the directive and then along the path, `<x>` along the path. -/
def Resolves (P : Proj D V) (v : V) (b : Char) (n : Str) (g : V) : Prop :=
  FirstIn P.has (if b = '"' then P.dir v :: P.path else P.path) n g

/-- The files a compiler reads: `Obeys` says which directives of a file it obeys
(conditions, comments). -/
inductive Reads (P : Proj D V) (Obeys : V → Char → Str → Prop) (start : V) : V → Prop
  | start : Reads P Obeys start start
  | step {v g b n} : Reads P Obeys start v → Obeys v b n → Resolves P v b n g → Reads P Obeys start g

theorem FirstIn.append {has : D → Str → Option V} {ds : List D} {n : Str} {g : V} (h : FirstIn has ds n g) (e : List D) :
    FirstIn has (ds ++ e) n g := by
  obtain ⟨x, d, y, rfl, h1, h2⟩ := h
  exact ⟨x, d, y ++ e, by simp, h1, h2⟩

theorem found_of_resolves (P : Proj D V) (v : V) (t : Str) (ht : P.text v = some t) (hT : Tame t) (b : Char) (n : Str)
    (hi : Includes t b n) (g : V) (h : Resolves P v b n g) : g ∈ found P v := by
  simp only [found, ht, List.mem_filterMap]
  refine ⟨(b, n), (C87_exactly_the_directives_partial t hT b n).2 hi, ?_⟩
  unfold findInclude
  unfold Resolves at h
  dsimp only
  split
  · rename_i hb
    rw [if_pos hb] at h
    exact (findFile_iff _ _ _ _).2 h
  · rename_i hb
    rw [if_neg hb] at h
    exact (findFile_iff _ _ _ _).2 (h.append _)

theorem scanner_eq (P : Proj D V) (start v : V) : Scan.scannerOf (scanEnv P) none start v = some () := rfl

/-- The files a compiler could be made to read, if it looked for `<x>` in the directory of
the file with the directive too, when it is nowhere on the path. -/
inductive CanRead (P : Proj D V) (start : V) : V → Prop
  | start : CanRead P start start
  | step {v g t b n} : CanRead P start v → P.text v = some t → Includes t b n →
      (Resolves P v b n g ∨ b = '<' ∧ (∀ d ∈ P.path, P.has d n = none) ∧ P.has (P.dir v) n = some g) → CanRead P start g

theorem canRead_of_found (P : Proj D V) (v : V) (hT : ∀ v t, P.text v = some t → Tame t) (g : V) (h : g ∈ found P v) :
    ∃ t b n, P.text v = some t ∧ Includes t b n ∧
      (Resolves P v b n g ∨ b = '<' ∧ (∀ d ∈ P.path, P.has d n = none) ∧ P.has (P.dir v) n = some g) := by
  unfold found at h
  split at h
  · cases h
  · rename_i t ht
    obtain ⟨⟨b, n⟩, hi, hf⟩ := List.mem_filterMap.1 h
    have hinc := (C87_exactly_the_directives_partial t (hT v t ht) b n).1 hi
    refine ⟨t, b, n, ht, hinc, ?_⟩
    unfold findInclude at hf
    dsimp only at hf
    unfold Resolves
    split at hf
    · rename_i hb
      rw [if_pos hb]
      exact Or.inl ((findFile_iff _ _ _ _).1 hf)
    · rename_i hb
      rw [if_neg hb]
      have hb' : b = '<' := by
        obtain ⟨_, _, _, ⟨_, _, _, _, _, _, _, _, hb', _⟩, _⟩ := hinc
        exact hb'.resolve_right hb
      obtain ⟨x, d, y, e, h1, h2⟩ := (findFile_iff _ _ _ _).1 hf
      rcases List.eq_nil_or_concat y with rfl | ⟨y', z, rfl⟩
      · right
        have := List.append_inj' e (by simp)
        simp only [List.cons.injEq, and_true] at this
        exact ⟨hb', fun d hd => h2 d (this.1 ▸ hd), by rw [this.2]; exact h1⟩
      · left
        have e' : P.path ++ [P.dir v] = (x ++ d :: y') ++ [z] := by rw [e]; simp
        exact ⟨x, d, y', (List.append_inj' e' (by simp)).1, h1, h2⟩

/-- **C87** Every file the compiler reads for a source, at any depth and whichever
directives it obeys, is a dependency, and every dependency can be reached by directives.
(Missing: as above, for the directives obeyed.) -/
theorem C87_every_file_read_is_a_dependency_partial [DecidableEq V] (P : Proj D V) (U : List V)
    (hU : ∀ d n v, P.has d n = some v → v ∈ U) (hT : ∀ v t, P.text v = some t → Tame t) (start : V) :
    ∃ n0 deps, (∀ n, n0 ≤ n → Scan.getImplicitDeps (scanEnv P) none start n = some deps) ∧ start ∉ deps ∧
      (∀ Obeys : V → Char → Str → Prop, (∀ v b n, Obeys v b n → ∃ t, P.text v = some t ∧ Includes t b n) →
        ∀ g, Reads P Obeys start g → g = start ∨ g ∈ deps) ∧
      (∀ g ∈ deps, CanRead P start g) := by
  have hfind : Scan.FindsIn (scanEnv P) U := by
    intro v sc x hx
    change x ∈ found P v at hx
    unfold found at hx
    split at hx
    · cases hx
    · obtain ⟨i, _, hi⟩ := List.mem_filterMap.1 hx
      unfold findInclude at hi
      split at hi <;> (obtain ⟨_, d, _, _, h1, _⟩ := (findFile_iff _ _ _ _).1 hi; exact hU d _ x h1)
  obtain ⟨n0, deps, h1, h2, h3⟩ := Scan.C38_transitive_closure_partial (scanEnv P) (fun _ _ => true)
    (fun sc l => (List.filter_eq_self.2 fun _ _ => rfl).symm) U hfind none start (fun n n' sc sc' x _ _ _ _ => rfl)
  refine ⟨n0, deps, h1, h3, fun Obeys hO g hg => ?_, fun g hg => ?_⟩
  · have hsc : ∀ g, Reads P Obeys start g →
        Scan.Scanned (scanEnv P) (Scan.scannerOf (scanEnv P) none start) (fun _ _ => true = true) start g ∧
        (g = start ∨ ∃ v, Scan.Scanned (scanEnv P) (Scan.scannerOf (scanEnv P) none start) (fun _ _ => true = true) start v ∧ g ∈ found P v) := by
      intro g hg
      induction hg with
      | start => exact ⟨.start, Or.inl rfl⟩
      | @step v g b n _ ho hr ih =>
        obtain ⟨t, ht, hi⟩ := hO v b n ho
        have hf := found_of_resolves P v t ht (hT v t ht) b n hi g hr
        exact ⟨.step ih.1 (scanner_eq P start v) hf rfl, Or.inr ⟨v, ih.1, hf⟩⟩
    obtain ⟨_, h | ⟨v, hv, hf⟩⟩ := hsc g hg
    · exact Or.inl h
    · by_cases he : g = start
      · exact Or.inl he
      · exact Or.inr ((h2 g).2 ⟨he, v, (), hv, rfl, hf⟩)
  · obtain ⟨_, v, sc, hv, _, hf⟩ := (h2 g).1 hg
    have hcan : CanRead P start v := by
      clear hf
      rename_i hsc
      clear hsc
      induction hv with
      | start => exact .start
      | step _ _ hx _ ih =>
        rename_i hn _ _
        obtain ⟨t, b, n, e1, e2, e3⟩ := canRead_of_found P _ hT _ hx
        exact .step ih e1 e2 e3
    obtain ⟨t, b, n, e1, e2, e3⟩ := canRead_of_found P v hT g hf
    exact .step hcan e1 e2 e3

theorem findFrom_names (s : Str) : ∀ (k : Nat) (bol : Bool) (i : Char × Str), i ∈ findFrom k bol s →
    i.2 ≠ [] ∧ '>' ∉ i.2 ∧ '"' ∉ i.2 := by
  induction s with
  | nil => intro k bol i hi; cases k <;> simp [findFrom] at hi
  | cons c s ih =>
    intro k bol i hi
    cases k with
    | succ k => exact ih k _ i hi
    | zero =>
      simp only [findFrom] at hi
      split at hi
      · rename_i cap rest hm
        rcases List.mem_cons.1 hi with rfl | hi
        · cases bol with
          | false => cases hm
          | true =>
            simp only [if_true, matchAt] at hm
            split at hm
            · cases hm
            · rename_i b r _
              split at hm
              · cases hm
              · split at hm
                · cases hm
                · rename_i hne
                  cases hm
                  refine ⟨hne, fun h => ?_, fun h => ?_⟩
                  · have := List.all_eq_true.1 (List.all_takeWhile (p := inName) (l := r)) _ h
                    simp [inName] at this
                  · have := List.all_eq_true.1 (List.all_takeWhile (p := inName) (l := r)) _ h
                    simp [inName] at this
        · exact ih _ _ i hi
      · exact ih 0 _ i hi

/-- **C87** Whatever the text, a name that is looked for has at least one character, and no
quote or closing bracket: `#include ""` leads to nothing. -/
theorem C87_names_looked_for (text : Str) (i : Char × Str) (hi : i ∈ findIncludes text) :
    i.2 ≠ [] ∧ '>' ∉ i.2 ∧ '"' ∉ i.2 := findFrom_names text 0 true i hi

end Verif.CScan
