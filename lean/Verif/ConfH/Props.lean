import Verif.ConfH.Model
import Verif.ConfH.Spec

/-!
# `config.h` says what the checks found (C104)
-/

namespace Verif.ConfH

theorem without_tail {x y c : Char} {t : List Char} (h : Without x y (c :: t)) : Without x y t := by
  intro u v e
  exact h (c :: u) v (by rw [e]; rfl)

theorem strip_code_cons {c : Char} {r : List Char} (h : ¬ (c = '/' ∧ ∃ r', r = '*' :: r')) : strip false (c :: r) = c :: strip false r := by
  rw [strip]
  intro r' e1 e2
  exact h ⟨e1, r', e2⟩

theorem strip_comment_cons {c : Char} {r : List Char} (h : ¬ (c = '*' ∧ ∃ r', r = '/' :: r')) : strip true (c :: r) = strip true r := by
  rw [strip]
  intro r' e1 e2
  exact h ⟨e1, r', e2⟩

/-- Text without comments, followed by something that cannot be the second half of an opening. -/
theorem strip_plain {d : Char} (hd : d ≠ '*') : ∀ {t : List Char} (r : List Char), Without '/' '*' t →
    strip false (t ++ d :: r) = t ++ strip false (d :: r)
  | [], _, _ => rfl
  | c :: t, r, h => by
    rw [List.cons_append, strip_code_cons, strip_plain hd r (without_tail h)]
    · rfl
    · rintro ⟨rfl, r', e⟩
      rcases t with _ | ⟨x, t⟩
      · simp only [List.nil_append, List.cons.injEq] at e
        exact hd e.1
      · simp only [List.cons_append, List.cons.injEq] at e
        obtain ⟨rfl, -⟩ := e
        exact h [] t rfl

/-- The rest of a comment. -/
theorem strip_comment : ∀ {t : List Char} (r : List Char), Without '*' '/' t →
    strip true (t ++ ' ' :: '*' :: '/' :: r) = strip false r
  | [], r, _ => by
    rw [List.nil_append, strip_comment_cons (by simp)]
    rw [strip]
  | c :: t, r, h => by
    rw [List.cons_append, strip_comment_cons, strip_comment r (without_tail h)]
    rintro ⟨rfl, r', e⟩
    rcases t with _ | ⟨x, t⟩
    · simp at e
    · simp only [List.cons_append, List.cons.injEq] at e
      obtain ⟨rfl, -⟩ := e
      exact h [] t rfl

theorem without_of_notMem {x y : Char} {t : List Char} (h : x ∉ t) : Without x y t := by
  intro u v e
  exact h (by rw [e]; simp)

theorem without_append {x y : Char} {a b : List Char} (ha : Without x y a) (hb : Without x y b) (hl : a.getLast? ≠ some x ∨ b.head? ≠ some y) :
    Without x y (a ++ b) := by
  induction a with
  | nil => simpa using hb
  | cons c a ih =>
    intro u v e
    rcases u with _ | ⟨d, u⟩
    · simp only [List.cons_append, List.nil_append, List.cons.injEq] at e
      obtain ⟨rfl, e⟩ := e
      rcases a with _ | ⟨d, a⟩
      · simp only [List.nil_append] at e
        subst e
        simp at hl
      · simp only [List.cons_append, List.cons.injEq] at e
        obtain ⟨rfl, rfl⟩ := e
        exact ha [] a rfl
    · simp only [List.cons_append, List.cons.injEq] at e
      refine ih (without_tail ha) ?_ u v e.2
      rcases hl with h | h
      · left
        intro h'
        apply h
        rcases a with _ | ⟨d, a⟩
        · simp at h'
        · simpa using h'
      · exact Or.inr h

theorem lines_ne : ∀ t, lines t ≠ []
  | [] => by simp [lines]
  | c :: r => by
    simp only [lines]
    split
    · simp
    · split <;> simp

theorem lines_append (a b : List Char) : lines (a ++ '\n' :: b) = lines a ++ lines b := by
  induction a with
  | nil => simp [lines]
  | cons c a ih =>
    simp only [List.cons_append, lines]
    by_cases hc : c = '\n'
    · rw [if_pos hc, if_pos hc, ih]; rfl
    · rw [if_neg hc, if_neg hc, ih]
      rcases h : lines a with _ | ⟨x, l⟩
      · exact absurd h (lines_ne a)
      · simp

theorem lines_single {a : List Char} (h : '\n' ∉ a) : lines a = [a] := by
  induction a with
  | nil => rfl
  | cons c a ih =>
    simp only [List.mem_cons, not_or] at h
    rw [lines, if_neg (fun e => h.1 e.symm), ih h.2]

/-- Reading a line. -/
theorem read_line {a r : List Char} (ha : Without '/' '*' a) (hn : '\n' ∉ a) :
    definitions (a ++ '\n' :: r) = (defOf a).toList ++ definitions r := by
  unfold definitions
  rw [strip_plain (by decide) r ha, strip_code_cons (by simp), lines_append, List.filterMap_append, lines_single hn]
  simp only [List.filterMap_cons, List.filterMap_nil]
  rcases defOf a with _ | x <;> rfl

/-- Reading a comment on a line of its own. -/
theorem read_comment {c r : List Char} (hc : Without '*' '/' c) :
    definitions ("/* ".toList ++ c ++ " */\n".toList ++ r) = definitions r := by
  have e : "/* ".toList ++ c ++ " */\n".toList ++ r = '/' :: '*' :: (' ' :: c ++ ' ' :: '*' :: '/' :: '\n' :: r) := by
    simp
  unfold definitions
  rw [e, strip]
  rw [strip_comment]
  · rw [strip_code_cons (by simp)]
    rw [show (' ' :: '\n' :: strip false r) = [' '] ++ '\n' :: strip false r from rfl, lines_append, List.filterMap_append]
    rw [show (lines [' ']).filterMap defOf = [] by decide]
    rfl
  · have := without_append (x := '*') (y := '/') (a := [' ']) (b := c) (without_of_notMem (by decide)) hc (Or.inl (by decide))
    simpa using this

theorem defOf_value {n v : List Char} (hn : ' ' ∉ n) : defOf ("#define ".toList ++ n ++ " ".toList ++ v) = some (n, v) := by
  unfold defOf
  rw [if_pos (by exact ⟨n ++ " ".toList ++ v, by simp⟩)]
  have e : ("#define ".toList ++ n ++ " ".toList ++ v).drop 8 = n ++ ' ' :: v := by
    rw [List.append_assoc, List.append_assoc, show (8 : Nat) = "#define ".toList.length from rfl, List.drop_left]
    rfl
  simp only
  rw [e]
  have h : ∀ c ∈ n, decide (c ≠ ' ') = true := by
    intro c hc
    simp only [ne_eq, decide_not, Bool.not_eq_true', decide_eq_false_iff_not]
    rintro rfl; exact hn hc
  rw [List.takeWhile_append_of_pos h, List.dropWhile_append_of_pos h]
  simp

theorem defOf_bare {n : List Char} (hn : ' ' ∉ n) : defOf ("#define ".toList ++ n) = some (n, []) := by
  unfold defOf
  rw [if_pos (by exact ⟨n, by simp⟩)]
  have e : ("#define ".toList ++ n).drop 8 = n := by
    rw [show (8 : Nat) = "#define ".toList.length from rfl, List.drop_left]
  simp only
  rw [e]
  have h : ∀ c ∈ n, decide (c ≠ ' ') = true := by
    intro c hc
    simp only [ne_eq, decide_not, Bool.not_eq_true', decide_eq_false_iff_not]
    rintro rfl; exact hn hc
  have h1 : n.takeWhile (fun c => decide (c ≠ ' ')) = n := by
    have := List.takeWhile_append_of_pos (l₂ := []) h; simpa using this
  have h2 : n.dropWhile (fun c => decide (c ≠ ' ')) = [] := by
    have := List.dropWhile_append_of_pos (l₂ := []) h; simpa using this
  rw [h1, h2]
  rfl

/-- The characters of a macro name made by `_Have`. -/
theorem keyUp_mem {key : Str} {c : Char} (h : c ∈ keyUp key) : c ≠ ' ' ∧ c ≠ '\n' ∧ c ≠ '/' ∧ c ≠ '*' := by
  obtain ⟨d, -, rfl⟩ := List.mem_map.1 h
  split
  · rename_i h
    generalize d.toUpper = e at h
    refine ⟨?_, ?_, ?_, ?_⟩ <;> rintro rfl <;> revert h <;> decide
  · decide

theorem guard_mem {key : Str} {c : Char} (h : c ∈ guard key) : c ≠ ' ' ∧ c ≠ '\n' ∧ c ≠ '/' ∧ c ≠ '*' := by
  obtain ⟨d, -, rfl⟩ := List.mem_map.1 h
  split
  · rename_i h
    generalize d.toUpper = e at h
    refine ⟨?_, ?_, ?_, ?_⟩ <;> rintro rfl <;> revert h <;> decide
  · decide

/-- A value or name that can be written on a line: no line break, no opening of a comment. -/
def OneLine (t : Str) : Prop := '\n' ∉ t ∧ Without '/' '*' t

theorem digits_char {n : Nat} {c : Char} (h : c ∈ (toString n).toList) : c.isDigit = true := by
  rw [Nat.toString_eq_repr] at h
  exact Nat.isDigit_of_mem_toDigits (b := 10) (n := n) (by decide) (by decide) (by simpa [Nat.repr] using h)

theorem keyUp_oneLine (key : Str) : OneLine (keyUp key) :=
  ⟨fun h => (keyUp_mem h).2.1 rfl, without_of_notMem fun h => (keyUp_mem h).2.2.1 rfl⟩

theorem digits_oneLine (n : Nat) : OneLine (toString n).toList :=
  ⟨fun h => absurd (digits_char h) (by decide), without_of_notMem fun h => absurd (digits_char h) (by decide)⟩

theorem oneLine_plain {t : Str} (h1 : '\n' ∉ t) (h2 : '/' ∉ t) : OneLine t := ⟨h1, without_of_notMem h2⟩

theorem oneLine_append {a b : Str} (ha : OneLine a) (hb : OneLine b) (hl : a.getLast? ≠ some '/' ∨ b.head? ≠ some '*') :
    OneLine (a ++ b) :=
  ⟨by simp only [List.mem_append, not_or]; exact ⟨ha.1, hb.1⟩, without_append ha.2 hb.2 hl⟩

theorem getLast_append_blank (a : Str) : (a ++ [' ']).getLast? = some ' ' := by simp

/-- Reading `#define NAME VALUE`. -/
theorem read_value {n v r : Str} (hb : ' ' ∉ n) (hn : OneLine n) (hv : OneLine v) :
    definitions ("#define ".toList ++ n ++ " ".toList ++ v ++ "\n".toList ++ r) = (n, v) :: definitions r := by
  have e : "#define ".toList ++ n ++ " ".toList ++ v ++ "\n".toList ++ r = ("#define ".toList ++ n ++ " ".toList ++ v) ++ '\n' :: r := by
    simp
  have h0 : OneLine ("#define ".toList ++ n) :=
    oneLine_append (oneLine_plain (by decide) (by decide)) hn (Or.inl (by decide))
  have h1 : OneLine ("#define ".toList ++ n ++ " ".toList) :=
    oneLine_append h0 (oneLine_plain (by decide) (by decide)) (Or.inr (by decide))
  have h : OneLine ("#define ".toList ++ n ++ " ".toList ++ v) := by
    refine oneLine_append h1 hv (Or.inl ?_)
    rw [show (" ".toList : Str) = [' '] from rfl, getLast_append_blank]
    decide
  rw [e, read_line h.2 h.1, defOf_value hb]
  rfl

theorem read_bare {n r : Str} (hb : ' ' ∉ n) (hn : OneLine n) :
    definitions ("#define ".toList ++ n ++ "\n".toList ++ r) = (n, []) :: definitions r := by
  have e : "#define ".toList ++ n ++ "\n".toList ++ r = ("#define ".toList ++ n) ++ '\n' :: r := by
    simp
  have h0 : OneLine ("#define ".toList ++ n) :=
    oneLine_append (oneLine_plain (by decide) (by decide)) hn (Or.inl (by decide))
  rw [e, read_line h0.2 h0.1, defOf_bare hb]
  rfl

end Verif.ConfH
