import Verif.Subst.Model
/-! Facts about the tokenizer of `Verif.Subst.Model`. -/
namespace Verif.Subst

theorem dollarTok_text (uw) (r : Str) :
    (dollarTok uw r).1.text ++ (dollarTok uw r).2 = '$' :: r := by
  cases r with
  | nil => rfl
  | cons c r =>
    simp only [dollarTok]
    split
    · subst_vars; rfl
    split
    · subst_vars; rfl
    split
    · subst_vars; rfl
    split
    · simp [Tok.text]
    split
    · rename_i h
      simp only [Bool.and_eq_true, decide_eq_true_eq, List.contains_iff_mem] at h
      obtain ⟨rfl, hm⟩ := h
      simp only [Tok.text]
      have : r.dropWhile (· != '}') = '}' :: (r.dropWhile (· != '}')).tail := by
        induction r with
        | nil => simp at hm
        | cons d r ih =>
          by_cases hd : d = '}'
          · subst hd; simp
          · have : '}' ∈ r := by
              rcases List.mem_cons.1 hm with h | h
              · exact absurd h.symm hd
              · exact h
            simp only [List.dropWhile_cons]
            have hd' : (d != '}') = true := by simpa using hd
            rw [if_pos hd']
            exact ih this
      have h2 := List.takeWhile_append_dropWhile (p := (· != '}')) (l := r)
      rw [this] at h2
      simp only [List.cons_append, List.append_assoc, List.nil_append, List.cons.injEq, true_and]
      exact h2
    · rfl

theorem nextTok_text (uw) (c : Char) (r : Str) :
    (nextTok uw c r).1.text ++ (nextTok uw c r).2 = c :: r := by
  unfold nextTok
  split
  · subst_vars; exact dollarTok_text uw r
  split <;> simp [Tok.text]

theorem nextTok_text_ne (uw) (c : Char) (r : Str) : (nextTok uw c r).1.text ≠ [] := by
  unfold nextTok
  split
  · cases r with
    | nil => simp [dollarTok, Tok.text]
    | cons d r =>
      simp only [dollarTok]
      repeat' split
      all_goals simp [Tok.text]
  · split <;> simp [Tok.text]

theorem nextTok_length (uw) (c : Char) (r : Str) : (nextTok uw c r).2.length ≤ r.length := by
  have h := congrArg List.length (nextTok_text uw c r)
  have h2 := List.length_pos_iff.2 (nextTok_text_ne uw c r)
  simp only [List.length_append, List.length_cons] at h
  omega

theorem tokF_fuel (uw) : ∀ (n m : Nat) (s : Str), s.length ≤ n → s.length ≤ m →
    tokF uw n s = tokF uw m s := by
  intro n
  induction n with
  | zero => intro m s h1 h2; cases s with
    | nil => cases m <;> rfl
    | cons c r => simp at h1
  | succ n ih => intro m s h1 h2; cases s with
    | nil => cases m <;> rfl
    | cons c r => cases m with
      | zero => simp at h2
      | succ m =>
        simp only [tokF]
        have hl := nextTok_length uw c r
        simp only [List.length_cons] at h1 h2
        rw [ih m _ (by omega) (by omega)]

@[simp] theorem tokenize_nil (uw) : tokenize uw [] = [] := rfl

theorem tokenize_cons (uw) (c : Char) (r : Str) :
    tokenize uw (c :: r) = (nextTok uw c r).1 :: tokenize uw (nextTok uw c r).2 := by
  unfold tokenize
  rw [show (c :: r).length = r.length + 1 from rfl]
  simp only [tokF]
  rw [tokF_fuel uw _ _ _ (nextTok_length uw c r) (Nat.le_refl _)]

/-- Induction along the tokens of a string. -/
theorem tok_induction (uw) (P : Str → Prop) (h0 : P [])
    (h1 : ∀ c r, P (nextTok uw c r).2 → P (c :: r)) : ∀ s, P s := by
  intro s
  induction hn : s.length using Nat.strongRecOn generalizing s with
  | _ n ih =>
    cases s with
    | nil => exact h0
    | cons c r =>
      refine h1 c r (ih _ ?_ _ rfl)
      have := nextTok_length uw c r
      simp only [List.length_cons] at hn
      omega

theorem tokenize_lossless (uw) (s : Str) : ((tokenize uw s).map Tok.text).flatten = s := by
  induction s using tok_induction uw with
  | h0 => rfl
  | h1 c r ih =>
    rw [tokenize_cons, List.map_cons, List.flatten_cons, ih, nextTok_text]

theorem mem_takeWhile_holds {p : Char → Bool} {l : Str} {x : Char} (h : x ∈ l.takeWhile p) :
    p x = true := by
  induction l with
  | nil => simp at h
  | cons c r ih =>
    rw [List.takeWhile_cons] at h
    split at h
    · rcases List.mem_cons.1 h with h | h
      · subst h; assumption
      · exact ih h
    · simp at h

theorem isIdRest_dollar (uw) : isIdRest uw '$' = false := by
  simp [isIdRest]

theorem isSpace_dollar : isSpace '$' = false := by decide
theorem isWordChar_dollar : isWordChar '$' = false := by decide

theorem takeWhile_append_stop {p : Char → Bool} (hp : p d = false) (r t : Str) :
    (r ++ d :: t).takeWhile p = r.takeWhile p := by
  induction r with
  | nil => simp [hp]
  | cons c r ih => simp only [List.cons_append, List.takeWhile_cons]; split <;> simp [ih]

theorem dropWhile_append_stop {p : Char → Bool} (hp : p d = false) (r t : Str) :
    (r ++ d :: t).dropWhile p = r.dropWhile p ++ d :: t := by
  induction r with
  | nil => simp [hp]
  | cons c r ih => simp only [List.cons_append, List.dropWhile_cons]; split <;> simp [ih]

theorem brace_append (r t : Str) (h : '}' ∈ r) :
    (r ++ t).takeWhile (· != '}') = r.takeWhile (· != '}') ∧
    ((r ++ t).dropWhile (· != '}')).tail = (r.dropWhile (· != '}')).tail ++ t := by
  induction r with
  | nil => simp at h
  | cons d r ih =>
    by_cases hd : d = '}'
    · subst hd; simp
    · have : '}' ∈ r := by
        rcases List.mem_cons.1 h with h | h
        · exact absurd h.symm hd
        · exact h
      have hd' : (d != '}') = true := by simpa using hd
      simp only [List.cons_append, List.takeWhile_cons, List.dropWhile_cons, hd', if_true]
      exact ⟨by rw [(ih this).1], (ih this).2⟩

theorem nextTok_append (uw) (c : Char) (r t : Str) (h : (nextTok uw c r).1 ≠ .lone) :
    nextTok uw c (r ++ '$' :: t) = ((nextTok uw c r).1, (nextTok uw c r).2 ++ '$' :: t) := by
  unfold nextTok at *
  split
  · rename_i hc
    rw [if_pos hc] at h
    cases r with
    | nil => simp [dollarTok] at h
    | cons d r =>
      simp only [dollarTok, List.cons_append] at *
      split
      · rfl
      rename_i h1; rw [if_neg h1] at h
      split
      · rfl
      rename_i h2; rw [if_neg h2] at h
      split
      · rfl
      rename_i h3; rw [if_neg h3] at h
      split
      · rw [takeWhile_append_stop (isIdRest_dollar uw), dropWhile_append_stop (isIdRest_dollar uw)]
      rename_i h4; rw [if_neg h4] at h
      split at h
      · rename_i h5
        simp only [Bool.and_eq_true, decide_eq_true_eq, List.contains_iff_mem] at h5
        have hm : '}' ∈ r := h5.2
        have b := brace_append r ('$' :: t) hm
        rw [if_pos (by simp [h5]), if_pos (by simp [h5])]
        rw [b.1, b.2]
      · exact absurd rfl h
  · split
    · rw [takeWhile_append_stop isSpace_dollar, dropWhile_append_stop isSpace_dollar]
    · rw [takeWhile_append_stop isWordChar_dollar, dropWhile_append_stop isWordChar_dollar]

/-- If `a` contains no lone `$`, what follows `a` and starts with a `$` is read
separately. -/
theorem tokenize_append (uw) (a t : Str) (h : Tok.lone ∉ tokenize uw a) :
    tokenize uw (a ++ '$' :: t) = tokenize uw a ++ tokenize uw ('$' :: t) := by
  induction a using tok_induction uw with
  | h0 => rfl
  | h1 c r ih =>
    rw [tokenize_cons] at h
    simp only [List.mem_cons, not_or] at h
    rw [List.cons_append, tokenize_cons, nextTok_append uw c r t (fun e => h.1 e.symm), ih h.2,
      tokenize_cons uw c r]
    rfl

theorem tokenize_opn (uw) (t : Str) : tokenize uw ('$' :: '(' :: t) = .opn :: tokenize uw t := by
  rw [tokenize_cons]; rfl

theorem tokenize_cls (uw) (t : Str) : tokenize uw ('$' :: ')' :: t) = .cls :: tokenize uw t := by
  rw [tokenize_cons]; rfl

theorem tokenize_esc (uw) (t : Str) : tokenize uw ('$' :: '$' :: t) = .esc :: tokenize uw t := by
  rw [tokenize_cons]; rfl

/-- Only `$`-free text in `ws` and `word` tokens. -/
theorem nextTok_noDollar (uw) (c : Char) (r : Str) (s : Str)
    (h : (nextTok uw c r).1 = .ws s ∨ (nextTok uw c r).1 = .word s) : '$' ∉ s := by
  unfold nextTok at h
  split at h
  · exfalso
    cases r with
    | nil => simp [dollarTok] at h
    | cons d r =>
      simp only [dollarTok] at h
      repeat' split at h
      all_goals simp at h
  · rename_i hc
    have key : ∀ p : Char → Bool, p '$' = false → '$' ∉ c :: r.takeWhile p := by
      intro p hp hm
      rcases List.mem_cons.1 hm with h | h
      · exact hc h.symm
      · have := mem_takeWhile_holds h
        rw [hp] at this; exact absurd this (by decide)
    split at h
    · simp only [Tok.ws.injEq, reduceCtorEq, or_false] at h
      subst h; exact key _ isSpace_dollar
    · simp only [Tok.word.injEq, reduceCtorEq, false_or] at h
      subst h; exact key _ isWordChar_dollar

theorem tokenize_noDollar (uw) (s : Str) : ∀ t ∈ tokenize uw s, ∀ x, (t = .ws x ∨ t = .word x) → '$' ∉ x := by
  induction s using tok_induction uw with
  | h0 => simp
  | h1 c r ih =>
    rw [tokenize_cons]
    intro t ht x hx
    rcases List.mem_cons.1 ht with h | h
    · subst h; exact nextTok_noDollar uw c r x hx
    · exact ih t h x hx

end Verif.Subst
