import Verif.TexScan.Comments

/-!
# Commands (C108)
-/

namespace Verif.TexScan

/-! ## White space at the end -/

theorem dropWhile_blank {p : Char → Bool} {s w : Str} (h : s.all p = true) : (s ++ w).dropWhile p = w.dropWhile p := by
  induction s with
  | nil => rfl
  | cons c s ih =>
    simp only [List.all_cons, Bool.and_eq_true] at h
    rw [List.cons_append, List.dropWhile_cons, if_pos h.1, ih h.2]

theorem dropWhile_some {p : Char → Bool} {s : Str} (h : s.all p = false) (w : Str) :
    (s ++ w).dropWhile p = s.dropWhile p ++ w ∧ (s ++ w).takeWhile p = s.takeWhile p ∧ ∃ c r, s.dropWhile p = c :: r ∧ p c = false := by
  induction s with
  | nil => simp at h
  | cons c s ih =>
    by_cases hc : p c = true
    · have : s.all p = false := by simpa [hc] using h
      obtain ⟨h1, h2, d, r, h3, h4⟩ := ih this
      exact ⟨by simp [hc, h1], by simp [hc, h2], d, r, by simp [hc, h3], h4⟩
    · exact ⟨by simp [hc], by simp [hc], c, s, by simp [hc], by simpa using hc⟩

theorem dropWhile_all' {p : Char → Bool} {s : Str} (h : s.all p = true) : s.dropWhile p = [] := by
  have := dropWhile_blank (w := []) h
  simpa using this

theorem takeWhile_all' {p : Char → Bool} {s : Str} (h : s.all p = true) : s.takeWhile p = s := by
  induction s with
  | nil => rfl
  | cons c s ih =>
    simp only [List.all_cons, Bool.and_eq_true] at h
    rw [List.takeWhile_cons, if_pos h.1, ih h.2]

theorem all_of {w : Str} (h : w.all sp = true) {p : Char → Bool} (hp : ∀ c, sp c = true → p c = true) : w.all p = true := by
  simp only [List.all_eq_true] at h ⊢
  exact fun c hc => hp c (h c hc)

theorem sp_ne {c : Char} (h : sp c = true) {d : Char} (hd : sp d = false) : c ≠ d := by
  rintro rfl; rw [h] at hd; exact absurd hd (by simp)

theorem sp_letter {c : Char} (h : sp c = true) : letter c = false := by
  by_cases hl : letter c = true
  · exfalso
    simp only [letter, Char.isAlpha, Char.isUpper, Char.isLower, Bool.or_eq_true, Bool.and_eq_true, decide_eq_true_eq] at hl
    simp only [sp, Bool.or_eq_true, Bool.and_eq_true, decide_eq_true_eq, beq_iff_eq] at h
    have h1 : c.toNat ≤ 32 := by
      rcases h with (h | h) | h
      · rw [h]; decide
      · omega
      · omega
    have h2 : 65 ≤ c.toNat := by
      rcases hl with hl | hl
      · have := hl.1; exact this
      · have := hl.1
        have h3 : (97 : Nat) ≤ c.toNat := this
        omega
    omega
  · simpa using hl

theorem matchArg_append {w : Str} (hw : w.all sp = true) (s : Str) :
    matchArg (s ++ w) = (matchArg s).map fun x => (x.1, x.2 ++ w) := by
  by_cases hs : s.all sp = true
  · have h1 : (s ++ w).dropWhile sp = [] := by rw [dropWhile_blank hs, dropWhile_all' hw]
    simp [matchArg, h1, dropWhile_all' hs]
  · simp only [Bool.not_eq_true] at hs
    obtain ⟨h1, _, c, r, h2, _⟩ := dropWhile_some hs w
    simp only [matchArg, h1, h2, List.cons_append]
    by_cases hc : c = '{'
    · subst hc
      simp only
      by_cases hr : r.all (fun c => decide (c ≠ '}')) = true
      · have hw' : w.all (fun c => decide (c ≠ '}')) = true := all_of hw fun c hc => by simpa using sp_ne hc (by decide)
        have e1 : (r ++ w).dropWhile (fun c => decide (c ≠ '}')) = [] := by rw [dropWhile_blank hr, dropWhile_all' hw']
        rw [e1, dropWhile_all' hr]
        rfl
      · simp only [Bool.not_eq_true] at hr
        obtain ⟨h3, h4, d, t, h5, h6⟩ := dropWhile_some hr w
        simp only [decide_eq_false_iff_not, ne_eq, Decidable.not_not] at h6
        subst h6
        rw [h3, h4, h5]
        rfl
    · split
      · rename_i heq; simp at heq; exact absurd heq.1 hc
      · split
        · rename_i heq; simp at heq; exact absurd heq.1 hc
        · rfl

theorem matchBrackets_append {w : Str} (hw : w.all sp = true) (s : Str) :
    matchBrackets (s ++ w) = (matchBrackets s).map fun x => (x.1, x.2 ++ w) := by
  cases s with
  | nil =>
    cases w with
    | nil => rfl
    | cons c w =>
      simp only [List.all_cons, Bool.and_eq_true] at hw
      have : c ≠ '[' := sp_ne hw.1 (by decide)
      simp only [List.nil_append, matchBrackets]
      split
      · rename_i heq; simp at heq; exact absurd heq.1 this
      · rfl
  | cons c s =>
    by_cases hc : c = '['
    · subst hc
      simp only [List.cons_append, matchBrackets]
      by_cases hr : s.all (fun c => decide (c ≠ ']')) = true
      · have hw' : w.all (fun c => decide (c ≠ ']')) = true := all_of hw fun c hc => by simpa using sp_ne hc (by decide)
        have e1 : (s ++ w).dropWhile (fun c => decide (c ≠ ']')) = [] := by rw [dropWhile_blank hr, dropWhile_all' hw']
        rw [e1, dropWhile_all' hr]
        rfl
      · simp only [Bool.not_eq_true] at hr
        obtain ⟨h3, h4, d, t, h5, h6⟩ := dropWhile_some hr w
        simp only [decide_eq_false_iff_not, ne_eq, Decidable.not_not] at h6
        subst h6
        rw [h3, h4, h5]
        simp only [List.cons_append]
        by_cases ho : s.takeWhile (fun c => decide (c ≠ ']')) = []
        · rw [if_pos ho, if_pos ho]; rfl
        · rw [if_neg ho, if_neg ho]; rfl
    · simp only [List.cons_append, matchBrackets]
      split
      · rename_i heq; simp at heq; exact absurd heq.1 hc
      · split
        · rename_i heq; simp at heq; exact absurd heq.1 hc
        · rfl

theorem matchOpt_append {w : Str} (hw : w.all sp = true) (x s : Str) : matchOpt x (s ++ w) = ((matchOpt x s).1, (matchOpt x s).2 ++ w) := by
  simp only [matchOpt]
  by_cases h1 : x ∈ optWords
  · simp only [if_pos h1]
    by_cases hs : s.all sp = true
    · have e : (s ++ w).dropWhile sp = [] := by rw [dropWhile_blank hs, dropWhile_all' hw]
      simp [e, dropWhile_all' hs, matchBrackets]
    · simp only [Bool.not_eq_true] at hs
      obtain ⟨e1, e2, _⟩ := dropWhile_some hs w
      rw [e1, matchBrackets_append hw, e2]
      cases matchBrackets (s.dropWhile sp) <;> rfl
  · simp only [if_neg h1]
    by_cases h2 : x = listWord
    · simp only [if_pos h2]
      rw [matchBrackets_append hw]
      cases matchBrackets s <;> rfl
    · simp only [if_neg h2]

theorem letters_append {w : Str} (hw : w.all sp = true) (r : Str) :
    (r ++ w).takeWhile letter = r.takeWhile letter ∧ (r ++ w).dropWhile letter = r.dropWhile letter ++ w := by
  have hw0 : w.takeWhile letter = [] ∧ w.dropWhile letter = w := by
    cases w with
    | nil => exact ⟨rfl, rfl⟩
    | cons c w =>
      simp only [List.all_cons, Bool.and_eq_true] at hw
      simp [sp_letter hw.1]
  by_cases hr : r.all letter = true
  · rw [dropWhile_blank hr, hw0.2, dropWhile_all' hr]
    refine ⟨?_, rfl⟩
    rw [takeWhile_all' hr]
    have : (r ++ w).takeWhile letter = r ++ w.takeWhile letter := by
      clear hw0
      induction r with
      | nil => rfl
      | cons c r ih =>
        simp only [List.all_cons, Bool.and_eq_true] at hr
        rw [List.cons_append, List.takeWhile_cons, if_pos hr.1, ih hr.2]; rfl
    rw [this, hw0.1, List.append_nil]
  · simp only [Bool.not_eq_true] at hr
    obtain ⟨h1, h2, _⟩ := dropWhile_some hr w
    exact ⟨h2, h1⟩

theorem matchCmd_append {w : Str} (hw : w.all sp = true) (c : Char) (s : Str) :
    matchCmd (c :: s ++ w) = (matchCmd (c :: s)).map fun x => (x.1, x.2 ++ w) := by
  rw [List.cons_append]
  by_cases hc : c = '\\'
  · subst hc
    simp only [matchCmd]
    rw [(letters_append hw s).1, (letters_append hw s).2, matchOpt_append hw]
    by_cases hm : s.takeWhile letter ∈ plainWords ++ optWords ++ [listWord]
    · simp only [if_pos hm]
      rw [matchArg_append hw]
      rcases matchArg (matchOpt (s.takeWhile letter) (s.dropWhile letter)).2 with _ | ⟨a, r1⟩
      · rfl
      · simp only [Option.map_some]
        rw [matchArg_append hw]
        rcases matchArg r1 with _ | ⟨b, r2⟩ <;> rfl
    · simp only [if_neg hm]; rfl
  · simp only [matchCmd]
    split
    · rename_i heq; simp at heq; exact absurd heq.1 hc
    · split
      · rename_i heq; simp at heq; exact absurd heq.1 hc
      · rfl

theorem matchCmd_not {c : Char} (h : c ≠ '\\') (s : Str) : matchCmd (c :: s) = none := by
  simp only [matchCmd]
  split
  · rename_i heq; simp at heq; exact absurd heq.1 h
  · rfl

theorem findFrom_plain {u : Str} (h : ∀ c ∈ u, c ≠ '\\') (v : Str) : findFrom 0 (u ++ v) = findFrom 0 v := by
  induction u with
  | nil => rfl
  | cons c u ih =>
    rw [List.cons_append, findFrom, matchCmd_not (h c (by simp))]
    exact ih fun d hd => h d (by simp [hd])

theorem findFrom_skip : ∀ (u v : Str), findFrom u.length (u ++ v) = findFrom 0 v
  | [], _ => rfl
  | _ :: u, v => by simp only [List.length_cons, List.cons_append, findFrom]; exact findFrom_skip u v

theorem findFrom_end {w : Str} (hw : w.all sp = true) : ∀ (s : Str) (k : Nat), k ≤ s.length → findFrom k (s ++ w) = findFrom k s
  | [], k, hk => by
    have : k = 0 := by simpa using hk
    subst this
    have := findFrom_plain (u := w) (fun c hc => sp_ne (by simp only [List.all_eq_true] at hw; exact hw c hc) (by decide)) []
    simpa [findFrom] using this
  | c :: s, k + 1, hk => by
    simp only [List.cons_append, findFrom]
    exact findFrom_end hw s k (by simpa using hk)
  | c :: s, 0, _ => by
    simp only [List.cons_append, findFrom]
    have := matchCmd_append hw c s
    rw [List.cons_append] at this
    rw [this]
    rcases matchCmd (c :: s) with _ | ⟨a, r⟩
    · exact findFrom_end hw s 0 (by simp)
    · simp only [Option.map_some]
      have e : (s ++ w).length - (r ++ w).length = s.length - r.length := by simp; omega
      rw [e, findFrom_end hw s _ (by omega)]

/-- What is found in the text that the scanner makes is found in what TeX sees. -/
theorem found_tex {text : Str} (h : ¬ Within ['\\', '\\', '%'] text) : findFrom 0 (canonical text) = findFrom 0 (tex .normal text) := by
  rw [C108_comments_partial text h, findFrom_end (by decide) _ 0 (by simp)]
  obtain ⟨w, h1, h2⟩ := rstrip_parts (tex .normal text)
  conv => rhs; rw [h1]
  rw [findFrom_end h2 _ 0 (by simp)]

/-! ## Pieces -/

/-- What is found for a piece. -/
def Seg.caps : Seg → List (Str × Str × Str)
  | .cmd w o _ l => [(w ++ o, commas l, [])]
  | _ => []

theorem head_letters {v : Str} (h : ∀ x, v.head? = some x → letter x = false) (n : Str) (hn : ∀ c ∈ n, letter c = true) :
    (n ++ v).takeWhile letter = n ∧ (n ++ v).dropWhile letter = v := by
  induction n with
  | nil =>
    cases v with
    | nil => exact ⟨rfl, rfl⟩
    | cons c v => simp [h c rfl]
  | cons c n ih =>
    have := ih fun d hd => hn d (by simp [hd])
    simp only [List.cons_append, List.takeWhile_cons, List.dropWhile_cons, if_pos (hn c (by simp)), this, and_self]

theorem words_known : ∀ w ∈ plainWords ++ optWords ++ [listWord], w ∈ oneArg ++ dirFile := by decide +kernel
theorem oneArg_known : ∀ w ∈ oneArg, w ∈ plainWords ++ optWords ++ [listWord] := by decide +kernel
theorem oneArg_letters : ∀ w ∈ oneArg, ∀ c ∈ w, letter c = true := by decide +kernel
theorem oneArg_two : ∀ w ∈ oneArg, w ∉ twoArgs := by decide +kernel
theorem oneArg_theme : ∀ w ∈ oneArg, isTheme w = decide (w ∈ themes) := by decide +kernel
theorem option_words : ∀ w ∈ withOption, w ∈ optWords ∨ (w ∉ optWords ∧ w = listWord) := by decide +kernel
theorem nil_word : ([] : Str) ∉ plainWords ++ optWords ++ [listWord] := by decide +kernel

theorem letter_backslash {c : Char} (h : letter c = true) : c ≠ '\\' := by rintro rfl; exact absurd h (by decide)

theorem takeWhile_until {d : Char} {x : Str} (h : d ∉ x) (r : Str) :
    (x ++ d :: r).takeWhile (fun c => decide (c ≠ d)) = x ∧ (x ++ d :: r).dropWhile (fun c => decide (c ≠ d)) = d :: r := by
  induction x with
  | nil => simp
  | cons c x ih =>
    simp only [List.mem_cons, not_or] at h
    have hc : c ≠ d := fun e => h.1 e.symm
    have := ih h.2
    simp only [ne_eq, decide_not] at this
    simp [hc, this]

theorem matchOpt_ok {w o b : Str} (hw : Option' w o) (hb : ∀ c ∈ b, sp c = true) (r : Str) :
    matchOpt w (o ++ (b ++ '{' :: r)) = (o, b ++ '{' :: r) := by
  have hbr : (b ++ '{' :: r).dropWhile sp = '{' :: r := by
    rw [dropWhile_blank (by simpa using hb)]
    simp [show sp '{' = false from by decide]
  have hno : matchBrackets (b ++ '{' :: r) = none := by
    cases b with
    | nil => rfl
    | cons c b =>
      have : c ≠ '[' := sp_ne (hb c (by simp)) (by decide)
      simp only [List.cons_append, matchBrackets]
      split
      · rename_i heq; simp at heq; exact absurd heq.1 this
      · rfl
  rcases hw with rfl | ⟨hm, x, rfl, hx, hx1, _⟩
  · simp only [List.nil_append, matchOpt, hbr, hno]
    by_cases h1 : w ∈ optWords
    · simp [h1, matchBrackets]
    · by_cases h2 : w = listWord
      · simp only [if_neg h1, if_pos h2]
      · simp only [if_neg h1, if_neg h2]
  · have hmb : matchBrackets ('[' :: x ++ [']'] ++ (b ++ '{' :: r)) = some ('[' :: x ++ [']'], b ++ '{' :: r) := by
      have e : '[' :: x ++ [']'] ++ (b ++ '{' :: r) = '[' :: (x ++ ']' :: (b ++ '{' :: r)) := by simp
      rw [e]
      simp only [matchBrackets]
      simp only [(takeWhile_until hx1 _).1, (takeWhile_until hx1 _).2, if_neg hx]
    have hd : ('[' :: x ++ [']'] ++ (b ++ '{' :: r)).dropWhile sp = '[' :: x ++ [']'] ++ (b ++ '{' :: r) := by
      simp [show sp '[' = false from by decide]
    have ht : ('[' :: x ++ [']'] ++ (b ++ '{' :: r)).takeWhile sp = [] := by
      simp [show sp '[' = false from by decide]
    rcases option_words w hm with h1 | ⟨h1, h2⟩
    · simp only [matchOpt, if_pos h1, hd, hmb, ht]
      rfl
    · simp only [matchOpt, if_neg h1, if_pos h2, hmb]

theorem commas_brace {l : List Str} (h : ∀ n ∈ l, Name n) : '}' ∉ commas l := by
  induction l with
  | nil => simp [commas]
  | cons x l ih =>
    have hx : '}' ∉ x := fun e => (h x (by simp) _ e).2 rfl
    have := ih fun n hn => h n (by simp [hn])
    cases l with
    | nil => exact hx
    | cons y l =>
      intro e
      simp only [commas, List.mem_append, List.mem_cons] at e
      rcases e with e | e | e
      · exact hx e
      · exact absurd e (by decide)
      · exact this e

theorem matchArg_ok {b a : Str} (hb : ∀ c ∈ b, sp c = true) (ha : '}' ∉ a) (r : Str) : matchArg (b ++ '{' :: (a ++ '}' :: r)) = some (a, r) := by
  have : (b ++ '{' :: (a ++ '}' :: r)).dropWhile sp = '{' :: (a ++ '}' :: r) := by
    rw [dropWhile_blank (by simpa using hb)]
    simp [show sp '{' = false from by decide]
  simp only [matchArg, this, (takeWhile_until ha r).1, (takeWhile_until ha r).2]

theorem matchArg_none {r : Str} (h : (r.dropWhile sp).head? ≠ some '{') : matchArg r = none := by
  simp only [matchArg]
  split
  · rename_i heq; rw [heq] at h; exact absurd rfl h
  · rfl

theorem cmd_match {w o b : Str} {names : List Str} {r : Str} (hw : w ∈ oneArg) (ho : Option' w o) (hb : ∀ c ∈ b, sp c = true)
    (hn : ∀ n ∈ names, Name n) (hr : (r.dropWhile sp).head? ≠ some '{') :
    matchCmd ((Seg.cmd w o b names).text ++ r) = some ((w ++ o, commas names, []), r) := by
  have e : (Seg.cmd w o b names).text ++ r = '\\' :: (w ++ (o ++ (b ++ '{' :: (commas names ++ '}' :: r)))) := by simp [Seg.text]
  have hhead : ∀ x, (o ++ (b ++ '{' :: (commas names ++ '}' :: r))).head? = some x → letter x = false := by
    intro x hx
    rcases ho with rfl | ⟨_, y, rfl, _⟩
    · cases b with
      | nil => simp at hx; subst hx; decide
      | cons c b =>
        simp at hx
        subst hx
        exact sp_letter (hb c (by simp))
    · simp at hx; subst hx; decide
  obtain ⟨h1, h2⟩ := head_letters hhead w (oneArg_letters w hw)
  rw [e]
  simp only [matchCmd, h1, h2, if_pos (oneArg_known w hw), matchOpt_ok ho hb, matchArg_ok hb (commas_brace hn), matchArg_none hr]

theorem found_pieces {l : List Seg} (h : Doc l) : findFrom 0 (render l) = l.flatMap Seg.caps := by
  induction h with
  | nil => rfl
  | chr hc _ ih =>
    rename_i c l _
    have e : render (.chr c :: l) = [c] ++ render l := rfl
    rw [e, findFrom_plain (by simpa using hc), ih]
    rfl
  | ctl hc hb _ ih =>
    rename_i c l _
    have e : render (.ctl c :: l) = '\\' :: c :: render l := rfl
    have h1 : matchCmd ('\\' :: c :: render l) = none := by
      have ht : (c :: render l).takeWhile letter = [] := by simp [hc]
      simp only [matchCmd, ht, if_neg nil_word]
    have h2 : matchCmd (c :: render l) = none := by
      by_cases hc' : c = '\\'
      · have ht := (head_letters (hb hc') [] (by simp)).1
        rw [List.nil_append] at ht
        subst hc'
        simp only [matchCmd, ht, if_neg nil_word]
      · exact matchCmd_not hc' _
    rw [e, findFrom, h1]
    simp only
    rw [findFrom, h2]
    simp only
    rw [ih]
    rfl
  | mac hn hk hb _ ih =>
    rename_i n l _
    have e : render (.mac n :: l) = '\\' :: (n ++ render l) := rfl
    have h1 : matchCmd ('\\' :: (n ++ render l)) = none := by
      have ht := (head_letters hb n hn).1
      simp only [matchCmd, ht]
      rw [if_neg fun hm => hk (words_known n hm)]
    rw [e, findFrom, h1]
    simp only
    rw [findFrom_plain fun c hc => letter_backslash (hn c hc), ih]
    rfl
  | cmd hw ho hb hne hn hr _ ih =>
    rename_i w o b names l _
    have e : render (.cmd w o b names :: l) = (Seg.cmd w o b names).text ++ render l := rfl
    have hm := cmd_match hw ho hb hn hr
    rw [e]
    have et : (Seg.cmd w o b names).text = '\\' :: (w ++ o ++ b ++ '{' :: commas names ++ ['}']) := by simp [Seg.text]
    rw [et] at hm ⊢
    rw [List.cons_append] at hm ⊢
    rw [findFrom, hm]
    simp only
    generalize hu : w ++ o ++ b ++ '{' :: commas names ++ ['}'] = u
    have e2 : (u ++ render l).length - (render l).length = u.length := by simp
    rw [e2, findFrom_skip, ih]
    simp [Seg.caps]

/-! ## Names -/

theorem noopt_letters {w o : Str} (hw : ∀ c ∈ w, letter c = true) (ho : noopt o = []) : noopt (w ++ o) = w := by
  induction w with
  | nil => exact ho
  | cons c w ih =>
    have hc := hw c (by simp)
    have hs : sp c = false := by
      by_cases h : sp c = true
      · rw [sp_letter h] at hc; exact absurd hc (by simp)
      · simpa using h
    have hb : c ≠ '[' := by rintro rfl; exact absurd hc (by decide)
    rw [List.cons_append, noopt, if_neg]
    · rw [ih fun d hd => hw d (by simp [hd])]
    · intro h
      simp [hs, hb] at h

theorem noopt_option {w o : Str} (h : Option' w o) : noopt o = [] := by
  rcases h with rfl | ⟨_, x, rfl, _, _, hx⟩
  · rfl
  · rw [List.cons_append, noopt, if_pos]
    simp [show sp '[' = false from by decide, hx]

theorem split_commas {l : List Str} (hne : l ≠ []) (h : ∀ n ∈ l, Name n) : split (commas l) = l := by
  have plain : ∀ {x : Str}, ',' ∉ x → split x = [x] := by
    intro x hx
    induction x with
    | nil => rfl
    | cons c x ih =>
      simp only [List.mem_cons, not_or] at hx
      rw [split, if_neg fun e => hx.1 e.symm, ih hx.2]
  have app : ∀ {x : Str}, ',' ∉ x → ∀ r, split (x ++ ',' :: r) = x :: split r := by
    intro x hx r
    induction x with
    | nil => simp [split]
    | cons c x ih =>
      simp only [List.mem_cons, not_or] at hx
      rw [List.cons_append, split, if_neg fun e => hx.1 e.symm, ih hx.2]
  induction l with
  | nil => exact absurd rfl hne
  | cons x l ih =>
    have hx : ',' ∉ x := fun e => (h x (by simp) _ e).1 rfl
    cases l with
    | nil => exact plain hx
    | cons y l => rw [commas, app hx, ih (by simp) fun n hn => h n (by simp [hn])]; simp

/-- What is to be looked for, for one name of a command. -/
def incOf (sub w n : Str) : Inc :=
  if w ∈ themes then ⟨w, sub, "beamer".toList ++ w.drop 3 ++ n ++ ".sty".toList⟩ else ⟨w, sub, n⟩

/-- All that is to be looked for. -/
def Seg.incs (sub : Str) : Seg → List Inc
  | .cmd w _ _ names => names.map (incOf sub w)
  | _ => []

theorem splitInc_cmd {w o b : Str} {names : List Str} (sub : Str) (hw : w ∈ oneArg) (ho : Option' w o) (hne : names ≠ [])
    (hn : ∀ n ∈ names, Name n) : splitInc sub (w ++ o, commas names, []) = (Seg.cmd w o b names).incs sub := by
  simp only [splitInc, noopt_letters (oneArg_letters w hw) (noopt_option ho), if_neg (oneArg_two w hw), oneArg_theme w hw, split_commas hne hn,
    Seg.incs, decide_eq_true_eq]
  by_cases ht : w ∈ themes
  · rw [if_pos ht]
    apply List.map_congr_left
    intro n _
    rw [incOf, if_pos ht]
  · rw [if_neg ht]
    apply List.map_congr_left
    intro n _
    rw [incOf, if_neg ht]

/-- **C108, commands.** In a document, exactly the commands that read files are found, each with its names, in their order. -/
theorem C108_commands (sub text : Str) {l : List Seg} (h : IsDoc text l) : scanText sub text = l.flatMap (Seg.incs sub) := by
  obtain ⟨hd, ht, hw⟩ := h
  rw [scanText, found_tex hw, ht, found_pieces hd]
  clear ht
  induction hd with
  | nil => rfl
  | chr _ _ ih => simpa [Seg.caps, Seg.incs] using ih
  | ctl _ _ _ ih => simpa [Seg.caps, Seg.incs] using ih
  | mac _ _ _ _ ih => simpa [Seg.caps, Seg.incs] using ih
  | cmd hw ho _ hne hn _ _ ih =>
    rw [List.flatMap_cons, List.flatMap_append, ih, List.flatMap_cons]
    congr 1
    simp only [Seg.caps, List.flatMap_cons, List.flatMap_nil, List.append_nil]
    exact splitInc_cmd sub hw ho hne hn

/-! ## Commands with a directory -/

theorem dirFile_known : ∀ w ∈ dirFile, w ∈ plainWords ++ optWords ++ [listWord] ∧ w ∉ optWords ∧ w ≠ listWord ∧ w ∈ twoArgs ∧ ∀ c ∈ w, letter c = true := by decide +kernel

/-- **C108, files of other directories.**  `\import{dir}{a,b}` and its kin, wherever they are in the text: each name is looked for in `dir`, which is an absolute path or a path below the
directory from which the file itself was imported. -/
theorem C108_import {w dir : Str} {names : List Str} (hw : w ∈ dirFile) (hd : '}' ∉ dir) (hne : names ≠ []) (hn : ∀ n ∈ names, Name n) (sub r : Str) :
    matchCmd ('\\' :: (w ++ '{' :: (dir ++ '}' :: '{' :: (commas names ++ '}' :: r)))) = some ((w, dir, commas names), r) ∧
    (dir.head? = some '/' → splitInc sub (w, dir, commas names) = names.map fun n => ⟨w, dir, n⟩) ∧
    splitInc [] (w, dir, commas names) = names.map (fun n => ⟨w, dir, n⟩) ∧
    (∀ up, dir.head? ≠ some '/' → splitInc (up ++ ['/']) (w, dir, commas names) = names.map fun n => ⟨w, up ++ '/' :: dir, n⟩) ∧
    (dir.head? ≠ some '/' → sub ≠ [] → sub.getLast? ≠ some '/' → splitInc sub (w, dir, commas names) = names.map fun n => ⟨w, sub ++ '/' :: dir, n⟩) := by
  obtain ⟨k1, k2, k3, k4, k5⟩ := dirFile_known w hw
  have hnoopt : noopt w = w := by simpa using noopt_letters k5 (o := []) rfl
  have hs : ∀ sub, splitInc sub (w, dir, commas names) = names.map fun n => ⟨w, pathJoin sub dir, n⟩ := by
    intro sub
    simp only [splitInc, hnoopt, if_pos k4, split_commas hne hn]
  refine ⟨?_, fun h => ?_, ?_, fun up h => ?_, fun h h1 h2 => ?_⟩
  · obtain ⟨e1, e2⟩ := head_letters (v := '{' :: (dir ++ '}' :: '{' :: (commas names ++ '}' :: r))) (by simp; decide) w k5
    have m1 := matchArg_ok (b := []) (a := dir) (by simp) hd ('{' :: (commas names ++ '}' :: r))
    have m2 := matchArg_ok (b := []) (a := commas names) (by simp) (commas_brace hn) r
    simp only [List.nil_append] at m1 m2
    simp only [matchCmd, e1, e2, if_pos k1, matchOpt, if_neg k2, if_neg k3, m1, m2, List.append_nil]
  · rw [hs]; simp [pathJoin, h]
  · rw [hs]; simp [pathJoin]
  · rw [hs]; simp [pathJoin, h]
  · rw [hs]; simp [pathJoin, h, h1, h2]

/-- A use of it. -/
example : scanText "sub/".toList "text \\subinputfrom{x/}{a,b} text".toList = [⟨"subinputfrom".toList, "sub/x/".toList, "a".toList⟩, ⟨"subinputfrom".toList, "sub/x/".toList, "b".toList⟩] := by decide +kernel

end Verif.TexScan
