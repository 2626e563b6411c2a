import Verif.PyScan.Spec

/-!
# The statements of a text (C107)
-/

namespace Verif.PyScan

/-! ## Words -/

def blankB (s : Str) : Bool := s.all sp

theorem word_blank {s : Str} (h : blankB s = true) : word s = [] := by
  simp only [blankB, List.all_eq_true] at h
  have : s.dropWhile sp = [] := by
    induction s with
    | nil => rfl
    | cons c s ih => rw [List.dropWhile_cons, if_pos (h c (by simp)), ih fun d hd => h d (by simp [hd])]
  simp [word, this]

theorem nonblank_drop {s : Str} (h : blankB s = false) : ∃ c r, s.dropWhile sp = c :: r ∧ sp c = false := by
  induction s with
  | nil => simp [blankB] at h
  | cons c s ih =>
    by_cases hc : sp c = true
    · have : blankB s = false := by simpa [blankB, hc] using h
      obtain ⟨d, r, h1, h2⟩ := ih this
      exact ⟨d, r, by simp [List.dropWhile_cons, hc, h1], h2⟩
    · simp only [Bool.not_eq_true] at hc
      exact ⟨c, s, by simp [List.dropWhile_cons, hc], hc⟩

theorem word_nil_iff (s : Str) : word s = [] ↔ blankB s = true := by
  constructor
  · intro h
    by_cases hb : blankB s = true
    · exact hb
    · simp only [Bool.not_eq_true] at hb
      obtain ⟨c, r, h1, h2⟩ := nonblank_drop hb
      simp [word, h1, h2] at h
  · exact word_blank

theorem dropWhile_append_nonblank {s : Str} (h : blankB s = false) (t : Str) : (s ++ t).dropWhile sp = s.dropWhile sp ++ t := by
  induction s with
  | nil => simp [blankB] at h
  | cons c s ih =>
    by_cases hc : sp c = true
    · have : blankB s = false := by simpa [blankB, hc] using h
      simp [List.dropWhile_cons, hc, ih this]
    · simp [List.dropWhile_cons, hc]

theorem dropWhile_append_blank {s : Str} (h : blankB s = true) (t : Str) : (s ++ t).dropWhile sp = t.dropWhile sp := by
  induction s with
  | nil => rfl
  | cons c s ih =>
    simp only [blankB, List.all_cons, Bool.and_eq_true] at h
    simp [h.1, ih h.2]

theorem takeWhile_nsp_newline (s t : Str) : (s ++ '\n' :: t).takeWhile (fun c => !sp c) = s.takeWhile fun c => !sp c := by
  induction s with
  | nil => simp [sp]
  | cons c s ih => by_cases hc : sp c = true <;> simp [List.takeWhile_cons, hc, ih]

theorem dropWhile_nsp_newline (s t : Str) : (s ++ '\n' :: t).dropWhile (fun c => !sp c) = s.dropWhile (fun c => !sp c) ++ '\n' :: t := by
  induction s with
  | nil => simp [sp]
  | cons c s ih => by_cases hc : sp c = true <;> simp [List.dropWhile_cons, hc, ih]

theorem word_line {s : Str} (h : blankB s = false) (t : Str) : word (s ++ '\n' :: t) = word s := by
  simp only [word, dropWhile_append_nonblank h, takeWhile_nsp_newline]

theorem rest_line {s : Str} (h : blankB s = false) (t : Str) : rest (s ++ '\n' :: t) = rest s ++ '\n' :: t := by
  simp only [rest, dropWhile_append_nonblank h, dropWhile_nsp_newline]

theorem sp_newline : sp '\n' = true := by decide

theorem word_skip {s : Str} (h : blankB s = true) (t : Str) : word (s ++ '\n' :: t) = word t := by
  simp [word, dropWhile_append_blank h, sp_newline]

theorem rest_skip {s : Str} (h : blankB s = true) (t : Str) : rest (s ++ '\n' :: t) = rest t := by
  simp [rest, dropWhile_append_blank h, sp_newline]

theorem word_eq {b w r : Str} (hb : blankB b = true) (hw : w ≠ []) (hw' : ∀ c ∈ w, sp c = false) (hr : r = [] ∨ ∃ c t, r = c :: t ∧ sp c = true) :
    word (b ++ w ++ r) = w ∧ rest (b ++ w ++ r) = r := by
  have h1 : (b ++ w ++ r).dropWhile sp = w ++ r := by
    rw [List.append_assoc, dropWhile_append_blank hb]
    cases w with
    | nil => exact absurd rfl hw
    | cons c w => simp [hw' c (by simp)]
  have h2 : (w ++ r).takeWhile (fun c => !sp c) = w := by
    clear hw h1
    induction w with
    | nil => rcases hr with rfl | ⟨c, t, rfl, h⟩ <;> simp_all
    | cons c w ih => simp [hw' c (by simp), ih (fun d hd => hw' d (by simp [hd]))]
  have h3 : (w ++ r).dropWhile (fun c => !sp c) = r := by
    clear hw h1 h2
    induction w with
    | nil => rcases hr with rfl | ⟨c, t, rfl, h⟩ <;> simp_all
    | cons c w ih => simp [hw' c (by simp), ih (fun d hd => hw' d (by simp [hd]))]
  simp only [word, rest, h1, h2, h3, and_self]

/-- A text that is not blank: white space, a word, and what follows. -/
theorem parts {s : Str} (h : blankB s = false) :
    ∃ b, blankB b = true ∧ s = b ++ word s ++ rest s ∧ word s ≠ [] ∧ (∀ c ∈ word s, sp c = false) ∧
      (rest s = [] ∨ ∃ c t, rest s = c :: t ∧ sp c = true) := by
  refine ⟨s.takeWhile sp, ?_, ?_, ?_, ?_, ?_⟩
  · simp only [blankB, List.all_eq_true]
    intro c hc
    induction s with
    | nil => simp at hc
    | cons d s ih =>
      rw [List.takeWhile_cons] at hc
      split at hc
      · rename_i hd
        rcases List.mem_cons.1 hc with rfl | hc
        · exact hd
        · have : blankB s = false := by simpa [blankB, hd] using h
          exact ih this hc
      · simp at hc
  · rw [List.append_assoc]
    simp only [word, rest, List.takeWhile_append_dropWhile]
  · intro e
    rw [word_nil_iff, h] at e
    exact absurd e (by simp)
  · intro c hc
    simp only [word] at hc
    generalize s.dropWhile sp = u at hc
    induction u with
    | nil => simp at hc
    | cons d u ih =>
      rw [List.takeWhile_cons] at hc
      split at hc
      · rename_i hd
        rcases List.mem_cons.1 hc with rfl | hc
        · simpa using hd
        · exact ih hc
      · simp at hc
  · simp only [rest]
    generalize s.dropWhile sp = u
    induction u with
    | nil => exact Or.inl rfl
    | cons d u ih =>
      rw [List.dropWhile_cons]
      split
      · exact ih
      · rename_i hd
        exact Or.inr ⟨d, u, rfl, by simpa using hd⟩

theorem words_tail {c : Char} {r : Str} {l : List Str} (h : Words (c :: r) l) (hc : sp c = true) : Words r l := by
  generalize hs : c :: r = s at h
  cases h with
  | none h => subst hs; exact .none fun d hd => h d (by simp [hd])
  | one hb hw hw' =>
    rename_i b w
    cases b with
    | nil =>
      subst hs
      have := hw' c (by simp)
      rw [hc] at this; exact absurd this (by simp)
    | cons d b =>
      simp only [List.cons_append, List.cons.injEq] at hs
      obtain ⟨rfl, rfl⟩ := hs
      exact .one (fun d hd => hb d (by simp [hd])) hw hw'
  | more hb hw hw' hc' h =>
    rename_i b w c' r' l'
    cases b with
    | nil =>
      cases w with
      | nil => exact absurd rfl hw
      | cons d w =>
        simp only [List.nil_append, List.cons_append, List.cons.injEq] at hs
        obtain ⟨rfl, _⟩ := hs
        have := hw' c (by simp)
        rw [hc] at this; exact absurd this (by simp)
    | cons d b =>
      simp only [List.cons_append, List.cons.injEq] at hs
      obtain ⟨rfl, rfl⟩ := hs
      exact .more (fun d hd => hb d (by simp [hd])) hw hw' hc' h

theorem words_of {s : Str} (h : blankB s = false) {l : List Str} (hl : Words (rest s) l) : Words s (word s :: l) := by
  obtain ⟨b, hb, he, hw, hw', hr⟩ := parts h
  simp only [blankB, List.all_eq_true] at hb
  rcases hr with hr | ⟨c, t, hr, hc⟩
  · rw [hr] at hl he
    have : l = [] := by
      generalize hs : ([] : Str) = s at hl
      cases hl with
      | none => rfl
      | one _ hw => simp at hs; exact absurd hs.2 hw
      | more => simp at hs
    subst this
    rw [he, List.append_nil]
    have e : word (b ++ word s) = word s := by
      have := (word_eq (b := b) (w := word s) (r := []) (by simpa [blankB] using hb) hw hw' (Or.inl rfl)).1
      rwa [List.append_nil] at this
    rw [e]
    exact .one hb hw hw'
  · rw [hr] at hl
    have h2 := words_tail hl hc
    have h3 : Words (b ++ word s ++ c :: t) (word s :: l) := .more hb hw hw' hc h2
    rw [hr] at he
    rwa [← he] at h3

theorem words_blank {s : Str} (h : blankB s = true) : Words s [] := .none (by simpa [blankB] using h)

/-! ## findall, line by line -/

theorem findFrom_skip {A : Type} (m : Str → Option (A × Str)) : ∀ (u v : Str) (b : Bool),
    findFrom m u.length b (u ++ v) = findFrom m 0 ((u.getLast?.map (· == '\n')).getD b) v
  | [], v, b => rfl
  | x :: u, v, b => by
    simp only [List.length_cons, List.cons_append]
    rw [findFrom, findFrom_skip m u v]
    cases u with
    | nil => simp
    | cons y u =>
      rw [List.getLast?_cons_cons]
      rcases h : (y :: u).getLast? with _ | z
      · simp at h
      · simp

theorem findFrom_line {A : Type} (m : Str → Option (A × Str)) {s : Str} (h : '\n' ∉ s) (t : Str) :
    findFrom m 0 false (s ++ '\n' :: t) = findFrom m 0 true t := by
  induction s with
  | nil => simp [findFrom]
  | cons c s ih =>
    simp only [List.mem_cons, not_or] at h
    have : (c == '\n') = false := by simpa using fun e => h.1 e.symm
    simp only [List.cons_append, findFrom, this]
    exact ih h.2

/-- A match at the beginning, that ends in the line. -/
theorem findFrom_hit {A : Type} (m : Str → Option (A × Str)) {u v : Str} {a : A} (hu : u ≠ []) (hm : m (u ++ v) = some (a, v)) :
    findFrom m 0 true (u ++ v) = a :: findFrom m 0 ((u.getLast?.map (· == '\n')).getD true) v := by
  cases u with
  | nil => exact absurd rfl hu
  | cons c u =>
    simp only [List.cons_append] at hm ⊢
    rw [findFrom]
    simp only [if_true, hm]
    have e : (u ++ v).length - v.length = u.length := by simp
    rw [e, findFrom_skip]
    cases u with
    | nil => simp
    | cons y u =>
      rw [List.getLast?_cons_cons]
      rcases h : (y :: u).getLast? with _ | z
      · simp at h
      · simp

theorem findFrom_miss {A : Type} (m : Str → Option (A × Str)) {s t : Str} (h : '\n' ∉ s) (hm : m (s ++ '\n' :: t) = none) :
    findFrom m 0 true (s ++ '\n' :: t) = findFrom m 0 true t := by
  cases s with
  | nil =>
    simp only [List.nil_append] at hm ⊢
    rw [findFrom]; simp [hm]
  | cons c s =>
    simp only [List.mem_cons, not_or] at h
    simp only [List.cons_append] at hm ⊢
    rw [findFrom]
    have : (c == '\n') = false := by simpa using fun e => h.1 e.symm
    simp only [if_true, hm, this]
    exact findFrom_line m h.2 t

/-- What a matcher does with lines. -/
structure ByLine {A : Type} (m : Str → Option (A × Str)) (f : Str → Option A) : Prop where
  empty : m [] = none
  skip : ∀ s t, blankB s = true → m (s ++ '\n' :: t) = m t
  hit : ∀ s t a, '\n' ∉ s → ¬ Unfinished s → blankB s = false → f s = some a → ∃ u v, s = u ++ v ∧ u ≠ [] ∧ m (s ++ '\n' :: t) = some (a, v ++ '\n' :: t)
  miss : ∀ s t, ¬ Unfinished s → blankB s = false → f s = none → m (s ++ '\n' :: t) = none
  blank : ∀ s, blankB s = true → f s = none
  suffix : ∀ s a r, m s = some (a, r) → ∃ u, u ≠ [] ∧ s = u ++ r

theorem findFrom_blank {A : Type} {m : Str → Option (A × Str)} {f : Str → Option A} (hm : ByLine m f) {s t : Str} (h : '\n' ∉ s)
    (hb : blankB s = true) : findFrom m 0 true (s ++ '\n' :: t) = findFrom m 0 true t := by
  rcases ht : m t with _ | ⟨a, r⟩
  · exact findFrom_miss m h (by rw [hm.skip s t hb, ht])
  · obtain ⟨u, hu, rfl⟩ := hm.suffix t a r ht
    have e : s ++ '\n' :: (u ++ r) = (s ++ '\n' :: u) ++ r := by simp
    have h1 : m ((s ++ '\n' :: u) ++ r) = some (a, r) := by rw [← e, hm.skip s _ hb, ht]
    rw [e, findFrom_hit m (by simp) h1, findFrom_hit m hu ht]
    congr 2
    cases u with
    | nil => exact absurd rfl hu
    | cons c u =>
      have : (s ++ '\n' :: c :: u).getLast? = (c :: u).getLast? := by
        rw [List.getLast?_append]
        rw [List.getLast?_cons_cons]
        rcases h : (c :: u).getLast? with _ | z
        · simp at h
        · simp
      rw [this]

theorem findFrom_text {A : Type} {m : Str → Option (A × Str)} {f : Str → Option A} (hm : ByLine m f) (lines : List Str)
    (h : ∀ s ∈ lines, '\n' ∉ s ∧ ¬ Unfinished s) : findFrom m 0 true (textOf lines) = lines.filterMap f := by
  induction lines with
  | nil => rfl
  | cons s lines ih =>
    have hs := h s (by simp)
    have e : textOf (s :: lines) = s ++ '\n' :: textOf lines := by simp [textOf]
    rw [e]
    have ih' := ih fun x hx => h x (by simp [hx])
    by_cases hb : blankB s = true
    · rw [findFrom_blank hm hs.1 hb, ih', List.filterMap_cons, hm.blank s hb]
    · simp only [Bool.not_eq_true] at hb
      rcases hf : f s with _ | a
      · rw [findFrom_miss m hs.1 (hm.miss s _ hs.2 hb hf), ih', List.filterMap_cons, hf]
      · obtain ⟨u, v, rfl, hu, h1⟩ := hm.hit s (textOf lines) a hs.1 hs.2 hb hf
        rw [List.append_assoc] at h1 ⊢
        rw [findFrom_hit m hu h1, List.filterMap_cons, hf]
        congr 1
        have hl : (u.getLast?.map (· == '\n')).getD true = false := by
          rcases hg : u.getLast? with _ | z
          · simp at hg; exact absurd hg hu
          · have := List.mem_of_getLast? hg
            have : z ≠ '\n' := fun e => hs.1 (by rw [← e]; simp [this])
            simpa using this
        rw [hl, findFrom_line m (fun e => hs.1 (by simp [e])), ih']

/-- What `import_cre` finds in a line. -/
def lineImport (s : Str) : Option Str :=
  if word s = "import".toList ∧ word (rest s) ≠ [] then some (word (rest s)) else none

/-- What `from_cre` finds in a line. -/
def lineFrom (s : Str) : Option (Str × Str) :=
  if word s = "from".toList ∧ word (rest s) ≠ [] ∧ word (rest (rest s)) = "import".toList ∧ blankB (rest (rest (rest s))) = false then
    some (word (rest s), (rest (rest (rest s))).dropWhile sp) else none

theorem suffix_rest (s : Str) : ∃ u, s = u ++ rest s := by
  refine ⟨s.takeWhile sp ++ word s, ?_⟩
  rw [List.append_assoc]
  simp only [word, rest, List.takeWhile_append_dropWhile]

theorem suffix_rest' {s : Str} (h : blankB s = false) : ∃ u, u ≠ [] ∧ s = u ++ rest s := by
  obtain ⟨b, _, he, hw, _, _⟩ := parts h
  exact ⟨b ++ word s, by simp [hw], he⟩

theorem nonblank_of_word {s w : Str} (h : word s = w) (hw : w ≠ []) : blankB s = false := by
  by_cases hb : blankB s = true
  · rw [word_blank hb] at h; exact absurd h.symm hw
  · simpa using hb

theorem import_byLine : ByLine matchImport lineImport where
  empty := by decide
  skip := by
    intro s t h
    simp only [matchImport, word_skip h, rest_skip h]
  blank := by
    intro s h
    simp [lineImport, word_blank h]
  suffix := by
    intro s a r h
    simp only [matchImport] at h
    split at h
    · rename_i hc
      simp only [Option.some.injEq, Prod.mk.injEq] at h
      simp only [Bool.and_eq_true, decide_eq_true_eq] at hc
      obtain ⟨u, hu, h1⟩ := suffix_rest' (nonblank_of_word hc.1 (by decide))
      obtain ⟨u', h2⟩ := suffix_rest (rest s)
      refine ⟨u ++ u', by simp [hu], ?_⟩
      rw [List.append_assoc, ← h.2, ← h2, ← h1]
    · simp at h
  hit := by
    intro s t a hn hu hb hf
    simp only [lineImport] at hf
    split at hf
    · rename_i hc
      simp only [Option.some.injEq] at hf
      have hb2 : blankB (rest s) = false := nonblank_of_word rfl hc.2
      obtain ⟨u, hu', h1⟩ := suffix_rest' hb
      obtain ⟨u', h2⟩ := suffix_rest (rest s)
      refine ⟨u ++ u', rest (rest s), ?_, by simp [hu'], ?_⟩
      · rw [List.append_assoc, ← h2, ← h1]
      · simp only [matchImport, word_line hb, rest_line hb, word_line hb2, rest_line hb2]
        rw [if_pos (by simp only [Bool.and_eq_true, decide_eq_true_eq]; exact hc), hf]
    · simp at hf
  miss := by
    intro s t hu hb hf
    simp only [matchImport, word_line hb, rest_line hb]
    by_cases hw : word s = "import".toList
    · by_cases hb2 : blankB (rest s) = true
      · exfalso
        apply hu
        left
        have := words_of hb (words_blank hb2)
        rwa [hw] at this
      · simp only [Bool.not_eq_true] at hb2
        rw [word_line hb2]
        have : word (rest s) ≠ [] := fun e => by rw [word_nil_iff, hb2] at e; exact absurd e (by simp)
        simp only [lineImport] at hf
        rw [if_pos ⟨hw, this⟩] at hf
        exact absurd hf (by simp)
    · rw [if_neg]
      simp only [Bool.and_eq_true, decide_eq_true_eq]
      exact fun e => hw e.1

theorem takeLine {s t : Str} (h : '\n' ∉ s) : (s ++ '\n' :: t).takeWhile (fun c => decide (c ≠ '\n')) = s := by
  induction s with
  | nil => simp
  | cons c s ih =>
    simp only [List.mem_cons, not_or] at h
    rw [List.cons_append, List.takeWhile_cons, if_pos (by simpa using fun e => h.1 e.symm), ih h.2]

theorem dropLine {s t : Str} (h : '\n' ∉ s) : (s ++ '\n' :: t).dropWhile (fun c => decide (c ≠ '\n')) = '\n' :: t := by
  induction s with
  | nil => simp
  | cons c s ih =>
    simp only [List.mem_cons, not_or] at h
    rw [List.cons_append, List.dropWhile_cons, if_pos (by simpa using fun e => h.1 e.symm), ih h.2]

theorem from_byLine : ByLine matchFrom lineFrom where
  empty := by decide
  skip := by
    intro s t h
    simp only [matchFrom, word_skip h, rest_skip h]
  blank := by
    intro s h
    simp [lineFrom, word_blank h]
  suffix := by
    intro s a r h
    simp only [matchFrom] at h
    split at h
    · rename_i hc
      simp only [Option.some.injEq, Prod.mk.injEq] at h
      simp only [Bool.and_eq_true, decide_eq_true_eq] at hc
      obtain ⟨u, hu, h1⟩ := suffix_rest' (nonblank_of_word hc.1.1.1 (by decide))
      obtain ⟨u2, h2⟩ := suffix_rest (rest s)
      obtain ⟨u3, h3⟩ := suffix_rest (rest (rest s))
      refine ⟨u ++ u2 ++ u3 ++ (rest (rest (rest s))).takeWhile sp ++
        ((rest (rest (rest s))).dropWhile sp).takeWhile (fun c => c ≠ '\n'), by simp [hu], ?_⟩
      rw [← h.2]
      rw [List.append_assoc, List.takeWhile_append_dropWhile, List.append_assoc, List.takeWhile_append_dropWhile, List.append_assoc, ← h3,
        List.append_assoc, ← h2, ← h1]
    · simp at h
  hit := by
    intro s t a hn hu hb hf
    simp only [lineFrom] at hf
    split at hf
    · rename_i hc
      obtain ⟨hc1, hc2, hc3, hc4⟩ := hc
      simp only [Option.some.injEq] at hf
      have hb2 : blankB (rest s) = false := nonblank_of_word rfl hc2
      have hb3 : blankB (rest (rest s)) = false := nonblank_of_word hc3 (by decide)
      obtain ⟨u, _, h1⟩ := suffix_rest' hb
      obtain ⟨u2, h2⟩ := suffix_rest (rest s)
      obtain ⟨u3, h3⟩ := suffix_rest (rest (rest s))
      have hn' : '\n' ∉ (rest (rest (rest s))).dropWhile sp := by
        intro e
        apply hn
        rw [h1, h2, h3]
        have := (List.dropWhile_suffix sp (l := rest (rest (rest s)))).subset e
        simp [this]
      refine ⟨s, [], by simp, by rintro rfl; simp [blankB] at hb, ?_⟩
      simp only [matchFrom, word_line hb, rest_line hb, word_line hb2, rest_line hb2, word_line hb3, rest_line hb3,
        dropWhile_append_nonblank hc4, takeLine hn', dropLine hn']
      rw [if_pos (by simp only [Bool.and_eq_true, decide_eq_true_eq]; exact ⟨⟨⟨hc1, hc2⟩, hc3⟩, by simp⟩), ← hf]
      rfl
    · simp at hf
  miss := by
    intro s t hu hb hf
    simp only [matchFrom, word_line hb, rest_line hb]
    by_cases hw : word s = "from".toList
    · by_cases hb2 : blankB (rest s) = true
      · exfalso
        apply hu
        right; left
        have := words_of hb (words_blank hb2)
        rwa [hw] at this
      · simp only [Bool.not_eq_true] at hb2
        rw [word_line hb2, rest_line hb2]
        have hx : word (rest s) ≠ [] := fun e => by rw [word_nil_iff, hb2] at e; exact absurd e (by simp)
        by_cases hb3 : blankB (rest (rest s)) = true
        · exfalso
          apply hu
          right; right; left
          have := words_of hb (words_of hb2 (words_blank hb3))
          rw [hw] at this
          exact ⟨_, this⟩
        · simp only [Bool.not_eq_true] at hb3
          rw [word_line hb3, rest_line hb3]
          by_cases hi : word (rest (rest s)) = "import".toList
          · by_cases hb4 : blankB (rest (rest (rest s))) = true
            · exfalso
              apply hu
              right; right; right
              have := words_of hb (words_of hb2 (words_of hb3 (words_blank hb4)))
              rw [hw, hi] at this
              exact ⟨_, this⟩
            · simp only [Bool.not_eq_true] at hb4
              simp only [lineFrom] at hf
              rw [if_pos ⟨hw, hx, hi, hb4⟩] at hf
              exact absurd hf (by simp)
          · rw [if_neg]
            simp only [Bool.and_eq_true, decide_eq_true_eq]
            exact fun e => hi e.1.2
    · rw [if_neg]
      simp only [Bool.and_eq_true, decide_eq_true_eq]
      exact fun e => hw e.1.1.1

/-- Exactly the lines that look like a statement are found, each once, in their order. -/
theorem found_lines (lines : List Str) (h : ∀ s ∈ lines, '\n' ∉ s ∧ ¬ Unfinished s) :
    findFrom matchImport 0 true (textOf lines) = lines.filterMap lineImport ∧
    findFrom matchFrom 0 true (textOf lines) = lines.filterMap lineFrom :=
  ⟨findFrom_text import_byLine lines h, findFrom_text from_byLine lines h⟩

end Verif.PyScan
