import Verif.PyScan.Text

/-!
# The names in a statement (C107)
-/

namespace Verif.PyScan

theorem blank_of {s : Str} (h : Blank s) : blankB s = true := by
  simp only [blankB, List.all_eq_true]
  intro c hc
  rcases h c hc with rfl | rfl <;> decide

theorem blank_cons {s : Str} (h : Blank s) (hne : s ≠ []) (r : Str) : ∃ c t, s ++ r = c :: t ∧ sp c = true := by
  cases s with
  | nil => exact absurd rfl hne
  | cons c s => exact ⟨c, s ++ r, rfl, by rcases h c (by simp) with rfl | rfl <;> decide⟩

theorem tail_head {s : Str} (h : Tail s) : s = [] ∨ ∃ c t, s = c :: t ∧ sp c = true := by
  rcases h with h | ⟨c, t, h, hc, _⟩
  · exact Or.inl h
  · exact Or.inr ⟨c, t, h, by rcases hc with rfl | rfl <;> decide⟩

theorem dotted_nsp {l : List Str} (h : ∀ x ∈ l, Ident x) : ∀ c ∈ dotted l, sp c = false := by
  induction l with
  | nil => simp [dotted]
  | cons x l ih =>
    have hx := h x (by simp)
    have ih' := ih fun y hy => h y (by simp [hy])
    cases l with
    | nil => exact fun c hc => (hx.2 c hc).1
    | cons y l =>
      intro c hc
      simp only [dotted, List.mem_append, List.mem_cons] at hc
      rcases hc with hc | rfl | hc
      · exact (hx.2 c hc).1
      · decide
      · exact ih' c hc

theorem dotted_ne {l : List Str} (hne : l ≠ []) (h : ∀ x ∈ l, Ident x) : dotted l ≠ [] := by
  cases l with
  | nil => exact absurd rfl hne
  | cons x l =>
    have hx := (h x (by simp)).1
    cases l <;> simp [dotted, hx]

theorem line_import {s : Str} {mod : List Str} (h : Line s (.imp mod)) : lineImport s = some (dotted mod) := by
  generalize hst : Stmt.imp mod = st at h
  cases h with
  | frm => simp at hst
  | imp hi hb hb' hm hid ht =>
    rename_i ind b m tail
    simp only [Stmt.imp.injEq] at hst
    subst hst
    obtain ⟨c, t, e, hc⟩ := blank_cons hb hb' (dotted mod ++ tail)
    have h1 := word_eq (b := ind) (w := "import".toList) (r := b ++ (dotted mod ++ tail)) (blank_of hi) (by decide) (by decide)
      (Or.inr ⟨c, t, e, hc⟩)
    have h2 := word_eq (b := b) (w := dotted mod) (r := tail) (blank_of hb) (dotted_ne hm hid) (dotted_nsp hid) (tail_head ht)
    have e1 : ind ++ "import".toList ++ b ++ dotted mod ++ tail = ind ++ "import".toList ++ (b ++ (dotted mod ++ tail)) := by
      simp only [List.append_assoc]
    have e2 : b ++ (dotted mod ++ tail) = b ++ dotted mod ++ tail := by simp only [List.append_assoc]
    simp only [lineImport]
    rw [e1, h1.1, h1.2, e2, h2.1, if_pos ⟨rfl, dotted_ne hm hid⟩]

/-! ## Names after `import` -/

theorem split_plain {sep : Char} {s : Str} (h : sep ∉ s) : split sep s = [s] := by
  induction s with
  | nil => rfl
  | cons c s ih =>
    simp only [List.mem_cons, not_or] at h
    have : (c == sep) = false := by simpa using fun e => h.1 e.symm
    simp [split, this, ih h.2]

theorem split_append {sep : Char} {s : Str} (h : sep ∉ s) (r : Str) : split sep (s ++ sep :: r) = s :: split sep r := by
  induction s with
  | nil => simp [split]
  | cons c s ih =>
    simp only [List.mem_cons, not_or] at h
    have : (c == sep) = false := by simpa using fun e => h.1 e.symm
    simp [split, this, ih h.2]

def piece (x : Str × Str × Str) : Str := x.1 ++ x.2.1 ++ x.2.2

theorem split_listed {l : List (Str × Str × Str)} {last : Str × Str × Str} (h : ∀ x ∈ l, ',' ∉ piece x) {tail : Str}
    (hl : ',' ∉ piece last ++ tail) : split ',' (listed (l ++ [last]) ++ tail) = l.map piece ++ [piece last ++ tail] := by
  induction l with
  | nil => simpa [listed, piece] using split_plain hl
  | cons x l ih =>
    have e : listed (x :: l ++ [last]) ++ tail = piece x ++ ',' :: (listed (l ++ [last]) ++ tail) := by
      rw [List.cons_append]
      cases l <;> simp [listed, piece]
    rw [e, split_append (h x (by simp)), ih fun y hy => h y (by simp [hy])]
    rfl

theorem dropWhile_all {s : Str} (h : blankB s = true) : s.dropWhile sp = [] := by
  have := dropWhile_append_blank h []
  simpa using this

theorem dropWhile_nsp {w r : Str} (hw : w ≠ []) (h : ∀ c ∈ w, sp c = false) : (w ++ r).dropWhile sp = w ++ r := by
  cases w with
  | nil => exact absurd rfl hw
  | cons c w => simp [h c (by simp)]

theorem strip_piece {b w t : Str} (hb : blankB b = true) (hw : w ≠ []) (hw' : ∀ c ∈ w, sp c = false) (ht : blankB t = true) :
    strip (b ++ w ++ t) = w := by
  simp only [strip]
  rw [List.append_assoc, dropWhile_append_blank hb, dropWhile_nsp hw hw', List.reverse_append,
    dropWhile_append_blank (by simpa [blankB] using ht)]
  have := dropWhile_nsp (w := w.reverse) (r := []) (by simpa using hw) (by simpa using hw')
  rw [List.append_nil] at this
  rw [this, List.reverse_reverse]

/-- The right strip of something that is not blank keeps a beginning of it. -/
theorem strip_tail {b w t : Str} (hb : blankB b = true) (hw : w ≠ []) (hw' : ∀ c ∈ w, sp c = false) (ht : blankB t = false) :
    ∃ t', strip (b ++ w ++ t) = w ++ t' ∧ blankB t' = false ∧ ∃ u, t = t' ++ u := by
  have e : (t.reverse.dropWhile sp).reverse ≠ [] := by
    have : blankB t.reverse = false := by simpa [blankB] using ht
    obtain ⟨c, r, h, _⟩ := nonblank_drop this
    rw [h]; simp
  refine ⟨(t.reverse.dropWhile sp).reverse, ?_, ?_, (t.reverse.takeWhile sp).reverse, ?_⟩
  · simp only [strip]
    rw [List.append_assoc, dropWhile_append_blank hb, dropWhile_nsp hw hw', List.reverse_append,
      dropWhile_append_nonblank (by simpa [blankB] using ht), List.reverse_append, List.reverse_reverse]
  · have : blankB t.reverse = false := by simpa [blankB] using ht
    obtain ⟨c, r, h, hc⟩ := nonblank_drop this
    rw [h]
    simp [blankB, hc]
  · rw [← List.reverse_append, List.takeWhile_append_dropWhile, List.reverse_reverse]

theorem cutLast_names {names : List Str} {b w t : Str} (hb : blankB b = true) (hw : w ≠ []) (hw' : ∀ c ∈ w, sp c = false)
    (ht : t = [] ∨ ∃ c r, t = c :: r ∧ sp c = true) : cutLast (names ++ [strip (b ++ w ++ t)]) = names ++ [w] := by
  by_cases hbt : blankB t = true
  · rw [strip_piece hb hw hw' hbt]
    have := word_eq (b := []) (w := w) (r := []) rfl hw hw' (Or.inl rfl)
    simp only [List.nil_append, List.append_nil] at this
    have e : word (rest w) = [] := by rw [this.2]; rfl
    simp [cutLast, e]
  · simp only [Bool.not_eq_true] at hbt
    obtain ⟨t', h1, h2, u, h3⟩ := strip_tail hb hw hw' hbt
    rw [h1]
    have hd : t' = [] ∨ ∃ c r, t' = c :: r ∧ sp c = true := by
      cases t' with
      | nil => exact Or.inl rfl
      | cons c t' =>
        rcases ht with rfl | ⟨d, r, rfl, hd⟩
        · simp at h3
        · simp only [List.cons_append, List.cons.injEq] at h3
          exact Or.inr ⟨c, t', rfl, by rw [← h3.1]; exact hd⟩
    have := word_eq (b := []) (w := w) (r := t') rfl hw hw' hd
    simp only [List.nil_append] at this
    have e : word (rest (w ++ t')) ≠ [] := by
      rw [this.2]
      intro e
      rw [word_nil_iff, h2] at e
      exact absurd e (by simp)
    simp [cutLast, e, this.1]

theorem ident_nsp {s : Str} (h : Ident s) : ∀ c ∈ s, sp c = false := fun c hc => (h.2 c hc).1

theorem piece_nocomma {x : Str × Str × Str} (h : Blank x.1 ∧ Ident x.2.1 ∧ Blank x.2.2) : ',' ∉ piece x := by
  intro e
  simp only [piece, List.mem_append] at e
  rcases e with (e | e) | e
  · rcases h.1 _ e with h | h <;> exact absurd h (by decide)
  · exact (h.2.1.2 _ e).2.1 rfl
  · rcases h.2.2 _ e with h | h <;> exact absurd h (by decide)

theorem names_found {names : List (Str × Str × Str)} {last : Str × Str} {tail : Str}
    (hn : ∀ x ∈ names, Blank x.1 ∧ Ident x.2.1 ∧ Blank x.2.2) (h1 : Blank last.1) (h2 : Ident last.2) (ht : Tail tail) (hc : ',' ∉ tail) :
    cutLast ((split ',' (listed (names ++ [(last.1, last.2, [])]) ++ tail)).map strip) = names.map (fun x => x.2.1) ++ [last.2] := by
  rw [split_listed (fun x hx => piece_nocomma (hn x hx))]
  · rw [List.map_append, List.map_map]
    have e : names.map (strip ∘ piece) = names.map fun x => x.2.1 := by
      apply List.map_congr_left
      intro x hx
      have h := hn x hx
      exact strip_piece (blank_of h.1) h.2.1.1 (ident_nsp h.2.1) (blank_of h.2.2)
    rw [e]
    simp only [List.map_cons, List.map_nil, piece, List.append_nil]
    exact cutLast_names (blank_of h1) h2.1 (ident_nsp h2) (tail_head ht)
  · intro e
    rcases List.mem_append.1 e with e | e
    · exact piece_nocomma (x := (last.1, last.2, [])) ⟨h1, h2, by simp [Blank]⟩ e
    · exact hc e

/-- Leading blanks of the first name. -/
def trim : List (Str × Str × Str) → List (Str × Str × Str)
  | [] => []
  | x :: l => ([], x.2.1, x.2.2) :: l

theorem listed_trim {l : List (Str × Str × Str)} {b t : Str} (hb : blankB b = true)
    (h : ∀ x ∈ l, Blank x.1 ∧ Ident x.2.1 ∧ Blank x.2.2) (hne : l ≠ []) :
    (b ++ (listed l ++ t)).dropWhile sp = listed (trim l) ++ t := by
  rw [dropWhile_append_blank hb]
  cases l with
  | nil => exact absurd rfl hne
  | cons x l =>
    have hx := h x (by simp)
    cases l with
    | nil =>
      simp only [listed, trim, List.append_assoc, List.nil_append]
      rw [dropWhile_append_blank (blank_of hx.1), dropWhile_nsp hx.2.1.1 (ident_nsp hx.2.1)]
    | cons y l =>
      simp only [listed, trim, List.append_assoc, List.nil_append]
      rw [dropWhile_append_blank (blank_of hx.1), dropWhile_nsp hx.2.1.1 (ident_nsp hx.2.1)]

theorem listed_nonblank {l : List (Str × Str × Str)} {b t : Str} (hb : blankB b = true)
    (h : ∀ x ∈ l, Blank x.1 ∧ Ident x.2.1 ∧ Blank x.2.2) (hne : l ≠ []) : blankB (b ++ (listed l ++ t)) = false := by
  by_cases hbb : blankB (b ++ (listed l ++ t)) = true
  · have := dropWhile_all hbb
    rw [listed_trim hb h hne] at this
    cases l with
    | nil => exact absurd rfl hne
    | cons x l =>
      have hx := (h x (by simp)).2.1.1
      cases l <;> simp [listed, trim, hx] at this
  · simpa using hbb

theorem line_from {s : Str} {dots : Nat} {mod names : List Str} (h : Line s (.frm dots mod names)) :
    ∃ t, lineFrom s = some (List.replicate dots '.' ++ dotted mod, t) ∧ cutLast ((split ',' t).map strip) = names := by
  generalize hst : Stmt.frm dots mod names = st at h
  cases h with
  | imp => simp at hst
  | frm hi hb hb1 hb' hb1' hb'' hb1'' hm hid hn hl hl' ht hc =>
    rename_i ind b b' b'' dots' mod' names' tail last
    simp only [Stmt.frm.injEq] at hst
    obtain ⟨rfl, rfl, rfl⟩ := hst
    have hall : ∀ x ∈ names' ++ [(last.1, last.2, [])], Blank x.1 ∧ Ident x.2.1 ∧ Blank x.2.2 := by
      intro x hx
      rcases List.mem_append.1 hx with hx | hx
      · exact hn x hx
      · simp only [List.mem_singleton] at hx
        subst hx
        exact ⟨hl, hl', by simp [Blank]⟩
    generalize hm' : List.replicate dots '.' ++ dotted mod = m
    have hm1 : m ≠ [] := by
      rw [← hm']
      cases dots with
      | zero => simpa using dotted_ne (hm rfl) hid
      | succ k => simp [List.replicate_succ]
    have hm2 : ∀ c ∈ m, sp c = false := by
      rw [← hm']
      intro c hc
      rcases List.mem_append.1 hc with hc | hc
      · rw [List.eq_of_mem_replicate hc]; decide
      · exact dotted_nsp hid c hc
    generalize hL : listed (names' ++ [(last.1, last.2, [])]) = L
    have e : ind ++ "from".toList ++ b ++ m ++ b' ++ "import".toList ++ b'' ++ L ++ tail =
        ind ++ "from".toList ++ (b ++ m ++ (b' ++ "import".toList ++ (b'' ++ (L ++ tail)))) := by
      simp only [List.append_assoc]
    obtain ⟨c1, t1, e1, hc1⟩ := blank_cons hb hb1 (m ++ (b' ++ "import".toList ++ (b'' ++ (L ++ tail))))
    obtain ⟨c2, t2, e2, hc2⟩ := blank_cons hb' hb1' ("import".toList ++ (b'' ++ (L ++ tail)))
    obtain ⟨c3, t3, e3, hc3⟩ := blank_cons hb'' hb1'' (L ++ tail)
    have h1 := word_eq (b := ind) (w := "from".toList) (r := b ++ m ++ (b' ++ "import".toList ++ (b'' ++ (L ++ tail)))) (blank_of hi)
      (by decide) (by decide) (Or.inr ⟨c1, t1, by rw [List.append_assoc]; exact e1, hc1⟩)
    have h2 := word_eq (b := b) (w := m) (r := b' ++ "import".toList ++ (b'' ++ (L ++ tail))) (blank_of hb) hm1 hm2
      (Or.inr ⟨c2, t2, by rw [List.append_assoc]; exact e2, hc2⟩)
    have h3 := word_eq (b := b') (w := "import".toList) (r := b'' ++ (L ++ tail)) (blank_of hb') (by decide) (by decide)
      (Or.inr ⟨c3, t3, e3, hc3⟩)
    have hnb : blankB (b'' ++ (L ++ tail)) = false := by rw [← hL]; exact listed_nonblank (blank_of hb'') hall (by simp)
    refine ⟨(b'' ++ (L ++ tail)).dropWhile sp, ?_, ?_⟩
    · simp only [lineFrom]
      rw [e, h1.1, h1.2, h2.1, h2.2, h3.1, h3.2, if_pos ⟨rfl, hm1, rfl, hnb⟩]
    · rw [← hL, listed_trim (blank_of hb'') hall (by simp)]
      cases names' with
      | nil =>
        have := names_found (names := []) (last := ([], last.2)) (tail := tail) (by simp) (by simp [Blank]) hl' ht hc
        simpa [trim] using this
      | cons x l =>
        have hx := hn x (by simp)
        have := names_found (names := ([], x.2.1, x.2.2) :: l) (last := last) (tail := tail)
          (by
            intro y hy
            rcases List.mem_cons.1 hy with rfl | hy
            · exact ⟨by simp [Blank], hx.2.1, hx.2.2⟩
            · exact hn y (by simp [hy])) hl hl' ht hc
        simpa [trim] using this

/-! ## Complete statements are not unfinished -/

theorem words_inv {s w : Str} {l : List Str} (h : Words s (w :: l)) : word s = w ∧ (l = [] → blankB (rest s) = true) ∧ Words (rest s) l := by
  generalize hl : w :: l = l' at h
  cases h with
  | none => simp at hl
  | one hb hw hw' =>
    rename_i b v
    simp only [List.cons.injEq] at hl
    obtain ⟨rfl, rfl⟩ := hl
    have := word_eq (b := b) (w := w) (r := []) (by simpa [blankB] using hb) hw hw' (Or.inl rfl)
    rw [List.append_nil] at this
    exact ⟨this.1, fun _ => by rw [this.2]; rfl, by rw [this.2]; exact .none (by simp)⟩
  | more hb hw hw' hc hr =>
    rename_i b v c r l''
    simp only [List.cons.injEq] at hl
    obtain ⟨rfl, rfl⟩ := hl
    have := word_eq (b := b) (w := w) (r := c :: r) (by simpa [blankB] using hb) hw hw' (Or.inr ⟨c, r, rfl, hc⟩)
    refine ⟨this.1, ?_, ?_⟩
    · rintro rfl
      rw [this.2]
      generalize hl : ([] : List Str) = l' at hr
      cases hr with
      | none h => simpa [blankB, hc] using h
      | one => simp at hl
      | more => simp at hl
    · rw [this.2]
      clear this
      cases hr with
      | none h => exact .none (by simpa [hc] using h)
      | one hb2 hw2 hw2' =>
        rename_i b2 w2
        rw [← List.cons_append]
        exact .one (fun d hd => (List.mem_cons.1 hd).elim (fun e => e ▸ hc) (hb2 d)) hw2 hw2'
      | more hb2 hw2 hw2' hc2 hr2 =>
        rename_i b2 w2 c2 r2 l2
        rw [← List.cons_append, ← List.cons_append]
        exact .more (fun d hd => (List.mem_cons.1 hd).elim (fun e => e ▸ hc) (hb2 d)) hw2 hw2' hc2 hr2

theorem line_finished {s : Str} {st : Stmt} (h : Line s st) : ¬ Unfinished s := by
  intro hu
  cases st with
  | imp mod =>
    have h1 := line_import h
    simp only [lineImport] at h1
    split at h1
    · rename_i hc
      rcases hu with hu | hu | ⟨x, hu⟩ | ⟨x, hu⟩
      · exact hc.2 (word_blank ((words_inv hu).2.1 rfl))
      all_goals
        have := (words_inv hu).1
        rw [hc.1] at this
        exact absurd this (by decide)
    · simp at h1
  | frm dots mod names =>
    obtain ⟨t, h1, _⟩ := line_from h
    simp only [lineFrom] at h1
    split at h1
    · rename_i hc
      rcases hu with hu | hu | ⟨x, hu⟩ | ⟨x, hu⟩
      · have := (words_inv hu).1
        rw [hc.1] at this
        exact absurd this (by decide)
      · exact hc.2.1 (word_blank ((words_inv hu).2.1 rfl))
      · have := word_blank ((words_inv (words_inv hu).2.2).2.1 rfl)
        rw [hc.2.2.1] at this
        exact absurd this (by decide)
      · have := (words_inv (words_inv (words_inv hu).2.2).2.2).2.1 rfl
        rw [hc.2.2.2] at this
        exact absurd this (by simp)
    · simp at h1

/-- What the scanner takes a statement for. -/
def nameOf : Stmt → Str × Option (List Str)
  | .imp mod => (dotted mod, none)
  | .frm dots mod names => (List.replicate dots '.' ++ dotted mod, some names)

/-- **C107, texts.** Every statement in a text is found, whatever the other lines are, if none of them breaks off within a statement. -/
theorem C107_statements (lines : List Str) (h : ∀ s ∈ lines, '\n' ∉ s ∧ ((∃ st, Line s st) ∨ ¬ Unfinished s)) {s : Str} {st : Stmt}
    (hs : s ∈ lines) (hl : Line s st) : nameOf st ∈ findNames (textOf lines) := by
  have h' : ∀ s ∈ lines, '\n' ∉ s ∧ ¬ Unfinished s := fun s hs => ⟨(h s hs).1, (h s hs).2.elim (fun ⟨st, h⟩ => line_finished h) id⟩
  obtain ⟨h1, h2⟩ := found_lines lines h'
  simp only [findNames, h1, h2]
  cases st with
  | imp mod =>
    apply List.mem_append_right
    exact List.mem_map.2 ⟨_, List.mem_filterMap.2 ⟨s, hs, line_import hl⟩, rfl⟩
  | frm dots mod names =>
    apply List.mem_append_left
    obtain ⟨t, ht, hn⟩ := line_from hl
    exact List.mem_map.2 ⟨_, List.mem_filterMap.2 ⟨s, hs, ht⟩, by simp only [nameOf, hn]⟩

/-- Nothing is found in lines that do not begin with `import` or `from`. -/
theorem C107_no_statements (lines : List Str) (h : ∀ s ∈ lines, '\n' ∉ s ∧ word s ≠ "import".toList ∧ word s ≠ "from".toList) :
    findNames (textOf lines) = [] := by
  have h' : ∀ s ∈ lines, '\n' ∉ s ∧ ¬ Unfinished s := by
    intro s hs
    refine ⟨(h s hs).1, fun hu => ?_⟩
    rcases hu with hu | hu | ⟨x, hu⟩ | ⟨x, hu⟩
    · exact (h s hs).2.1 (words_inv hu).1
    all_goals exact (h s hs).2.2 (words_inv hu).1
  obtain ⟨h1, h2⟩ := found_lines lines h'
  simp only [findNames, h1, h2]
  have e1 : lines.filterMap lineImport = [] := by
    rw [List.filterMap_eq_nil_iff]
    intro s hs
    simp only [lineImport]
    rw [if_neg fun e => (h s hs).2.1 e.1]
  have e2 : lines.filterMap lineFrom = [] := by
    rw [List.filterMap_eq_nil_iff]
    intro s hs
    simp only [lineFrom]
    rw [if_neg fun e => (h s hs).2.2 e.1]
  rw [e1, e2]; rfl

end Verif.PyScan
