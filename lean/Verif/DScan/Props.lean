import Verif.DScan.Model
import Mathlib.Data.List.Infix
import Mathlib.Data.List.TakeWhile

/-!
# The scanner for D (C120): specification and proofs
-/

namespace Verif.DScan

/-! ## Specification -/

/-- What is known of `\w` and `\s`. -/
structure Classes.Ok (C : Classes) : Prop where
  disjoint : ∀ c, C.word c = true → C.sp c = false
  marks : ∀ c ∈ [';', ':', '=', ',', '.'], C.word c = false ∧ C.sp c = false
  letters : ∀ c ∈ imp, C.word c = true

def Classes.Blank (C : Classes) (s : Str) : Prop := ∀ c ∈ s, C.sp c = true

/-- One module of an import declaration: blanks, perhaps a name for it here and `=`, the module, blanks. -/
structure Item where
  before : Str
  name : Option (Str × Str)
  mod : Str
  after : Str

def Item.text (i : Item) : Str :=
  i.before ++ (match i.name with
    | some (n, b) => n ++ '=' :: b
    | none => []) ++ i.mod ++ i.after

structure Item.Ok (C : Classes) (i : Item) : Prop where
  before : C.Blank i.before
  after : C.Blank i.after
  name : ∀ n b, i.name = some (n, b) → (∀ c ∈ n, C.word c = true ∨ C.sp c = true) ∧ C.Blank b
  mod : i.mod ≠ [] ∧ ∀ c ∈ i.mod, C.word c = true ∨ c = '.'

/-- An import declaration: blanks after `import`, modules with commas between them, perhaps a colon and the names that are imported. -/
structure Decl where
  blanks : Str
  first : Item
  more : List Item
  binds : Option Str

def Decl.items (d : Decl) : List Item := d.first :: d.more

def commas : Item → List Item → Str
  | i, [] => i.text
  | i, j :: r => i.text ++ ',' :: commas j r

def Decl.text (d : Decl) : Str :=
  imp ++ d.blanks ++ commas d.first d.more ++ (match d.binds with
    | some b => ':' :: b
    | none => []) ++ [';']

structure Decl.Ok (C : Classes) (d : Decl) : Prop where
  blanks : d.blanks ≠ [] ∧ C.Blank d.blanks
  items : ∀ i ∈ d.items, i.Ok C
  binds : ∀ b, d.binds = some b → b ≠ [] ∧ ∀ c ∈ b, C.word c = true ∨ C.sp c = true ∨ c = ',' ∨ c = '='

/-- A character that no import declaration goes over: not a letter, digit, underscore, blank, `=`, `,`, `.` or `:`. -/
def Classes.Stop (C : Classes) (c : Char) : Prop := C.run c = false ∧ c ≠ ':'

/-! ## Texts -/

theorem takeWhile_app {p : Char → Bool} (a b : Str) (ha : ∀ c ∈ a, p c = true) : (a ++ b).takeWhile p = a ++ b.takeWhile p := by
  induction a with
  | nil => rfl
  | cons x a ih => rw [List.cons_append, List.takeWhile_cons, if_pos (ha x (by simp)), ih fun c hc => ha c (by simp [hc])]; rfl

theorem dropWhile_app {p : Char → Bool} (a b : Str) (ha : ∀ c ∈ a, p c = true) : (a ++ b).dropWhile p = b.dropWhile p := by
  induction a with
  | nil => rfl
  | cons x a ih => rw [List.cons_append, List.dropWhile_cons, if_pos (ha x (by simp)), ih fun c hc => ha c (by simp [hc])]

theorem takeWhile_stop {p : Char → Bool} (a : Str) (c : Char) (r : Str) (hc : p c = false) : (a ++ c :: r).takeWhile p = a.takeWhile p := by
  induction a with
  | nil => simp [hc]
  | cons x a ih =>
    rw [List.cons_append, List.takeWhile_cons, List.takeWhile_cons, ih]

theorem dropWhile_stop {p : Char → Bool} (a : Str) (c : Char) (r : Str) (hc : p c = false) : (a ++ c :: r).dropWhile p = a.dropWhile p ++ c :: r := by
  induction a with
  | nil => simp [hc]
  | cons x a ih =>
    rw [List.cons_append, List.dropWhile_cons, List.dropWhile_cons, ih]
    split <;> rfl

theorem split_none (sep : Char) (s : Str) (h : sep ∉ s) : split sep s = [s] := by
  induction s with
  | nil => rfl
  | cons c s ih =>
    have hc : c ≠ sep := fun e => h (by simp [e])
    rw [split, if_neg hc, ih fun hh => h (by simp [hh])]

theorem split_app (sep : Char) (a b : Str) (h : sep ∉ a) : split sep (a ++ sep :: b) = a :: split sep b := by
  induction a with
  | nil => rw [List.nil_append, split, if_pos rfl]
  | cons c a ih =>
    have hc : c ≠ sep := fun e => h (by simp [e])
    rw [List.cons_append, split, if_neg hc, ih fun hh => h (by simp [hh])]

theorem strip_blank {C : Classes} (a m b : Str) (ha : C.Blank a) (hb : C.Blank b) (hm : m ≠ []) (hw : ∀ c ∈ m, C.sp c = false) : strip C (a ++ m ++ b) = m := by
  unfold strip
  rw [List.append_assoc, dropWhile_app a _ ha]
  obtain ⟨x, m', rfl⟩ := List.exists_cons_of_ne_nil hm
  have h1 : ((x :: m') ++ b).dropWhile C.sp = (x :: m') ++ b := by
    rw [List.cons_append, List.dropWhile_cons, if_neg (by simp [hw x (by simp)])]
  rw [h1, List.reverse_append, dropWhile_app b.reverse _ fun c hc => hb c (List.mem_reverse.1 hc)]
  have hr : (x :: m').reverse ≠ [] := by simp
  obtain ⟨y, r, hy⟩ := List.exists_cons_of_ne_nil hr
  have hy' : C.sp y = false := hw y (by rw [← List.mem_reverse, hy]; simp)
  rw [hy, List.dropWhile_cons, if_neg (by simp [hy']), ← hy, List.reverse_reverse]

/-! ## One declaration -/

variable {C : Classes}

theorem Classes.Ok.sp_run (_ : C.Ok) {c : Char} (h : C.sp c = true) : C.run c = true := by simp [Classes.run, h]
theorem Classes.Ok.word_run (_ : C.Ok) {c : Char} (h : C.word c = true) : C.run c = true := by simp [Classes.run, h]
theorem Classes.Ok.no_sp (hC : C.Ok) {c : Char} (h : C.word c = true ∨ c = '.') : C.sp c = false := by
  rcases h with h | rfl
  · exact hC.disjoint c h
  · exact (hC.marks '.' (by simp)).2
theorem Classes.Ok.not_mark (hC : C.Ok) {c x : Char} (hx : x ∈ [';', ':', '=', ',', '.']) (h : C.word c = true ∨ C.sp c = true) : c ≠ x := by
  rintro rfl
  have := hC.marks c hx
  rcases h with h | h
  · rw [this.1] at h; cases h
  · rw [this.2] at h; cases h

theorem item_run (hC : C.Ok) (i : Item) (hi : i.Ok C) : ∀ c ∈ i.text, C.run c = true := by
  intro c hc
  unfold Item.text at hc
  simp only [List.mem_append] at hc
  rcases hc with ((hc | hc) | hc) | hc
  · exact hC.sp_run (hi.before c hc)
  · rcases ha : i.name with _ | ⟨n, b⟩ <;> rw [ha] at hc
    · cases hc
    · obtain ⟨h1, h2⟩ := hi.name n b ha
      rcases List.mem_append.1 hc with hc | hc
      · rcases h1 c hc with h | h
        · exact hC.word_run h
        · exact hC.sp_run h
      · rcases List.mem_cons.1 hc with rfl | hc
        · simp [Classes.run]
        · exact hC.sp_run (h2 c hc)
  · rcases hi.mod.2 c hc with h | rfl
    · exact hC.word_run h
    · simp [Classes.run]
  · exact hC.sp_run (hi.after c hc)

theorem item_no_comma (hC : C.Ok) (i : Item) (hi : i.Ok C) : ',' ∉ i.text := by
  intro hc
  have bl : ∀ s, C.Blank s → ',' ∉ s := fun s hs h => hC.not_mark (x := ',') (by simp) (.inr (hs ',' h)) rfl
  unfold Item.text at hc
  simp only [List.mem_append] at hc
  rcases hc with ((hc | hc) | hc) | hc
  · exact bl _ hi.before hc
  · rcases ha : i.name with _ | ⟨n, b⟩ <;> rw [ha] at hc
    · cases hc
    · obtain ⟨h1, h2⟩ := hi.name n b ha
      rcases List.mem_append.1 hc with hc | hc
      · exact hC.not_mark (x := ',') (by simp) (h1 ',' hc) rfl
      · rcases List.mem_cons.1 hc with h | hc
        · cases h
        · exact bl _ h2 hc
  · rcases hi.mod.2 ',' hc with h | h
    · exact hC.not_mark (x := ',') (by simp) (.inl h) rfl
    · cases h
  · exact bl _ hi.after hc

/-- Blanks in front change nothing. -/
theorem item_name (hC : C.Ok) (i : Item) (hi : i.Ok C) (b : Str) (hb : C.Blank b) : strip C ((split '=' (b ++ i.text)).getLastD []) = i.mod := by
  have bl : ∀ s, C.Blank s → '=' ∉ s := fun s hs h => hC.not_mark (x := '=') (by simp) (.inr (hs '=' h)) rfl
  have hm : '=' ∉ i.mod := by
    intro h
    rcases hi.mod.2 '=' h with h | h
    · exact hC.not_mark (x := '=') (by simp) (.inl h) rfl
    · cases h
  have hms : ∀ c ∈ i.mod, C.sp c = false := fun c hc => hC.no_sp (hi.mod.2 c hc)
  rcases ha : i.name with _ | ⟨n, w⟩
  · have e : b ++ i.text = (b ++ i.before) ++ i.mod ++ i.after := by simp [Item.text, ha]
    rw [e, split_none]
    · exact strip_blank _ _ _ (fun c hc => (List.mem_append.1 hc).elim (hb c) (hi.before c)) hi.after hi.mod.1 hms
    · simp only [List.mem_append, not_or]
      exact ⟨⟨⟨bl _ hb, bl _ hi.before⟩, hm⟩, bl _ hi.after⟩
  · obtain ⟨h1, h2⟩ := hi.name n w ha
    have e : b ++ i.text = (b ++ i.before ++ n) ++ '=' :: (w ++ i.mod ++ i.after) := by simp [Item.text, ha]
    rw [e, split_app, split_none]
    · exact strip_blank _ _ _ h2 hi.after hi.mod.1 hms
    · simp only [List.mem_append, not_or]
      exact ⟨⟨bl _ h2, hm⟩, bl _ hi.after⟩
    · simp only [List.mem_append, not_or]
      exact ⟨⟨bl _ hb, bl _ hi.before⟩, fun h => hC.not_mark (x := '=') (by simp) (h1 '=' h) rfl⟩

theorem commas_run (hC : C.Ok) (l : List Item) : ∀ (i : Item), (∀ j ∈ i :: l, j.Ok C) → ∀ c ∈ commas i l, C.run c = true := by
  induction l with
  | nil => intro i h c hc; exact item_run hC i (h i (by simp)) c hc
  | cons j l ih =>
    intro i h c hc
    rw [commas] at hc
    rcases List.mem_append.1 hc with hc | hc
    · exact item_run hC i (h i (by simp)) c hc
    · rcases List.mem_cons.1 hc with rfl | hc
      · simp [Classes.run]
      · exact ih j (fun k hk => h k (List.mem_cons_of_mem _ hk)) c hc

theorem commas_names (hC : C.Ok) (l : List Item) : ∀ (i : Item) (b : Str), C.Blank b → (∀ j ∈ i :: l, j.Ok C) →
    (split ',' (b ++ commas i l)).map (fun j => strip C ((split '=' j).getLastD [])) = (i :: l).map (·.mod) := by
  induction l with
  | nil =>
    intro i b hb h
    have hi := h i (by simp)
    rw [commas, split_none]
    · simp only [List.map_cons, List.map_nil, item_name hC i hi b hb]
    · simp only [List.mem_append, not_or]
      exact ⟨fun hh => hC.not_mark (x := ',') (by simp) (.inr (hb ',' hh)) rfl, item_no_comma hC i hi⟩
  | cons j l ih =>
    intro i b hb h
    have hi := h i (by simp)
    rw [commas, ← List.append_assoc, split_app]
    · rw [List.map_cons, item_name hC i hi b hb]
      have := ih j [] (by simp [Classes.Blank]) fun k hk => h k (List.mem_cons_of_mem _ hk)
      rw [List.nil_append] at this
      rw [this]; rfl
    · simp only [List.mem_append, not_or]
      exact ⟨fun hh => hC.not_mark (x := ',') (by simp) (.inr (hb ',' hh)) rfl, item_no_comma hC i hi⟩

theorem split_ne (sep : Char) (s : Str) : split sep s ≠ [] := by
  cases s with
  | nil => simp [split]
  | cons c s =>
    rw [split]
    split
    · simp
    · split <;> simp

theorem split_cons {sep c : Char} (h : c ≠ sep) (s : Str) : ∃ x xs, split sep s = x :: xs ∧ split sep (c :: s) = (c :: x) :: xs := by
  obtain ⟨x, xs, e⟩ := List.exists_cons_of_ne_nil (split_ne sep s)
  exact ⟨x, xs, e, by rw [split, if_neg h, e]⟩

/-- Blanks in front of the text in the group change nothing. -/
theorem parts_drop (hC : C.Ok) (t : Str) : (split ',' (t.dropWhile C.sp)).map (fun j => strip C ((split '=' j).getLastD [])) = (split ',' t).map (fun j => strip C ((split '=' j).getLastD [])) := by
  induction t with
  | nil => rfl
  | cons c t ih =>
    rw [List.dropWhile_cons]
    by_cases hc : C.sp c = true
    · rw [if_pos hc, ih]
      obtain ⟨x, xs, e1, e2⟩ := split_cons (hC.not_mark (x := ',') (by simp) (.inr hc)) t
      rw [e1, e2, List.map_cons, List.map_cons]
      congr 1
      obtain ⟨y, ys, e3, e4⟩ := split_cons (hC.not_mark (x := '=') (by simp) (.inr hc)) x
      rw [e3, e4]
      cases ys with
      | nil => simp [strip, List.dropWhile_cons, hc]
      | cons z zs => simp [List.getLastD_cons]
    · rw [if_neg hc]

theorem commas_ne (i : Item) (l : List Item) (hi : i.Ok C) : ∃ c ∈ commas i l, c ∈ i.mod := by
  obtain ⟨x, m, hm⟩ := List.exists_cons_of_ne_nil hi.mod.1
  refine ⟨x, ?_, by rw [hm]; simp⟩
  have : x ∈ i.text := by unfold Item.text; simp [hm]
  cases l with
  | nil => exact this
  | cons j l => rw [commas]; exact List.mem_append_left _ this

/-- A declaration at the beginning of a text is found. -/
theorem match_decl (hC : C.Ok) (d : Decl) (hd : d.Ok C) (post : Str) :
    ∃ g, matchAt C (d.text ++ post) = some (g, post) ∧ (split ',' g).map (fun j => strip C ((split '=' j).getLastD [])) = d.items.map (·.mod) := by
  have hr : ∀ c ∈ d.blanks ++ commas d.first d.more, C.run c = true := by
    intro c hc
    rcases List.mem_append.1 hc with hc | hc
    · exact hC.sp_run (hd.blanks.2 c hc)
    · exact commas_run hC _ _ hd.items c hc
  obtain ⟨tl, htl, hrest⟩ : ∃ tl : Str, d.text ++ post = imp ++ ((d.blanks ++ commas d.first d.more) ++ tl) ∧ ((tl = ';' :: post ∧ d.binds = none) ∨ ∃ b, d.binds = some b ∧ tl = ':' :: (b ++ ';' :: post)) := by
    rcases hb : d.binds with _ | b
    · exact ⟨';' :: post, by simp [Decl.text, hb], .inl ⟨rfl, rfl⟩⟩
    · exact ⟨':' :: (b ++ ';' :: post), by simp [Decl.text, hb], .inr ⟨b, rfl, rfl⟩⟩
  have hsemi : C.run ';' = false := by have := hC.marks ';' (by simp); simp [Classes.run, this]
  have hcolon : C.run ':' = false := by have := hC.marks ':' (by simp); simp [Classes.run, this]
  have hsemib : C.bind ';' = false := by have := hC.marks ';' (by simp); simp [Classes.bind, this]
  have ht : ((d.blanks ++ commas d.first d.more) ++ tl).takeWhile C.run = d.blanks ++ commas d.first d.more := by
    rw [takeWhile_app _ _ hr]
    rcases hrest with ⟨rfl, _⟩ | ⟨b, _, rfl⟩ <;> simp [hsemi, hcolon]
  have hdr : ((d.blanks ++ commas d.first d.more) ++ tl).dropWhile C.run = tl := by
    rw [dropWhile_app _ _ hr]
    rcases hrest with ⟨rfl, _⟩ | ⟨b, _, rfl⟩ <;> simp [hsemi, hcolon]
  obtain ⟨x, hx1, hx2⟩ := commas_ne (C := C) d.first d.more (hd.items _ (by simp [Decl.items]))
  have hxs : C.sp x = false := hC.no_sp ((hd.items d.first (by simp [Decl.items])).mod.2 x hx2)
  have hg : (d.blanks ++ commas d.first d.more).dropWhile C.sp ≠ [] := by
    intro h
    rw [List.dropWhile_eq_nil_iff] at h
    have := h x (List.mem_append_right _ hx1)
    rw [hxs] at this; cases this
  have hgn : (split ',' (group C (d.blanks ++ commas d.first d.more))).map (fun j => strip C ((split '=' j).getLastD [])) = d.items.map (·.mod) := by
    rw [group, if_neg hg, parts_drop hC]
    exact commas_names hC _ _ _ hd.blanks.2 hd.items
  obtain ⟨y, b', hyb⟩ := List.exists_cons_of_ne_nil hd.blanks.1
  have hy : C.sp y = true := hd.blanks.2 y (by rw [hyb]; simp)
  have hlen : (d.blanks ++ commas d.first d.more).length ≥ 2 := by
    have h1 : 0 < (commas d.first d.more).length := List.length_pos_of_mem hx1
    rw [hyb]; simp; omega
  refine ⟨_, ?_, hgn⟩
  rw [htl]
  unfold matchAt
  have hp : imp.isPrefixOf (imp ++ ((d.blanks ++ commas d.first d.more) ++ tl)) = true := by rw [List.isPrefixOf_iff_prefix]; exact List.prefix_append _ _
  have hdrop : (imp ++ ((d.blanks ++ commas d.first d.more) ++ tl)).drop 6 = (d.blanks ++ commas d.first d.more) ++ tl := rfl
  rw [if_pos hp]
  simp only [hdrop, ht, hdr]
  rw [if_pos ⟨hlen, by rw [hyb]; simp [hy]⟩]
  rcases hrest with ⟨rfl, _⟩ | ⟨b, hb, rfl⟩
  · rfl
  · obtain ⟨h1, h2⟩ := hd.binds b hb
    have hbr : ∀ c ∈ b, C.bind c = true := by
      intro c hc
      rcases h2 c hc with h | h | rfl | rfl
      · simp [Classes.bind, h]
      · simp [Classes.bind, h]
      · simp [Classes.bind]
      · simp [Classes.bind]
    simp only
    rw [takeWhile_app _ _ hbr, dropWhile_app _ _ hbr]
    simp [hsemib, h1]


/-! ## The whole text -/

theorem dropWhile_len (p : Char → Bool) (s : Str) : (s.dropWhile p).length ≤ s.length := (List.dropWhile_sublist p).length_le

theorem match_len {s g x : Str} (h : matchAt C s = some (g, x)) : x.length < s.length := by
  unfold matchAt at h
  split at h
  case isFalse => cases h
  case isTrue hp =>
    rw [List.isPrefixOf_iff_prefix] at hp
    obtain ⟨u, rfl⟩ := hp
    have hd : (imp ++ u).drop 6 = u := rfl
    simp only [hd] at h
    have hl : (imp ++ u).length = 6 + u.length := by simp [imp]; omega
    split at h
    case isFalse => cases h
    case isTrue =>
      have l1 := dropWhile_len C.run u
      split at h
      · rename_i y hy
        injection h with h; injection h with _ h; subst h
        rw [hy] at l1; simp at l1; omega
      · rename_i w hw
        rw [hw] at l1
        split at h
        · cases h
        · have l2 := dropWhile_len C.bind w
          split at h
          · rename_i y hy
            injection h with h; injection h with _ h; subst h
            rw [hy] at l2; simp at l1 l2; omega
          · cases h
      · cases h

theorem findall_fuel (n : Nat) : ∀ s : Str, s.length ≤ n → findall C n s = findall C s.length s := by
  induction n using Nat.strong_induction_on with
  | _ n ih =>
    intro s hs
    cases s with
    | nil => cases n <;> rfl
    | cons c t =>
      obtain ⟨m, rfl⟩ : ∃ m, n = m + 1 := ⟨n - 1, by simp at hs; omega⟩
      rw [List.length_cons, findall, findall]
      rw [List.length_cons] at hs
      rcases hm : matchAt C (c :: t) with _ | ⟨g, x⟩
      · simp only
        exact ih m (by omega) t (by omega)
      · have hl := match_len hm
        rw [List.length_cons] at hl
        simp only
        rw [ih m (by omega) x (by omega)]
        congr 1
        by_cases e : t.length < m + 1
        · exact (ih t.length e x (by omega)).symm
        · omega

def parts (C : Classes) (g : Str) : List Str := (split ',' g).map fun j => strip C ((split '=' j).getLastD [])

theorem names_nil : names C [] = [] := rfl

theorem names_cons (c : Char) (t : Str) : names C (c :: t) = match matchAt C (c :: t) with
    | some (g, x) => parts C g ++ names C x
    | none => names C t := by
  rw [names, List.length_cons, findall]
  rcases hm : matchAt C (c :: t) with _ | ⟨g, x⟩
  · rfl
  · have hl := match_len hm
    rw [List.length_cons] at hl
    simp only
    rw [findall_fuel t.length x (by omega), List.flatMap_cons]; rfl

theorem match_imp {s : Str} (h : matchAt C s ≠ none) : imp <+: s := by
  unfold matchAt at h
  split at h
  · rename_i hp; exact List.isPrefixOf_iff_prefix.1 hp
  · exact absurd rfl h

/-- `import` has one `i`. -/
theorem imp_border (s t : Str) (hs : s ≠ []) (h : imp <+: s ++ (imp ++ t)) : imp <+: s := by
  by_cases hl : 6 ≤ s.length
  · exact (List.prefix_append_right_inj (l := [])).1 (by simpa using List.prefix_of_prefix_length_le h (List.prefix_append s _) (by simpa [imp] using hl))
  · exfalso
    obtain ⟨r, hr⟩ := h
    have h1 : (imp ++ r)[s.length]? = some 'i' := by
      rw [hr]; simp [imp]
    have hpos : 0 < s.length := List.length_pos_of_ne_nil hs
    rw [List.getElem?_append_left (by simp [imp]; omega)] at h1
    have : s.length = 1 ∨ s.length = 2 ∨ s.length = 3 ∨ s.length = 4 ∨ s.length = 5 := by omega
    rcases this with e | e | e | e | e <;> rw [e] at h1 <;> revert h1 <;> decide

theorem names_free (q : Str) (hq : ¬ imp <:+: q) : names C q = [] := by
  induction q with
  | nil => rfl
  | cons c q ih =>
    rw [names_cons]
    have : matchAt C (c :: q) = none := by
      rcases hm : matchAt C (c :: q) with _ | y
      · rfl
      · exact absurd (match_imp (C := C) (s := c :: q) (by rw [hm]; simp)).isInfix hq
    rw [this]
    exact ih fun h => hq (h.trans (List.suffix_cons c q).isInfix)

theorem names_skip (q r : Str) (hq : ¬ imp <:+: q) : names C (q ++ (imp ++ r)) = names C (imp ++ r) := by
  induction q with
  | nil => rfl
  | cons c q ih =>
    rw [List.cons_append, names_cons]
    have : matchAt C (c :: (q ++ (imp ++ r))) = none := by
      rcases hm : matchAt C (c :: (q ++ (imp ++ r))) with _ | y
      · rfl
      · have := match_imp (C := C) (s := c :: (q ++ (imp ++ r))) (by rw [hm]; simp)
        exact absurd (imp_border (c :: q) r (by simp) this).isInfix hq
    rw [this]
    exact ih fun h => hq (h.trans (List.suffix_cons c q).isInfix)

theorem text_imp (d : Decl) : ∃ r, d.text = imp ++ r := ⟨_, by unfold Decl.text; rw [List.append_assoc, List.append_assoc, List.append_assoc]⟩

/-- The modules of a declaration at the beginning of a text, then those of the rest. -/
theorem names_decl (hC : C.Ok) (d : Decl) (hd : d.Ok C) (post : Str) : names C (d.text ++ post) = d.items.map (·.mod) ++ names C post := by
  obtain ⟨g, h1, h2⟩ := match_decl hC d hd post
  obtain ⟨r, hr⟩ := text_imp d
  rw [hr] at h1 ⊢
  have e : imp ++ r ++ post = 'i' :: ("mport".toList ++ r ++ post) := rfl
  rw [e] at h1 ⊢
  rw [names_cons, h1]
  simp only
  rw [← h2]; rfl

/-- Nothing that is found goes over such a character. -/
theorem match_stop (hC : C.Ok) (p : Str) (c : Char) (hc : C.Stop c) :
    (∀ r, matchAt C (p ++ c :: r) = none) ∨ (∃ g, ∀ r, matchAt C (p ++ c :: r) = some (g, r)) ∨
      ∃ g a, a.length < p.length ∧ ∀ r, matchAt C (p ++ c :: r) = some (g, a ++ c :: r) := by
  have hci : c ∉ imp := fun h => by have := hC.word_run (hC.letters c h); rw [hc.1] at this; cases this
  by_cases hp : imp <+: p
  · obtain ⟨u, rfl⟩ := hp
    have e : ∀ r, matchAt C (imp ++ u ++ c :: r) =
        if (u.takeWhile C.run).length ≥ 2 ∧ ((u.takeWhile C.run).take 1).all C.sp then
          match u.dropWhile C.run ++ c :: r with
          | ';' :: x => some (group C (u.takeWhile C.run), x)
          | ':' :: w =>
            if w.takeWhile C.bind = [] then none
            else match w.dropWhile C.bind with
              | ';' :: x => some (group C (u.takeWhile C.run), x)
              | _ => none
          | _ => none
        else none := by
      intro r
      unfold matchAt
      have h1 : imp.isPrefixOf (imp ++ u ++ c :: r) = true := by rw [List.isPrefixOf_iff_prefix, List.append_assoc]; exact List.prefix_append _ _
      have h2 : (imp ++ u ++ c :: r).drop 6 = u ++ c :: r := rfl
      rw [if_pos h1]
      simp only [h2, takeWhile_stop u c r hc.1, dropWhile_stop u c r hc.1]
      rfl
    by_cases hl : (u.takeWhile C.run).length ≥ 2 ∧ ((u.takeWhile C.run).take 1).all C.sp
    · simp only [e, if_pos hl]
      have hlen := dropWhile_len C.run u
      rcases hu : u.dropWhile C.run with _ | ⟨y, v⟩
      · by_cases h : c = ';'
        · right; left; exact ⟨_, fun r => by subst h; rfl⟩
        · left; intro r
          rw [List.nil_append]
          split
          · rename_i hh; injection hh with hh _; exact absurd hh h
          · rename_i hh; injection hh with hh _; exact absurd hh hc.2
          · rfl
      · rw [hu] at hlen
        by_cases h1 : y = ';'
        · subst h1
          right; right
          exact ⟨_, v, by simp at hlen ⊢; omega, fun r => rfl⟩
        · by_cases h2 : y = ':'
          · subst h2
            have hcb : C.bind c = false := by
              have := hc.1
              simp only [Classes.run, Bool.or_eq_false_iff] at this
              simp [Classes.bind, this]
            simp only [List.cons_append, takeWhile_stop v c _ hcb, dropWhile_stop v c _ hcb]
            by_cases hb : v.takeWhile C.bind = []
            · left; intro r; rw [if_pos hb]
            · simp only [if_neg hb]
              have hlen2 := dropWhile_len C.bind v
              rcases hv : v.dropWhile C.bind with _ | ⟨z, w⟩
              · by_cases h : c = ';'
                · right; left; exact ⟨_, fun r => by subst h; rfl⟩
                · left; intro r
                  rw [List.nil_append]
                  split
                  · rename_i hh; injection hh with hh _; exact absurd hh h
                  · rfl
              · rw [hv] at hlen2
                by_cases h3 : z = ';'
                · subst h3
                  right; right
                  exact ⟨_, w, by simp at hlen hlen2 ⊢; omega, fun r => rfl⟩
                · left; intro r
                  rw [List.cons_append]
                  split
                  · rename_i hh; injection hh with hh _; exact absurd hh h3
                  · rfl
          · left; intro r
            rw [List.cons_append]
            split
            · rename_i hh; injection hh with hh _; exact absurd hh h1
            · rename_i hh; injection hh with hh _; exact absurd hh h2
            · rfl
    · left; intro r; rw [e, if_neg hl]
  · left; intro r
    rcases hm : matchAt C (p ++ c :: r) with _ | y
    · rfl
    · exfalso
      have h := match_imp (C := C) (s := p ++ c :: r) (by rw [hm]; simp)
      by_cases hl : 6 ≤ p.length
      · exact hp (List.prefix_of_prefix_length_le h (List.prefix_append p _) (by simpa [imp] using hl))
      · have h2 : p ++ [c] <+: imp := List.prefix_of_prefix_length_le (l₃ := p ++ c :: r) ⟨r, by simp⟩ h (by simp [imp]; omega)
        exact hci (h2.subset (by simp))

/-- What is found before such a character and what is found after it. -/
theorem names_stop (hC : C.Ok) (c : Char) (hc : C.Stop c) (r : Str) (n : Nat) : ∀ p : Str, p.length ≤ n → names C (p ++ c :: r) = names C (p ++ [c]) ++ names C r := by
  induction n with
  | zero =>
    intro p hp
    obtain rfl : p = [] := List.length_eq_zero_iff.1 (by omega)
    rw [List.nil_append, List.nil_append, names_cons, names_cons]
    rcases match_stop hC [] c hc with h | ⟨g, h⟩ | ⟨g, a, hl, h⟩
    · have h1 := h r; have h2 := h []
      rw [List.nil_append] at h1 h2
      rw [h1, h2]; rfl
    · have h1 := h r; have h2 := h []
      rw [List.nil_append] at h1 h2
      rw [h1, h2]; simp [names_nil]
    · simp at hl
  | succ n ih =>
    intro p hp
    cases p with
    | nil => exact ih [] (by simp)
    | cons x p =>
      rw [List.length_cons] at hp
      rw [List.cons_append, List.cons_append, names_cons, names_cons]
      rcases match_stop hC (x :: p) c hc with h | ⟨g, h⟩ | ⟨g, a, hl, h⟩
      · have h1 := h r; have h2 := h []
        rw [List.cons_append] at h1 h2
        rw [h1, h2]; exact ih p (by omega)
      · have h1 := h r; have h2 := h []
        rw [List.cons_append] at h1 h2
        rw [h1, h2]; simp [names_nil]
      · have h1 := h r; have h2 := h []
        rw [List.cons_append] at h1 h2
        rw [h1, h2]
        rw [List.length_cons] at hl
        simp only
        rw [ih a (by omega), List.append_assoc]

/-! ## The claims -/

/-- A text of declarations, with other text in between. -/
def textOf : List (Str × Decl) → Str → Str
  | [], e => e
  | (q, d) :: r, e => q ++ d.text ++ textOf r e

/-- A text in which `import` is only what begins a declaration: the names are the modules of the declarations, in order, no more and no less. -/
theorem C120_file_partial (hC : C.Ok) (l : List (Str × Decl)) (e : Str) (hl : ∀ x ∈ l, ¬ imp <:+: x.1 ∧ x.2.Ok C) (he : ¬ imp <:+: e) :
    names C (textOf l e) = l.flatMap fun x => x.2.items.map (·.mod) := by
  induction l with
  | nil => exact names_free e he
  | cons x l ih =>
    obtain ⟨q, d⟩ := x
    obtain ⟨hq, hd⟩ := hl (q, d) (by simp)
    obtain ⟨r, hr⟩ := text_imp d
    rw [textOf, List.flatMap_cons, List.append_assoc, hr, List.append_assoc, names_skip q _ hq, ← List.append_assoc, ← hr, names_decl hC d hd, ih fun y hy => hl y (by simp [hy])]

/-- Whatever a text begins with: a declaration is found when some character no import goes over comes before it, and no `import` between that character and the declaration. -/
theorem C120_decl_partial (hC : C.Ok) (p q post : Str) (c : Char) (hc : C.Stop c) (hq : ¬ imp <:+: q) (d : Decl) (hd : d.Ok C) :
    names C (p ++ c :: (q ++ d.text ++ post)) = names C (p ++ [c]) ++ d.items.map (·.mod) ++ names C post := by
  obtain ⟨r, hr⟩ := text_imp d
  rw [names_stop hC c hc _ p.length p (Nat.le_refl _), hr, List.append_assoc, List.append_assoc, names_skip q _ hq, ← List.append_assoc imp, ← hr, names_decl hC d hd, List.append_assoc]

/-! ## The file of a module -/

/-- What the compiler does: the first of the directories with either file, the `.di` file if it has both (dlang.org/dmd-linux.html#interface-files). -/
inductive Compiler (has : Nat → Str → Bool) (m : Str) : List Nat → Nat × Str → Prop
  | di {d l} : has d (slashes m ++ ".di".toList) = true → Compiler has m (d :: l) (d, slashes m ++ ".di".toList)
  | d {d l} : has d (slashes m ++ ".di".toList) = false → has d (slashes m ++ ".d".toList) = true → Compiler has m (d :: l) (d, slashes m ++ ".d".toList)
  | next {d l f} : has d (slashes m ++ ".di".toList) = false → has d (slashes m ++ ".d".toList) = false → Compiler has m l f → Compiler has m (d :: l) f

theorem compiler_in {has : Nat → Str → Bool} {m : Str} {l : List Nat} {f : Nat × Str} (h : Compiler has m l f) : f.1 ∈ l := by
  induction h with
  | di h => simp
  | d h1 h2 => simp
  | next h1 h2 _ ih => exact List.mem_cons_of_mem _ ih

/-- The dependency is the file the compiler reads, when no directory has an interface file for a module that another has the source of. -/
theorem C120_find_partial (has : Nat → Str → Bool) (m : Str) (src : Nat) (path : List Nat) (f : Nat × Str)
    (hno : ∀ d ∈ src :: path, ∀ e ∈ src :: path, has d (slashes m ++ ".di".toList) = true → has e (slashes m ++ ".d".toList) = true → d = e) :
    findInclude has m src path = some f ↔ Compiler has m (src :: path) f := by
  unfold findInclude
  generalize src :: path = l at hno
  have key : ∀ l : List Nat, (∀ d ∈ l, ∀ e ∈ l, has d (slashes m ++ ".di".toList) = true → has e (slashes m ++ ".d".toList) = true → d = e) →
      ((match findFile has (slashes m ++ ".di".toList) l with
        | some f => some f
        | none => findFile has (slashes m ++ ".d".toList) l) = some f ↔ Compiler has m l f) := by
    intro l
    induction l with
    | nil => intro _; simp only [findFile, List.find?_nil, Option.map_none]; constructor <;> intro h <;> cases h
    | cons d l ih =>
      intro hno
      have ih := ih fun a ha b hb => hno a (by simp [ha]) b (by simp [hb])
      rcases h1 : has d (slashes m ++ ".di".toList) with _ | _
      · rcases h2 : has d (slashes m ++ ".d".toList) with _ | _
        · simp only [findFile, List.find?_cons, h1, h2] at ih ⊢
          rw [ih]
          constructor
          · exact .next h1 h2
          · intro h; cases h with
            | di h => rw [h1] at h; cases h
            | d _ h => rw [h2] at h; cases h
            | next _ _ h => exact h
        · have hn : l.find? (fun d => has d (slashes m ++ ".di".toList)) = none := by
            rw [List.find?_eq_none]
            intro a ha hh
            have := hno a (by simp [ha]) d (by simp) hh h2
            subst this; rw [h1] at hh; cases hh
          simp only [findFile, List.find?_cons, h1, h2, hn, Option.map_none, Option.map_some]
          constructor
          · intro h; injection h with h; subst h; exact .d h1 h2
          · intro h; cases h with
            | di h => rw [h1] at h; cases h
            | d _ _ => rfl
            | next _ h _ => rw [h2] at h; cases h
      · simp only [findFile, List.find?_cons, h1, Option.map_some]
        constructor
        · intro h; injection h with h; subst h; exact .di h1
        · intro h; cases h with
          | di _ => rfl
          | d h _ => rw [h1] at h; cases h
          | next h _ _ => rw [h1] at h; cases h
  exact key l hno

/-- Always: whenever the compiler reads a file there is a dependency, on a file of that module in the directories. -/
theorem C120_some (has : Nat → Str → Bool) (m : Str) (src : Nat) (path : List Nat) :
    (∃ f, Compiler has m (src :: path) f) ↔ ∃ d ∈ src :: path, ∃ n, findInclude has m src path = some (d, n) ∧ has d n = true ∧ (n = slashes m ++ ".di".toList ∨ n = slashes m ++ ".d".toList) := by
  unfold findInclude
  generalize src :: path = l
  constructor
  · rintro ⟨f, h⟩
    have : ∃ d ∈ l, has d (slashes m ++ ".di".toList) = true ∨ has d (slashes m ++ ".d".toList) = true := by
      induction h with
      | @di d _ h => exact ⟨d, by simp, .inl h⟩
      | @d d _ _ h => exact ⟨d, by simp, .inr h⟩
      | next _ _ _ ih => obtain ⟨d, hd, h⟩ := ih; exact ⟨d, by simp [hd], h⟩
    obtain ⟨d, hd, h⟩ := this
    rcases h1 : l.find? (fun d => has d (slashes m ++ ".di".toList)) with _ | y
    · rw [List.find?_eq_none] at h1
      rcases h with h | h
      · exact absurd h (h1 d hd)
      · rcases h2 : l.find? (fun d => has d (slashes m ++ ".d".toList)) with _ | y
        · rw [List.find?_eq_none] at h2; exact absurd h (h2 d hd)
        · refine ⟨y, List.mem_of_find?_eq_some h2, _, ?_, by simpa using List.find?_some h2, .inr rfl⟩
          have h1' : l.find? (fun d => has d (slashes m ++ ".di".toList)) = none := List.find?_eq_none.2 h1
          simp only [findFile, h1', h2, Option.map_none, Option.map_some]
    · refine ⟨y, List.mem_of_find?_eq_some h1, _, ?_, by simpa using List.find?_some h1, .inl rfl⟩
      simp only [findFile, h1, Option.map_some]
  · rintro ⟨d, hd, n, -, h, hn⟩
    have : ∀ l : List Nat, d ∈ l → ∃ f, Compiler has m l f := by
      intro l
      induction l with
      | nil => intro h; cases h
      | cons x l ih =>
        intro hd
        rcases h1 : has x (slashes m ++ ".di".toList) with _ | _
        · rcases h2 : has x (slashes m ++ ".d".toList) with _ | _
          · rcases List.mem_cons.1 hd with rfl | hd
            · rcases hn with rfl | rfl
              · rw [h1] at h; cases h
              · rw [h2] at h; cases h
            · obtain ⟨f, hf⟩ := ih hd; exact ⟨f, .next h1 h2 hf⟩
          · exact ⟨_, .d h1 h2⟩
        · exact ⟨_, .di h1⟩
    exact this l hd

/-! ## Where it fails, and cases that meet the hypotheses -/

/-- `\w` and `\s` for ASCII. -/
def ascii : Classes where
  word c := (97 ≤ c.toNat ∧ c.toNat ≤ 122) ∨ (65 ≤ c.toNat ∧ c.toNat ≤ 90) ∨ (48 ≤ c.toNat ∧ c.toNat ≤ 57) ∨ c = '_'
  sp c := c = ' ' ∨ (9 ≤ c.toNat ∧ c.toNat ≤ 13)

theorem ascii_ok : ascii.Ok where
  disjoint := by
    intro c h
    rw [Bool.eq_false_iff]
    intro h2
    simp only [ascii, decide_eq_true_eq] at h h2
    rcases h2 with rfl | h2
    · revert h; decide
    · rcases h with h | h | h | rfl
      · omega
      · omega
      · omega
      · exact absurd h2.2 (by decide)
  marks := by decide
  letters := by decide

/-- `import std.stdio, io = core.io : write, r = read;` -/
def sample : Decl where
  blanks := " ".toList
  first := ⟨[], none, "std.stdio".toList, []⟩
  more := [⟨" ".toList, some ("io ".toList, " ".toList), "core.io".toList, " ".toList⟩]
  binds := some " write, r = read".toList

theorem blank_of {s : Str} (h : s.all ascii.sp = true) : ascii.Blank s := fun c hc => List.all_eq_true.1 h c hc

theorem sample_text : sample.text = "import std.stdio, io = core.io : write, r = read;".toList := by decide +kernel

theorem sample_ok : sample.Ok ascii where
  blanks := ⟨by decide +kernel, blank_of (by decide +kernel)⟩
  items := by
    intro i hi
    simp only [Decl.items, sample, List.mem_cons, List.not_mem_nil, or_false] at hi
    rcases hi with rfl | rfl
    · exact ⟨blank_of (by decide +kernel), blank_of (by decide +kernel), fun n b h => (by cases h), by decide +kernel, by decide +kernel⟩
    · exact ⟨blank_of (by decide +kernel), blank_of (by decide +kernel), fun n b h => by injection h with h; injection h with h1 h2; subst h1; subst h2; exact ⟨by decide +kernel, blank_of (by decide +kernel)⟩, by decide +kernel, by decide +kernel⟩
  binds := by
    intro b h
    have e : b = " write, r = read".toList := by injection h with h; exact h.symm
    subst e
    exact ⟨by decide +kernel, by decide +kernel⟩

/-- The hypotheses are met: a module, and the declaration after its semicolon. -/
theorem C120_sample : names ascii "module m;\nimport std.stdio, io = core.io : write, r = read;\nint main() {}".toList = ["std.stdio".toList, "core.io".toList] := by
  have h := C120_decl_partial ascii_ok "module m".toList "\n".toList "\nint main() {}".toList ';' ⟨by decide +kernel, by decide +kernel⟩ (by decide +kernel) sample sample_ok
  rw [sample_text] at h
  exact h.trans (by decide +kernel)

/-- A comment that ends with the word takes the declaration after it with it: `std.stdio` is not a dependency. -/
theorem C120_comment_counterexample : names ascii "// what we import here\nimport std.stdio;".toList = ["here\nimport std.stdio".toList] := by decide +kernel

/-- A declaration in a comment is a dependency all the same. -/
theorem C120_commented_out_counterexample : names ascii "// import old.module;\n".toList = ["old.module".toList] := by decide +kernel

/-- A comment in a declaration hides it. -/
theorem C120_comment_inside_counterexample : names ascii "import a, /* and */ b;".toList = [] := by decide +kernel

/-- A name with blanks around its dots, which D allows, is kept with them. -/
theorem C120_dots_counterexample : names ascii "import std . stdio;".toList = ["std . stdio".toList] := by decide +kernel

/-- The word need not stand alone: `reimport x;` would be taken for one. -/
theorem C120_word_counterexample : names ascii "int r = reimport + 1; export_import x;".toList = ["x".toList] := by decide +kernel

/-- Directory 0 has the source, 1 an interface file: the scanner takes the latter, the compiler reads the former. -/
def two : Nat → Str → Bool := fun d n => (d = 0 ∧ n = "m.d".toList) ∨ (d = 1 ∧ n = "m.di".toList)

theorem C120_find_counterexample : findInclude two "m".toList 0 [1] = some (1, "m.di".toList) ∧ Compiler two "m".toList [0, 1] (0, "m.d".toList) :=
  ⟨by decide +kernel, .d (by decide +kernel) (by decide +kernel)⟩

/-- A package, whose file is `m/package.d`, is never found. -/
def package : Nat → Str → Bool := fun d n => d = 0 ∧ n = "m/package.d".toList

theorem C120_package_counterexample : findInclude package "m".toList 0 [1] = none := by decide +kernel

/-- The hypothesis of `C120_find_partial` is met. -/
theorem C120_find_sample : findInclude (fun d n => d = 1 ∧ (n = "a/b.d".toList ∨ n = "a/b.di".toList)) "a.b".toList 0 [1] = some (1, "a/b.di".toList) :=
  (C120_find_partial _ _ _ _ _ (by decide +kernel)).2 (.next (by decide +kernel) (by decide +kernel) (.di (by decide +kernel)))

end Verif.DScan
