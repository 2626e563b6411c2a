import Verif.Swig.Model
import Mathlib.Data.List.Infix
import Mathlib.Data.List.TakeWhile

/-!
# The emitter of SWIG (C123): specification and proofs
-/

namespace Verif.Swig

variable {sp : Char → Bool}

/-! ## Specification -/

/-- `%module`, perhaps options in parentheses, blanks, and a name, perhaps in quotes. -/
structure Directive where
  opts : Option (Str × Str)
  blanks : Str
  quotes : Bool
  name : Str

def Directive.text (d : Directive) : Str :=
  kw ++ (match d.opts with
    | some (b, o) => b ++ '(' :: o ++ [')']
    | none => []) ++ d.blanks ++ (if d.quotes then '"' :: d.name ++ ['"'] else d.name)

structure Directive.Ok (sp : Char → Bool) (d : Directive) : Prop where
  opts : ∀ b o, d.opts = some (b, o) → (∀ c ∈ b, sp c = true) ∧ ')' ∉ o ∧ '\n' ∉ o
  blanks : d.blanks ≠ [] ∧ ∀ c ∈ d.blanks, sp c = true
  name : d.name ≠ [] ∧ ∀ c ∈ d.name, sp c = false ∧ c ≠ '"' ∧ c ≠ '(' ∧ c ≠ ')'

/-- What may come after a directive: a blank or the end; after one with options, no parenthesis is closed on the line. -/
structure After (sp : Char → Bool) (d : Directive) (post : Str) : Prop where
  blank : ∀ c, post.head? = some c → sp c = true
  line : d.opts ≠ none → ')' ∉ d.blanks ++ post ∨ ∃ a b, post = a ++ '\n' :: b ∧ ')' ∉ a

/-- Options that ask for directors. -/
def Directive.directors (d : Directive) : Prop := ∃ b o, d.opts = some (b, o) ∧ "directors".toList <:+: o

/-- What is known of `\s`. -/
structure Blanks (sp : Char → Bool) : Prop where
  newline : sp '\n' = true
  others : ∀ c ∈ "%()\"directors".toList, sp c = false

/-- The files SWIG writes for a module besides the wrapper (SWIG documentation, 2.2, 5.1), for the languages the emitter knows: in the directory of `-outdir`, else in that of the wrapper. -/
inductive Writes (E : Env) (dir m : Str) : File → Prop
  | python : "-python".toList ∈ E.flags → "-noproxy".toList ∉ E.flags → Writes E dir m (if E.outdir = [] then dir else E.outdir, m ++ ".py".toList)
  | java {n} : "-java".toList ∈ E.flags → n = m ++ ".java".toList ∨ n = m ++ "JNI.java".toList → Writes E dir m (if E.outdir = [] then dir else E.outdir, n)

/-! ## Texts -/

theorem takeWhile_app {p : Char → Bool} (a b : Str) (ha : ∀ c ∈ a, p c = true) : (a ++ b).takeWhile p = a ++ b.takeWhile p := by
  induction a with
  | nil => rfl
  | cons x a ih => rw [List.cons_append, List.takeWhile_cons, if_pos (ha x (by simp)), ih fun c hc => ha c (by simp [hc])]; rfl

theorem dropWhile_app {p : Char → Bool} (a b : Str) (ha : ∀ c ∈ a, p c = true) : (a ++ b).dropWhile p = b.dropWhile p := by
  induction a with
  | nil => rfl
  | cons x a ih => rw [List.cons_append, List.dropWhile_cons, if_pos (ha x (by simp)), ih fun c hc => ha c (by simp [hc])]

theorem takeWhile_stop {p : Char → Bool} (b : Str) (h : ∀ c, b.head? = some c → p c = false) : b.takeWhile p = [] := by
  cases b with
  | nil => rfl
  | cons c b => simp [h c rfl]

theorem dropWhile_stop {p : Char → Bool} (b : Str) (h : ∀ c, b.head? = some c → p c = false) : b.dropWhile p = b := by
  cases b with
  | nil => rfl
  | cons c b => simp [h c rfl]

theorem quoted_end (n : Str) (hn : n ≠ []) (hq : '"' ∉ n) : quoted (n ++ ['"']) = some (n, []) := by
  induction n with
  | nil => exact absurd rfl hn
  | cons c n ih =>
    simp only [List.mem_cons, not_or] at hq
    cases n with
    | nil => rfl
    | cons e n =>
      rw [List.cons_append]
      have h := ih (by simp) hq.2
      unfold quoted
      rw [h]

/-- Blanks and a name, then a blank or the end. -/
theorem name_ok (hs : Blanks sp) (d : Directive) (hd : d.Ok sp) (post : Str) (hp : ∀ c, post.head? = some c → sp c = true) :
    name sp (d.blanks ++ ((if d.quotes then '"' :: d.name ++ ['"'] else d.name) ++ post)) = some (d.name, post) := by
  obtain ⟨x, n, hx⟩ := List.exists_cons_of_ne_nil hd.name.1
  have hq : sp '"' = false := hs.others '"' (by decide)
  have hb : (d.blanks ++ ((if d.quotes then '"' :: d.name ++ ['"'] else d.name) ++ post)).takeWhile sp ≠ [] := by
    rw [takeWhile_app _ _ hd.blanks.2]
    exact List.append_ne_nil_of_left_ne_nil hd.blanks.1 _
  have hns : ∀ c ∈ d.name, (fun c => !sp c) c = true := fun c hc => by simp [(hd.name.2 c hc).1]
  have hp2 : ∀ c, post.head? = some c → (fun c => !sp c) c = false := fun c hc => by simp [hp c hc]
  unfold name
  rw [if_neg hb, dropWhile_app _ _ hd.blanks.2]
  by_cases hqt : d.quotes = true
  · simp only [hqt, if_true]
    have e : ('"' :: d.name ++ ['"'] ++ post).dropWhile sp = '"' :: (d.name ++ ['"'] ++ post) := by
      rw [List.cons_append, List.cons_append, List.dropWhile_cons, if_neg (by simp [hq])]
    rw [e]
    have h1 : ∀ c ∈ d.name ++ ['"'], (fun c => !sp c) c = true := by
      intro c hc
      rcases List.mem_append.1 hc with hc | hc
      · exact hns c hc
      · rw [List.mem_singleton] at hc; subst hc; simp [hq]
    simp only
    rw [takeWhile_app _ _ h1, dropWhile_app _ _ h1, takeWhile_stop _ hp2, dropWhile_stop _ hp2, List.append_nil, quoted_end d.name hd.name.1 fun h => (hd.name.2 _ h).2.1 rfl]
    rfl
  · simp only [Bool.not_eq_true] at hqt
    simp only [hqt, Bool.false_eq_true, if_false]
    have hxs := hd.name.2 x (by rw [hx]; simp)
    have e : (d.name ++ post).dropWhile sp = d.name ++ post := dropWhile_stop _ (by rw [hx]; intro c hc; injection hc with hc; subst hc; exact hxs.1)
    rw [e]
    have hne : d.name ++ post ≠ [] := by rw [hx]; simp
    rw [if_neg hne, takeWhile_app _ _ hns, dropWhile_app _ _ hns, takeWhile_stop _ hp2, dropWhile_stop _ hp2, List.append_nil]
    split
    · rename_i y hy
      rw [hx] at hy; injection hy with hy _
      exact absurd hy hxs.2.1
    · rfl

/-- No parenthesis is closed on the line. -/
theorem parens_none (s : Str) (h : ')' ∉ s ∨ ∃ a b, s = a ++ '\n' :: b ∧ ')' ∉ a) : parens sp s = none := by
  induction s with
  | nil => rfl
  | cons c s ih =>
    rw [parens]
    by_cases hc : c = '\n'
    · rw [if_pos hc]
    · rw [if_neg hc, ih ?_, if_neg]
      · rintro rfl
        rcases h with h | ⟨a, b, e, h⟩
        · exact h (by simp)
        · cases a with
          | nil => injection e with e _; exact absurd e (by decide)
          | cons y a => injection e with e _; subst e; exact h (by simp)
      · rcases h with h | ⟨a, b, e, h⟩
        · exact .inl fun hh => h (by simp [hh])
        · cases a with
          | nil => injection e with e _; exact absurd e hc
          | cons y a => injection e with _ e; exact .inr ⟨a, b, e, fun hh => h (by simp [hh])⟩

theorem parens_ok (o r : Str) (h1 : ')' ∉ o) (h2 : '\n' ∉ o) (h3 : parens sp r = none) (n x : Str) (hn : name sp r = some (n, x)) : parens sp (o ++ ')' :: r) = some (o, n, x) := by
  induction o with
  | nil => rw [List.nil_append, parens, if_neg (by decide), h3, if_pos rfl, hn]; rfl
  | cons c o ih =>
    simp only [List.mem_cons, not_or] at h1 h2
    rw [List.cons_append, parens, if_neg fun e => h2.1 e.symm, ih h1.2 h2.2]

def Directive.group (d : Directive) : Str :=
  match d.opts with
  | some (b, o) => b ++ '(' :: o ++ [')']
  | none => []

/-- A directive at the beginning of a text is found. -/
theorem match_ok (hs : Blanks sp) (d : Directive) (hd : d.Ok sp) (post : Str) (hp : After sp d post) : matchAt sp (d.text ++ post) = some (d.group, d.name, post) := by
  have hn := name_ok hs d hd post hp.blank
  have hpar : sp '(' = false := hs.others '(' (by decide)
  obtain ⟨x, n, hx⟩ := List.exists_cons_of_ne_nil hd.name.1
  generalize hw : (if d.quotes then '"' :: d.name ++ ['"'] else d.name) ++ post = w at hn
  have hw0 : ∃ y r, w = y :: r ∧ sp y = false ∧ y ≠ '(' := by
    rw [← hw]
    by_cases hqt : d.quotes = true
    · exact ⟨'"', _, by rw [if_pos hqt]; rfl, hs.others '"' (by decide), by decide⟩
    · have := hd.name.2 x (by rw [hx]; simp)
      exact ⟨x, n ++ post, by rw [if_neg hqt, hx]; rfl, this.1, this.2.2.1⟩
  obtain ⟨y, r, hy, hys, hyp⟩ := hw0
  have e : d.text ++ post = kw ++ (d.group ++ (d.blanks ++ w)) := by
    rw [← hw]; unfold Directive.text Directive.group; simp only [List.append_assoc]
  rw [e]
  unfold matchAt
  have hk : kw.isPrefixOf (kw ++ (d.group ++ (d.blanks ++ w))) = true := by rw [List.isPrefixOf_iff_prefix]; exact List.prefix_append _ _
  have hdr : (kw ++ (d.group ++ (d.blanks ++ w))).drop 7 = d.group ++ (d.blanks ++ w) := rfl
  rw [if_pos hk]
  simp only [hdr]
  rcases ho : d.opts with _ | ⟨b, o⟩
  · have hg : d.group = [] := by unfold Directive.group; rw [ho]
    rw [hg, List.nil_append, dropWhile_app _ _ hd.blanks.2, dropWhile_stop w (by rw [hy]; intro c hc; injection hc with hc; subst hc; exact hys), hn]
    split
    · injection hy with hv _; exact absurd hv.symm hyp
    · rfl
  · obtain ⟨hb, ho1, ho2⟩ := hd.opts b o ho
    have hg : d.group = b ++ '(' :: o ++ [')'] := by unfold Directive.group; rw [ho]
    have e2 : d.group ++ (d.blanks ++ w) = b ++ '(' :: (o ++ ')' :: (d.blanks ++ w)) := by rw [hg]; simp
    have hst : ∀ c, ('(' :: (o ++ ')' :: (d.blanks ++ w))).head? = some c → sp c = false := by intro c hc; injection hc with hc; subst hc; exact hpar
    have hnone : parens sp (d.blanks ++ w) = none := by
      have hnp : ')' ∉ (if d.quotes then '"' :: d.name ++ ['"'] else d.name) := by
        intro h
        have : ')' ∈ d.name := by
          split at h
          · simp at h; exact h
          · exact h
        exact (hd.name.2 _ this).2.2.2 rfl
      have hbp : ')' ∉ d.blanks := fun h => by have := hd.blanks.2 _ h; rw [hs.others ')' (by decide)] at this; cases this
      apply parens_none
      rw [← hw]
      rcases hp.line (by rw [ho]; simp) with h | ⟨a, b', h1, h2⟩
      · left
        simp only [List.mem_append, not_or] at h ⊢
        exact ⟨h.1, hnp, h.2⟩
      · right
        refine ⟨d.blanks ++ ((if d.quotes then '"' :: d.name ++ ['"'] else d.name) ++ a), b', by rw [h1]; simp only [List.append_assoc], ?_⟩
        simp only [List.mem_append, not_or]
        exact ⟨hbp, hnp, h2⟩
    rw [e2, takeWhile_app _ _ hb, dropWhile_app _ _ hb, takeWhile_stop _ hst, dropWhile_stop _ hst]
    simp only
    rw [parens_ok o (d.blanks ++ w) ho1 ho2 hnone d.name post hn, hg]
    simp

/-! ## The whole text -/

theorem match_kw {s : Str} (h : matchAt sp s ≠ none) : kw <+: s := by
  unfold matchAt at h
  split at h
  · rename_i hp; exact List.isPrefixOf_iff_prefix.1 hp
  · exact absurd rfl h

theorem free_nil (n : Nat) (q : Str) (hq : ¬ kw <:+: q) : findall sp n q = [] := by
  induction n generalizing q with
  | zero => rfl
  | succ n ih =>
    cases q with
    | nil => rfl
    | cons c q =>
      rw [findall]
      have : matchAt sp (c :: q) = none := by
        rcases hm : matchAt sp (c :: q) with _ | y
        · rfl
        · exact absurd (match_kw (sp := sp) (s := c :: q) (by rw [hm]; simp)).isInfix hq
      rw [this]
      exact ih q fun h => hq (h.trans (List.suffix_cons c q).isInfix)

/-- The keyword has one `%`. -/
theorem kw_border (s t : Str) (hs : s ≠ []) (h : kw <+: s ++ (kw ++ t)) : kw <+: s := by
  by_cases hl : 7 ≤ s.length
  · exact List.prefix_of_prefix_length_le h (List.prefix_append s _) (by simpa [kw] using hl)
  · exfalso
    obtain ⟨r, hr⟩ := h
    have h1 : (kw ++ r)[s.length]? = some '%' := by rw [hr]; simp [kw]
    have hpos : 0 < s.length := List.length_pos_of_ne_nil hs
    rw [List.getElem?_append_left (by simp [kw]; omega)] at h1
    have : s.length = 1 ∨ s.length = 2 ∨ s.length = 3 ∨ s.length = 4 ∨ s.length = 5 ∨ s.length = 6 := by omega
    rcases this with e | e | e | e | e | e <;> rw [e] at h1 <;> revert h1 <;> decide

theorem findall_one (hs : Blanks sp) (d : Directive) (hd : d.Ok sp) (post : Str) (hp : After sp d post) (hpost : ¬ kw <:+: post) (pre : Str) (hpre : ¬ kw <:+: pre) :
    ∀ n, (pre ++ (d.text ++ post)).length ≤ n → findall sp n (pre ++ (d.text ++ post)) = [(d.group, d.name)] := by
  obtain ⟨r, hr⟩ : ∃ r, d.text ++ post = kw ++ r := ⟨_, by unfold Directive.text; simp only [List.append_assoc]; rfl⟩
  induction pre with
  | nil =>
    intro n hn
    have hm := match_ok hs d hd post hp
    rw [List.nil_append] at hn ⊢
    rw [hr] at hm hn ⊢
    have e : kw ++ r = '%' :: ("module".toList ++ r) := rfl
    rw [e] at hm hn ⊢
    cases n with
    | zero => simp at hn
    | succ n => rw [findall, hm]; simp only; rw [free_nil n post hpost]
  | cons c pre ih =>
    intro n hn
    cases n with
    | zero => simp at hn
    | succ n =>
      rw [List.cons_append, findall]
      have : matchAt sp (c :: (pre ++ (d.text ++ post))) = none := by
        rcases hm : matchAt sp (c :: (pre ++ (d.text ++ post))) with _ | y
        · rfl
        · have h := match_kw (sp := sp) (s := c :: (pre ++ (d.text ++ post))) (by rw [hm]; simp)
          rw [hr] at h
          exact absurd (kw_border (c :: pre) r (by simp) h).isInfix hpre
      rw [this]
      exact ih (fun h => hpre (h.trans (List.suffix_cons c pre).isInfix)) n (by simpa using hn)

theorem infix_cut {w a b : Str} {c : Char} (hc : c ∉ w) (h : w <:+: a ++ c :: b) : w <:+: a ∨ w <:+: b := by
  obtain ⟨s, t, h⟩ := h
  rw [List.append_assoc] at h
  rcases List.append_eq_append_iff.1 h with ⟨u, h1, h2⟩ | ⟨u, h1, h2⟩
  · -- `s` ends before `c`
    rcases List.append_eq_append_iff.1 h2 with ⟨v, h3, h4⟩ | ⟨v, h3, h4⟩
    · left; exact ⟨s, v, by rw [h1, h3, List.append_assoc]⟩
    · cases v with
      | nil => left; exact ⟨s, [], by rw [h1]; simp at h3; simp [h3]⟩
      | cons y v =>
        exfalso
        injection h4 with h4 _
        apply hc; rw [h3, h4]; simp
  · cases u with
    | nil =>
      cases w with
      | nil => left; exact List.nil_infix
      | cons y w =>
        exfalso
        simp only [List.nil_append] at h2
        injection h2 with h2 _
        apply hc; rw [h2]; simp
    | cons y u =>
      injection h2 with _ h2
      right; exact ⟨u, t, by rw [h2, List.append_assoc]; rfl⟩

theorem hasDirectors_iff (o : Str) : hasDirectors o = true ↔ "directors".toList <:+: o := by
  unfold hasDirectors
  rw [List.any_eq_true]
  constructor
  · rintro ⟨t, ht, hp⟩
    rw [List.mem_tails] at ht
    exact (List.isPrefixOf_iff_prefix.1 hp).isInfix.trans ht.isInfix
  · rintro ⟨u, v, h⟩
    refine ⟨"directors".toList ++ v, ?_, List.isPrefixOf_iff_prefix.2 (List.prefix_append _ _)⟩
    rw [List.mem_tails]
    exact ⟨u, by rw [← List.append_assoc]; exact h⟩

theorem directors_iff (hs : Blanks sp) (d : Directive) (hd : d.Ok sp) : hasDirectors d.group = true ↔ d.directors := by
  rw [hasDirectors_iff]
  unfold Directive.directors Directive.group
  rcases ho : d.opts with _ | ⟨b, o⟩
  · simp
  · simp only [Option.some.injEq, Prod.mk.injEq]
    constructor
    · intro h
      refine ⟨b, o, ⟨rfl, rfl⟩, ?_⟩
      rw [List.append_assoc] at h
      rcases infix_cut (by decide) h with h | h
      · exfalso
        have : 'd' ∈ b := h.subset (by decide)
        have := (hd.opts b o ho).1 _ this
        rw [hs.others 'd' (by decide)] at this; cases this
      · rcases infix_cut (by decide) h with h | h
        · exact h
        · simp at h
    · rintro ⟨_, _, ⟨rfl, rfl⟩, h⟩
      exact h.trans ⟨b ++ ['('], [')'], by simp⟩

/-! ## The claims -/

/-- The module of a text with one directive, and whether it asks for directors. -/
theorem C123_module_partial (hs : Blanks sp) (d : Directive) (hd : d.Ok sp) (pre post : Str) (hpre : ¬ kw <:+: pre) (hpost : ¬ kw <:+: post) (hp : After sp d post) :
    (findModules sp (pre ++ (d.text ++ post))).1 = [d.name] ∧ ((findModules sp (pre ++ (d.text ++ post))).2 = true ↔ d.directors) := by
  unfold findModules
  rw [findall_one hs d hd post hp hpost pre hpre _ (Nat.le_refl _)]
  exact ⟨rfl, by simp [directors_iff hs d hd]⟩

theorem addHeaders_keep {E : Env} {ts : List File} {x : File} (h : x ∈ ts) : x ∈ addHeaders E ts := List.mem_append_left _ h

theorem addHeaders_new {E : Env} {ts : List File} {d b : Str} (h : (d, b ++ E.cxxSuffix) ∈ ts) : (d, b ++ E.directorSuffix) ∈ addHeaders E ts := by
  refine List.mem_append_right _ (List.mem_filterMap.2 ⟨_, h, ?_⟩)
  simp

theorem one_keep {E : Env} {d : Str} {ts : List File} {src : Str} {x : File} (h : x ∈ ts) : x ∈ one sp E d ts src := by
  unfold one
  rcases findModules sp src with ⟨ms, dirs⟩
  simp only
  have h1 : ∀ (l : List File), x ∈ l → x ∈ (if dirs then addHeaders E l else l) := by
    intro l hl
    split
    · exact addHeaders_keep hl
    · exact hl
  split
  · refine List.mem_append_left _ (h1 _ ?_)
    split
    · exact List.mem_append_left _ (h1 _ h)
    · exact h
  · split
    · exact List.mem_append_left _ (h1 _ h)
    · exact h

theorem fold_keep {E : Env} {d : Str} {x : File} (srcs : List Str) : ∀ (ts : List File), x ∈ ts → x ∈ srcs.foldl (one sp E d) ts := by
  induction srcs with
  | nil => intro ts h; exact h
  | cons s srcs ih => intro ts h; exact ih _ (one_keep h)

theorem fold_one {E : Env} {d : Str} {x : File} (s : Str) (t0 : File) (h : ∀ ts, t0 ∈ ts → x ∈ one sp E d ts s) (srcs : List Str) : ∀ (ts : List File), t0 ∈ ts → s ∈ srcs → x ∈ srcs.foldl (one sp E d) ts := by
  induction srcs with
  | nil => intro ts _ hs; cases hs
  | cons y srcs ih =>
    intro ts ht hs
    rcases List.mem_cons.1 hs with rfl | hs
    · exact fold_keep srcs _ (h ts ht)
    · exact ih _ (one_keep ht) hs

/-- Of every source, what SWIG writes for its module is among the targets; the wrapper is, too. -/
theorem C123_targets_partial (hs : Blanks sp) (E : Env) (t0 : File) (ts : List File) (srcs : List Str) (d : Directive) (hd : d.Ok sp) (pre post : Str) (hpre : ¬ kw <:+: pre) (hpost : ¬ kw <:+: post) (hp : After sp d post)
    (hsrc : pre ++ (d.text ++ post) ∈ srcs) (hdir : E.outdir ≠ [] ∨ t0.1 = E.cwd ∨ "-java".toList ∉ E.flags) :
    t0 ∈ emit sp E t0 ts srcs ∧ ∀ f, Writes E t0.1 d.name f → f ∈ emit sp E t0 ts srcs := by
  refine ⟨fold_keep srcs _ (by simp), fun f hf => ?_⟩
  refine fold_one (pre ++ (d.text ++ post)) t0 (fun us ht => ?_) srcs _ (by simp) hsrc
  obtain ⟨hm, -⟩ := C123_module_partial hs d hd pre post hpre hpost hp
  unfold one
  rcases hfm : findModules sp (pre ++ (d.text ++ post)) with ⟨ms, dirs⟩
  rw [hfm] at hm
  simp only at hm
  subst hm
  simp only
  have h1 : ∀ (l : List File), f ∈ l → f ∈ (if dirs then addHeaders E l else l) := by
    intro l hl
    split
    · exact addHeaders_keep hl
    · exact hl
  cases hf with
  | python p1 p2 =>
    have : ("-python".toList ∈ E.flags ∧ "-noproxy".toList ∉ E.flags) := ⟨p1, p2⟩
    simp only [this, not_false_eq_true, and_self, if_true]
    split
    · exact List.mem_append_left _ (h1 _ (List.mem_append_right _ (by simp)))
    · exact List.mem_append_right _ (by simp)
  | @java n p hn =>
    rw [if_pos p]
    refine List.mem_append_right _ ?_
    have he : (if E.outdir = [] then t0.1 else E.outdir) = (if E.outdir = [] then E.cwd else E.outdir) := by
      rcases hdir with h | h | h
      · rw [if_neg h, if_neg h]
      · rw [h]
      · exact absurd p h
    rw [he]
    rcases hn with rfl | rfl <;> simp

/-- The header of directors is a target, for a wrapper in C++ and one of the two languages. -/
theorem C123_directors_partial (hs : Blanks sp) (E : Env) (dir b : Str) (ts : List File) (srcs : List Str) (d : Directive) (hd : d.Ok sp) (pre post : Str) (hpre : ¬ kw <:+: pre) (hpost : ¬ kw <:+: post) (hp : After sp d post)
    (hsrc : pre ++ (d.text ++ post) ∈ srcs) (hdr : d.directors) (hl : ("-python".toList ∈ E.flags ∧ "-noproxy".toList ∉ E.flags) ∨ "-java".toList ∈ E.flags) :
    (dir, b ++ E.directorSuffix) ∈ emit sp E (dir, b ++ E.cxxSuffix) ts srcs := by
  refine fold_one (pre ++ (d.text ++ post)) (dir, b ++ E.cxxSuffix) (fun us ht => ?_) srcs _ (by simp) hsrc
  obtain ⟨-, hm⟩ := C123_module_partial hs d hd pre post hpre hpost hp
  unfold one
  rcases hfm : findModules sp (pre ++ (d.text ++ post)) with ⟨ms, dirs⟩
  rw [hfm] at hm
  have hm := hm.2 hdr
  simp only at hm
  subst hm
  simp only [if_true]
  rcases hl with hl | hl
  · simp only [hl, not_false_eq_true, and_self, if_true]
    split
    · exact List.mem_append_left _ (addHeaders_keep (List.mem_append_left _ (addHeaders_new ht)))
    · exact List.mem_append_left _ (addHeaders_new ht)
  · rw [if_pos hl]
    refine List.mem_append_left _ (addHeaders_new ?_)
    split
    · exact List.mem_append_left _ (addHeaders_keep ht)
    · exact ht

/-! ## Cases -/

/-- `\s` for ASCII. -/
def ascii (c : Char) : Bool := c = ' ' ∨ (9 ≤ c.toNat ∧ c.toNat ≤ 13)

theorem ascii_blanks : Blanks ascii := ⟨by decide, by decide⟩

/-- `%module(directors="1") "geo"` -/
def sample : Directive := { opts := some ([], "directors=\"1\"".toList), blanks := [' '], quotes := true, name := "geo".toList }

theorem sample_ok : sample.Ok ascii where
  opts := by
    intro b o h
    injection h with h; injection h with h1 h2; subst h1; subst h2
    exact ⟨by decide, by decide +kernel, by decide +kernel⟩
  blanks := by decide
  name := by decide +kernel

def env (flags : List String) (outdir : String) : Env := { flags := flags.map String.toList, outdir := outdir.toList, cxxSuffix := "_wrap.cc".toList, directorSuffix := "_wrap.h".toList, cwd := "src".toList }

def text : Str := "/* geo */\n%module(directors=\"1\") \"geo\"\n%include \"g.h\"\n".toList

theorem text_eq : text = "/* geo */\n".toList ++ (sample.text ++ "\n%include \"g.h\"\n".toList) := by decide +kernel

theorem sample_after : After ascii sample "\n%include \"g.h\"\n".toList where
  blank := by intro c hc; injection hc with hc; subst hc; decide
  line := fun _ => .inl (by decide +kernel)

def show' (l : List File) : List (String × String) := l.map fun f => (String.ofList f.1, String.ofList f.2)

theorem C123_sample : show' (emit ascii (env ["-c++", "-python"] "") ("src".toList, "geo_wrap.cc".toList) [] [text]) = [("src", "geo_wrap.cc"), ("src", "geo_wrap.h"), ("src", "geo.py")] := by decide +kernel

/-- The hypotheses are met. -/
theorem C123_sample_module : (findModules ascii text).1 = ["geo".toList] ∧ ((findModules ascii text).2 = true ↔ sample.directors) := by
  rw [text_eq]
  exact C123_module_partial ascii_blanks sample sample_ok _ _ (by decide +kernel) (by decide +kernel) sample_after

theorem C123_sample_targets (f : File) (hf : Writes (env ["-c++", "-python", "-java"] "out") "build".toList "geo".toList f) : f ∈ emit ascii (env ["-c++", "-python", "-java"] "out") ("build".toList, "geo_wrap.cc".toList) [] [text] := by
  rw [text_eq]
  exact (C123_targets_partial ascii_blanks _ _ _ _ sample sample_ok _ _ (by decide +kernel) (by decide +kernel) sample_after (List.mem_singleton.2 rfl) (.inl (by decide))).2 f hf

theorem C123_sample_directors : ("build".toList, "geo_wrap.h".toList) ∈ emit ascii (env ["-c++", "-java"] "") ("build".toList, "geo_wrap.cc".toList) [] [text] := by
  rw [text_eq]
  exact C123_directors_partial ascii_blanks (env ["-c++", "-java"] "") "build".toList "geo".toList _ _ sample sample_ok _ _ (by decide +kernel) (by decide +kernel) sample_after (List.mem_singleton.2 rfl)
    ⟨[], "directors=\"1\"".toList, rfl, [], "=\"1\"".toList, by decide +kernel⟩ (.inr (by decide))

/-! ## Where it fails -/

/-- A wrapper in another directory: SWIG writes the Java files there, SCons expects them in the directory of the SConscript. -/
theorem C123_java_counterexample : Writes (env ["-java"] "") "build".toList "m".toList ("build".toList, "m.java".toList) ∧
    show' (emit ascii (env ["-java"] "") ("build".toList, "m_wrap.c".toList) [] ["%module m\n".toList]) = [("build", "m_wrap.c"), ("src", "m.java"), ("src", "mJNI.java")] :=
  ⟨.java (E := env ["-java"] "") (dir := "build".toList) (m := "m".toList) (by decide) (.inl rfl), by decide +kernel⟩

/-- A comment with a parenthesis after a directive with options: the module is taken from the next line. -/
theorem C123_comment_counterexample : (findModules ascii "%module(package=\"p\") geo // (geometry)\n%include \"g.h\"\n".toList).1 = ["%include".toList] := by decide +kernel

/-- A semicolon after the name is in the name; a directive in a comment counts. -/
theorem C123_semicolon_counterexample : (findModules ascii "%module geo;\n".toList).1 = ["geo;".toList] ∧ (findModules ascii "// no %module here\n%module geo\n".toList).1 = ["here".toList, "geo".toList] := by decide +kernel

/-- The flag `-module` names the module for SWIG, not for the emitter; what is written for other languages is not a target. -/
theorem C123_flag_counterexample : show' (emit ascii (env ["-python", "-module", "other"] "") ("src".toList, "a_wrap.c".toList) [] ["%module geo\n".toList]) = [("src", "a_wrap.c"), ("src", "geo.py")] ∧
    show' (emit ascii (env ["-perl5"] "") ("src".toList, "a_wrap.c".toList) [] ["%module geo\n".toList]) = [("src", "a_wrap.c")] := by decide +kernel

/-- With both languages the header of directors is a target twice. -/
theorem C123_twice : show' (emit ascii (env ["-c++", "-python", "-java"] "") ("src".toList, "geo_wrap.cc".toList) [] [text]) =
    [("src", "geo_wrap.cc"), ("src", "geo_wrap.h"), ("src", "geo.py"), ("src", "geo_wrap.h"), ("src", "geo.java"), ("src", "geoJNI.java")] := by decide +kernel

end Verif.Swig
