import Verif.Fortran.Lemmas
import Verif.Fortran.Spec

/-!
# C99: what a Fortran file uses, includes and defines is what SCons finds

and the object file of a file that uses a module depends on the module file which the file
defining it produces.
-/

namespace Verif.Fortran

open Spec (Text Blank Printable Reads SameName firstWord secondWord Quiet Free Name Tail Sep Stmt
  Line moreText procedureWords fileText)

/-! ## Characters of proper text -/

theorem blank_isSp {c : Char} (h : Spec.blank c = true) : isSp c = true := by
  unfold Spec.blank at h
  simp only [Bool.or_eq_true, beq_iff_eq] at h
  rcases h with (h | h) | h <;> subst h <;> decide

theorem isSp_printable {c : Char} (h : Spec.blank c = true ∨ (32 < c.toNat ∧ c.toNat < 127)) :
    isSp c = Spec.blank c := by
  rcases h with h | h
  · rw [h, blank_isSp h]
  · cases hs : isSp c
    · cases hb : Spec.blank c
      · rfl
      · rw [blank_isSp hb] at hs; exact absurd hs (by simp)
    · exact absurd (isSp_small hs) (by omega)

theorem wd_wordChar (c : Char) : isWd c = Spec.wordChar c := rfl

theorem printable_no_newline {t : Text} (h : Printable t) : '\n' ∉ t := by
  intro hm
  rcases h _ hm with h | h
  · exact absurd h (by decide)
  · exact absurd h.1 (by decide)

theorem Blank.printable {w : Text} (h : Blank w) : Printable w := fun c hc => Or.inl (h c hc)

/-- What can follow on a line: nothing, the next line, or a semicolon. -/
def Stop (k : Text) : Prop := k = [] ∨ (∃ v, k = '\n' :: v) ∨ ∃ v, k = ';' :: v

theorem Stop.not_wd {k : Text} (h : Stop k) : ∀ c u, k = c :: u → isWd c = false := by
  rintro c u rfl
  rcases h with h | ⟨v, h⟩ | ⟨v, h⟩ <;> simp at h <;> (rw [h.1]; decide)

/-! ## Dropping white space from the text of a line -/

theorem dropWhile_congr' (p q : Char → Bool) : ∀ (t : Text), (∀ c ∈ t, p c = q c) →
    t.dropWhile p = t.dropWhile q
  | [], _ => rfl
  | c :: t, h => by
    rw [List.dropWhile_cons, List.dropWhile_cons, h c (by simp),
      dropWhile_congr' p q t fun x hx => h x (by simp [hx])]

theorem drop_printable {t : Text} (h : Printable t) : t.dropWhile isSp = t.dropWhile Spec.blank :=
  dropWhile_congr' _ _ t fun c hc => isSp_printable (h c hc)

theorem dropWhile_append_ne (p : Char → Bool) : ∀ (t k : Text), t.dropWhile p ≠ [] →
    (t ++ k).dropWhile p = t.dropWhile p ++ k
  | [], k, h => absurd rfl h
  | c :: t, k, h => by
    rw [List.cons_append, List.dropWhile_cons, List.dropWhile_cons]
    rw [List.dropWhile_cons] at h
    split
    · rename_i hc
      rw [if_pos hc] at h
      exact dropWhile_append_ne p t k h
    · rfl

theorem dropWhile_nil_all (p : Char → Bool) : ∀ (t : Text), t.dropWhile p = [] → ∀ c ∈ t, p c = true
  | [], _, c, hc => by simp at hc
  | x :: t, h, c, hc => by
    rw [List.dropWhile_cons] at h
    split at h
    · rename_i hx
      rcases List.mem_cons.1 hc with hc | hc
      · subst hc; exact hx
      · exact dropWhile_nil_all p t h c hc
    · simp at h

theorem dropWhile_all_append (p : Char → Bool) : ∀ (w t : Text), (∀ c ∈ w, p c = true) →
    (w ++ t).dropWhile p = t.dropWhile p
  | [], _, _ => rfl
  | c :: w, t, h => by
    rw [List.cons_append, List.dropWhile_cons, if_pos (h c (by simp))]
    exact dropWhile_all_append p w t fun x hx => h x (by simp [hx])

/-- A word standing at the start of `s` is the whole first word, if no name goes on after it. -/
theorem takeWhile_word {w t : Text} (hw : ∀ c ∈ w, isWd c = true)
    (ht : ∀ c u, t = c :: u → isWd c = false) : (w ++ t).takeWhile isWd = w := by
  induction w with
  | nil =>
    cases t with
    | nil => rfl
    | cons c u => simp [ht c u rfl]
  | cons c w ih =>
    rw [List.cons_append, List.takeWhile_cons, if_pos (hw c (by simp)),
      ih fun x hx => hw x (by simp [hx])]

theorem takeWhile_stop {t k : Text} (hk : ∀ c u, k = c :: u → isWd c = false) :
    (t ++ k).takeWhile isWd = t.takeWhile isWd := by
  induction t with
  | nil =>
    cases k with
    | nil => rfl
    | cons c u => simp [hk c u rfl]
  | cons c t ih =>
    rw [List.cons_append, List.takeWhile_cons, List.takeWhile_cons, ih]

/-- The letters of a keyword, in whatever case, are characters of names. -/
theorem toLower_wd : ∀ (c : Char), isWd c.toLower = true → isWd c = true := by
  intro c h
  by_cases hu : c.isUpper = true
  · simp [isWd, Char.isAlphanum, Char.isAlpha, hu]
  · have : c.toLower = c := by
      unfold Char.toLower
      unfold Char.isUpper at hu
      simp only [Bool.and_eq_true, decide_eq_true_eq, not_and] at hu
      split
      · rename_i h1
        exact absurd h1.2 (hu h1.1)
      · rfl
    rwa [this] at h

theorem reads_wd {k : Text} {w : Text} (hk : ∀ c ∈ k, isWd c = true) (h : w.map Char.toLower = k) :
    ∀ c ∈ w, isWd c = true := by
  intro c hc
  apply toLower_wd
  apply hk
  rw [← h]
  exact List.mem_map_of_mem hc

/-! ## First words -/

/-- If a body matches where the text of a line starts, the line begins with its word. -/
theorem body_first (k : Text) (tail : Re) (hk : k ≠ []) (hn : '\n' ∉ k) (hw : ∀ c ∈ k, isWd c = true)
    (ht : ∀ t, run tail ⟨false, t, []⟩ ≠ [] → ∀ c u, t = c :: u → isWd c = false) (s : Text)
    (h : body k tail s ≠ []) : (s.takeWhile isWd).map Char.toLower = k := by
  obtain ⟨w, t, h1, h2, h3⟩ := body_word k tail hk hn s h
  rw [h1, takeWhile_word (reads_wd hw h2) (ht t h3), h2]

theorem line_first (k : Text) (tail : Re) (hk : k ≠ []) (hn : '\n' ∉ k) (hw : ∀ c ∈ k, isWd c = true)
    (ht : ∀ t, run tail ⟨false, t, []⟩ ≠ [] → ∀ c u, t = c :: u → isWd c = false)
    (v k' : Text) (hv : Printable v) (hne : v.dropWhile Spec.blank ≠ []) (hk' : Stop k')
    (h : body k tail ((v ++ k').dropWhile isSp) ≠ []) : firstWord v = k := by
  rw [dropWhile_append_ne isSp v k' (by rw [drop_printable hv]; exact hne), drop_printable hv] at h
  have := body_first k tail hk hn hw ht _ h
  rw [takeWhile_stop hk'.not_wd] at this
  exact this

theorem runMany_stop (p : Char → Bool) (b : Bool) (c : Char) (t cap : Text) (h : p c = false) :
    runMany p cap b (c :: t) = [⟨b, c :: t, cap⟩] := by
  rw [runMany]; simp [h]

theorem many1_head (R : Re) (t : Text) (h : run (.seq (.many1 isSp) R) ⟨false, t, []⟩ ≠ []) :
    ∀ c u, t = c :: u → isWd c = false := by
  rintro c u rfl
  cases hs : isSp c
  · rw [run_seq, run_many1_cons] at h
    simp [hs] at h
  · exact isSp_not_isWd hs

theorem useTail_head (t : Text) (h : run useTail ⟨false, t, []⟩ ≠ []) :
    ∀ c u, t = c :: u → isWd c = false := by
  rintro c u rfl
  cases hw : isWd c
  · rfl
  · exfalso
    apply h
    have h1 : isSp c = false := by
      cases hs : isSp c
      · rfl
      · rw [isSp_not_isWd hs] at hw; exact absurd hw (by simp)
    have h2 : (c == ',') = false := by
      rw [beq_eq_false_iff_ne]; rintro rfl; exact absurd hw (by decide)
    have h3 : (c == ':') = false := by
      rw [beq_eq_false_iff_ne]; rintro rfl; exact absurd hw (by decide)
    rw [useTail, run_seq]
    rw [show run (.alt (.many1 isSp)
      (.seq
        (.opt (.seq sp (.seq (is ',') (.seq sp (.seq (.opt (.word "non_".toList))
          (.word "intrinsic".toList))))))
        (.seq sp (.seq (is ':') (is ':'))))) ⟨false, c :: u, []⟩ = [] from ?_]
    · rfl
    · rw [run, run_many1_cons, h1]
      simp only [run, sp, is, runMany_stop isSp false c u [] h1, List.flatMap_cons, List.flatMap_nil,
        h2]
      simp only [Bool.false_eq_true, if_false, List.nil_append, List.flatMap_cons, List.flatMap_nil,
        List.append_nil, runMany_stop isSp false c u [] h1, h3]

/-! ## Text in which nothing is found -/

theorem Lead.stop_same {r : Re} {B : Text → List Pos} {X : Char → Text → List Pos} (L : Lead r B X)
    (hB : ∀ w, B (';' :: w) = []) {k : Text} (hk : Stop k) :
    findAll r true 0 k = findAll r false 0 k := by
  rcases hk with rfl | ⟨v, rfl⟩ | ⟨v, rfl⟩
  · simp [findAll]
  · rw [L.cross _ _ (by decide), L.pass _ _ (L.nosp _ _ (by decide))]
    rfl
  · apply L.miss
    rw [List.dropWhile_cons, if_neg (by decide)]
    exact hB v

theorem blank_not_newline {c : Char} (h : Spec.blank c = true) : (c == '\n') = false := by
  rw [beq_eq_false_iff_ne]; rintro rfl; exact absurd h (by decide)

theorem Lead.passBlanks {r : Re} {B : Text → List Pos} {X : Char → Text → List Pos} (L : Lead r B X) :
    ∀ (w k : Text), Blank w → findAll r false 0 (w ++ k) = findAll r false 0 k
  | [], _, _ => rfl
  | c :: w, k, h => by
    have hc := h c (by simp)
    rw [List.cons_append, L.pass _ _ (L.nosp _ _ (blank_isSp hc)), blank_not_newline hc]
    exact L.passBlanks w k fun x hx => h x (by simp [hx])

theorem Lead.quiet {r : Re} {B : Text → List Pos} {X : Char → Text → List Pos} (L : Lead r B X)
    (hB : ∀ w, B (';' :: w) = []) (v k : Text) (hk : Stop k)
    (h : v.dropWhile Spec.blank ≠ [] → B ((v ++ k).dropWhile isSp) = []) :
    findAll r true 0 (v ++ k) = findAll r false 0 (v ++ k) := by
  by_cases hv : v.dropWhile Spec.blank = []
  · have hb : Blank v := dropWhile_nil_all _ v hv
    rw [L.crossAll v k fun c hc => blank_isSp (hb c hc), L.passBlanks v k hb, L.stop_same hB hk]
  · exact L.miss _ (h hv)

theorem body_semi (k : Text) (tail : Re) (hk : k ≠ []) (hn : '\n' ∉ k) (hs : k.head? ≠ some ';')
    (w : Text) : body k tail (';' :: w) = [] := by
  by_cases h : body k tail (';' :: w) = []
  · exact h
  · obtain ⟨x, t, h1, h2, _⟩ := body_word k tail hk hn _ h
    cases x with
    | nil => exact absurd h2.symm hk
    | cons c x =>
      simp only [List.cons_append, List.cons.injEq] at h1
      exact absurd (by rw [← h2, ← h1.1]; rfl) hs

/-! ## Modules used -/

theorem useB_semi (w : Text) : useB (';' :: w) = [] :=
  body_semi _ _ (by decide) (by decide) (by decide) w

theorem use_quiet (v k : Text) (hv : Printable v) (hk : Stop k) (h : firstWord v ≠ "use".toList) :
    findAll useRegex true 0 (v ++ k) = findAll useRegex false 0 (v ++ k) := by
  apply use_lead.quiet useB_semi v k hk
  intro hne
  by_cases hb : useB ((v ++ k).dropWhile isSp) = []
  · exact hb
  · exact absurd (line_first _ useTail (by decide) (by decide) (by decide)
      useTail_head v k hv hne hk hb) h

theorem use_semi (s : Text) : findAll useRegex false 0 (';' :: s) = findAll useRegex true 0 s := by
  rcases h : useB (s.dropWhile isSp) with _ | ⟨e, m⟩
  · rw [use_lead.pass _ _ (by simp [h]), use_lead.miss s h]
    rfl
  · rw [use_lead.hit s e m h]
    have hl := use_lead.shrink _ e (by rw [h]; simp)
    have := dropWhile_length_le isSp s
    refine findAll_hit _ _ _ e m ?_ (by simp; omega)
    rw [use_lead.eq]
    simp [h]

theorem use_free : ∀ (t k : Text), Printable t → Stop k →
    (∀ u v, t = u ++ ';' :: v → firstWord v ≠ "use".toList) →
    findAll useRegex false 0 (t ++ k) = findAll useRegex false 0 k
  | [], _, _, _, _ => rfl
  | c :: t, k, hp, hk, h => by
    have hp' : Printable t := fun x hx => hp x (by simp [hx])
    have ih := use_free t k hp' hk fun u v e => h (c :: u) v (by rw [e]; rfl)
    rw [List.cons_append]
    by_cases hc : c = ';'
    · subst hc
      rw [use_semi, use_quiet t k hp' hk (h [] t rfl), ih]
    · have hn : (c == '\n') = false := by
        rw [beq_eq_false_iff_ne]; rintro rfl; exact printable_no_newline hp (by simp)
      rw [use_lead.pass _ _ (by simp [hc]), hn, ih]

theorem wd_not_sp {c : Char} (h : isWd c = true) : isSp c = false := by
  cases hs : isSp c
  · rfl
  · rw [isSp_not_isWd hs] at h; exact absurd h (by simp)

/-- White space and a name. -/
theorem sp_name (b : Bool) (w n t cap : Text) (hw : ∀ c ∈ w, isSp c = true) (hn : Name n)
    (ht : ∀ c u, t = c :: u → isWd c = false) :
    ∃ more, run (.seq sp (.group (.many1 isWd))) ⟨b, w ++ (n ++ t), cap⟩ = ⟨false, t, n⟩ :: more := by
  obtain ⟨hne, hwd⟩ := hn
  rw [run_seq, sp, runMany_run]
  rw [run_many_then isSp _ (fun b c t cap hc => by simp [run, run_many1_cons, isSp_not_isWd hc])]
  cases n with
  | nil => exact absurd rfl hne
  | cons c n =>
    rw [List.cons_append, Pos.past_append isSp w c (n ++ t) cap b hw (wd_not_sp (hwd c (by simp))),
      ← List.cons_append]
    exact group_name _ (c :: n) t cap hne hwd ht

theorem runMany_drop (p : Char → Bool) (cap : Text) : ∀ (t : Text) (b : Bool),
    ∀ e ∈ runMany p cap b t, e.rest.dropWhile p = t.dropWhile p
  | [], b, e, h => by simp [runMany] at h; subst h; rfl
  | c :: t, b, e, h => by
    rw [runMany] at h
    split at h
    · rename_i hc
      rcases List.mem_append.1 h with h | h
      · rw [runMany_drop p cap t _ e h, List.dropWhile_cons, if_pos hc]
      · simp at h; subst h; rfl
    · simp at h; subst h; rfl

/-- White space with no name after it: the first alternative after `use` fails. -/
theorem first_alt_fails (b : Bool) (s : Text)
    (h : ∀ c u, s.dropWhile isSp = c :: u → isWd c = false) :
    (run (.many1 isSp) ⟨b, s, []⟩).flatMap (run (.seq sp (.group (.many1 isWd)))) = [] := by
  rw [List.flatMap_eq_nil_iff]
  intro e he
  have hd : e.rest.dropWhile isSp = s.dropWhile isSp := by
    cases s with
    | nil => simp [run_many1_nil] at he
    | cons c t =>
      rw [run_many1_cons] at he
      split at he
      · rename_i hc
        rw [runMany_drop isSp [] t _ e he, List.dropWhile_cons, if_pos hc]
      · simp at he
  obtain ⟨b', s', cap'⟩ := e
  exact group_name_none b' s' cap' (by simp only at hd; rw [hd]; exact h)

/-- White space, then a pattern that begins with a given character that is there. -/
theorem sp_is (k : Char) (hk : isSp k = false) (R : Re) (b : Bool) (w t cap : Text)
    (hw : ∀ c ∈ w, isSp c = true) :
    run (.seq sp (.seq (is k) R)) ⟨b, w ++ k :: t, cap⟩ = run R ⟨k == '\n', t, cap⟩ := by
  rw [run_seq, sp, runMany_run]
  rw [run_many_then isSp _ (fun b c t cap hc => by
    have : (c == k) = false := by
      rw [beq_eq_false_iff_ne]; rintro rfl; rw [hk] at hc; exact absurd hc (by simp)
    simp [is, run_seq, run_chr_cons, this])]
  rw [Pos.past_append isSp w k t cap b hw hk]
  simp [run_seq, is, run_chr_cons]

/-- … and that is not there. -/
theorem sp_is_not (k : Char) (hk : isSp k = false) (R : Re) (b : Bool) (w t cap : Text) (c : Char)
    (hw : ∀ c ∈ w, isSp c = true) (hc : isSp c = false) (hne : c ≠ k) :
    run (.seq sp (.seq (is k) R)) ⟨b, w ++ c :: t, cap⟩ = [] := by
  rw [run_seq, sp, runMany_run]
  rw [run_many_then isSp _ (fun b c t cap hc => by
    have : (c == k) = false := by
      rw [beq_eq_false_iff_ne]; rintro rfl; rw [hk] at hc; exact absurd hc (by simp)
    simp [is, run_seq, run_chr_cons, this])]
  rw [Pos.past_append isSp w c t cap b hw hc]
  simp [run_seq, is, run_chr_cons, hne]

/-- White space and the word of a body, when the rest of the pattern is just that. -/
theorem sp_then {R : Re} (b : Bool) (w t cap : Text) (hw : ∀ c ∈ w, isSp c = true)
    (hR : ∀ b c t cap, isSp c = true → run R ⟨b, c :: t, cap⟩ = [])
    (hb : ∀ b b', run R ⟨b, t, cap⟩ = run R ⟨b', t, cap⟩)
    (ht : ∀ c u, t = c :: u → isSp c = false) :
    run (.seq sp R) ⟨b, w ++ t, cap⟩ = run R ⟨false, t, cap⟩ := by
  rw [run_seq, sp, runMany_run]
  rw [run_many_then isSp _ hR]
  have hr := Pos.past_rest isSp ⟨b, w ++ t, cap⟩
  have hc := Pos.past_cap isSp ⟨b, w ++ t, cap⟩
  generalize Pos.past isSp ⟨b, w ++ t, cap⟩ = q at hr hc
  obtain ⟨b', s', cap'⟩ := q
  simp only [dropWhile_all_append isSp w t hw] at hr hc
  have : t.dropWhile isSp = t := by
    cases t with
    | nil => rfl
    | cons c u => rw [List.dropWhile_cons, ht c u rfl]; rfl
  rw [this] at hr
  subst hr hc
  exact hb _ _

theorem word_ne (k : Text) (b : Bool) (c : Char) (t cap : Text) (h : ∀ x ∈ k.head?, c.toLower ≠ x)
    (hk : k ≠ []) : run (.word k) ⟨b, c :: t, cap⟩ = [] := by
  rcases hr : run (Re.word k) ⟨b, c :: t, cap⟩ with _ | ⟨e, m⟩
  · rfl
  · obtain ⟨w, h1, h2⟩ := word_only k _ e (by rw [hr]; simp)
    cases w with
    | nil => exact absurd h2.symm hk
    | cons x w =>
      simp only [List.cons_append, List.cons.injEq] at h1
      rw [← h2] at h
      have := h x.toLower (by simp)
      rw [h1.1] at this
      exact absurd rfl this

/-- `intrinsic` or `non_intrinsic`. -/
def natureWord : Re := .seq (.opt (.word "non_".toList)) (.word "intrinsic".toList)

theorem nature_hit (b : Bool) (k t cap : Text) (hk : Reads "intrinsic" k ∨ Reads "non_intrinsic" k) :
    run natureWord ⟨b, k ++ t, cap⟩ = [⟨false, t, cap⟩] := by
  rw [natureWord, run_seq, run, List.flatMap_append]
  rcases hk with hk | hk
  · have h2 : run (.word "intrinsic".toList) ⟨b, k ++ t, cap⟩ = [⟨false, t, cap⟩] :=
      word_hit _ k t cap b (by decide) (by decide) hk
    have h1 : run (.word "non_".toList) ⟨b, k ++ t, cap⟩ = [] := by
      cases k with
      | nil => exact absurd hk (by simp [Reads])
      | cons c k =>
        have hc : c.toLower = 'i' := by
          have : (c :: k).map Char.toLower = "intrinsic".toList := hk
          rw [List.map_cons] at this
          exact (List.cons.inj this).1
        exact word_ne _ b c (k ++ t) cap (by rw [hc]; decide) (by decide)
    simp only [h1, h2, List.flatMap_nil, List.flatMap_cons, List.nil_append, List.append_nil]
  · have hk : k.map Char.toLower = "non_intrinsic".toList := hk
    have hsplit : (k.take 4).map Char.toLower = "non_".toList ∧
        (k.drop 4).map Char.toLower = "intrinsic".toList := by
      rw [List.map_take, List.map_drop, hk]; exact ⟨rfl, rfl⟩
    have h1 : run (.word "non_".toList) ⟨b, k ++ t, cap⟩ = [⟨false, k.drop 4 ++ t, cap⟩] := by
      have := word_hit "non_".toList (k.take 4) (k.drop 4 ++ t) cap b (by decide) (by decide) hsplit.1
      rwa [← List.append_assoc, List.take_append_drop] at this
    have h2 : run (.word "intrinsic".toList) ⟨false, k.drop 4 ++ t, cap⟩ = [⟨false, t, cap⟩] :=
      word_hit _ _ t cap false (by decide) (by decide) hsplit.2
    have h3 : run (.word "intrinsic".toList) ⟨b, k ++ t, cap⟩ = [] := by
      cases k with
      | nil => exact absurd hk (by simp)
      | cons c k =>
        have hc : c.toLower = 'n' := by
          rw [List.map_cons] at hk
          exact (List.cons.inj hk).1
        exact word_ne _ b c (k ++ t) cap (by rw [hc]; decide) (by decide)
    simp only [h1, h2, h3, List.flatMap_nil, List.flatMap_cons, List.append_nil]

theorem nature_sp (b : Bool) (c : Char) (t cap : Text) (hc : isSp c = true) :
    run natureWord ⟨b, c :: t, cap⟩ = [] := by
  rw [natureWord, run_seq, run, List.flatMap_append]
  rw [word_sp "non_".toList (by decide) (by decide) b c t cap hc]
  rw [List.flatMap_cons, word_sp "intrinsic".toList (by decide) (by decide) b c t cap hc]
  rfl

theorem Blank.isSp {w : Text} (h : Blank w) : ∀ c ∈ w, isSp c = true := fun c hc => blank_isSp (h c hc)

/-- `use`, what may stand in between, and a name. -/
theorem useTail_hit (sep : Sep) (n t : Text) (hs : sep.Proper) (hn : Name n)
    (ht : ∀ c u, t = c :: u → isWd c = false) :
    ∃ more, run useTail ⟨false, sep.text ++ (n ++ t), []⟩ = ⟨false, t, n⟩ :: more := by
  rw [useTail, run_seq, run, List.flatMap_append]
  cases sep with
  | gap w =>
    obtain ⟨hne, hw⟩ := hs
    cases w with
    | nil => exact absurd rfl hne
    | cons c w =>
      have hsp := Blank.isSp hw
      rw [Sep.text, List.cons_append, run_many1_cons, if_pos (hsp c (by simp))]
      obtain ⟨m, hm⟩ := runMany_head isSp [] (w ++ (n ++ t)) (c == '\n')
      cases n with
      | nil => exact absurd rfl hn.1
      | cons x n =>
        rw [List.cons_append, Pos.past_append isSp w x (n ++ t) [] _ (fun y hy => hsp y (by simp [hy]))
          (wd_not_sp (hn.2 x (by simp))), ← List.cons_append] at hm
        rw [List.cons_append] at hm
        rw [List.cons_append, hm, List.flatMap_cons]
        obtain ⟨m', hm'⟩ := sp_name ((w.getLast?.map (· == '\n')).getD (c == '\n')) [] (x :: n) t [] (by simp) hn ht
        simp only [List.nil_append, List.cons_append] at hm'
        rw [hm']
        exact ⟨_, rfl⟩
  | colons a b =>
    obtain ⟨ha, hb⟩ := hs
    have ha := Blank.isSp ha
    have hb := Blank.isSp hb
    rw [Sep.text]
    simp only [List.append_assoc, List.cons_append]
    rw [first_alt_fails]
    · rw [List.nil_append, run_seq, run]
      rw [sp_is_not ',' (by decide) _ false a _ [] ':' ha (by decide) (by decide)]
      simp only [List.nil_append, List.flatMap_cons, List.flatMap_nil, List.append_nil]
      rw [sp_is ':' (by decide) _ false a _ [] ha]
      obtain ⟨m, hm⟩ := sp_name (':' == '\n') b n t [] hb hn ht
      rw [is, run_chr_cons, if_pos (by decide)]
      simp only [List.flatMap_cons, List.flatMap_nil, List.append_nil]
      rw [hm]
      exact ⟨_, rfl⟩
    · intro c u h
      rw [dropWhile_all_append isSp a _ ha, List.dropWhile_cons, if_neg (by decide)] at h
      rw [← (List.cons.inj h).1]; decide
  | nature a b k c d =>
    obtain ⟨ha, hb, hk, hc, hd⟩ := hs
    have ha := Blank.isSp ha
    have hb := Blank.isSp hb
    have hc := Blank.isSp hc
    have hd := Blank.isSp hd
    rw [Sep.text]
    simp only [List.append_assoc, List.cons_append]
    rw [first_alt_fails]
    · rw [List.nil_append, run_seq, run]
      rw [sp_is ',' (by decide) _ false a _ [] ha]
      have hk1 : ∀ x u, k ++ (c ++ ':' :: ':' :: (d ++ (n ++ t))) = x :: u → isSp x = false := by
        intro x u h
        cases k with
        | nil => rcases hk with hk | hk <;> exact absurd hk (by simp [Reads])
        | cons y k =>
          rw [← (List.cons.inj h).1]
          apply wd_not_sp
          rcases hk with hk | hk
          · exact reads_wd (k := "intrinsic".toList) (by decide) hk y (by simp)
          · exact reads_wd (k := "non_intrinsic".toList) (by decide) hk y (by simp)
      have hO : run (.seq sp natureWord)
          ⟨',' == '\n', b ++ (k ++ (c ++ ':' :: ':' :: (d ++ (n ++ t)))), []⟩ =
          [⟨false, c ++ ':' :: ':' :: (d ++ (n ++ t)), []⟩] := by
        rw [sp_then _ b _ [] hb nature_sp (fun b b' => by rw [nature_hit _ _ _ _ hk, nature_hit _ _ _ _ hk]) hk1]
        exact nature_hit _ _ _ _ hk
      rw [natureWord] at hO
      rw [hO]
      simp only [List.cons_append, List.nil_append, List.flatMap_cons, List.flatMap_nil, List.append_nil]
      rw [sp_is ':' (by decide) _ false c _ [] hc]
      obtain ⟨m, hm⟩ := sp_name (':' == '\n') d n t [] hd hn ht
      rw [is, run_chr_cons, if_pos (by decide)]
      simp only [List.flatMap_cons, List.flatMap_nil, List.append_nil, List.flatMap_append]
      rw [hm]
      exact ⟨_, rfl⟩
    · intro x u h
      rw [dropWhile_all_append isSp a _ ha, List.dropWhile_cons, if_neg (by decide)] at h
      rw [← (List.cons.inj h).1]; decide

theorem word_head {k w : Text} (hk : ∀ c ∈ k, isWd c = true) (h : w.map Char.toLower = k) (hk' : k ≠ [])
    (t : Text) : (w ++ t).dropWhile isSp = w ++ t := by
  cases w with
  | nil => exact absurd h.symm hk'
  | cons c w =>
    rw [List.cons_append, List.dropWhile_cons, wd_not_sp (reads_wd hk h c (by simp))]
    rfl

/-- One statement. -/
theorem use_stmt (s : Stmt) (k : Text) (hs : s.Proper) (hk : Stop k) :
    findAll useRegex true 0 (s.text ++ k) = s.uses ++ findAll useRegex false 0 k := by
  cases s with
  | use lead kw sep name tail =>
    obtain ⟨h1, h2, h3, h4, h5⟩ := hs
    have hstop : ∀ c u, tail ++ k = c :: u → isWd c = false := by
      intro c u h
      cases tail with
      | nil => exact hk.not_wd c u h
      | cons x tail => rw [← (List.cons.inj h).1]; exact h5.2 x tail rfl
    obtain ⟨m, hm⟩ := useTail_hit sep name (tail ++ k) h3 h4 hstop
    rw [Stmt.text]
    simp only [List.append_assoc]
    rw [use_lead.crossAll lead _ (Blank.isSp h1)]
    rw [use_lead.hit _ ⟨false, tail ++ k, name⟩ m]
    · simp only [Stmt.uses, List.cons_append, List.nil_append]
      rw [use_free tail k h5.1.1 hk fun u v e => (h5.1.2 u v e).1]
    · rw [word_head (k := "use".toList) (by decide) h2 (by decide), useB,
        body_hit _ _ _ _ (by decide) (by decide) h2]
      exact hm
  | other t =>
    obtain ⟨h1, h2⟩ := hs
    rw [Stmt.text, use_quiet t k h1.1 hk h2.1, use_free t k h1.1 hk fun u v e => (h1.2 u v e).1]
    rfl

theorem moreText_stop (l : List Stmt) (k : Text) (hk : Stop k) : Stop (moreText l ++ k) := by
  cases l with
  | nil => exact hk
  | cons s l => exact Or.inr (Or.inr ⟨_, by simp [moreText]; rfl⟩)

theorem use_more : ∀ (l : List Stmt) (k : Text), (∀ s ∈ l, s.Proper) → Stop k →
    findAll useRegex false 0 (moreText l ++ k) = l.flatMap Stmt.uses ++ findAll useRegex false 0 k
  | [], _, _, _ => rfl
  | s :: l, k, h, hk => by
    have : moreText (s :: l) ++ k = ';' :: (s.text ++ (moreText l ++ k)) := by simp [moreText]
    rw [this, use_semi, use_stmt s _ (h s (by simp)) (moreText_stop l k hk),
      use_more l k (fun x hx => h x (by simp [hx])) hk]
    simp

/-! ## Lines as texts -/

theorem wordChar_range {c : Char} (h : Spec.wordChar c = true) : 32 < c.toNat ∧ c.toNat < 127 := by
  unfold Spec.wordChar at h
  rw [Bool.or_eq_true] at h
  rcases h with h | h
  · simp only [Char.isAlphanum, Char.isAlpha, Char.isUpper, Char.isLower, Char.isDigit, Bool.or_eq_true,
      Bool.and_eq_true, decide_eq_true_eq, ge_iff_le, UInt32.le_iff_toNat_le] at h
    have : c.val.toNat = c.toNat := rfl
    simp at h
    omega
  · rw [beq_iff_eq] at h
    subst h; decide

theorem word_printable {t : Text} (h : ∀ c ∈ t, isWd c = true) : Printable t :=
  fun c hc => Or.inr (wordChar_range (h c hc))

theorem _root_.Verif.Fortran.Spec.Printable.append {a b : Text} (ha : Printable a) (hb : Printable b) : Printable (a ++ b) := by
  intro c hc
  rcases List.mem_append.1 hc with h | h
  · exact ha c h
  · exact hb c h

theorem _root_.Verif.Fortran.Spec.Printable.cons {c : Char} {b : Text} (hc : 32 < c.toNat ∧ c.toNat < 127) (hb : Printable b) :
    Printable (c :: b) := by
  intro x hx
  rcases List.mem_cons.1 hx with h | h
  · subst h; exact Or.inr hc
  · exact hb x h

theorem semi_later {a b u v : Text} (ha : ';' ∉ a) (h : a ++ b = u ++ ';' :: v) :
    ∃ u', b = u' ++ ';' :: v := by
  rcases List.append_eq_append_iff.1 h with ⟨x, h1, h2⟩ | ⟨x, h1, h2⟩
  · exact ⟨x, h2⟩
  · cases x with
    | nil => exact ⟨[], by simpa using h2.symm⟩
    | cons y x =>
      rw [List.cons_append, List.cons.injEq] at h2
      exact absurd (by rw [h1, ← h2.1]; simp) ha

theorem wd_no_semi {t : Text} (h : ∀ c ∈ t, isWd c = true) : ';' ∉ t :=
  fun hm => absurd (h _ hm) (by decide)

theorem blank_no_semi {t : Text} (h : Blank t) : ';' ∉ t :=
  fun hm => absurd (h _ hm) (by decide)

theorem wd_not_blank {c : Char} (h : isWd c = true) : Spec.blank c = false := by
  cases hb : Spec.blank c
  · rfl
  · have := wd_not_sp h
    rw [blank_isSp hb] at this
    exact absurd this (by simp)

/-- A line that begins with a word. -/
theorem firstWord_word (lead w rest : Text) (h1 : Blank lead) (h2 : w ≠ []) (h3 : ∀ c ∈ w, isWd c = true)
    (h4 : ∀ c u, rest = c :: u → isWd c = false) :
    firstWord (lead ++ (w ++ rest)) = w.map Char.toLower := by
  unfold firstWord
  rw [dropWhile_all_append _ lead _ h1]
  have : (w ++ rest).dropWhile Spec.blank = w ++ rest := by
    cases w with
    | nil => exact absurd rfl h2
    | cons c w => rw [List.cons_append, List.dropWhile_cons, wd_not_blank (h3 c (by simp))]; rfl
  rw [this]
  exact congrArg _ (takeWhile_word h3 h4)

/-- What comes after a semicolon does not change the first word. -/
theorem firstWord_stop (t k : Text) (hk : k = [] ∨ ∃ v, k = ';' :: v) : firstWord (t ++ k) = firstWord t := by
  have hd : ∀ c u, k = c :: u → isWd c = false := by
    rintro c u rfl
    rcases hk with h | ⟨v, h⟩
    · simp at h
    · rw [(List.cons.inj h).1]; decide
  unfold firstWord
  by_cases h : t.dropWhile Spec.blank = []
  · rw [h, dropWhile_all_append _ t k (dropWhile_nil_all _ t h)]
    rcases hk with rfl | ⟨v, rfl⟩
    · rfl
    · rw [List.dropWhile_cons, if_neg (by decide), List.takeWhile_cons, if_neg (by decide)]; rfl
  · rw [dropWhile_append_ne _ t k h]
    exact congrArg _ (takeWhile_stop hd)

theorem moreText_start (l : List Stmt) : moreText l = [] ∨ ∃ v, moreText l = ';' :: v := by
  cases l with
  | nil => exact Or.inl rfl
  | cons s l => exact Or.inr ⟨_, by simp [moreText]; rfl⟩

theorem sep_printable (sep : Sep) (h : sep.Proper) : Printable sep.text := by
  cases sep with
  | gap w => exact Blank.printable h.2
  | colons a b =>
    exact (Blank.printable h.1).append
      (Spec.Printable.cons (by decide) (Spec.Printable.cons (by decide) (Blank.printable h.2)))
  | nature a b k c d =>
    obtain ⟨ha, hb, hk, hc, hd⟩ := h
    have hk' : Printable k := by
      rcases hk with hk | hk
      · exact word_printable (reads_wd (k := "intrinsic".toList) (by decide) hk)
      · exact word_printable (reads_wd (k := "non_intrinsic".toList) (by decide) hk)
    rw [Sep.text]
    simp only [List.append_assoc, List.cons_append]
    exact (Blank.printable ha).append (Spec.Printable.cons (by decide) ((Blank.printable hb).append
      (hk'.append ((Blank.printable hc).append
        (Spec.Printable.cons (by decide) (Spec.Printable.cons (by decide) (Blank.printable hd)))))))

theorem sep_no_semi (sep : Sep) (h : sep.Proper) : ';' ∉ sep.text := by
  cases sep with
  | gap w => exact blank_no_semi h.2
  | colons a b =>
    simp only [Sep.text, List.mem_append, List.mem_cons, not_or]
    exact ⟨blank_no_semi h.1, by decide, by decide, blank_no_semi h.2⟩
  | nature a b k c d =>
    obtain ⟨ha, hb, hk, hc, hd⟩ := h
    have hk' : ';' ∉ k := by
      rcases hk with hk | hk
      · exact wd_no_semi (reads_wd (k := "intrinsic".toList) (by decide) hk)
      · exact wd_no_semi (reads_wd (k := "non_intrinsic".toList) (by decide) hk)
    rw [Sep.text]
    simp only [List.append_assoc, List.cons_append, List.mem_append, List.mem_cons, not_or]
    exact ⟨blank_no_semi ha, by decide, blank_no_semi hb, hk', blank_no_semi hc, by decide, by decide,
      blank_no_semi hd⟩

theorem sep_head (sep : Sep) (h : sep.Proper) (t : Text) :
    ∀ c u, sep.text ++ t = c :: u → isWd c = false := by
  have hb : ∀ (w : Text) (k : Char) (r : Text), Blank w → isWd k = false →
      ∀ c u, w ++ k :: r = c :: u → isWd c = false := by
    intro w k r hw hk c u he
    cases w with
    | nil => rw [← (List.cons.inj he).1]; exact hk
    | cons x w => rw [← (List.cons.inj he).1]; exact isSp_not_isWd (blank_isSp (hw x (by simp)))
  cases sep with
  | gap w =>
    intro c u he
    cases w with
    | nil => exact absurd rfl h.1
    | cons x w => rw [← (List.cons.inj he).1]; exact isSp_not_isWd (blank_isSp (h.2 x (by simp)))
  | colons a b =>
    rw [Sep.text, List.append_assoc, List.cons_append]
    exact hb a ':' _ h.1 (by decide)
  | nature a b k c d =>
    rw [Sep.text]
    simp only [List.append_assoc, List.cons_append]
    exact hb a ',' _ h.1 (by decide)

/-- What is needed of the text of a statement, or of the part of a line from some statement on: its
characters are printable, and what follows a semicolon in it is not an `include`. -/
structure Plain (t : Text) : Prop where
  printable : Printable t
  semi : ∀ u v, t = u ++ ';' :: v → firstWord v ≠ "include".toList

theorem Plain.append_left {a b : Text} (ha : Printable a) (hs : ';' ∉ a) (hb : Plain b) : Plain (a ++ b) where
  printable := ha.append hb.printable
  semi u v h := by
    obtain ⟨u', h'⟩ := semi_later hs h
    exact hb.semi u' v h'

theorem Free.plain {t : Text} (h : Free t) : Plain t := ⟨h.1, fun u v e => (h.2 u v e).2.1⟩

/-- Joining free text and further statements. -/
theorem Plain.more {t m : Text} (ht : Plain t) (hm : Plain m) (hm' : m = [] ∨ ∃ v, m = ';' :: v) :
    Plain (t ++ m) where
  printable := ht.printable.append hm.printable
  semi u v h := by
    rcases List.append_eq_append_iff.1 h with ⟨x, h1, h2⟩ | ⟨x, h1, h2⟩
    · exact hm.semi x v h2
    · cases x with
      | nil => exact hm.semi [] v (by simpa using h2.symm)
      | cons y x =>
        rw [List.cons_append, List.cons.injEq] at h2
        rw [h2.2, firstWord_stop x m hm']
        exact ht.semi u x (by rw [h1, h2.1])

theorem use_first (lead kw : Text) (sep : Sep) (rest : Text) (h1 : Blank lead) (h2 : Reads "use" kw)
    (h3 : sep.Proper) : firstWord (lead ++ (kw ++ (sep.text ++ rest))) = "use".toList := by
  have hne : kw ≠ [] := by rintro rfl; exact absurd h2 (by simp [Reads])
  rw [firstWord_word lead kw _ h1 hne (reads_wd (k := "use".toList) (by decide) h2) (sep_head sep h3 _)]
  exact h2

theorem stmt_plain (s : Stmt) (h : s.Proper) : Plain s.text ∧ firstWord s.text ≠ "include".toList := by
  cases s with
  | use lead kw sep name tail =>
    obtain ⟨h1, h2, h3, h4, h5⟩ := h
    have hkw := reads_wd (k := "use".toList) (by decide) h2
    rw [Stmt.text]
    simp only [List.append_assoc]
    constructor
    · exact .append_left (Blank.printable h1) (blank_no_semi h1) (.append_left (word_printable hkw)
        (wd_no_semi hkw) (.append_left (sep_printable sep h3) (sep_no_semi sep h3)
        (.append_left (word_printable h4.2) (wd_no_semi h4.2) (Free.plain h5.1))))
    · rw [use_first lead kw sep _ h1 h2 h3]; decide
  | other t => exact ⟨Free.plain h.1, h.2.2.1⟩

theorem more_plain : ∀ (l : List Stmt), (∀ s ∈ l, s.Proper) → Plain (moreText l)
  | [], _ => ⟨fun c hc => by simp [moreText] at hc, fun u v h => by simp [moreText] at h⟩
  | s :: l, h => by
    have ih := more_plain l fun x hx => h x (by simp [hx])
    obtain ⟨h1, h2⟩ := stmt_plain s (h s (by simp))
    have e : moreText (s :: l) = ';' :: (s.text ++ moreText l) := by simp [moreText]
    have hp := h1.more ih (moreText_start l)
    rw [e]
    refine ⟨Spec.Printable.cons (by decide) hp.printable, fun u v he => ?_⟩
    cases u with
    | nil =>
      rw [← (List.cons.inj he).2, firstWord_stop _ _ (moreText_start l)]
      exact h2
    | cons c u => exact hp.semi u v (List.cons.inj he).2

theorem quote_range {o c : Char}
    (h : (o, c) = ('\'', '\'') ∨ (o, c) = ('"', '"') ∨ (o, c) = ('<', '>')) :
    (32 < o.toNat ∧ o.toNat < 127) ∧ (32 < c.toNat ∧ c.toNat < 127) ∧ o ≠ ';' ∧ c ≠ ';' ∧
      isOpen o = true ∧ isClose c = true ∧ isWd o = false ∧ isSp o = false := by
  rcases h with h | h | h <;> (obtain ⟨rfl, rfl⟩ := Prod.mk.inj h; decide)

theorem line_plain (l : Line) (h : l.Proper) : Plain l.text := by
  cases l with
  | stmts s more => exact (stmt_plain s h.1).1.more (more_plain more h.2) (moreText_start more)
  | incl lead kw gap o name c tail =>
    obtain ⟨h1, h2, h3, h4, h5, h6, h7, h8, h9⟩ := h
    have hkw := reads_wd (k := "include".toList) (by decide) h2
    obtain ⟨q1, q2, q3, q4, -⟩ := quote_range h5
    have e : Line.text (.incl lead kw gap o name c tail) =
        lead ++ (kw ++ (gap ++ ([o] ++ (name ++ ([c] ++ tail))))) := by simp [Line.text]
    rw [e]
    have hq : ∀ x : Char, (32 < x.toNat ∧ x.toNat < 127) → Printable [x] := fun x hx =>
      Spec.Printable.cons hx (fun y hy => by simp at hy)
    exact .append_left (Blank.printable h1) (blank_no_semi h1) (.append_left (word_printable hkw)
      (wd_no_semi hkw) (.append_left (Blank.printable h4) (blank_no_semi h4)
      (.append_left (hq o q1) (by simp; exact fun h => q3 h.symm) (.append_left h7
      (fun hm => h8 _ hm (by simp)) (.append_left (hq c q2) (by simp; exact fun h => q4 h.symm)
      (Free.plain h9))))))
  | mod lead kw gap name tail more =>
    obtain ⟨h1, h2, h3, h4, h5, h6, h7, h8⟩ := h
    have hkw := reads_wd (k := "module".toList) (by decide) h2
    rw [Line.text]
    simp only [List.append_assoc]
    exact .append_left (Blank.printable h1) (blank_no_semi h1) (.append_left (word_printable hkw)
      (wd_no_semi hkw) (.append_left (Blank.printable h4) (blank_no_semi h4)
      (.append_left (word_printable h5.2) (wd_no_semi h5.2)
      ((Free.plain h6.1).more (more_plain more h8) (moreText_start more)))))

/-- A line beginning with a given word and a gap. -/
theorem kw_first (k : String) (lead kw gap rest : Text) (h1 : Blank lead) (h2 : Reads k kw)
    (hk : ∀ c ∈ k.toList, isWd c = true) (hk' : k.toList ≠ []) (h3 : gap ≠ []) (h4 : Blank gap) :
    firstWord (lead ++ (kw ++ (gap ++ rest))) = k.toList := by
  have hne : kw ≠ [] := by rintro rfl; exact hk' h2.symm
  rw [firstWord_word lead kw _ h1 hne (reads_wd hk h2) ?_]
  · exact h2
  · intro c u he
    cases gap with
    | nil => exact absurd rfl h3
    | cons x w => rw [← (List.cons.inj he).1]; exact isSp_not_isWd (blank_isSp (h4 x (by simp)))

theorem use_line (l : Line) (k : Text) (hl : l.Proper) (hk : Stop k) :
    findAll useRegex true 0 (l.text ++ k) = l.uses ++ findAll useRegex false 0 k := by
  have hp := line_plain l hl
  cases l with
  | stmts s more =>
    rw [Line.text, List.append_assoc, use_stmt s _ hl.1 (moreText_stop more k hk),
      use_more more k hl.2 hk, Line.uses, List.append_assoc]
  | incl lead kw gap o name c tail =>
    obtain ⟨h1, h2, h3, h4, h5, h6, h7, h8, h9⟩ := hl
    have hkw := reads_wd (k := "include".toList) (by decide) h2
    obtain ⟨q1, q2, q3, q4, -⟩ := quote_range h5
    have e : Line.text (.incl lead kw gap o name c tail) =
        lead ++ (kw ++ (gap ++ ([o] ++ (name ++ ([c] ++ tail))))) := by simp [Line.text]
    rw [use_quiet _ k hp.printable hk, use_free _ k hp.printable hk]
    · rfl
    · intro u v hv
      rw [e] at hv
      obtain ⟨u, hv⟩ := semi_later (blank_no_semi h1) hv
      obtain ⟨u, hv⟩ := semi_later (wd_no_semi hkw) hv
      obtain ⟨u, hv⟩ := semi_later (blank_no_semi h4) hv
      obtain ⟨u, hv⟩ := semi_later (by simp; exact fun h => q3 h.symm) hv
      obtain ⟨u, hv⟩ := semi_later (fun hm => h8 _ hm (by simp)) hv
      obtain ⟨u, hv⟩ := semi_later (by simp; exact fun h => q4 h.symm) hv
      exact (h9.2 u v hv).1
    · rw [e, kw_first "include" lead kw gap _ h1 h2 (by decide) (by decide) h3 h4]; decide
  | mod lead kw gap name tail more =>
    obtain ⟨h1, h2, h3, h4, h5, h6, h7, h8⟩ := hl
    have hkw := reads_wd (k := "module".toList) (by decide) h2
    have e : Line.text (.mod lead kw gap name tail more) ++ k =
      (lead ++ (kw ++ (gap ++ (name ++ tail)))) ++ (moreText more ++ k) := by simp [Line.text]
    have hp' : Printable (lead ++ (kw ++ (gap ++ (name ++ tail)))) :=
      (Blank.printable h1).append ((word_printable hkw).append ((Blank.printable h4).append
        ((word_printable h5.2).append h6.1.1)))
    rw [e, use_quiet _ _ hp' (moreText_stop more k hk), use_free _ _ hp' (moreText_stop more k hk),
      use_more more k h8 hk]
    · rfl
    · intro u v hv
      obtain ⟨u, hv⟩ := semi_later (blank_no_semi h1) hv
      obtain ⟨u, hv⟩ := semi_later (wd_no_semi hkw) hv
      obtain ⟨u, hv⟩ := semi_later (blank_no_semi h4) hv
      obtain ⟨u, hv⟩ := semi_later (wd_no_semi h5.2) hv
      exact (h6.1.2 u v hv).1
    · rw [kw_first "module" lead kw gap _ h1 h2 (by decide) (by decide) h3 h4]; decide

/-- The modules found in a proper file are those it uses, in order. -/
theorem findUses_file : ∀ (f : List Line), Spec.Proper f → findUses (fileText f) = Spec.uses f
  | [], _ => rfl
  | [l], h => by
    have := use_line l [] (h l (by simp)) (Or.inl rfl)
    rw [List.append_nil] at this
    rw [findUses, fileText, this]
    simp [Spec.uses, findAll]
  | l :: l' :: ls, h => by
    have ih := findUses_file (l' :: ls) fun x hx => h x (by simp at hx ⊢; exact Or.inr hx)
    rw [findUses] at ih
    rw [findUses, fileText, use_line l _ (h l (by simp)) (Or.inr (Or.inl ⟨_, rfl⟩)),
      use_lead.pass _ _ (use_lead.nosp _ _ (by decide))]
    rw [show ('\n' == '\n') = true from rfl, ih]
    simp [Spec.uses]

end Verif.Fortran
