import Verif.Fortran.Props

/-!
# C99, continued: files included, modules defined, and the dependency
-/

namespace Verif.Fortran

open Spec (Text Blank Printable Reads SameName firstWord secondWord Quiet Free Name Tail Sep Stmt
  Line moreText procedureWords fileText)

/-! ## Files included -/

theorem inclB_semi (w : Text) : inclB (';' :: w) = [] :=
  body_semi _ _ (by decide) (by decide) (by decide) w

theorem inclTail_head (t : Text) (h : run inclTail ⟨false, t, []⟩ ≠ []) :
    ∀ c u, t = c :: u → isWd c = false := many1_head _ t h

/-- In `s`, no semicolon is followed, on its line, by an `include`. -/
def Good (s : Text) : Prop :=
  ∀ u w, s = u ++ ';' :: w → inclB (w.dropWhile isSp) = [] ∨
    ∃ bl w', w = bl ++ '\n' :: w' ∧ Blank bl

theorem Good.tail {c : Char} {t : Text} (h : Good (c :: t)) : Good t :=
  fun u w e => h (c :: u) w (by rw [e]; rfl)

theorem incl_sp_semi : ∀ (ws w : Text) (b : Bool), (∀ c ∈ ws, isSp c = true) →
    findAll inclRegex b 0 (ws ++ ';' :: w) = findAll inclRegex false 0 w
  | [], w, b, _ => by
    have h : findAll inclRegex true 0 (';' :: w) = findAll inclRegex false 0 (';' :: w) :=
      incl_lead.stop_same inclB_semi (Or.inr (Or.inr ⟨w, rfl⟩))
    have h2 : findAll inclRegex false 0 (';' :: w) = findAll inclRegex false 0 w := by
      rw [incl_lead.pass _ _ (by simp [inclX, show isClose ';' = false by decide])]; rfl
    cases b
    · exact h2
    · exact h.trans h2
  | c :: ws, w, b, h => by
    have hc := h c (by simp)
    have ih := fun b => incl_sp_semi ws w b fun x hx => h x (by simp [hx])
    rw [List.cons_append]
    cases b
    · rw [incl_lead.pass _ _ (incl_lead.nosp _ _ hc), ih]
    · rw [incl_lead.cross _ _ hc, ih]

/-- Within a line, after its first statement, nothing is found that is not found anyway. -/
theorem incl_pass (c : Char) (t : Text) (h : Good (c :: t)) :
    findAll inclRegex false 0 (c :: t) = findAll inclRegex (c == '\n') 0 t := by
  by_cases hx : inclX c t = []
  · exact incl_lead.pass c t hx
  · unfold inclX at hx
    cases hc : isClose c
    · rw [hc] at hx; exact absurd rfl hx
    · rw [hc, if_pos rfl] at hx
      rcases ha : afterSemi t with _ | w
      · rw [ha] at hx; exact absurd rfl hx
      · rw [ha] at hx
        simp only at hx
        have hX : inclX c t = inclB (w.dropWhile isSp) := by rw [inclX, hc, if_pos rfl, ha]
        have ht : ∃ ws, t = ws ++ ';' :: w ∧ ∀ c ∈ ws, isSp c = true := by
          unfold afterSemi at ha
          split at ha
          · rename_i w' hw
            simp only [Option.some.injEq] at ha
            subst ha
            refine ⟨t.takeWhile isSp, ?_, fun c hc => ?_⟩
            · rw [← hw, List.takeWhile_append_dropWhile]
            · exact List.all_eq_true.1 (List.all_takeWhile) c hc
          · simp at ha
        obtain ⟨ws, ht, hws⟩ := ht
        rcases h (c :: ws) w (by rw [ht]; rfl) with hn | ⟨bl, w', hw, hbl⟩
        · exact absurd hn hx
        · rcases he : inclB (w.dropWhile isSp) with _ | ⟨e, m⟩
          · exact absurd he hx
          · have hl := incl_lead.shrink _ e (by rw [he]; simp)
            have hd := dropWhile_length_le isSp w
            have hlt : w.length < (c :: t).length := by rw [ht]; simp; omega
            have hrun : run inclRegex ⟨false, c :: t, []⟩ = e :: m := by
              rw [incl_lead.eq, hX, he]; simp
            rw [findAll_hit _ _ _ e m hrun (by omega)]
            rw [ht, incl_sp_semi ws w _ hws, hw, incl_lead.passBlanks bl _ hbl,
              incl_lead.pass _ _ (incl_lead.nosp _ _ (by decide))]
            have : w'.dropWhile isSp = w.dropWhile isSp := by
              rw [hw, dropWhile_all_append isSp bl _ (Blank.isSp hbl), List.dropWhile_cons,
                if_pos (by decide)]
            exact (incl_lead.hit w' e m (by rw [this, he])).symm

/-- What follows a line: nothing or the next line. -/
def End (k : Text) : Prop := k = [] ∨ ∃ v, k = '\n' :: v

theorem End.stop {k : Text} (h : End k) : Stop k := by
  rcases h with h | h
  · exact Or.inl h
  · exact Or.inr (Or.inl h)

theorem incl_rest : ∀ (t k : Text), '\n' ∉ t → Good (t ++ k) →
    findAll inclRegex false 0 (t ++ k) = findAll inclRegex false 0 k
  | [], _, _, _ => rfl
  | c :: t, k, hn, hg => by
    have hc : (c == '\n') = false := by
      rw [beq_eq_false_iff_ne]; rintro rfl; exact hn (by simp)
    rw [List.cons_append] at hg ⊢
    rw [incl_pass c (t ++ k) hg, hc]
    exact incl_rest t k (fun h => hn (by simp [h])) hg.tail

theorem file_good : ∀ (f : List Line), Spec.Proper f → Good (fileText f)
  | [], _ => fun u w h => by simp [fileText] at h
  | l :: ls, h => by
    have hp := line_plain l (h l (by simp))
    have key : ∀ k u w, End k → l.text ++ k = u ++ ';' :: w → (∀ u', k ≠ u' ++ ';' :: w) →
        inclB (w.dropWhile isSp) = [] ∨ ∃ bl w', w = bl ++ '\n' :: w' ∧ Blank bl := by
      intro k u w hk he hno
      rcases List.append_eq_append_iff.1 he with ⟨x, h1, h2⟩ | ⟨x, h1, h2⟩
      · exact absurd h2 (hno x)
      · cases x with
        | nil => exact absurd (by simpa using h2.symm) (hno [])
        | cons y x =>
          rw [List.cons_append, List.cons.injEq] at h2
          obtain ⟨rfl, h2⟩ := h2
          have hfw := hp.semi u x h1
          have hpx : Printable x := fun c hc => hp.printable c (by rw [h1]; simp [hc])
          by_cases hb : x.dropWhile Spec.blank = []
          · have hbl : Blank x := dropWhile_nil_all _ x hb
            rcases hk with rfl | ⟨v, rfl⟩
            · left
              rw [h2, dropWhile_all_append isSp x [] (Blank.isSp hbl)]
              rfl
            · right
              exact ⟨x, v, h2, hbl⟩
          · left
            by_cases hB : inclB (w.dropWhile isSp) = []
            · exact hB
            · rw [h2] at hB
              exact absurd (line_first _ inclTail (by decide) (by decide) (by decide) inclTail_head x k
                hpx hb hk.stop hB) hfw
    cases ls with
    | nil =>
      intro u w he
      rw [fileText] at he
      exact key [] u w (Or.inl rfl) (by simpa using he) (by simp)
    | cons l' ls =>
      have ih := file_good (l' :: ls) fun x hx => h x (by simp at hx ⊢; exact Or.inr hx)
      intro u w he
      rw [fileText] at he
      by_cases hno : ∃ u', '\n' :: fileText (l' :: ls) = u' ++ ';' :: w
      · obtain ⟨u', hu⟩ := hno
        cases u' with
        | nil => exact absurd (List.cons.inj hu).1 (by decide)
        | cons c u' => exact ih u' w (List.cons.inj hu).2
      · exact key _ u w (Or.inr ⟨_, rfl⟩) he fun u' hu => hno ⟨u', hu⟩

/-- `(.+?)(?=["'>])`: the name is what stands before the first closing quote. -/
theorem lazy_name (cap : Text) (full c : Text) : ∀ (n u : Text) (q : Char) (t : Text), n ≠ [] →
    (∀ x ∈ n, isClose x = false ∧ x ≠ '\n') → isClose q = true → full = u ++ (n ++ q :: t) →
    ∃ more, ((runLazy (fun c => c != '\n') cap (n ++ q :: t)).map fun e =>
        ({ e with cap := full.take (full.length - e.rest.length) } : Pos)).flatMap
          (run (.ahead (.chr isClose))) = ⟨false, q :: t, u ++ n⟩ :: more
  | [], u, q, t, h, _, _, _ => absurd rfl h
  | [x], u, q, t, _, hn, hq, hf => by
    have hx := hn x (by simp)
    have hxn : (x == '\n') = false := by rw [beq_eq_false_iff_ne]; exact hx.2
    have hlen : full.take (full.length - (q :: t).length) = u ++ [x] := by
      have e : full = (u ++ [x]) ++ (q :: t) := by rw [hf]; simp
      rw [e, show (u ++ [x] ++ q :: t).length - (q :: t).length = (u ++ [x]).length by
        simp only [List.length_append, List.length_cons]; omega, List.take_left']
      rfl
    rw [List.cons_append, List.nil_append, runLazy, if_pos (by simp [hx.2]), List.map_cons,
      List.flatMap_cons]
    simp only [hlen, hxn]
    rw [run, run_chr_cons, if_pos hq]
    exact ⟨_, rfl⟩
  | x :: y :: n, u, q, t, _, hn, hq, hf => by
    have hx := hn x (by simp)
    have hy := hn y (by simp)
    obtain ⟨m, hm⟩ := lazy_name cap full c (y :: n) (u ++ [x]) q t (by simp)
      (fun z hz => hn z (by simp at hz ⊢; exact Or.inr hz)) hq (by rw [hf]; simp)
    refine ⟨m, ?_⟩
    rw [List.cons_append, runLazy, if_pos (by simp [hx.2]), List.map_cons, List.flatMap_cons]
    rw [List.cons_append] at hm ⊢
    rw [hm, run, run_chr_cons, hy.1]
    simp

theorem inclTail_hit (gap : Text) (o : Char) (name : Text) (c : Char) (t : Text) (h3 : gap ≠ [])
    (h4 : Blank gap)
    (h5 : (o, c) = ('\'', '\'') ∨ (o, c) = ('"', '"') ∨ (o, c) = ('<', '>'))
    (h6 : name ≠ []) (h7 : ∀ x ∈ name, isClose x = false ∧ x ≠ '\n') :
    ∃ more, run inclTail ⟨false, gap ++ (o :: (name ++ c :: t)), []⟩ = ⟨false, c :: t, name⟩ :: more := by
  obtain ⟨-, -, -, -, q1, q2, q3, q4⟩ := quote_range h5
  cases gap with
  | nil => exact absurd rfl h3
  | cons x gap =>
    have hsp := Blank.isSp h4
    rw [inclTail, run_seq, List.cons_append, run_many1_cons, if_pos (hsp x (by simp))]
    rw [run_many_then isSp _ (fun b c t cap hc => ?_)]
    · rw [Pos.past_append isSp gap o (name ++ c :: t) [] _ (fun y hy => hsp y (by simp [hy])) q4]
      rw [run_seq, run, run_seq, run_many1_cons, q3]
      simp only [Bool.false_eq_true, if_false, List.flatMap_nil, List.nil_append, List.flatMap_cons,
        List.append_nil]
      rw [run_seq, run_chr_cons, if_pos q1]
      simp only [List.flatMap_cons, List.flatMap_nil, List.append_nil]
      rw [run_seq, run]
      exact lazy_name [] _ [] name [] c t h6 h7 q2 rfl
    · rw [run_seq, run, run_seq, run_many1_cons, isSp_not_isWd hc]
      have : isOpen c = false := by
        unfold isOpen
        simp only [Bool.or_eq_false_iff, beq_eq_false_iff_ne]
        refine ⟨⟨?_, ?_⟩, ?_⟩ <;> (rintro rfl; exact absurd hc (by decide))
      simp [run_seq, run_chr_cons, this]

theorem incl_line (l : Line) (k : Text) (hl : l.Proper) (hk : End k) (hg : Good (l.text ++ k)) :
    findAll inclRegex true 0 (l.text ++ k) = l.includes ++ findAll inclRegex false 0 k := by
  have hp := line_plain l hl
  have other : firstWord l.text ≠ "include".toList →
      findAll inclRegex true 0 (l.text ++ k) = findAll inclRegex false 0 k := by
    intro hf
    rw [incl_lead.quiet inclB_semi l.text k hk.stop]
    · exact incl_rest l.text k (printable_no_newline hp.printable) hg
    · intro hne
      by_cases hB : inclB ((l.text ++ k).dropWhile isSp) = []
      · exact hB
      · exact absurd (line_first _ inclTail (by decide) (by decide) (by decide) inclTail_head _ k
          hp.printable hne hk.stop hB) hf
  cases l with
  | stmts s more =>
    apply other
    rw [Line.text, firstWord_stop _ _ (moreText_start more)]
    exact (stmt_plain s hl.1).2
  | mod lead kw gap name tail more =>
    apply other
    obtain ⟨h1, h2, h3, h4, h5, h6, h7, h8⟩ := hl
    rw [Line.text]
    simp only [List.append_assoc]
    rw [kw_first "module" lead kw gap _ h1 h2 (by decide) (by decide) h3 h4]; decide
  | incl lead kw gap o name c tail =>
    clear other
    obtain ⟨h1, h2, h3, h4, h5, h6, h7, h8, h9⟩ := hl
    have e : Line.text (.incl lead kw gap o name c tail) ++ k =
        lead ++ (kw ++ (gap ++ (o :: (name ++ c :: (tail ++ k))))) := by simp [Line.text]
    have hg' : Good (c :: tail ++ k) := by
      intro u w he
      exact hg (lead ++ (kw ++ (gap ++ (o :: (name ++ u))))) w (by rw [e]; simp at he ⊢; exact he)
    have hname : ∀ x ∈ name, isClose x = false ∧ x ≠ '\n' := by
      intro x hx
      have := h8 x hx
      refine ⟨?_, ?_⟩
      · unfold isClose
        simp only [Bool.or_eq_false_iff, beq_eq_false_iff_ne]
        simp only [List.mem_cons, not_or] at this
        exact ⟨⟨this.1, this.2.1⟩, this.2.2.1⟩
      · rintro rfl; exact printable_no_newline h7 hx
    obtain ⟨m, hm⟩ := inclTail_hit gap o name c (tail ++ k) h3 h4 h5 h6 hname
    rw [e, incl_lead.crossAll lead _ (Blank.isSp h1)]
    rw [incl_lead.hit _ ⟨false, c :: (tail ++ k), name⟩ m]
    · have hn : '\n' ∉ c :: tail := by
        have hn := printable_no_newline hp.printable
        intro hm
        apply hn
        simp only [Line.text, List.mem_append, List.mem_cons] at hm ⊢
        rcases hm with h | h
        · exact Or.inr (Or.inl h)
        · exact Or.inr (Or.inr h)
      have := incl_rest (c :: tail) k hn hg'
      rw [List.cons_append] at this
      rw [this]
      rfl
    · rw [word_head (k := "include".toList) (by decide) h2 (by decide), inclB,
        body_hit _ _ _ _ (by decide) (by decide) h2]
      exact hm

/-- The files found to be included in a proper file are those it includes, in order. -/
theorem findIncls_file : ∀ (f : List Line), Spec.Proper f → findIncls (fileText f) = Spec.includes f
  | [], _ => rfl
  | [l], h => by
    have hg := file_good [l] h
    have := incl_line l [] (h l (by simp)) (Or.inl rfl) (by rw [List.append_nil]; exact hg)
    rw [List.append_nil] at this
    rw [findIncls, fileText, this]
    simp [Spec.includes, findAll]
  | l :: l' :: ls, h => by
    have ih := findIncls_file (l' :: ls) fun x hx => h x (by simp at hx ⊢; exact Or.inr hx)
    have hg := file_good (l :: l' :: ls) h
    rw [findIncls] at ih
    rw [findIncls, fileText, incl_line l _ (h l (by simp)) (Or.inr ⟨_, rfl⟩) hg,
      incl_lead.pass _ _ (incl_lead.nosp _ _ (by decide))]
    rw [show ('\n' == '\n') = true from rfl, ih]
    simp [Spec.includes]

/-! ## Modules defined -/

theorem defB_semi (w : Text) : defB (';' :: w) = [] :=
  body_semi _ _ (by decide) (by decide) (by decide) w

theorem defTail_head (t : Text) (h : run defTail ⟨false, t, []⟩ ≠ []) :
    ∀ c u, t = c :: u → isWd c = false := many1_head _ t h

/-- `PROCEDURE|SUBROUTINE|FUNCTION|PURE|ELEMENTAL`. -/
def procRe : Re :=
  .alt (.word "procedure".toList) (.alt (.word "subroutine".toList)
        (.alt (.word "function".toList) (.alt (.word "pure".toList) (.word "elemental".toList))))

theorem procRe_hit (b : Bool) (w t cap : Text) (h : w.map Char.toLower ∈ procedureWords) :
    run procRe ⟨b, w ++ t, cap⟩ ≠ [] := by
  have key : ∀ k : Text, k ≠ [] → '\n' ∉ k → w.map Char.toLower = k →
      run (.word k) ⟨b, w ++ t, cap⟩ ≠ [] := fun k hk hn hw => by
    rw [word_hit k w t cap b hk hn hw]; simp
  simp only [procedureWords, List.mem_cons, List.not_mem_nil, or_false] at h
  simp only [procRe, run, ne_eq, List.append_eq_nil_iff]
  rintro ⟨h1, h2, h3, h4, h5⟩
  rcases h with h | h | h | h | h
  · exact key _ (by decide) (by decide) h h1
  · exact key _ (by decide) (by decide) h h2
  · exact key _ (by decide) (by decide) h h3
  · exact key _ (by decide) (by decide) h h4
  · exact key _ (by decide) (by decide) h h5

theorem procRe_only (s e : Pos) (h : e ∈ run procRe s) :
    ∃ k ∈ procedureWords, ∃ w, s.rest = w ++ e.rest ∧ w.map Char.toLower = k := by
  simp only [procRe, run, List.mem_append] at h
  rcases h with h | h | h | h | h
  all_goals
    obtain ⟨w, h1, h2⟩ := word_only _ s e h
    exact ⟨_, by simp [procedureWords], w, h1, h2⟩

theorem def_after_sp (b : Bool) (c : Char) (t cap : Text) (hc : isSp c = true) :
    run (.seq (.notAhead procRe) (.group (.many1 isWd))) ⟨b, c :: t, cap⟩ = [] := by
  rw [run_seq, run]
  split
  · simp [run, run_many1_cons, isSp_not_isWd hc]
  · rfl

theorem defTail_eq (b : Bool) (c : Char) (t : Text) (hc : isSp c = true) :
    ∃ b', run defTail ⟨b, c :: t, []⟩ =
      run (.seq (.notAhead procRe) (.group (.many1 isWd))) ⟨b', t.dropWhile isSp, []⟩ := by
  rw [defTail, run_seq, run_many1_cons, if_pos hc]
  have := run_many_then isSp (run (.seq (.notAhead procRe) (.group (.many1 isWd)))) def_after_sp []
    t (c == '\n')
  have hr := Pos.past_rest isSp ⟨c == '\n', t, []⟩
  have hcap := Pos.past_cap isSp ⟨c == '\n', t, []⟩
  generalize Pos.past isSp ⟨c == '\n', t, []⟩ = q at hr hcap this
  obtain ⟨b', s', cap'⟩ := q
  simp only at hr hcap
  subst hr hcap
  exact ⟨b', this⟩

/-- `module procedure` and the like define no module. -/
theorem def_quiet (v k : Text) (hv : Printable v) (hk : Stop k)
    (h : firstWord v = "module".toList → secondWord v ∈ procedureWords) :
    findAll defRegex true 0 (v ++ k) = findAll defRegex false 0 (v ++ k) := by
  apply def_lead.quiet defB_semi v k hk
  intro hne
  by_cases hB : defB ((v ++ k).dropWhile isSp) = []
  · exact hB
  · exfalso
    have hf := line_first _ defTail (by decide) (by decide) (by decide) defTail_head v k hv hne hk hB
    have hs := h hf
    rw [dropWhile_append_ne isSp v k (by rw [drop_printable hv]; exact hne), drop_printable hv] at hB
    obtain ⟨w, t, h1, h2, h3⟩ := body_word _ defTail (by decide) (by decide) _ hB
    have hwd := reads_wd (k := "module".toList) (by decide) h2
    have ht := defTail_head t h3
    have hword : (v.dropWhile Spec.blank).takeWhile isWd = w := by
      rw [← takeWhile_stop (t := v.dropWhile Spec.blank) hk.not_wd, h1, takeWhile_word hwd ht]
    have hrest : t = (v.dropWhile Spec.blank).dropWhile isWd ++ k := by
      have : w ++ (v.dropWhile Spec.blank).dropWhile isWd = v.dropWhile Spec.blank := by
        rw [← hword, List.takeWhile_append_dropWhile]
      rw [← this, List.append_assoc] at h1
      exact (List.append_cancel_left h1).symm
    generalize hR : (v.dropWhile Spec.blank).dropWhile isWd = R at hrest
    have hs' : firstWord R ∈ procedureWords := by
      have : secondWord v = firstWord R := by rw [← hR]; rfl
      rw [← this]; exact hs
    have hRp : Printable R := fun c hc => hv c
      ((List.dropWhile_suffix Spec.blank).subset
        ((List.dropWhile_suffix (l := v.dropWhile Spec.blank) isWd).subset (by rw [hR]; exact hc)))
    have hRne : R.dropWhile Spec.blank ≠ [] := by
      intro h0
      rw [firstWord, h0] at hs'
      exact absurd hs' (by decide)
    cases t with
    | nil =>
      exact h3 rfl
    | cons c t =>
      cases hc : isSp c
      · apply h3
        rw [defTail, run_seq, run_many1_cons, hc]
        rfl
      · obtain ⟨b', he⟩ := defTail_eq false c t hc
        apply h3
        rw [he]
        have hd : t.dropWhile isSp = R.dropWhile Spec.blank ++ k := by
          have : (c :: t).dropWhile isSp = t.dropWhile isSp := by
            rw [List.dropWhile_cons, if_pos hc]
          rw [← this, hrest, dropWhile_append_ne isSp R k (by rw [drop_printable hRp]; exact hRne),
            drop_printable hRp]
        rw [hd, run_seq, run]
        have hit := procRe_hit b' ((R.dropWhile Spec.blank).takeWhile isWd)
          ((R.dropWhile Spec.blank).dropWhile isWd ++ k) [] hs'
        rw [← List.append_assoc, List.takeWhile_append_dropWhile] at hit
        rw [if_neg (by simpa using hit)]
        rfl

theorem def_rest : ∀ (t k : Text), '\n' ∉ t →
    findAll defRegex false 0 (t ++ k) = findAll defRegex false 0 k
  | [], _, _ => rfl
  | c :: t, k, hn => by
    have hc : (c == '\n') = false := by
      rw [beq_eq_false_iff_ne]; rintro rfl; exact hn (by simp)
    rw [List.cons_append, def_lead.pass c _ rfl, hc]
    exact def_rest t k fun h => hn (by simp [h])

theorem defTail_hit (gap name t : Text) (h3 : gap ≠ []) (h4 : Blank gap) (h5 : Name name)
    (ht : ∀ c u, t = c :: u → isWd c = false)
    (h7 : ∀ w ∈ procedureWords, ¬ w <+: name.map Char.toLower) :
    ∃ more, run defTail ⟨false, gap ++ (name ++ t), []⟩ = ⟨false, t, name⟩ :: more := by
  cases gap with
  | nil => exact absurd rfl h3
  | cons x gap =>
    have hsp := Blank.isSp h4
    rw [List.cons_append]
    obtain ⟨b', he⟩ := defTail_eq false x (gap ++ (name ++ t)) (hsp x (by simp))
    rw [he, dropWhile_all_append isSp gap _ fun y hy => hsp y (by simp [hy])]
    have hd : (name ++ t).dropWhile isSp = name ++ t := by
      obtain ⟨hne, hw⟩ := h5
      cases name with
      | nil => exact absurd rfl hne
      | cons c n => rw [List.cons_append, List.dropWhile_cons, wd_not_sp (hw c (by simp))]; rfl
    rw [hd, run_seq, run]
    have hnone : run procRe ⟨b', name ++ t, []⟩ = [] := by
      rcases hr : run procRe ⟨b', name ++ t, []⟩ with _ | ⟨e, m⟩
      · rfl
      · exfalso
        obtain ⟨k, hk, w, h1, h2⟩ := procRe_only _ e (by rw [hr]; simp)
        simp only at h1
        have hkw : ∀ c ∈ k, isWd c = true := by
          revert hk
          simp only [procedureWords, List.mem_cons, List.not_mem_nil, or_false]
          rintro (rfl | rfl | rfl | rfl | rfl) <;> decide
        have hww := reads_wd hkw h2
        apply h7 k hk
        rw [← h2]
        rcases List.append_eq_append_iff.1 h1 with ⟨x, hx1, hx2⟩ | ⟨x, hx1, hx2⟩
        · cases x with
          | nil => rw [hx1, List.append_nil]; exact List.prefix_refl _
          | cons y x =>
            have h1 := ht y _ hx2
            have h2 := hww y (by rw [hx1]; simp)
            rw [h1] at h2
            exact absurd h2 (by simp)
        · rw [hx1, List.map_append]
          exact List.prefix_append _ _
    rw [hnone]
    simp only [List.isEmpty_nil, if_true, List.flatMap_cons, List.flatMap_nil, List.append_nil]
    exact group_name b' name t [] h5.1 h5.2 ht

theorem def_line (l : Line) (k : Text) (hl : l.Proper) (hk : End k) :
    findAll defRegex true 0 (l.text ++ k) = l.modules ++ findAll defRegex false 0 k := by
  have hp := line_plain l hl
  have hn := printable_no_newline hp.printable
  cases l with
  | stmts s more =>
    obtain ⟨h1, h2⟩ := hl
    have hs := stmt_plain s h1
    rw [Line.text, List.append_assoc, def_quiet _ _ hs.1.printable (moreText_stop more k hk.stop),
      ← List.append_assoc]
    · exact def_rest _ k hn
    · intro hf
      cases s with
      | use lead kw sep name tail =>
        obtain ⟨g1, g2, g3, g4, g5⟩ := h1
        rw [Stmt.text] at hf
        simp only [List.append_assoc] at hf
        rw [use_first lead kw sep _ g1 g2 g3] at hf
        exact absurd hf (by decide)
      | other t => exact h1.2.2.2 hf
  | incl lead kw gap o name c tail =>
    rw [def_quiet _ _ hp.printable hk.stop]
    · exact def_rest _ k hn
    · intro hf
      exfalso
      obtain ⟨h1, h2, h3, h4, h5, h6, h7, h8, h9⟩ := hl
      have e : Line.text (.incl lead kw gap o name c tail) =
          lead ++ (kw ++ (gap ++ (o :: (name ++ c :: tail)))) := by simp [Line.text]
      rw [e, kw_first "include" lead kw gap _ h1 h2 (by decide) (by decide) h3 h4] at hf
      exact absurd hf (by decide)
  | mod lead kw gap name tail more =>
    obtain ⟨h1, h2, h3, h4, h5, h6, h7, h8⟩ := hl
    have hstop : ∀ c u, tail ++ (moreText more ++ k) = c :: u → isWd c = false := by
      intro c u h
      cases tail with
      | nil => exact (moreText_stop more k hk.stop).not_wd c u h
      | cons x tail => rw [← (List.cons.inj h).1]; exact h6.2 x tail rfl
    obtain ⟨m, hm⟩ := defTail_hit gap name (tail ++ (moreText more ++ k)) h3 h4 h5 hstop h7
    have e : Line.text (.mod lead kw gap name tail more) ++ k =
      lead ++ (kw ++ (gap ++ (name ++ (tail ++ (moreText more ++ k))))) := by simp [Line.text]
    rw [e, def_lead.crossAll lead _ (Blank.isSp h1)]
    rw [def_lead.hit _ ⟨false, tail ++ (moreText more ++ k), name⟩ m]
    · simp only [Line.modules, List.cons_append, List.nil_append, List.cons.injEq, true_and]
      rw [← List.append_assoc]
      apply def_rest
      intro hm
      apply hn
      simp only [Line.text, List.mem_append] at hm ⊢
      rcases hm with h | h
      · exact Or.inl (Or.inr h)
      · exact Or.inr h
    · rw [word_head (k := "module".toList) (by decide) h2 (by decide), defB,
        body_hit _ _ _ _ (by decide) (by decide) h2]
      exact hm

/-- The modules found to be defined in a proper file are those it defines, in order. -/
theorem findDefs_file : ∀ (f : List Line), Spec.Proper f → findDefs (fileText f) = Spec.modules f
  | [], _ => rfl
  | [l], h => by
    have := def_line l [] (h l (by simp)) (Or.inl rfl)
    rw [List.append_nil] at this
    rw [findDefs, fileText, this]
    simp [Spec.modules, findAll]
  | l :: l' :: ls, h => by
    have ih := findDefs_file (l' :: ls) fun x hx => h x (by simp at hx ⊢; exact Or.inr hx)
    rw [findDefs] at ih
    rw [findDefs, fileText, def_line l _ (h l (by simp)) (Or.inr ⟨_, rfl⟩), def_lead.pass _ _ rfl]
    rw [show ('\n' == '\n') = true from rfl, ih]
    simp [Spec.modules]

/-! ## The dependency -/

theorem mem_unique (l : List Text) (x : Text) : x ∈ unique l ↔ x ∈ l := by
  have key : ∀ (l acc : List Text),
      x ∈ l.foldl (fun acc x => if acc.contains x then acc else acc ++ [x]) acc ↔ x ∈ acc ∨ x ∈ l := by
    intro l
    induction l with
    | nil => simp
    | cons y l ih =>
      intro acc
      rw [List.foldl_cons, ih]
      split
      · rename_i hc
        have hc : y ∈ acc := by simpa using hc
        constructor
        · rintro (h | h)
          · exact Or.inl h
          · exact Or.inr (by simp [h])
        · rintro (h | h)
          · exact Or.inl h
          · rcases List.mem_cons.1 h with h | h
            · subst h; exact Or.inl hc
            · exact Or.inr h
      · simp [or_assoc]
  rw [unique, key]
  simp

/-- **C99 (names).** In a proper file the scanner looks for exactly: the files it includes, and for
each module it uses and does not define itself the module file, whose name is the name of the
module in lower case with the suffix. -/
theorem C99_scan_names_partial (suffix : Text) (f : List Line) (hf : Spec.Proper f) (n : Text) :
    n ∈ scanNames suffix (fileText f) ↔
      n ∈ Spec.includes f ∨
      ∃ m ∈ Spec.uses f, (∀ d ∈ Spec.modules f, ¬ SameName d m) ∧ n = m.map Char.toLower ++ suffix := by
  simp only [scanNames, mem_unique, List.mem_append, List.mem_map, List.mem_filter, findIncls_file f hf,
    findUses_file f hf, findDefs_file f hf, Bool.not_eq_true', List.contains_eq_mem, decide_eq_false_iff_not]
  constructor
  · rintro (h | ⟨m, ⟨h1, h2⟩, h3⟩)
    · exact Or.inl h
    · exact Or.inr ⟨m, h1, fun d hd hs => h2 ⟨d, hd, hs⟩, h3.symm⟩
  · rintro (h | ⟨m, h1, h2, h3⟩)
    · exact Or.inl h
    · exact Or.inr ⟨m, ⟨h1, fun ⟨d, hd, hs⟩ => h2 d hd hs⟩, h3.symm⟩

/-- **C99 (targets).** The extra targets of the object file of a proper file are exactly the module
files of the modules it defines. -/
theorem C99_emit_targets_partial {D : Type} (modDir : D) (suffix : Text) (f : List Line)
    (hf : Spec.Proper f) (t : D × Text) :
    t ∈ emitTargets modDir suffix (fileText f) ↔
      ∃ m ∈ Spec.modules f, t = (modDir, m.map Char.toLower ++ suffix) := by
  simp only [emitTargets, List.mem_map, mem_unique, findDefs_file f hf]
  constructor
  · rintro ⟨m, h1, h2⟩; exact ⟨m, h1, h2.symm⟩
  · rintro ⟨m, h1, h2⟩; exact ⟨m, h1, h2.symm⟩

/-- **C99 (dependency).** If one file defines a module and another uses it, under whatever mixture
of cases, then the module file that the compilation of the first produces is a dependency of the
second — provided the directory of module files is searched, and no directory searched before has a
file of that name. -/
theorem C99_use_depends_on_definition_partial {D : Type} (there : D → Text → Bool)
    (modDir srcDir : D) (path before after : List D) (suffix : Text) (f g : List Line)
    (hf : Spec.Proper f) (hg : Spec.Proper g) (m m' : Text)
    (hdef : m ∈ Spec.modules f) (huse : m' ∈ Spec.uses g) (hsame : SameName m m')
    (hown : ∀ d ∈ Spec.modules g, ¬ SameName d m')
    (hthere : ∀ t ∈ emitTargets modDir suffix (fileText f), there t.1 t.2 = true)
    (hpath : srcDir :: path = before ++ modDir :: after)
    (hbefore : ∀ d ∈ before, there d (m.map Char.toLower ++ suffix) = false) :
    (modDir, m.map Char.toLower ++ suffix) ∈ emitTargets modDir suffix (fileText f) ∧
    (modDir, m.map Char.toLower ++ suffix) ∈ scanNodes there srcDir path suffix (fileText g) := by
  have ht := (C99_emit_targets_partial modDir suffix f hf (modDir, m.map Char.toLower ++ suffix)).2
    ⟨m, hdef, rfl⟩
  refine ⟨ht, ?_⟩
  rw [scanNodes, List.mem_filterMap]
  refine ⟨m.map Char.toLower ++ suffix, ?_, ?_⟩
  · exact (C99_scan_names_partial suffix g hg _).2 (Or.inr ⟨m', huse, hown, by rw [hsame]⟩)
  · have h1 : findDir there (srcDir :: path) (m.map Char.toLower ++ suffix) = some modDir := by
      rw [findDir, hpath, List.find?_append]
      rw [show before.find? (fun d => there d (m.map Char.toLower ++ suffix)) = none by
        rw [List.find?_eq_none]; intro d hd; rw [hbefore d hd]; simp]
      simp [hthere _ ht]
    rw [h1]; rfl

end Verif.Fortran
