import Verif.Fortran.Model

/-!
# Patterns of the form `(?:^|…)\s*BODY`
-/

namespace Verif.Fortran

/-- What the three patterns have in common: at the start of a line they go past white space and
then match a body; elsewhere they match at certain characters only. -/
structure Lead (r : Re) (B : List Char → List Pos) (X : Char → List Char → List Pos) : Prop where
  eq : ∀ b c t, run r ⟨b, c :: t, []⟩ =
    (if b then B ((c :: t).dropWhile isSp) else []) ++ X c t
  shrink : ∀ s e, e ∈ B s → e.rest.length < s.length
  nosp : ∀ c t, isSp c = true → X c t = []

variable {r : Re} {B : List Char → List Pos} {X : Char → List Char → List Pos}

theorem dropWhile_length_le (p : Char → Bool) (s : List Char) :
    (s.dropWhile p).length ≤ s.length := (List.dropWhile_suffix p).length_le

theorem Lead.hit (L : Lead r B X) (s : List Char) (e : Pos) (more : List Pos)
    (h : B (s.dropWhile isSp) = e :: more) :
    findAll r true 0 s = e.cap :: findAll r e.bol 0 e.rest := by
  have hs := L.shrink _ e (by rw [h]; simp)
  have hl := dropWhile_length_le isSp s
  cases s with
  | nil => simp at hs
  | cons c t =>
    refine findAll_hit r true (c :: t) e (more ++ X c t) ?_ (by omega)
    rw [L.eq, if_pos rfl, h]; rfl

theorem Lead.miss (L : Lead r B X) (s : List Char) (h : B (s.dropWhile isSp) = []) :
    findAll r true 0 s = findAll r false 0 s := by
  cases s with
  | nil => simp [findAll]
  | cons c t =>
    have : run r ⟨true, c :: t, []⟩ = run r ⟨false, c :: t, []⟩ := by
      rw [L.eq, L.eq, if_pos rfl, h]; simp
    simp only [findAll, this]

/-- Going on from a character at which nothing can start. -/
theorem Lead.pass (L : Lead r B X) (c : Char) (t : List Char) (h : X c t = []) :
    findAll r false 0 (c :: t) = findAll r (c == '\n') 0 t := by
  apply findAll_miss
  rw [L.eq, h]; simp

/-- White space at the start of a line does not matter, even over line ends. -/
theorem Lead.cross (L : Lead r B X) (c : Char) (t : List Char) (hc : isSp c = true) :
    findAll r true 0 (c :: t) = findAll r true 0 t := by
  have hd : (c :: t).dropWhile isSp = t.dropWhile isSp := by simp [List.dropWhile_cons, hc]
  rcases h : B (t.dropWhile isSp) with _ | ⟨e, more⟩
  · rw [L.miss (c :: t) (by rw [hd]; exact h), L.pass c t (L.nosp c t hc)]
    cases c == '\n'
    · exact (L.miss t h).symm
    · rfl
  · rw [L.hit (c :: t) e more (by rw [hd]; exact h), L.hit t e more h]

theorem Lead.crossAll (L : Lead r B X) : ∀ (w t : List Char), (∀ c ∈ w, isSp c = true) →
    findAll r true 0 (w ++ t) = findAll r true 0 t
  | [], _, _ => rfl
  | c :: w, t, h => by
    rw [List.cons_append, L.cross c _ (h c (by simp))]
    exact L.crossAll w t fun x hx => h x (by simp [hx])

/-! ## Characters -/

theorem isSp_small {c : Char} (h : isSp c = true) : c.toNat < 33 := by
  unfold isSp at h
  simp only [Bool.or_eq_true, Bool.and_eq_true, beq_iff_eq, decide_eq_true_eq] at h
  rcases h with (h | h) | h
  · subst h; decide
  · omega
  · omega

theorem small_not_isWd : ∀ n < 33, isWd (Char.ofNat n) = false := by decide

theorem isSp_not_isWd {c : Char} (h : isSp c = true) : isWd c = false := by
  have := small_not_isWd c.toNat (isSp_small h)
  rwa [Char.ofNat_toNat] at this

theorem small_toLower : ∀ n < 33, (Char.ofNat n).toLower = Char.ofNat n := by decide

theorem isSp_toLower {c : Char} (h : isSp c = true) : c.toLower = c := by
  have := small_toLower c.toNat (isSp_small h)
  rwa [Char.ofNat_toNat] at this

/-! ## Words -/

theorem run_chr_nil (p : Char → Bool) (b : Bool) (cap : List Char) :
    run (.chr p) ⟨b, [], cap⟩ = [] := rfl

theorem run_chr_cons (p : Char → Bool) (b : Bool) (c : Char) (t cap : List Char) :
    run (.chr p) ⟨b, c :: t, cap⟩ = if p c then [⟨c == '\n', t, cap⟩] else [] := rfl

theorem run_seq (a b : Re) (s : Pos) : run (.seq a b) s = (run a s).flatMap (run b) := rfl

theorem toLower_ne_newline {c k : Char} (h : c.toLower = k) (hk : k ≠ '\n') : (c == '\n') = false := by
  rw [beq_eq_false_iff_ne]
  intro hc
  subst hc
  exact hk (h.symm.trans (by decide))

theorem word_hit : ∀ (k w t cap : List Char) (b : Bool), k ≠ [] → '\n' ∉ k →
    w.map Char.toLower = k → run (Re.word k) ⟨b, w ++ t, cap⟩ = [⟨false, t, cap⟩]
  | [], _, _, _, _, h, _, _ => absurd rfl h
  | [k], w, t, cap, b, _, hn, hw => by
    cases w with
    | nil => simp at hw
    | cons c w =>
      simp only [List.map_cons, List.cons.injEq, List.map_eq_nil_iff] at hw
      obtain ⟨h1, h2⟩ := hw
      subst h2
      have hne : k ≠ '\n' := fun h => hn (by simp [h])
      simp [Re.word, run_chr_cons, h1, toLower_ne_newline h1 hne]
  | k :: k' :: ks, w, t, cap, b, _, hn, hw => by
    cases w with
    | nil => simp at hw
    | cons c w =>
      rw [List.map_cons, List.cons.injEq] at hw
      obtain ⟨h1, h2⟩ := hw
      rw [Re.word]
      · rw [run_seq, List.cons_append, run_chr_cons, h1]
        simp only [beq_self_eq_true, if_true, List.flatMap_cons, List.flatMap_nil, List.append_nil]
        exact word_hit (k' :: ks) w t cap _ (by simp) (fun h => hn (by simp [h])) h2
      · simp

theorem word_only : ∀ (k : List Char) (s e : Pos), e ∈ run (Re.word k) s →
    ∃ w, s.rest = w ++ e.rest ∧ w.map Char.toLower = k
  | [], s, e, h => by
    have : run (Re.word []) s = [s] := by
      obtain ⟨b, r, cap⟩ := s
      cases r <;> simp [Re.word, run]
    rw [this] at h; simp at h; subst h; exact ⟨[], rfl, rfl⟩
  | [k], ⟨b, r, cap⟩, e, h => by
    cases r with
    | nil => simp [Re.word, run_chr_nil] at h
    | cons c t =>
      rw [Re.word, run_chr_cons] at h
      split at h
      · rename_i hc
        simp at h; subst h
        exact ⟨[c], rfl, by simpa using hc⟩
      · simp at h
  | k :: k' :: ks, ⟨b, r, cap⟩, e, h => by
    cases r with
    | nil =>
      rw [Re.word, run_seq] at h
      · simp [run_chr_nil] at h
      · simp
    | cons c t =>
      rw [Re.word, run_seq, run_chr_cons] at h
      · split at h
        · rename_i hc
          simp only [List.flatMap_cons, List.flatMap_nil, List.append_nil] at h
          obtain ⟨w, h1, h2⟩ := word_only (k' :: ks) _ e h
          simp only at h1
          exact ⟨c :: w, by rw [h1]; rfl, by simp [h2]; simpa using hc⟩
        · simp at h
      · simp

/-- Whether a word stands at a place does not depend on whether a line starts there. -/
theorem word_bol (k : List Char) (hk : k ≠ []) (t cap : List Char) (b b' : Bool) :
    run (Re.word k) ⟨b, t, cap⟩ = run (Re.word k) ⟨b', t, cap⟩ := by
  match k, hk with
  | [k], _ => cases t <;> rfl
  | k :: k' :: ks, _ =>
    rw [Re.word, run_seq, run_seq]
    · cases t <;> rfl
    · simp

/-- A pattern beginning with a word cannot match where white space stands. -/
theorem word_sp (k : List Char) (hk : ∀ c ∈ k.head?, isSp c = false) (hk' : k ≠ [])
    (b : Bool) (c : Char) (t cap : List Char) (hc : isSp c = true) :
    run (Re.word k) ⟨b, c :: t, cap⟩ = [] := by
  rcases h : run (Re.word k) ⟨b, c :: t, cap⟩ with _ | ⟨e, m⟩
  · rfl
  · obtain ⟨w, h1, h2⟩ := word_only k _ e (by rw [h]; simp)
    cases w with
    | nil => exact absurd h2.symm hk'
    | cons x w =>
      simp only [List.cons_append, List.cons.injEq] at h1
      rw [← h2] at hk
      have := hk x.toLower (by simp)
      rw [← h1.1, isSp_toLower hc, hc] at this
      exact absurd this (by simp)

/-! ## Names -/

theorem runMany_run (p : Char → Bool) (s : Pos) : run (.many p) s = runMany p s.cap s.bol s.rest := rfl

theorem run_many1_cons (p : Char → Bool) (b : Bool) (c : Char) (t cap : List Char) :
    run (.many1 p) ⟨b, c :: t, cap⟩ = if p c then runMany p cap (c == '\n') t else [] := by
  rw [Re.many1, run_seq, run_chr_cons]
  split <;> simp [runMany_run]

theorem run_many1_nil (p : Char → Bool) (b : Bool) (cap : List Char) :
    run (.many1 p) ⟨b, [], cap⟩ = [] := rfl

/-- `(\w+)` at a name: the first match takes all of it. -/
theorem group_name (b : Bool) (n t cap : List Char) (hn : n ≠ []) (hw : ∀ c ∈ n, isWd c = true)
    (ht : ∀ c u, t = c :: u → isWd c = false) :
    ∃ more, run (.group (.many1 isWd)) ⟨b, n ++ t, cap⟩ = ⟨false, t, n⟩ :: more := by
  cases n with
  | nil => exact absurd rfl hn
  | cons c n =>
    rw [run, List.cons_append, run_many1_cons, if_pos (hw c (by simp))]
    obtain ⟨m, hm⟩ := runMany_head isWd cap (n ++ t) (c == '\n')
    have hpast : ∀ (n : List Char) (c : Char), (∀ x ∈ c :: n, isWd x = true) →
        Pos.past isWd ⟨c == '\n', n ++ t, cap⟩ = ⟨false, t, cap⟩ := by
      intro n
      induction n with
      | nil =>
        intro c hc
        have hcw : (c == '\n') = false := by
          rw [beq_eq_false_iff_ne]; intro h
          have := hc c (by simp)
          rw [h] at this
          exact absurd this (by decide)
        rw [hcw]
        cases t with
        | nil => simp [Pos.past]
        | cons x u => exact Pos.past_stop isWd false x u cap (ht x u rfl)
      | cons x n ih =>
        intro c hc
        rw [List.cons_append, Pos.past, if_pos (hc x (by simp))]
        exact ih x fun y hy => hc y (by simp at hy ⊢; exact Or.inr hy)
    rw [hm, hpast n c hw]
    refine ⟨_, by
      simp only [List.map_cons, List.length_cons, List.length_append]
      rw [show n.length + t.length + 1 - t.length = (c :: n).length by simp; omega]
      rw [← List.cons_append, List.take_left']
      rfl⟩

/-- `\s*(\w+)` fails where no name stands after the white space. -/
theorem group_name_none (b : Bool) (s cap : List Char)
    (h : ∀ c u, s.dropWhile isSp = c :: u → isWd c = false) :
    run (.seq sp (.group (.many1 isWd))) ⟨b, s, cap⟩ = [] := by
  rw [run_seq, sp, runMany_run]
  rw [run_many_then isSp _ (fun b c t cap hc => ?_)]
  · have hr := Pos.past_rest isSp ⟨b, s, cap⟩
    generalize Pos.past isSp ⟨b, s, cap⟩ = q at hr
    obtain ⟨b', s', cap'⟩ := q
    simp only at hr
    cases s' with
    | nil => rfl
    | cons c u => simp [run, run_many1_cons, h c u hr.symm]
  · have : isWd c = false := isSp_not_isWd hc
    simp [run, run_many1_cons, this]

/-! ## The three patterns -/

theorem Onward.length_le {a b : Pos} (h : Onward a b) : b.rest.length ≤ a.rest.length := by
  rcases h with ⟨_, h⟩ | ⟨u, c, h, _⟩
  · rw [h]; exact Nat.le_refl _
  · rw [h]; simp; omega

/-- A body that begins with a word. -/
def body (k : List Char) (tail : Re) (s : List Char) : List Pos :=
  run (.seq (.word k) tail) ⟨false, s, []⟩

theorem run_sp_body (k : List Char) (tail : Re) (hk : ∀ c ∈ k.head?, isSp c = false) (hk' : k ≠ [])
    (b : Bool) (s : List Char) :
    run (.seq sp (.seq (.word k) tail)) ⟨b, s, []⟩ = body k tail (s.dropWhile isSp) := by
  rw [run_seq, sp, runMany_run]
  rw [run_many_then isSp _ (fun b c t cap hc => by rw [run_seq, word_sp k hk hk' b c t cap hc]; rfl)]
  have hr := Pos.past_rest isSp ⟨b, s, []⟩
  have hc := Pos.past_cap isSp ⟨b, s, []⟩
  generalize Pos.past isSp ⟨b, s, []⟩ = q at hr hc
  obtain ⟨b', s', cap'⟩ := q
  simp only at hr hc
  subst hr hc
  rw [body, run_seq, run_seq, word_bol k hk']

theorem body_shrink (k : List Char) (tail : Re) (hk' : k ≠ []) (s : List Char) (e : Pos)
    (h : e ∈ body k tail s) : e.rest.length < s.length := by
  rw [body, run_seq, List.mem_flatMap] at h
  obtain ⟨x, hx, he⟩ := h
  obtain ⟨w, h1, h2⟩ := word_only k _ x hx
  have := (run_onward tail x e he).length_le
  simp only at h1
  cases w with
  | nil => exact absurd h2.symm hk'
  | cons y w => rw [h1]; simp; omega

/-- Where a body matches, its word stands, and the rest of the body matches after it. -/
theorem body_word (k : List Char) (tail : Re) (hk : k ≠ []) (hn : '\n' ∉ k) (s : List Char)
    (h : body k tail s ≠ []) :
    ∃ w t, s = w ++ t ∧ w.map Char.toLower = k ∧ run tail ⟨false, t, []⟩ ≠ [] := by
  rcases hb : body k tail s with _ | ⟨e, m⟩
  · exact absurd hb h
  · have he : e ∈ body k tail s := by rw [hb]; simp
    rw [body, run_seq, List.mem_flatMap] at he
    obtain ⟨x, hx, hxe⟩ := he
    obtain ⟨w, h1, h2⟩ := word_only k _ x hx
    simp only at h1
    rw [h1, word_hit k w x.rest [] false hk hn h2] at hx
    simp only [List.mem_singleton] at hx
    refine ⟨w, x.rest, h1, h2, fun h => ?_⟩
    rw [hx] at hxe
    rw [h] at hxe
    simp at hxe

/-- Where the word of a body stands, the body is what remains to be matched. -/
theorem body_hit (k w t : List Char) (tail : Re) (hk : k ≠ []) (hn : '\n' ∉ k)
    (hw : w.map Char.toLower = k) : body k tail (w ++ t) = run tail ⟨false, t, []⟩ := by
  rw [body, run_seq, word_hit k w t [] false hk hn hw]
  simp

def useB : List Char → List Pos := body "use".toList useTail

theorem use_lead : Lead useRegex useB (fun c t => if c == ';' then useB (t.dropWhile isSp) else []) where
  eq b c t := by
    rw [useRegex, run_seq, run]
    simp only [run, is, List.flatMap_append]
    congr 1
    · cases b
      · rfl
      · simp only [if_true, List.flatMap_cons, List.flatMap_nil, List.append_nil]
        exact run_sp_body _ useTail (by decide) (by decide) _ _
    · cases c == ';'
      · rfl
      · simp only [if_true, List.flatMap_cons, List.flatMap_nil, List.append_nil]
        exact run_sp_body _ useTail (by decide) (by decide) _ _
  shrink s e h := body_shrink _ _ (by decide) s e h
  nosp c t h := by
    have : (c == ';') = false := by
      rw [beq_eq_false_iff_ne]; rintro rfl; exact absurd h (by decide)
    simp [this]

def inclTail : Re :=
  .seq (.many1 isSp)
    (.seq (.opt (.seq (.many1 isWd) (is '_')))
      (.seq (.chr isOpen) (.seq (.group (.lazy1 fun c => c != '\n')) (.ahead (.chr isClose)))))

def inclB : List Char → List Pos := body "include".toList inclTail

/-- After a quote: white space and a semicolon, and what follows that. -/
def afterSemi (t : List Char) : Option (List Char) :=
  match t.dropWhile isSp with
  | ';' :: w => some w
  | _ => none

theorem run_sp_semi (b : Bool) (s : List Char) :
    run (.seq sp (is ';')) ⟨b, s, []⟩ =
      match afterSemi s with
      | some w => [⟨false, w, []⟩]
      | none => [] := by
  rw [run_seq, sp, runMany_run]
  rw [run_many_then isSp _ (fun b c t cap hc => ?_)]
  · have hr := Pos.past_rest isSp ⟨b, s, []⟩
    have hc := Pos.past_cap isSp ⟨b, s, []⟩
    generalize Pos.past isSp ⟨b, s, []⟩ = q at hr hc
    obtain ⟨b', s', cap'⟩ := q
    simp only at hr hc
    subst hc
    rw [afterSemi, ← hr]
    cases s' with
    | nil => rfl
    | cons c u =>
      rw [is, run_chr_cons]
      by_cases hc : c = ';'
      · subst hc; simp
      · simp [hc]
  · have : (c == ';') = false := by
      rw [beq_eq_false_iff_ne]; rintro rfl; exact absurd hc (by decide)
    simp [is, run_chr_cons, this]

def inclX (c : Char) (t : List Char) : List Pos :=
  if isClose c then
    match afterSemi t with
    | some w => inclB (w.dropWhile isSp)
    | none => []
  else []

theorem incl_lead : Lead inclRegex inclB inclX where
  eq b c t := by
    rw [inclRegex, run_seq, run, List.flatMap_append]
    congr 1
    · cases b
      · rfl
      · simp only [run, if_true, List.flatMap_cons, List.flatMap_nil, List.append_nil]
        exact run_sp_body _ inclTail (by decide) (by decide) _ _
    · rw [run_seq, run_chr_cons, inclX]
      cases isClose c
      · rfl
      · simp only [if_true, List.flatMap_cons, List.flatMap_nil, List.append_nil]
        rw [run_sp_semi]
        cases afterSemi t with
        | none => rfl
        | some w =>
          simp only [List.flatMap_cons, List.flatMap_nil, List.append_nil]
          exact run_sp_body _ inclTail (by decide) (by decide) _ _
  shrink s e h := body_shrink _ _ (by decide) s e h
  nosp c t h := by
    have : isClose c = false := by
      unfold isClose
      simp only [Bool.or_eq_false_iff, beq_eq_false_iff_ne]
      refine ⟨⟨?_, ?_⟩, ?_⟩ <;> (rintro rfl; exact absurd h (by decide))
    simp [inclX, this]

def defTail : Re :=
  .seq (.many1 isSp)
    (.seq
      (.notAhead (.alt (.word "procedure".toList) (.alt (.word "subroutine".toList)
        (.alt (.word "function".toList) (.alt (.word "pure".toList) (.word "elemental".toList))))))
      (.group (.many1 isWd)))

def defB : List Char → List Pos := body "module".toList defTail

theorem def_lead : Lead defRegex defB (fun _ _ => []) where
  eq b c t := by
    rw [defRegex, run_seq, List.append_nil]
    cases b
    · rfl
    · simp only [run, if_true, List.flatMap_cons, List.flatMap_nil, List.append_nil]
      exact run_sp_body _ defTail (by decide) (by decide) _ _
  shrink s e h := body_shrink _ _ (by decide) s e h
  nosp c t h := rfl

end Verif.Fortran
