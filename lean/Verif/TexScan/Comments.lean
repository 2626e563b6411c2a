import Verif.TexScan.Spec

/-!
# Comments (C108)
-/

namespace Verif.TexScan

theorem within_cons {x s : Str} {c : Char} (h : ¬ Within x (c :: s)) : ¬ Within x s := by
  rintro ⟨u, v, rfl⟩
  exact h ⟨c :: u, v, by simp⟩

/-- What comes after a line. -/
def After (k : Str) : Prop := k = [] ∨ ∃ r, k = '\n' :: r

theorem tex_comment_line {l k : Str} (h : '\n' ∉ l) : tex .comment (l ++ k) = tex .comment k := by
  induction l with
  | nil => rfl
  | cons c l ih =>
    simp only [List.mem_cons, not_or] at h
    rw [List.cons_append, tex, if_neg fun e => h.1 e.symm, ih h.2]

theorem cut_plain {c : Char} {l : Str} (h1 : c ≠ '%') (h2 : c = '\\' → l.head? ≠ some '%') :
    cutComment (c :: l) = (c :: (cutComment l).1, (cutComment l).2) := by
  rw [cutComment.eq_def]
  split
  · rename_i r heq
    simp only [List.cons.injEq] at heq
    obtain ⟨rfl, rfl⟩ := heq
    exact absurd rfl (h2 rfl)
  · rename_i heq
    simp only [List.cons.injEq] at heq
    exact absurd heq.1 h1
  · rename_i heq; simp at heq
  · rename_i heq
    simp only [List.cons.injEq] at heq
    obtain ⟨rfl, rfl⟩ := heq
    rfl

theorem esc_after {k : Str} (hk : After k) : tex .esc k = tex .normal k := by
  rcases hk with rfl | ⟨r, rfl⟩
  · rfl
  · simp [tex]

/-- One line, in normal state and after a backslash. -/
theorem tex_line (k : Str) (hk : After k) : ∀ (n : Nat) (l : Str), l.length ≤ n → '\n' ∉ l → ¬ Within ['\\', '\\', '%'] l →
    (tex .normal (l ++ k) = (cutComment l).1 ++ tex (if (cutComment l).2 = [] then .normal else .comment) k) ∧
    (l.head? ≠ some '%' → ¬ Within ['\\', '\\', '%'] ('\\' :: l) →
      tex .esc (l ++ k) = (cutComment l).1 ++ tex (if (cutComment l).2 = [] then .normal else .comment) k)
  | _, [], _, _, _ => by
    refine ⟨by simp [cutComment], fun _ _ => ?_⟩
    simp [cutComment, esc_after hk]
  | 0, _ :: _, h, _, _ => by simp at h
  | n + 1, c :: l, hlen, hn, hw => by
    simp only [List.mem_cons, not_or] at hn
    have hlen' : l.length ≤ n := by simpa using hlen
    have ih := tex_line k hk n l hlen' hn.2 (within_cons hw)
    refine ⟨?_, ?_⟩
    · by_cases hb : c = '\\'
      · subst hb
        rw [List.cons_append, tex, if_pos rfl]
        by_cases hp : l.head? = some '%'
        · cases l with
          | nil => simp at hp
          | cons d l =>
            simp only [List.head?_cons, Option.some.injEq] at hp
            subst hp
            simp only [List.mem_cons, not_or] at hn
            have ih2 := tex_line k hk n l (by simp at hlen'; omega) hn.2.2 (within_cons (within_cons hw))
            rw [List.cons_append, tex, ih2.1]
            simp [cutComment]
        · rw [ih.2 hp hw, cut_plain (by decide) fun _ => hp]
          simp
      · by_cases hp : c = '%'
        · subst hp
          rw [List.cons_append, tex, if_neg hb, if_pos rfl, tex_comment_line hn.2]
          simp [cutComment]
        · rw [List.cons_append, tex, if_neg hb, if_neg hp, ih.1, cut_plain hp fun e => absurd e hb]
          simp
    · intro hp hw2
      simp only [List.head?_cons, ne_eq, Option.some.injEq] at hp
      rw [List.cons_append, tex, ih.1, cut_plain hp]
      · simp
      · rintro rfl e
        apply hw2
        cases l with
        | nil => simp at e
        | cons d l =>
          simp only [List.head?_cons, Option.some.injEq] at e
          subst e
          exact ⟨[], l, by simp⟩

theorem tex_skip_head {c : Char} (h : ¬ (sp c = true ∧ c ≠ '\n')) (r : Str) : tex .skip (c :: r) = tex .normal (c :: r) := by
  simp only [tex, if_neg h]

theorem sp_backslash : sp '\\' = false := by decide
theorem sp_percent : sp '%' = false := by decide

/-- A line after a comment. -/
theorem tex_skip_line {k : Str} (hk : After k) : ∀ l : Str, '\n' ∉ l → ¬ Within ['\\', '\\', '%'] l →
    tex .skip (l ++ k) = (cutComment l).1.dropWhile sp ++ tex (if (cutComment l).2 = [] then .normal else .comment) k
  | [], _, _ => by
    rcases hk with rfl | ⟨r, rfl⟩
    · simp [cutComment, tex]
    · simp [cutComment, tex]
  | c :: l, hn, hw => by
    have hn' := hn
    simp only [List.mem_cons, not_or] at hn
    by_cases hs : sp c = true
    · have hp : c ≠ '%' := by rintro rfl; rw [sp_percent] at hs; exact absurd hs (by simp)
      have hb : c ≠ '\\' := by rintro rfl; rw [sp_backslash] at hs; exact absurd hs (by simp)
      rw [List.cons_append, tex, if_pos ⟨hs, fun e => hn.1 e.symm⟩, tex_skip_line hk l hn.2 (within_cons hw), cut_plain hp fun e => absurd e hb]
      simp [hs]
    · rw [List.cons_append, tex_skip_head (fun h => hs h.1), ← List.cons_append, (tex_line k hk (l.length + 1) (c :: l) (by simp) hn' hw).1]
      have hd : (cutComment (c :: l)).1.dropWhile sp = (cutComment (c :: l)).1 := by
        by_cases hp : c = '%'
        · subst hp; simp [cutComment]
        · by_cases hb : c = '\\' ∧ l.head? = some '%'
          · obtain ⟨rfl, hh⟩ := hb
            cases l with
            | nil => simp at hh
            | cons d l =>
              simp only [List.head?_cons, Option.some.injEq] at hh
              subst hh
              simp [cutComment, sp_backslash]
          · rw [cut_plain hp fun e h => hb ⟨e, h⟩]
            simp [hs]
      rw [hd]

/-! ## Several lines -/

/-- What the lines after the present one add. -/
def tailText : Bool → List Str → Str
  | _, [] => []
  | true, l :: r => (cutComment l).1.dropWhile sp ++ tailText (decide ((cutComment l).2 ≠ [])) r
  | false, l :: r => '\n' :: (cutComment l).1 ++ tailText (decide ((cutComment l).2 ≠ [])) r

theorem unlines_snoc (xs : List Str) (o y : Str) : unlines (xs ++ [o ++ y]) = unlines (xs ++ [o]) ++ y := by
  induction xs with
  | nil => rfl
  | cons x xs ih =>
    cases xs with
    | nil => simp [unlines]
    | cons z xs =>
      simp only [List.cons_append, unlines] at ih ⊢
      rw [ih]; simp

theorem unlines_snoc2 (xs : List Str) (z : Str) (h : xs ≠ []) : unlines (xs ++ [z]) = unlines xs ++ '\n' :: z := by
  induction xs with
  | nil => exact absurd rfl h
  | cons x xs ih =>
    cases xs with
    | nil => simp [unlines]
    | cons y xs =>
      have := ih (by simp)
      simp only [List.cons_append, unlines] at this ⊢
      rw [this]; simp

theorem unlines_join (ls : List Str) : ∀ (o : Str) (out : List Str) (cont : Bool),
    unlines (joinLines (o :: out) cont ls) = unlines (o :: out).reverse ++ tailText cont ls := by
  induction ls with
  | nil => intros; simp [joinLines, tailText]
  | cons l r ih =>
    intro o out cont
    cases cont with
    | true =>
      simp only [joinLines, tailText]
      rw [ih, List.reverse_cons, List.reverse_cons, unlines_snoc]
      simp
    | false =>
      simp only [joinLines, tailText]
      rw [ih, List.reverse_cons, unlines_snoc2 _ _ (by simp)]
      simp

theorem within_left {x u v : Str} (h : ¬ Within x (u ++ v)) : ¬ Within x u := by
  rintro ⟨a, b, rfl⟩
  exact h ⟨a, b ++ v, by simp⟩

theorem within_right {x u v : Str} (h : ¬ Within x (u ++ v)) : ¬ Within x v := by
  rintro ⟨a, b, rfl⟩
  exact h ⟨u ++ a, b, by simp⟩

/-- All lines: what TeX sees is what the lines are joined to. -/
theorem tex_lines : ∀ (r : List Str) (l : Str), (∀ x ∈ l :: r, '\n' ∉ x) → ¬ Within ['\\', '\\', '%'] (unlines (l :: r)) →
    tex .normal (unlines (l :: r)) = (cutComment l).1 ++ tailText (decide ((cutComment l).2 ≠ [])) r ∧
    tex .skip (unlines (l :: r)) = (cutComment l).1.dropWhile sp ++ tailText (decide ((cutComment l).2 ≠ [])) r
  | [], l, hn, hw => by
    have e : unlines [l] = l ++ [] := by simp [unlines]
    have hw' : ¬ Within ['\\', '\\', '%'] l := by simpa [unlines] using hw
    have h1 := (tex_line [] (Or.inl rfl) l.length l (Nat.le_refl _) (hn l (by simp)) hw').1
    have h2 := tex_skip_line (k := []) (Or.inl rfl) l (hn l (by simp)) hw'
    rw [e, h1, h2]
    constructor <;> split <;> simp [tex, tailText]
  | m :: r, l, hn, hw => by
    have e : unlines (l :: m :: r) = l ++ '\n' :: unlines (m :: r) := by simp [unlines]
    rw [e] at hw ⊢
    have ih := tex_lines r m (fun x hx => hn x (List.mem_cons_of_mem _ hx)) (within_cons (within_right hw))
    have h1 := (tex_line ('\n' :: unlines (m :: r)) (Or.inr ⟨_, rfl⟩) l.length l (Nat.le_refl _) (hn l (by simp)) (within_left hw)).1
    have h2 := tex_skip_line (k := '\n' :: unlines (m :: r)) (Or.inr ⟨_, rfl⟩) l (hn l (by simp)) (within_left hw)
    rw [h1, h2]
    by_cases hc : (cutComment l).2 = []
    · simp only [hc, if_true, ne_eq, not_true_eq_false, decide_false, tailText]
      have : tex .normal ('\n' :: unlines (m :: r)) = '\n' :: tex .normal (unlines (m :: r)) := by simp [tex]
      rw [this, ih.1]
      simp
    · simp only [hc, if_false, ne_eq, not_false_eq_true, decide_true, tailText]
      have : tex .comment ('\n' :: unlines (m :: r)) = tex .skip (unlines (m :: r)) := by simp [tex]
      rw [this, ih.2]
      simp

theorem lines_spec (s : Str) : (∀ x ∈ lines s, '\n' ∉ x) ∧ (s = unlines (lines s) ∨ (lines s ≠ [] ∧ s = unlines (lines s) ++ ['\n'])) := by
  induction s with
  | nil => exact ⟨by simp [lines], Or.inl rfl⟩
  | cons c s ih =>
    by_cases hc : c = '\n'
    · subst hc
      rw [lines, if_pos rfl]
      refine ⟨by intro x hx; rcases List.mem_cons.1 hx with rfl | hx; · simp
                 · exact ih.1 x hx, ?_⟩
      cases hl : lines s with
      | nil =>
        rw [hl] at ih
        right
        refine ⟨by simp, ?_⟩
        rcases ih.2 with h | h
        · rw [h]; simp [unlines]
        · exact absurd rfl h.1
      | cons x l =>
        rw [hl] at ih
        rcases ih.2 with h | ⟨_, h⟩
        · left; rw [h]; simp [unlines]
        · right
          refine ⟨by simp, ?_⟩
          rw [h]; simp [unlines]
    · rw [lines, if_neg hc]
      cases hl : lines s with
      | nil =>
        rw [hl] at ih
        simp only
        refine ⟨by simpa using fun e => hc e.symm, Or.inl ?_⟩
        rcases ih.2 with h | h
        · rw [h]; simp [unlines]
        · exact absurd rfl h.1
      | cons x l =>
        rw [hl] at ih
        simp only
        refine ⟨?_, ?_⟩
        · intro y hy
          rcases List.mem_cons.1 hy with rfl | hy
          · simp only [List.mem_cons, not_or]
            exact ⟨fun e => hc e.symm, ih.1 x (by simp)⟩
          · exact ih.1 y (by simp [hy])
        · have e : unlines ((c :: x) :: l) = c :: unlines (x :: l) := by cases l <;> simp [unlines]
          rw [e]
          rcases ih.2 with h | ⟨_, h⟩
          · left; rw [h]
          · right; exact ⟨by simp, by rw [h]; simp⟩

theorem rstrip_parts (s : Str) : ∃ w, s = rstrip s ++ w ∧ w.all sp = true := by
  refine ⟨(s.reverse.takeWhile sp).reverse, ?_, ?_⟩
  · rw [rstrip, ← List.reverse_append, List.takeWhile_append_dropWhile, List.reverse_reverse]
  · rw [List.all_reverse]
    generalize s.reverse = t
    induction t with
    | nil => rfl
    | cons c t ih => by_cases h : sp c = true <;> simp [List.takeWhile_cons, h, ih]

theorem rstrip_append {s w : Str} (h : w.all sp = true) : rstrip (s ++ w) = rstrip s := by
  simp only [rstrip, List.reverse_append]
  congr 1
  have : w.reverse.all sp = true := by rwa [List.all_reverse]
  generalize w.reverse = t at this
  induction t with
  | nil => rfl
  | cons c t ih =>
    simp only [List.all_cons, Bool.and_eq_true] at this
    rw [List.cons_append, List.dropWhile_cons, if_pos this.1, ih this.2]

theorem tail_end (r : List Str) : ∀ cont, ∃ w : Str, tailText cont (r ++ [[]]) = tailText cont r ++ w ∧ w.all sp = true := by
  induction r with
  | nil =>
    intro cont
    cases cont
    · exact ⟨['\n'], by simp [tailText, cutComment], by decide⟩
    · exact ⟨[], by simp [tailText, cutComment], rfl⟩
  | cons l r ih =>
    intro cont
    obtain ⟨w, h1, h2⟩ := ih (decide ((cutComment l).2 ≠ []))
    refine ⟨w, ?_, h2⟩
    cases cont <;> simp only [List.cons_append, tailText, h1, List.append_assoc]

/-- **C108, comments.** The text that is searched is what TeX sees, up to white space at the end, unless there are two backslashes before
a percent sign. -/
theorem C108_comments_partial (text : Str) (h : ¬ Within ['\\', '\\', '%'] text) : canonical text = rstrip (tex .normal text) ++ ['\n'] := by
  obtain ⟨hn, hs⟩ := lines_spec text
  simp only [canonical]
  congr 1
  cases hl : lines text with
  | nil =>
    rw [hl] at hs
    rcases hs with hs | hs
    · rw [hs]; rfl
    · exact absurd rfl hs.1
  | cons l r =>
    rw [hl] at hn hs
    have hj : unlines (joinLines [] false (l :: r)) = (cutComment l).1 ++ tailText (decide ((cutComment l).2 ≠ [])) r := by
      simp only [joinLines]
      rw [unlines_join]
      simp [unlines]
    rw [hj]
    rcases hs with hs | ⟨_, hs⟩
    · rw [hs] at h ⊢
      rw [(tex_lines r l hn h).1]
    · have e : unlines (l :: r) ++ ['\n'] = unlines (l :: (r ++ [[]])) := by
        rw [← List.cons_append, unlines_snoc2 _ _ (by simp)]
      rw [e] at hs
      rw [hs] at h ⊢
      rw [(tex_lines (r ++ [[]]) l (by
        intro x hx
        rw [← List.cons_append, List.mem_append] at hx
        rcases hx with hx | hx
        · exact hn x hx
        · simp only [List.mem_singleton] at hx; subst hx; simp) h).1]
      obtain ⟨w, h1, h2⟩ := tail_end r (decide ((cutComment l).2 ≠ []))
      rw [h1, ← List.append_assoc, rstrip_append h2]

end Verif.TexScan
