import Verif.ActMake.Spec

/-!
# Making actions (C115): proofs
-/

namespace Verif.ActMake

theorem isLetter_iff (c : Char) : isLetter c = true ↔ (c = '_' ∨ ('a' ≤ c ∧ c ≤ 'z') ∨ ('A' ≤ c ∧ c ≤ 'Z')) := by
  simp [isLetter, or_assoc]

theorem isWordChar_iff (d : Char) : isWordChar d = true ↔ (d = '_' ∨ ('a' ≤ d ∧ d ≤ 'z') ∨ ('A' ≤ d ∧ d ≤ 'Z') ∨ ('0' ≤ d ∧ d ≤ '9')) := by
  simp [isWordChar, isLetter, or_assoc]

theorem isIdent_iff (v : Str) : isIdent v = true ↔ Ident v := by
  constructor
  · intro h
    cases v with
    | nil => simp [isIdent] at h
    | cons c r =>
      simp only [isIdent, Bool.and_eq_true, List.all_eq_true] at h
      exact ⟨c, r, rfl, (isLetter_iff c).1 h.1, fun d hd => (isWordChar_iff d).1 (h.2 d hd)⟩
  · rintro ⟨c, r, rfl, hc, hr⟩
    simp only [isIdent, Bool.and_eq_true, List.all_eq_true]
    exact ⟨(isLetter_iff c).2 hc, fun d hd => (isWordChar_iff d).2 (hr d hd)⟩

theorem ident_no (v : Str) (h : isIdent v = true) (c : Char) (hc : isWordChar c = false) : c ∉ v := by
  intro hm
  cases v with
  | nil => simp at hm
  | cons d r =>
    simp only [isIdent, Bool.and_eq_true, List.all_eq_true] at h
    rcases List.mem_cons.1 hm with rfl | hm
    · simp [isWordChar, h.1] at hc
    · rw [h.2 c hm] at hc; simp at hc

theorem refOf_iff (s v : Str) : refOf s = some v ↔ IsRef s v := by
  rw [IsRef, ← isIdent_iff]
  constructor
  · intro h
    unfold refOf at h
    split at h
    · rename_i r
      split at h
      · rename_i hc
        simp only [Bool.and_eq_true, decide_eq_true_eq] at hc
        cases h
        refine ⟨hc.2, .inr ?_⟩
        have hne : r ≠ [] := by rintro rfl; simp at hc
        have hl : r.getLast hne = '}' := by have := hc.1; rw [List.getLast?_eq_getLast_of_ne_nil hne] at this; exact Option.some.inj this
        have := List.dropLast_append_getLast hne
        rw [hl] at this
        simp [this]
      · simp at h
    · split at h
      · rename_i hc; cases h; exact ⟨hc, .inl rfl⟩
      · simp at h
    · simp at h
  · rintro ⟨hv, rfl | rfl⟩
    · have hb := ident_no v hv '{' (by decide)
      rw [refOf.eq_def]
      split
      · rename_i r heq
        simp only [List.cons.injEq, true_and] at heq
        subst heq
        simp at hb
      · rename_i r _ heq
        simp only [List.cons.injEq, true_and] at heq
        subst heq
        rw [if_pos hv]
      · rename_i h1 h2
        exact absurd rfl (h2 v)
    · simp [refOf, hv]

theorem isRef_no_nl {s v : Str} (h : IsRef s v) : '\n' ∉ s := by
  obtain ⟨hv, hs⟩ := h
  have := ident_no v ((isIdent_iff v).2 hv) '\n' (by decide)
  rcases hs with rfl | rfl <;> simp [this]

theorem envVar_line (l : Str) (h : '\n' ∉ l) : envVar l = refOf l := by
  rw [envVar, if_neg]
  intro hc
  exact h (List.mem_of_getLast? hc)

theorem splitNl_ne (s : Str) : splitNl s ≠ [] := by
  cases s with
  | nil => simp [splitNl]
  | cons c r =>
    rw [splitNl]
    split
    · simp
    · split <;> simp

theorem splitNl_line (l : Str) (h : '\n' ∉ l) : splitNl l = [l] := by
  induction l with
  | nil => rfl
  | cons c r ih =>
    simp only [List.mem_cons, not_or] at h
    rw [splitNl, if_neg (Ne.symm h.1), ih h.2]

theorem splitNl_cons (l r : Str) (h : '\n' ∉ l) : splitNl (l ++ '\n' :: r) = l :: splitNl r := by
  induction l with
  | nil => simp [splitNl]
  | cons c l ih =>
    simp only [List.mem_cons, not_or] at h
    rw [List.cons_append, splitNl, if_neg (Ne.symm h.1), ih h.2]

theorem splitNl_single (s c : Str) (h : splitNl s = [c]) : s = c ∧ '\n' ∉ s := by
  induction s generalizing c with
  | nil => simp [splitNl] at h; exact ⟨h.symm, by simp⟩
  | cons d r ih =>
    rw [splitNl] at h
    split at h
    · simp at h; exact absurd h.2 (splitNl_ne r)
    · rename_i hd
      split at h
      · rename_i l ls hl
        simp only [List.cons.injEq] at h
        obtain ⟨rfl, rfl⟩ := h
        obtain ⟨h1, h2⟩ := ih l hl
        subst h1
        exact ⟨rfl, by simp [Ne.symm hd, h2]⟩
      · rename_i hl; exact absurd hl (splitNl_ne r)

theorem inter_cons2 (a b : Str) (l : List Str) : ['\n'].intercalate (a :: b :: l) = a ++ '\n' :: ['\n'].intercalate (b :: l) := by
  simp [List.intercalate, List.intersperse]

theorem splitNl_lines (ls : List Str) (hne : ls ≠ []) (h : ∀ l ∈ ls, '\n' ∉ l) : splitNl (['\n'].intercalate ls) = ls := by
  induction ls with
  | nil => exact absurd rfl hne
  | cons a l ih =>
    cases l with
    | nil => simpa [List.intercalate] using splitNl_line a (h a (by simp))
    | cons b l =>
      rw [inter_cons2, splitNl_cons a _ (h a (by simp)), ih (by simp) fun x hx => h x (by simp [hx])]

theorem isLines_eq {s : Str} {ls : List Str} (h : IsLines s ls) : splitNl s = ls := by
  obtain ⟨h1, h2, rfl⟩ := h
  exact splitNl_lines ls h1 h2

/-- A text that is taken for a variable: its lines. -/
theorem envVar_lines (s v : Str) (h : envVar s = some v) : ∃ l, IsRef l v ∧ (splitNl s = [l] ∨ splitNl s = [l, []]) := by
  rw [envVar] at h
  split at h
  · rename_i hl
    have hne : s ≠ [] := by rintro rfl; simp at hl
    have hg : s.getLast hne = '\n' := by rw [List.getLast?_eq_getLast_of_ne_nil hne] at hl; exact Option.some.inj hl
    have hs := List.dropLast_append_getLast hne
    rw [hg] at hs
    have hr := (refOf_iff _ _).1 h
    refine ⟨s.dropLast, hr, .inr ?_⟩
    have h3 := splitNl_cons s.dropLast [] (isRef_no_nl hr)
    rw [hs] at h3
    exact h3
  · have hr := (refOf_iff _ _).1 h
    exact ⟨s, hr, .inl (splitNl_line s (isRef_no_nl hr))⟩

/-! ## Running -/

/-- One result after another. -/
def andThen (r s : Result) : Result := if r.2 = .ok then (r.1 ++ s.1, s.2) else r

theorem andThen_nil (r : Result) : andThen r ([], .ok) = r := by
  rcases r with ⟨t, o⟩
  by_cases h : o = .ok
  · subst h; simp [andThen]
  · simp [andThen, h]

theorem andThen_start (r : Result) : andThen ([], .ok) r = r := by simp [andThen]

theorem runSteps_run (W : World) (p : Prim) (h1 : p ≠ .text []) (h2 : p ≠ .words []) (r : List Step) : runSteps W (.run p :: r) = andThen (perform W p) (runSteps W r) := by
  rw [runSteps]
  · by_cases h : W.fails p = true <;> simp [perform, andThen, h]
  · intro h; exact h1 h
  · intro h; exact h2 h

theorem runSteps_text (W : World) (s : Str) (r : List Step) : runSteps W (.run (.text s) :: r) = andThen (performText W s) (runSteps W r) := by
  cases s with
  | nil => simp [runSteps, performText, andThen]
  | cons c s => rw [runSteps_run W _ (by simp) (by simp), performText, if_neg (by simp)]

theorem runSteps_words (W : World) (ws : List Str) (r : List Step) : runSteps W (.run (.words ws) :: r) = andThen (performWords W ws) (runSteps W r) := by
  cases ws with
  | nil => simp [runSteps, performWords, andThen]
  | cons c s => rw [runSteps_run W _ (by simp) (by simp), performWords, if_neg (by simp)]

theorem andThen_assoc (a b c : Result) : andThen (andThen a b) c = andThen a (andThen b c) := by
  unfold andThen
  by_cases ha : a.2 = .ok
  · by_cases hb : b.2 = .ok <;> simp [ha, hb]
  · simp [ha]

theorem runSteps_append (W : World) (a b : List Step) : runSteps W (a ++ b) = andThen (runSteps W a) (runSteps W b) := by
  induction a with
  | nil => simp [runSteps, andThen]
  | cons s a ih =>
    cases s with
    | bad => simp [runSteps, andThen]
    | run p =>
      cases p with
      | text s => rw [List.cons_append, runSteps_text, runSteps_text, ih, andThen_assoc]
      | words s => rw [List.cons_append, runSteps_words, runSteps_words, ih, andThen_assoc]
      | var v => rw [List.cons_append, runSteps_run W _ (by simp) (by simp), runSteps_run W _ (by simp) (by simp), ih, andThen_assoc]
      | fn v => rw [List.cons_append, runSteps_run W _ (by simp) (by simp), runSteps_run W _ (by simp) (by simp), ih, andThen_assoc]

theorem seqAll_cons (ex : Act → Option Result) (a : Act) (l : List Act) (r s : Result) (h1 : ex a = some r) (h2 : seqAll ex l = some s) : seqAll ex (a :: l) = some (andThen r s) := by
  rcases r with ⟨t, o⟩
  rw [seqAll, h1]
  cases o <;> simp [andThen, h2]

theorem seqAll_append (ex : Act → Option Result) (l l' : List Act) (r s : Result) (h1 : seqAll ex l = some r) (h2 : seqAll ex l' = some s) : seqAll ex (l ++ l') = some (andThen r s) := by
  induction l generalizing r with
  | nil =>
    simp only [seqAll, Option.some.injEq] at h1
    subst h1
    simpa [andThen_start] using h2
  | cons a l ih =>
    rw [seqAll] at h1
    rcases hx : ex a with _ | ⟨t, o⟩
    · simp [hx] at h1
    · rw [List.cons_append, seqAll, hx]
      simp only [hx] at h1
      cases o with
      | ok =>
        simp only at h1 ⊢
        rcases hl : seqAll ex l with _ | r'
        · simp [hl] at h1
        · simp only [hl, Option.map_some, Option.some.injEq] at h1
          subst h1
          rw [ih r' hl, Option.map_some]
          by_cases ho : r'.2 = .ok <;> simp [andThen, ho]
      | failed => simp only [Option.some.injEq] at h1 ⊢; subst h1; simp [andThen]
      | error => simp only [Option.some.injEq] at h1 ⊢; subst h1; simp [andThen]

theorem seqAll_single (ex : Act → Option Result) (a : Act) : seqAll ex [a] = ex a := by
  rw [seqAll]
  rcases ex a with _ | ⟨t, o⟩
  · rfl
  · cases o <;> simp [seqAll]

/-- Carried out with any depth of calls that is enough. -/
def Does (W : World) (a : Act) (r : Result) : Prop := ∃ n, ∀ m, n ≤ m → exec W m a = some r
def DoesAll (W : World) (l : List Act) (r : Result) : Prop := ∃ n, ∀ m, n ≤ m → seqAll (exec W m) l = some r

theorem does_wrap {W : World} {l : List Act} {r : Result} (h : DoesAll W l r) : Does W (wrap l) r := by
  obtain ⟨n, hn⟩ := h
  unfold wrap
  split
  · exact ⟨n, fun m hm => by have := hn m hm; rwa [seqAll_single] at this⟩
  · refine ⟨n + 1, fun m hm => ?_⟩
    obtain ⟨k, rfl⟩ : ∃ k, m = k + 1 := ⟨m - 1, by omega⟩
    exact hn k (by omega)

theorem doesAll_nil (W : World) : DoesAll W [] ([], .ok) := ⟨0, fun _ _ => rfl⟩

theorem doesAll_cons {W : World} {a : Act} {l : List Act} {r s : Result} (h1 : Does W a r) (h2 : DoesAll W l s) : DoesAll W (a :: l) (andThen r s) := by
  obtain ⟨n, hn⟩ := h1
  obtain ⟨k, hk⟩ := h2
  exact ⟨max n k, fun m hm => seqAll_cons _ _ _ _ _ (hn m (by omega)) (hk m (by omega))⟩

theorem doesAll_append {W : World} {l l' : List Act} {r s : Result} (h1 : DoesAll W l r) (h2 : DoesAll W l' s) : DoesAll W (l ++ l') (andThen r s) := by
  obtain ⟨n, hn⟩ := h1
  obtain ⟨k, hk⟩ := h2
  exact ⟨max n k, fun m hm => seqAll_append _ _ _ _ _ (hn m (by omega)) (hk m (by omega))⟩

theorem does_succ {W : World} {a : Act} {r : Result} (n : Nat) (h : ∀ k, n ≤ k → exec W (k + 1) a = some r) : Does W a r :=
  ⟨n + 1, fun m hm => by obtain ⟨k, rfl⟩ : ∃ k, m = k + 1 := ⟨m - 1, by omega⟩; exact h k (by omega)⟩

theorem createAction_flag (fin : Bool) (v : Val) (a : Option Act) (g : Bool) (h : createAction false fin v = .ok (a, g)) : g = false := by
  cases v with
  | str s =>
    simp only [createAction] at h
    split at h
    · simp at h; exact h.2
    · split at h <;> simp at h <;> exact h.2
  | list l =>
    simp only [createAction] at h
    split at h
    · simp at h; exact h.2
    · simp at h
  | act a => simp [createAction] at h; exact h.2
  | fn f => simp [createAction] at h; exact h.2
  | num => simp [createAction] at h
  | node s => simp [createAction] at h; exact h.2
  | obj => simp [createAction] at h; exact h.2

theorem words_of {ws : List Val} {us : List Str} (h : IsWords ws us) : ws.mapM wordOf = some us := by
  induction h with
  | nil => rfl
  | str s _ ih => simp [wordOf, ih]
  | node s _ ih => simp [wordOf, ih]

theorem createItems_bad (v : Val) (hv : ∀ g, createAction g false v = .error .typeError) : ∀ (l : List Val), v ∈ l → ∀ g, ∃ e, createItems false g l = .error e := by
  intro l
  induction l with
  | nil => intro h; simp at h
  | cons x l ih =>
    intro h g
    rcases List.mem_cons.1 h with rfl | h
    · exact ⟨.typeError, by rw [createItems, hv]⟩
    · rw [createItems]
      rcases hx : createAction g false x with e | ⟨a, g'⟩
      · exact ⟨e, rfl⟩
      · obtain ⟨e, he⟩ := ih h g'
        exact ⟨e, by simp [he]⟩

/-- From what no action can be made, none is made. -/
theorem bad_action {v : Val} (h : Bad v) : (∃ e, action false v = .error e) ∨ action false v = .ok none := by
  cases h with
  | node s => exact .inr rfl
  | num => exact .inl ⟨_, rfl⟩
  | obj => exact .inr rfl
  | numItem l hl =>
    obtain ⟨e, he⟩ := createItems_bad .num (fun g => rfl) l hl false
    exact .inl ⟨e, by simp [action, he]⟩
  | nested l ws us h1 h2 =>
    have hm : ws.mapM wordOf = none := by
      clear h1
      induction ws with
      | nil => simp at h2
      | cons x ws ih =>
        rcases List.mem_cons.1 h2 with rfl | h2
        · simp [wordOf]
        · simp [ih h2]
    obtain ⟨e, he⟩ := createItems_bad (.list ws) (fun g => by simp [createAction, hm]) l h1 false
    exact .inl ⟨e, by simp [action, he]⟩

theorem generated_bad (ex : Act → Option Result) {v : Val} (h : Bad v) : generated ex (action false v) = some ([], .error) := by
  rcases bad_action h with ⟨e, he⟩ | he <;> rw [he] <;> rfl

theorem lines_act (s : Str) (W : World) (r : Result) (h : DoesAll W ((splitNl s).map (lineAct false)) r) : ∃ a, action false (.str s) = .ok (some a) ∧ Does W a r := by
  rcases hv : envVar s with _ | v
  · rcases hs : splitNl s with _ | ⟨c, _ | ⟨d, cs⟩⟩
    · exact absurd hs (splitNl_ne s)
    · refine ⟨.cmd c, by simp [action, createAction, hv, hs], ?_⟩
      obtain ⟨hc, hn⟩ := splitNl_single s c hs
      subst hc
      rw [hs, List.map_cons, List.map_nil, lineAct, hv] at h
      obtain ⟨n, h⟩ := h
      exact ⟨n, fun m hm => by have := h m hm; rwa [seqAll_single] at this⟩
    · refine ⟨wrap ((c :: d :: cs).map (lineAct false)), by simp [action, createAction, hv, hs], ?_⟩
      rw [hs] at h
      exact does_wrap h
  · obtain ⟨l, hl, hs⟩ := envVar_lines s v hv
    refine ⟨.lazy v false, by simp [action, createAction, hv], ?_⟩
    have hla : lineAct false l = .lazy v false := by rw [lineAct, envVar_line l (isRef_no_nl hl), (refOf_iff l v).2 hl]
    obtain ⟨n, hn⟩ := h
    refine ⟨n + 1, fun m hm => ?_⟩
    obtain ⟨k, rfl⟩ : ∃ k, m = k + 1 := ⟨m - 1, by omega⟩
    have h2 := hn (k + 1) (by omega)
    rcases hs with hs | hs
    · rw [hs, List.map_cons, List.map_nil, seqAll_single, hla] at h2
      exact h2
    · have he : exec W (k + 1) (lineAct false []) = some ([], .ok) := rfl
      rw [hs, List.map_cons, List.map_cons, List.map_nil, hla] at h2
      rcases hx : exec W (k + 1) (.lazy v false) with _ | r'
      · rw [seqAll, hx] at h2; simp at h2
      · rw [seqAll_cons _ _ _ r' ([], .ok) hx (by rw [seqAll_single]; exact he), andThen_nil] at h2
        exact h2

end Verif.ActMake
