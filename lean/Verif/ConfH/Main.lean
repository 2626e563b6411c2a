import Verif.ConfH.Props

/-!
# `config.h` says what the checks found, and `LIBS` holds what was found (C104)
-/

namespace Verif.ConfH

/-! ## Specification -/

/-- The macros a check or call is to define. -/
def Ev.defs : Ev → List (Str × Str)
  | .check c true => [(keyUp c.key, "1".toList)]
  | .check _ false => []
  | .size t (some n) => if n = 0 then [] else [(keyUp ("SIZEOF_".toList ++ t), (toString n).toList)]
  | .size _ none => []
  | .define n (some v) _ => [(n, v)]
  | .define n none _ => [(n, [])]

/-- The name given to the check. -/
def Check.name : Check → Str
  | .func f => f
  | .header h => h
  | .type t => t
  | .decl s => s
  | .member m => m
  | .lib l => l

/-- What can be written without breaking the file: no closing of a comment in what is put into comments, no line break and no opening
of a comment in what `Define` puts into the text, no blank in the name of its macro. -/
def Ev.Tame : Ev → Prop
  | .check c _ => Without '*' '/' c.name
  | .size t _ => Without '*' '/' t
  | .define n v c => ' ' ∉ n ∧ OneLine n ∧ (∀ x, v = some x → OneLine x) ∧ ∀ x, c = some x → Without '*' '/' x

/-! ## One event -/

theorem without_comment {a n b : Str} (ha : '*' ∉ a) (hb : b.head? ≠ some '/') (hb' : '*' ∉ b) (h : Without '*' '/' n) :
    Without '*' '/' (a ++ n ++ b) := by
  refine without_append ?_ (without_of_notMem hb') (Or.inr hb)
  refine without_append (without_of_notMem ha) h (Or.inl ?_)
  intro e
  exact ha (List.mem_of_getLast? e)

theorem check_comment {c : Check} (h : Without '*' '/' c.name) : Without '*' '/' c.comment := by
  cases c <;> exact without_comment (by decide) (by decide) (by decide) h

theorem definitions_newline (r : Str) : definitions ("\n".toList ++ r) = definitions r := by
  have := read_line (a := []) (r := r) (without_of_notMem (by simp)) (by simp)
  simpa [defOf] using this

theorem read_undef {k r : Str} : definitions ("/* #undef ".toList ++ keyUp k ++ " */\n".toList ++ r) = definitions r := by
  have e : "/* #undef ".toList ++ keyUp k ++ " */\n".toList ++ r = "/* ".toList ++ ("#undef ".toList ++ keyUp k) ++ " */\n".toList ++ r := by
    simp
  rw [e, read_comment]
  refine without_append (without_of_notMem (by decide)) (without_of_notMem ?_) (Or.inl (by decide))
  intro h
  exact (keyUp_mem h).2.2.2 rfl

/-- What `_Have` with a number writes. -/
theorem read_have {key c r : Str} {n : Nat} (hc : Without '*' '/' c) :
    definitions (have_ key (.num n) (some c) ++ r) = (if n = 0 then [] else [(keyUp key, (toString n).toList)]) ++ definitions r := by
  have hb : ' ' ∉ keyUp key := fun h => (keyUp_mem h).1 rfl
  have h0 : ∀ l : Str, definitions ("\n/* ".toList ++ c ++ " */\n".toList ++ l ++ r) = definitions (l ++ r) := by
    intro l
    have e : "\n/* ".toList ++ c ++ " */\n".toList ++ l ++ r = "\n".toList ++ ("/* ".toList ++ c ++ " */\n".toList ++ (l ++ r)) := by
      simp
    rw [e, definitions_newline, read_comment hc]
  unfold have_
  simp only
  rw [h0]
  match n with
  | 0 =>
    simp only [if_true]
    rw [read_undef]; rfl
  | 1 =>
    simp only
    rw [if_neg (by decide)]
    have e : "#define ".toList ++ keyUp key ++ " 1\n".toList ++ r = "#define ".toList ++ keyUp key ++ " ".toList ++ (toString 1).toList ++ "\n".toList ++ r := by
      rw [show (toString 1).toList = ['1'] by decide, show (" 1\n".toList : Str) = " ".toList ++ ['1'] ++ "\n".toList by decide]
      simp only [List.append_assoc]
    rw [e, read_value hb (keyUp_oneLine key) (digits_oneLine 1)]
    rfl
  | n + 2 =>
    simp only
    rw [if_neg (by omega), read_value hb (keyUp_oneLine key) (digits_oneLine _)]
    rfl

theorem read_define_line {n : Str} {v : Option Str} (c : Option Str) (hb : ' ' ∉ n) (hn : OneLine n) (hv : ∀ x, v = some x → OneLine x) (r : Str) :
    definitions (defineStr n v ++ "\n".toList ++ r) = (Ev.define n v c).defs ++ definitions r := by
  cases v with
  | none => exact read_bare hb hn
  | some x => exact read_value hb hn (hv x rfl)

theorem comment_line (x y r : Str) : "/* ".toList ++ x ++ " */".toList ++ "\n".toList ++ y ++ r = "/* ".toList ++ x ++ " */\n".toList ++ (y ++ r) := by
  have : (" */\n".toList : Str) = " */".toList ++ "\n".toList := by decide
  rw [this]
  simp only [List.append_assoc]

theorem read_define {n : Str} {v c : Option Str} (hb : ' ' ∉ n) (hn : OneLine n) (hv : ∀ x, v = some x → OneLine x)
    (hc : ∀ x, c = some x → Without '*' '/' x) (r : Str) :
    definitions (ConfH.define n v c ++ r) = (Ev.define n v c).defs ++ definitions r := by
  have h1 := read_define_line c hb hn hv r
  unfold ConfH.define
  generalize hl : defineStr n v = line at h1 ⊢
  rcases hcc : c with _ | x
  · subst hcc
    simp only [List.nil_append]
    exact h1
  · subst hcc
    simp only
    by_cases hx : x = []
    · rw [if_pos hx, List.nil_append]; exact h1
    · rw [if_neg hx, List.append_assoc, List.append_assoc, ← List.append_assoc, ← List.append_assoc, comment_line, List.append_assoc, read_comment (hc x rfl)]
      exact h1

theorem read_event {e : Ev} (he : e.Tame) (r : Str) : definitions (e.text ++ r) = e.defs ++ definitions r := by
  cases e with
  | check c ok =>
    simp only [Ev.text]
    rw [read_have (check_comment he)]
    cases ok <;> rfl
  | size t n =>
    cases n with
    | none => simp only [Ev.text, Ev.defs, List.nil_append]
    | some n =>
      simp only [Ev.text, Ev.defs]
      exact read_have (without_comment (by decide) (by decide) (by decide) he)
  | define n v c => exact read_define he.1 he.2.1 he.2.2.1 he.2.2.2 r

theorem read_text {l : List Ev} (hl : ∀ e ∈ l, e.Tame) (r : Str) : definitions (textOf l ++ r) = l.flatMap Ev.defs ++ definitions r := by
  induction l with
  | nil => rfl
  | cons e l ih =>
    rw [textOf, List.append_assoc, read_event (hl e (by simp)), ih (fun e h => hl e (by simp [h]))]
    simp

theorem guard_oneLine (key : Str) : OneLine (guard key) :=
  ⟨fun h => (guard_mem h).2.1 rfl, without_of_notMem fun h => (guard_mem h).2.2.1 rfl⟩

theorem guard_notMem (t : Str) {c : Char} (h : c = ' ' ∨ c = '\n' ∨ c = '/' ∨ c = '*') : c ∉ guard t := by
  intro hc
  have := guard_mem hc
  rcases h with rfl | rfl | rfl | rfl
  · exact this.1 rfl
  · exact this.2.1 rfl
  · exact this.2.2.1 rfl
  · exact this.2.2.2 rfl

/-! ## The file -/

/-- **C104.** Reading `config.h` defines the guard, and then exactly what the checks found and what was defined by hand, in that order. -/
theorem C104_config_h_partial (target : Str) {l : List Ev} (hl : ∀ e ∈ l, e.Tame) :
    definitions (configH target l) = (guard target ++ "_SEEN".toList, []) :: l.flatMap Ev.defs := by
  have hseen : ∀ c, c ∈ guard target ++ "_SEEN".toList → c ≠ ' ' ∧ c ≠ '\n' ∧ c ≠ '/' ∧ c ≠ '*' := by
    intro c h
    rcases List.mem_append.1 h with h | h
    · exact guard_mem h
    · clear hl l; revert h; revert c
      have : ∀ c ∈ "_SEEN".toList, c ≠ ' ' ∧ c ≠ '\n' ∧ c ≠ '/' ∧ c ≠ '*' := by decide
      intro c _ h; exact this c h
  have e : configH target l = ("#ifndef ".toList ++ (guard target ++ "_SEEN".toList)) ++ '\n' ::
      ("#define ".toList ++ (guard target ++ "_SEEN".toList) ++ "\n".toList ++ ("\n".toList ++
      (textOf l ++ ("\n".toList ++ ("#endif ".toList ++ ('/' :: '*' :: (' ' :: (guard target ++ "_SEEN".toList) ++ ' ' :: '*' :: '/' :: "\n".toList))))))) := by
    unfold configH
    rw [show "_SEEN\n#define ".toList = "_SEEN".toList ++ '\n' :: "#define ".toList by decide,
      show "_SEEN\n\n".toList = "_SEEN".toList ++ ("\n".toList ++ "\n".toList) by decide,
      show "\n#endif /* ".toList = "\n".toList ++ ("#endif ".toList ++ ['/', '*', ' ']) by decide,
      show "_SEEN */\n".toList = "_SEEN".toList ++ (' ' :: '*' :: '/' :: "\n".toList) by decide]
    simp only [List.append_assoc, List.cons_append, List.nil_append]
  have h1 : OneLine (guard target ++ "_SEEN".toList) :=
    ⟨fun h => (hseen _ h).2.1 rfl, without_of_notMem fun h => (hseen _ h).2.2.1 rfl⟩
  have h2 : OneLine ("#ifndef ".toList ++ (guard target ++ "_SEEN".toList)) :=
    oneLine_append (oneLine_plain (by decide) (by decide)) h1 (Or.inl (by decide))
  have h3 : defOf ("#ifndef ".toList ++ (guard target ++ "_SEEN".toList)) = none := by
    unfold defOf
    rw [if_neg]
    rintro ⟨t, ht⟩
    simp at ht
  rw [e, read_line h2.2 h2.1, h3, read_bare (fun h => (hseen _ h).1 rfl) h1, definitions_newline, read_text hl, definitions_newline]
  have h4 : definitions ("#endif ".toList ++ ('/' :: '*' :: (' ' :: (guard target ++ "_SEEN".toList) ++ ' ' :: '*' :: '/' :: "\n".toList))) = [] := by
    unfold definitions
    have := strip_plain (d := '/') (by decide) (t := "#endif ".toList) ('*' :: (' ' :: (guard target ++ "_SEEN".toList) ++ ' ' :: '*' :: '/' :: "\n".toList))
      (without_of_notMem (by decide))
    rw [this, strip, strip_comment]
    · decide
    · apply without_of_notMem
      simp only [List.mem_cons, not_or]
      exact ⟨by decide, fun h => (hseen _ h).2.2.2 rfl⟩
  rw [h4]
  simp

/-- A macro `HAVE_…` is defined if and only if one of the checks that are named so succeeded, or it was defined by hand. -/
theorem C104_have_iff (target : Str) {l : List Ev} (hl : ∀ e ∈ l, e.Tame) {m : Str} (hm : m ≠ guard target ++ "_SEEN".toList)
    (hd : ∀ v c, Ev.define m v c ∉ l) (hs : ∀ t n, Ev.size t n ∈ l → keyUp ("SIZEOF_".toList ++ t) ≠ m) :
    (∃ v, (m, v) ∈ definitions (configH target l)) ↔ ∃ c, Ev.check c true ∈ l ∧ keyUp c.key = m := by
  rw [C104_config_h_partial target hl]
  constructor
  · rintro ⟨v, hv⟩
    rcases List.mem_cons.1 hv with h | h
    · cases h; exact absurd rfl hm
    · obtain ⟨e, he, hv⟩ := List.mem_flatMap.1 h
      cases e with
      | check c ok =>
        cases ok with
        | false => simp [Ev.defs] at hv
        | true =>
          simp only [Ev.defs, List.mem_singleton, Prod.mk.injEq] at hv
          exact ⟨c, he, hv.1.symm⟩
      | size t n =>
        cases n with
        | none => simp [Ev.defs] at hv
        | some n =>
          simp only [Ev.defs] at hv
          split at hv
          · simp at hv
          · simp only [List.mem_singleton, Prod.mk.injEq] at hv
            exact absurd hv.1.symm (hs t _ he)
      | define n v' c =>
        have : m = n := by cases v' <;> simp [Ev.defs] at hv <;> exact hv.1
        subst this
        exact absurd he (hd v' c)
  · rintro ⟨c, hc, rfl⟩
    refine ⟨"1".toList, List.mem_cons_of_mem _ (List.mem_flatMap.2 ⟨_, hc, ?_⟩)⟩
    simp [Ev.defs]

/-! ## `CheckLib` -/

/-- `LIBS` with a library (and what it needs) in it. -/
def Libs.with (v : Libs) (a : LibArgs) (x : Str) : Libs :=
  if a.append then v.append (x :: a.extra) a.unique else v.prepend (x :: a.extra) a.unique

/-- `LIBS` as it was; if it did not exist, it is an empty list now. -/
theorem append_get (v : Libs) (l : List Str) (u : Bool) : v.get.append l u = v.append l u := by
  cases v <;> cases u <;> simp [Libs.get, Libs.append]

theorem prepend_get (v : Libs) (l : List Str) (u : Bool) : v.get.prepend l u = v.prepend l u := by
  cases v <;> cases u <;> simp [Libs.get, Libs.prepend]

theorem with_get (v : Libs) (a : LibArgs) (x : Str) : v.get.with a x = v.with a x := by
  simp only [Libs.with, append_get, prepend_get]

theorem get_get (v : Libs) : v.get.get = v.get := by cases v <;> rfl

/-- **C104.** `CheckLib` with named libraries: the first one that links is found; the ones before it are recorded as missing, it as
present, nothing about the ones after it. With `autoadd`, `LIBS` is then what the program was linked with; without, what it was. -/
theorem C104_checkLib_found (build : Libs → Bool) (a : LibArgs) (pre : List Str) (x : Str) (post : List (Option Str)) (v : Libs)
    (hpre : ∀ y ∈ pre, build (v.with a y) = false) (hx : build (v.with a x) = true) :
    checkLib build a (pre.map some ++ some x :: post) v =
      (true, if a.autoadd then v.with a x else v.get, pre.map (fun y => Ev.check (.lib y) false) ++ [Ev.check (.lib x) true]) := by
  induction pre generalizing v with
  | nil =>
    have : build (if a.append then v.append (x :: a.extra) a.unique else v.prepend (x :: a.extra) a.unique) = true := hx
    simp only [List.map_nil, List.nil_append, checkLib, this]
    cases a.autoadd <;> simp [Libs.with]
  | cons y pre ih =>
    have h : build (if a.append then v.append (y :: a.extra) a.unique else v.prepend (y :: a.extra) a.unique) = false := hpre y (by simp)
    simp only [List.map_cons, List.cons_append, checkLib, h]
    have := ih v.get (fun z hz => by rw [with_get]; exact hpre z (by simp [hz])) (by rw [with_get]; exact hx)
    simp only [Bool.not_false, Bool.true_or, if_true, Bool.false_eq_true, if_false, this, with_get, get_get]

/-- **C104.** If none of them links, none is found, `LIBS` is as before, and all are recorded as missing. -/
theorem C104_checkLib_none (build : Libs → Bool) (a : LibArgs) (l : List Str) (v : Libs)
    (hl : ∀ y ∈ l, build (v.with a y) = false) (hne : l ≠ []) :
    checkLib build a (l.map some) v = (false, v.get, l.map (fun y => Ev.check (.lib y) false)) := by
  have h : ∀ (l : List Str) (v : Libs), (∀ y ∈ l, build (v.with a y) = false) →
      checkLib build a (l.map some) v = (false, if l = [] then v else v.get, l.map (fun y => Ev.check (.lib y) false)) := by
    intro l
    induction l with
    | nil => intro v _; rfl
    | cons y l ih =>
      intro v hl
      have h : build (if a.append then v.append (y :: a.extra) a.unique else v.prepend (y :: a.extra) a.unique) = false := hl y (by simp)
      simp only [List.map_cons, checkLib, h]
      have := ih v.get (fun z hz => by rw [with_get]; exact hl z (by simp [hz]))
      simp only [Bool.not_false, Bool.true_or, if_true, Bool.false_eq_true, if_false, this, get_get, ite_self, reduceCtorEq]
  rw [h l v hl, if_neg hne]

/-- The library that was found is in `LIBS`, and so is everything that was there before. -/
theorem C104_with_mem (v : Libs) (a : LibArgs) (x : Str) :
    ∃ l, v.with a x = .list l ∧ x ∈ l ∧ (∀ y ∈ a.extra, y ∈ l) ∧ (∀ o, v = .list o → ∀ y ∈ o, y ∈ l) ∧ (∀ s, v = .str s → s ≠ [] → s ∈ l) := by
  have hd : ∀ (l : List Str) y, y ∈ dedup l ↔ y ∈ l := by
    intro l
    induction l with
    | nil => simp [dedup]
    | cons z l ih =>
      intro y
      simp only [dedup, List.mem_cons, List.mem_filter, ih, decide_eq_true_eq]
      by_cases h : y = z <;> simp [h]
  have hl : ∀ (l : List Str) y, y ∈ dedupLast l ↔ y ∈ l := by
    intro l y; simp [dedupLast, hd]
  unfold Libs.with
  cases ha : a.append <;> cases hu : a.unique <;> rcases v with _ | s | o
  all_goals first
    | (rcases s with _ | ⟨c, s⟩ <;> refine ⟨_, rfl, ?_, ?_, ?_, ?_⟩ <;> simp [hd, hl] <;> grind)
    | (refine ⟨_, rfl, ?_, ?_, ?_, ?_⟩ <;> simp [hd, hl] <;> grind)

/-- **C104.** Where they go: what is found comes before the libraries that were there, or after them; with `unique` there are no two equal
ones if there were none. -/
theorem C104_with_order (o : List Str) (a : LibArgs) (x : Str) :
    (a.unique = false → (Libs.list o).with a x = .list (if a.append then o ++ x :: a.extra else x :: a.extra ++ o)) ∧
    (a.unique = true → o.Nodup → ∃ l, (Libs.list o).with a x = .list l ∧ l.Nodup ∧ l.length ≤ o.length + (a.extra.length + 1) ∧
      (if a.append then o <+: l else o <:+ l)) := by
  have hd : ∀ l : List Str, (dedup l).Nodup ∧ (dedup l).length ≤ l.length := by
    intro l
    induction l with
    | nil => exact ⟨List.nodup_nil, Nat.le_refl _⟩
    | cons z l ih =>
      refine ⟨List.nodup_cons.2 ⟨by simp, ih.1.filter _⟩, ?_⟩
      simp only [dedup, List.length_cons]
      have := List.length_filter_le (fun y => decide (y ≠ z)) (dedup l)
      omega
  constructor
  · intro hu
    cases ha : a.append <;> simp [Libs.with, ha, hu, Libs.append, Libs.prepend]
  · intro hu ho
    cases ha : a.append
    · refine ⟨(dedupLast (x :: a.extra)).filter (fun y => decide (y ∉ o)) ++ o, by simp [Libs.with, ha, hu, Libs.prepend], ?_, ?_, by simp⟩
      · rw [List.nodup_append]
        refine ⟨(List.pairwise_reverse.2 ((hd _).1.imp fun h => Ne.symm h)).filter _, ho, ?_⟩
        intro b hb c hc e
        subst e
        simp only [List.mem_filter, decide_eq_true_eq] at hb
        exact hb.2 hc
      · have h1 := List.length_filter_le (fun y => decide (y ∉ o)) (dedupLast (x :: a.extra))
        have h2 := (hd (x :: a.extra).reverse).2
        simp only [dedupLast, List.length_reverse, List.length_cons, List.length_append] at *
        omega
    · refine ⟨o ++ (dedup (x :: a.extra)).filter (fun y => decide (y ∉ o)), by simp [Libs.with, ha, hu, Libs.append], ?_, ?_, by simp⟩
      · rw [List.nodup_append]
        refine ⟨ho, (hd _).1.filter _, ?_⟩
        intro b hb c hc e
        subst e
        simp only [List.mem_filter, decide_eq_true_eq] at hc
        exact hc.2 hb
      · have h1 := List.length_filter_le (fun y => decide (y ∉ o)) (dedup (x :: a.extra))
        have h2 := (hd (x :: a.extra)).2
        simp only [List.length_cons, List.length_append] at *
        omega

/-- **C104.** With libraries that have no name in the list too: something is found if and only if the program links with one of them. -/
theorem C104_checkLib_iff (build : Libs → Bool) (a : LibArgs) (l : List (Option Str)) (v : Libs) (hb : build v.get = build v) :
    (checkLib build a l v).1 = true ↔ ∃ y ∈ l, build (match y with | some x => v.with a x | none => v) = true := by
  induction l generalizing v with
  | nil => simp [checkLib]
  | cons y l ih =>
    cases y with
    | none =>
      simp only [checkLib]
      by_cases h : build v = true
      · simp [h]
      · rw [if_neg h, ih v hb]
        simp [h]
    | some x =>
      have hw : (if a.append then v.append (x :: a.extra) a.unique else v.prepend (x :: a.extra) a.unique) = v.with a x := rfl
      simp only [checkLib, hw]
      by_cases h : build (v.with a x) = true
      · simp [h]
      · have := ih v.get (by rw [get_get])
        simp only [Bool.not_eq_true] at h
        simp only [h, Bool.not_false, Bool.true_or, if_true, Bool.false_eq_true, if_false, this, List.mem_cons, exists_eq_or_imp, with_get, false_or]
        constructor
        · rintro ⟨y, hy, h'⟩
          refine ⟨y, hy, ?_⟩
          cases y with
          | none => rw [← hb]; exact h'
          | some z => exact h'
        · rintro ⟨y, hy, h'⟩
          refine ⟨y, hy, ?_⟩
          cases y with
          | none => rw [hb]; exact h'
          | some z => exact h'

end Verif.ConfH
