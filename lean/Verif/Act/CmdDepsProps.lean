import Verif.Act.CmdDeps
/-!
# C85: the program a command runs is a dependency
-/
namespace Verif.Sgn
open Verif.Subst

/-! ### Specification -/

/-- A file that can be run. -/
def Disk.Program (d : Disk) (f : Str) : Prop := d.isfile f = true ∧ d.executable f = true

/-- The file called `w` in the directory `p` of the search path; an empty entry is the
current directory. -/
def entry (p w : Str) : Str :=
  if p = [] ∨ p.getLast? = some '/' then p ++ w else p ++ '/' :: w

/-- The file a POSIX shell runs for the command word `w`: a name with a `/` is the
file itself, otherwise the first program of this name on the search path. -/
inductive ShellRuns (d : Disk) (path : List Str) (w : Str) : Str → Prop
  | named : '/' ∈ w → d.Program w → ShellRuns d path w w
  | found (before : List Str) (p : Str) (after : List Str) : '/' ∉ w → path = before ++ p :: after →
      d.Program (entry p w) → (∀ q ∈ before, ¬ d.Program (entry q w)) → ShellRuns d path w (entry p w)

/-- The command is neat text, or a list of neat words. -/
def NeatCommand (E : Env) (n : Nat) (lv : Vars) (a : Single) : Prop :=
  match a.body.value with
  | some v => Neat E n lv false v
  | none => False

/-- The word at the place `b` of a part of the command line `line` between `&&`s. -/
structure WordAt (line : List Str) (w : Str) (b : Nat) : Prop where
  split : ∃ x y z, line = x ++ y ++ w :: z ∧ (x = [] ∨ x.getLast? = some ['&', '&']) ∧
    ['&', '&'] ∉ y ∧ y.length = b

/-! ### `WhereIs` -/

theorem whereIs_iff (d : Disk) (reject : List Str) (file : Str) (path : List Str) (q : Str) :
    whereIs d reject file path = some q ↔
      ∃ before p after, path = before ++ p :: after ∧ d.Program (joinPath p file) ∧ joinPath p file ∉ reject ∧
        (∀ x ∈ before, ¬ (d.Program (joinPath x file) ∧ joinPath x file ∉ reject)) ∧ q = d.norm (joinPath p file) := by
  induction path with
  | nil =>
    refine ⟨fun h => (nomatch h), ?_⟩
    rintro ⟨before, p, after, h, _⟩
    cases before <;> cases h
  | cons p path ih =>
    simp only [whereIs]
    by_cases hp : d.isfile (joinPath p file) = true ∧ d.executable (joinPath p file) = true ∧ joinPath p file ∉ reject
    · obtain ⟨h1, h2, h3⟩ := hp
      rw [if_pos (by simp [h1, h2, h3])]
      constructor
      · intro h
        cases h
        exact ⟨[], p, path, rfl, ⟨h1, h2⟩, h3, by simp, rfl⟩
      · rintro ⟨before, p', after, he, _, _, hb, rfl⟩
        cases before with
        | nil => simp only [List.nil_append, List.cons.injEq] at he; rw [he.1]
        | cons x before =>
          simp only [List.cons_append, List.cons.injEq] at he
          exact absurd ⟨⟨h1, h2⟩, h3⟩ (he.1 ▸ hb x (by simp))
    · rw [if_neg (by
        simp only [Bool.and_eq_true, Bool.not_eq_true', List.contains_eq_mem, decide_eq_false_iff_not]
        exact fun h => hp ⟨h.1.1, h.1.2, h.2⟩), ih]
      constructor
      · rintro ⟨before, p', after, rfl, a1, a2, a3, a4⟩
        refine ⟨p :: before, p', after, rfl, a1, a2, fun x hx => ?_, a4⟩
        rcases List.mem_cons.1 hx with rfl | hx
        · exact fun h => hp ⟨h.1.1, h.1.2, h.2⟩
        · exact a3 x hx
      · rintro ⟨before, p', after, he, a1, a2, a3, a4⟩
        cases before with
        | nil =>
          simp only [List.nil_append, List.cons.injEq] at he
          exact absurd ⟨a1.1, a1.2, a2⟩ (he.1 ▸ hp)
        | cons x before =>
          simp only [List.cons_append, List.cons.injEq] at he
          exact ⟨before, p', after, he.2, a1, a2, fun y hy => a3 y (by simp [hy]), a4⟩

theorem whereIs_none_iff (d : Disk) (reject : List Str) (file : Str) (path : List Str) :
    whereIs d reject file path = none ↔
      ∀ p ∈ path, ¬ (d.Program (joinPath p file) ∧ joinPath p file ∉ reject) := by
  induction path with
  | nil => simp [whereIs]
  | cons p path ih =>
    simp only [whereIs, List.mem_cons, forall_eq_or_imp]
    split
    · rename_i h
      simp only [Bool.and_eq_true, Bool.not_eq_true', List.contains_eq_mem, decide_eq_false_iff_not] at h
      exact ⟨fun h' => (nomatch h'), fun h' => absurd ⟨⟨h.1.1, h.1.2⟩, h.2⟩ h'.1⟩
    · rename_i h
      simp only [Bool.and_eq_true, Bool.not_eq_true', List.contains_eq_mem, decide_eq_false_iff_not] at h
      rw [ih]
      exact ⟨fun h' => ⟨fun hp => h ⟨⟨hp.1.1, hp.1.2⟩, hp.2⟩, h'⟩, fun h' => h'.2⟩

/-- **C85** `WhereIs` finds the first program of that name on the search path that is not
rejected, and finds none only if there is none. -/
theorem C85_whereIs (d : Disk) (reject : List Str) (file : Str) (path : List Str) :
    (∀ q, whereIs d reject file path = some q ↔
      ∃ before p after, path = before ++ p :: after ∧ d.Program (joinPath p file) ∧ joinPath p file ∉ reject ∧
        (∀ x ∈ before, ¬ (d.Program (joinPath x file) ∧ joinPath x file ∉ reject)) ∧ q = d.norm (joinPath p file)) ∧
    (whereIs d reject file path = none ↔
      ∀ p ∈ path, ¬ (d.Program (joinPath p file) ∧ joinPath p file ∉ reject)) :=
  ⟨whereIs_iff d reject file path, whereIs_none_iff d reject file path⟩

/-- What the shell runs is what `WhereIs` finds, for names without `/` and absolute
paths. -/
theorem whereIs_shell (d : Disk) (path : List Str) (w f : Str) (hs : ShellRuns d path w f)
    (habs : '/' ∈ w → w.head? = some '/') (hp : path ≠ []) : whereIs d [] w path = some (d.norm f) := by
  rw [whereIs_iff]
  cases hs with
  | named h1 h2 =>
    cases path with
    | nil => exact absurd rfl hp
    | cons p path =>
      have : joinPath p w = w := by simp [joinPath, habs h1]
      exact ⟨[], p, path, rfl, by rw [this]; exact h2, by simp, by simp, by rw [this]⟩
  | found before p after h1 h2 h3 h4 =>
    have hj : ∀ q, joinPath q w = entry q w := by
      intro q
      unfold joinPath entry
      rw [if_neg]
      intro h
      exact h1 (List.mem_of_head? h)
    refine ⟨before, p, after, h2, by rw [hj]; exact h3, by simp, fun x hx => ?_, by rw [hj]⟩
    rw [hj]
    exact fun h => h4 x hx h.1

/-! ### The light way -/

/-- Expansion of a neat value gives one command line, whatever it is for, and its words
have no `$` and no white space. -/
theorem neat_line (E : Env) (n : Nat) (lv : Vars) (v : Val) (h : Neat E n lv false v) :
    ∃ r, OkText r ∧ ∀ m, substList E m n lv v = .ok [cut r] := by
  obtain ⟨r, h1, h2, _⟩ := neat_steps E .cmd n lv false v h
  refine ⟨r, h2, fun m => ?_⟩
  obtain ⟨r', k1, k2, k3⟩ := neat_steps E m n lv false v h
  rw [h1] at k1
  cases k1
  obtain ⟨st', a1, a2⟩ := k3 [] .init ⟨⟨rfl, rfl, rfl⟩, fun hc => absurd rfl hc⟩ (by simp [OkText])
  simp only [substList, a1, bind, Except.bind, pure, Except.pure, LS.result, a2.done, a2.cur]
  simp

theorem fields_noBlank (t : Str) : ∀ w ∈ fields t, ∀ c ∈ w, isBlank c = false := by
  induction t with
  | nil => simp [fields]
  | cons c r ih =>
    intro w hw d hd
    simp only [fields] at hw
    split at hw
    · rcases List.mem_cons.1 hw with rfl | hw
      · cases hd
      · exact ih w hw d hd
    · rename_i hc
      split at hw
      · rename_i g gs hg
        rcases List.mem_cons.1 hw with rfl | hw
        · rcases List.mem_cons.1 hd with rfl | hd
          · simpa using hc
          · exact ih g (by simp [hg]) d hd
        · exact ih w (by simp [hg, hw]) d hd
      · simp at hw; subst hw; simp at hd; subst hd; simpa using hc

theorem cut_word {r w : Str} (h : w ∈ cut r) : w ≠ [] ∧ (∀ c ∈ w, isBlank c = false) ∧ ∀ c ∈ w, c ∈ r := by
  have h' := List.mem_filter.1 h
  exact ⟨by simpa using h'.2, fields_noBlank r w h'.1, mem_fields r w h'.1⟩

/-- Looking for a plain word. -/
theorem envWhereIs_word (E : Env) (n : Nat) (d : Disk) (path : List Str) (w : Str) (hne : w ≠ [])
    (hd : '$' ∉ w) (hb : ∀ c ∈ w, isBlank c = false) :
    envWhereIs E n d path w = .ok (whereIs d [] w path) := by
  have : cut w = [w] := by simp [cut, fields_word w hb, hne]
  simp [envWhereIs, hne, subst, hd, this]

theorem stripQuotes_plain (w : Str) (h : ∀ c, w.head? = some c → isQuote c = false) : stripQuotes w = w := by
  cases w with
  | nil => rfl
  | cons q r =>
    have hq := h q rfl
    unfold stripQuotes
    dsimp only
    split
    · simp [hq]
    · rfl

theorem stripQuotes_sub (w : Str) : ∀ c ∈ stripQuotes w, c ∈ w := by
  intro c hc
  unfold stripQuotes at hc
  split at hc
  · split at hc
    · split at hc
      · exact List.mem_cons_of_mem _ (List.dropLast_subset _ hc)
      · exact hc
    · exact hc
  · exact hc

theorem concatOf_mem : ∀ (l : List (Except Err (List Str))) (r : List Str), concatOf l = .ok r →
    (∀ x ∈ l, ∃ y, x = .ok y ∧ ∀ q ∈ y, q ∈ r) ∧ ∀ q ∈ r, ∃ y, Except.ok y ∈ l ∧ q ∈ y := by
  intro l
  induction l with
  | nil => intro r h; cases h; simp
  | cons x l ih =>
    intro r h
    cases x with
    | error e => cases h
    | ok y =>
      simp only [concatOf] at h
      cases hl : concatOf l with
      | error e => simp [hl] at h
      | ok r' =>
        simp only [hl, Except.ok.injEq] at h
        subst h
        obtain ⟨a1, a2⟩ := ih r' hl
        constructor
        · intro x hx
          rcases List.mem_cons.1 hx with rfl | hx
          · exact ⟨y, rfl, fun q hq => List.mem_append_left _ hq⟩
          · obtain ⟨z, hz, hz'⟩ := a1 x hx
            exact ⟨z, hz, fun q hq => List.mem_append_right _ (hz' q hq)⟩
        · intro q hq
          rcases List.mem_append.1 hq with hq | hq
          · exact ⟨y, by simp, hq⟩
          · obtain ⟨z, hz, hz'⟩ := a2 q hq
            exact ⟨z, by simp [hz], hz'⟩

/-- For a neat command the light way looks for the first word. -/
theorem light_single (E : Env) (n : Nat) (lv : Vars) (d : Disk) (path own : List Str) (a : Single)
    (h : NeatCommand E n lv a) :
    ∃ v r, a.body.value = some v ∧ OkText r ∧ substList E .cmd n lv v = .ok [cut r] ∧
      (cut r = [] → a.commandDeps E n lv d path .light own = .ok []) ∧
      ∀ w ws, cut r = w :: ws →
        (stripQuotes w = [] → a.commandDeps E n lv d path .light own = .ok []) ∧
        (stripQuotes w ≠ [] →
          a.commandDeps E n lv d path .light own = .ok (whereIs d [] (stripQuotes w) path).toList) := by
  unfold NeatCommand at h
  cases hv : a.body.value with
  | none => simp [hv] at h
  | some v =>
    simp only [hv] at h
    obtain ⟨r, hok, hr⟩ := neat_line E n lv v h
    refine ⟨v, r, rfl, hok, hr _, ?_, ?_⟩
    · intro hc
      simp [Single.commandDeps, hv, hr, hc, lightDeps, collect]
    · intro w ws hc
      have hw := cut_word (r := r) (w := w) (by simp [hc])
      constructor
      · intro hq
        simp [Single.commandDeps, hv, hr, hc, lightDeps, collect, envWhereIs, hq]
      · intro hq
        have := envWhereIs_word E n d path (stripQuotes w) hq
          (fun hm => (hok _ (hw.2.2 _ (stripQuotes_sub w _ hm))).1 rfl)
          (fun c hm => hw.2.1 c (stripQuotes_sub w c hm))
        simp [Single.commandDeps, hv, hr, hc, lightDeps, collect, this]

/-- **C85** By default (the light way) the program that a command runs is a dependency of
the targets made by it, if the targets have sources. (What is missing: programs named by a
relative path with a `/`, programs after `&&`, targets without sources, names that need
quoting; see the counterexamples.) -/
theorem C85_program_is_dependency_partial (x : Exec) (E : Env) (n : Nat) (lv : Vars) (d : Disk) (path own : List Str)
    (a : Single) (ha : a ∈ x.singles) (hneat : NeatCommand E n lv a)
    (v : Val) (hv : a.body.value = some v)
    (w : Str) (ws : List Str) (hrun : substList E .cmd n lv v = .ok [w :: ws])
    (hq : ∀ c, w.head? = some c → isQuote c = false)
    (habs : '/' ∈ w → w.head? = some '/') (hp : path ≠ [])
    (f : Str) (hf : ShellRuns d path w f)
    (ts : Bool) (deps : List Str) (hdeps : x.scanned E n lv d path .light own true ts = .ok deps) :
    d.norm f ∈ deps := by
  obtain ⟨v', r, hv', hok, hr, _, hl⟩ := light_single E n lv d path own a hneat
  rw [hv] at hv'
  cases hv'
  rw [hr] at hrun
  simp only [Except.ok.injEq, List.cons.injEq, and_true] at hrun
  have hsq := stripQuotes_plain w hq
  have hne : stripQuotes w ≠ [] := by
    rw [hsq]; exact (cut_word (r := r) (by simp [hrun])).1
  have hd := (hl w ws hrun).2 hne
  rw [hsq, whereIs_shell d path w f hf habs hp] at hd
  simp only [Exec.scanned, Bool.true_or, if_true, Exec.commandDeps] at hdeps
  obtain ⟨y, hy, hy'⟩ := (concatOf_mem _ _ hdeps).1 _ (List.mem_map.2 ⟨a, ha, rfl⟩)
  rw [hd] at hy
  cases hy
  exact hy' _ (by simp)

/-- **C85** By default nothing else becomes a dependency in this way: every such
dependency is what is found on the search path for the first word of a command. -/
theorem C85_only_programs (x : Exec) (E : Env) (n : Nat) (lv : Vars) (d : Disk) (path own : List Str)
    (hneat : ∀ a ∈ x.singles, a.body.value ≠ none → NeatCommand E n lv a)
    (src ts : Bool) (deps : List Str) (hdeps : x.scanned E n lv d path .light own src ts = .ok deps)
    (q : Str) (hq : q ∈ deps) :
    ∃ a ∈ x.singles, ∃ v w ws, a.body.value = some v ∧ substList E .cmd n lv v = .ok [w :: ws] ∧
      whereIs d [] (stripQuotes w) path = some q := by
  unfold Exec.scanned at hdeps
  split at hdeps
  · obtain ⟨y, hy, hy'⟩ := (concatOf_mem _ _ hdeps).2 q hq
    obtain ⟨a, ha, hay⟩ := List.mem_map.1 hy
    refine ⟨a, ha, ?_⟩
    cases hv : a.body.value with
    | none =>
      simp only [Single.commandDeps, hv, Except.ok.injEq] at hay
      subst hay; cases hy'
    | some v =>
      obtain ⟨v', r, hv', _, hr, h0, h1⟩ := light_single E n lv d path own a (hneat a ha (by simp [hv]))
      rw [hv] at hv'
      cases hv'
      cases hc : cut r with
      | nil => rw [h0 hc] at hay; cases hay; cases hy'
      | cons w ws =>
        obtain ⟨h2, h3⟩ := h1 w ws hc
        by_cases hs : stripQuotes w = []
        · rw [h2 hs] at hay; cases hay; cases hy'
        · rw [h3 hs] at hay
          cases hay
          refine ⟨v, w, ws, rfl, by rw [hr, hc], ?_⟩
          simpa [Option.mem_def] using hy'
  · cases hdeps; cases hq

/-! ### The thorough way -/

/-- The words before the place where the machine is: `x` up to and with the last `&&`,
`y` after it. -/
theorem heavyGo_mem (E : Env) (n : Nat) (d : Disk) (path : List Str) (k : Option Nat) :
    ∀ (ws y : List Str), ['&', '&'] ∉ y → ∀ e,
      e ∈ heavyGo E n d path k y.length ws ↔
        ∃ x' y' w z, y ++ ws = x' ++ y' ++ w :: z ∧ (x' = [] ∨ x'.getLast? = some ['&', '&']) ∧ ['&', '&'] ∉ y' ∧
          y.length ≤ (x' ++ y').length ∧
          (∀ b, k = some b → y'.length < b) ∧ startsAmpDash w = false ∧ e = heavyEntry E n d path y'.length w := by
  intro ws
  induction ws with
  | nil =>
    intro y hy e
    simp only [heavyGo, List.not_mem_nil, List.append_nil, false_iff]
    rintro ⟨x', y', w, z, h1, _, _, h2, _⟩
    have := congrArg List.length h1
    simp only [List.length_append, List.length_cons] at this h2
    omega
  | cons w ws ih =>
    intro y hy e
    -- the occurrence is either the first word or further on
    have hsplit : (∃ x' y' v z, y ++ w :: ws = x' ++ y' ++ v :: z ∧ (x' = [] ∨ x'.getLast? = some ['&', '&']) ∧ ['&', '&'] ∉ y' ∧
          y.length ≤ (x' ++ y').length ∧
          (∀ b, k = some b → y'.length < b) ∧ startsAmpDash v = false ∧ e = heavyEntry E n d path y'.length v) ↔
        ((∀ b, k = some b → y.length < b) ∧ startsAmpDash w = false ∧ e = heavyEntry E n d path y.length w) ∨
        (∃ x' y' v z, y ++ w :: ws = x' ++ y' ++ v :: z ∧ (x' = [] ∨ x'.getLast? = some ['&', '&']) ∧ ['&', '&'] ∉ y' ∧
          y.length < (x' ++ y').length ∧
          (∀ b, k = some b → y'.length < b) ∧ startsAmpDash v = false ∧ e = heavyEntry E n d path y'.length v) := by
      constructor
      · rintro ⟨x', y', v, z, h1, h2, h3, h4, h5⟩
        rcases Nat.eq_or_lt_of_le h4 with h | h
        · left
          obtain ⟨e1, e2⟩ := List.append_inj h1 h
          simp only [List.cons.injEq] at e2
          obtain ⟨rfl, rfl⟩ := e2
          have hx : x' = [] := by
            rcases h2 with h2 | h2
            · exact h2
            · exfalso; apply hy; rw [e1]
              exact List.mem_append_left _ (List.mem_of_getLast? h2)
          subst hx
          simp only [List.nil_append] at e1
          subst e1
          exact h5
        · exact Or.inr ⟨x', y', v, z, h1, h2, h3, h, h5⟩
      · rintro (h | ⟨x', y', v, z, h1, h2, h3, h4, h5⟩)
        · exact ⟨[], y, w, ws, by simp, Or.inl rfl, hy, by simp, h⟩
        · exact ⟨x', y', v, z, h1, h2, h3, Nat.le_of_lt h4, h5⟩
    rw [hsplit]
    -- what is further on, as seen from the next position
    have hnext : ∀ (hw : w ≠ ['&', '&']), (e ∈ heavyGo E n d path k (y.length + 1) ws ↔
        ∃ x' y' v z, y ++ w :: ws = x' ++ y' ++ v :: z ∧ (x' = [] ∨ x'.getLast? = some ['&', '&']) ∧ ['&', '&'] ∉ y' ∧
          y.length < (x' ++ y').length ∧
          (∀ b, k = some b → y'.length < b) ∧ startsAmpDash v = false ∧ e = heavyEntry E n d path y'.length v) := by
      intro hw
      have := ih (y ++ [w]) (by
        intro h
        rcases List.mem_append.1 h with h | h
        · exact hy h
        · simp at h; exact hw h.symm) e
      simp only [List.length_append, List.length_cons, List.length_nil, List.append_assoc, List.singleton_append] at this ⊢
      exact this
    by_cases hcond : (within k y.length && !startsAmpDash w) = true
    · have hw : w ≠ ['&', '&'] := by rintro rfl; simp [startsAmpDash] at hcond
      simp only [heavyGo, hcond, if_true, List.mem_cons]
      rw [hnext hw]
      have hc : (∀ b, k = some b → y.length < b) ∧ startsAmpDash w = false := by
        simp only [Bool.and_eq_true, Bool.not_eq_true'] at hcond
        refine ⟨?_, hcond.2⟩
        rintro b rfl
        simpa [within] using hcond.1
      constructor
      · rintro (h | h)
        · exact Or.inl ⟨hc.1, hc.2, h⟩
        · exact Or.inr h
      · rintro (⟨_, _, h⟩ | h)
        · exact Or.inl h
        · exact Or.inr h
    · simp only [heavyGo, hcond, Bool.false_eq_true, if_false]
      have hno : ¬ ((∀ b, k = some b → y.length < b) ∧ startsAmpDash w = false ∧ e = heavyEntry E n d path y.length w) := by
        rintro ⟨h1, h2, _⟩
        apply hcond
        cases k with
        | none => simp [h2, within]
        | some b => simp [h2, within, h1 b rfl]
      simp only [hno, false_or]
      by_cases hw : w = ['&', '&']
      · subst hw
        simp only [if_true]
        have := ih [] (by simp) e
        simp only [List.length_nil, List.nil_append] at this
        rw [this]
        constructor
        · rintro ⟨x', y', v, z, h1, h2, h3, _, h5⟩
          refine ⟨y ++ ['&', '&'] :: x', y', v, z, by simp [h1], Or.inr ?_, h3, by simp, h5⟩
          rcases h2 with rfl | h2
          · simp
          · rw [List.getLast?_append, List.getLast?_cons, h2]; simp
        · rintro ⟨x', y', v, z, h1, h2, h3, h4, h5⟩
          -- the `&&` is part of x'
          have hlen : y.length < x'.length := by
            refine Nat.lt_of_not_le fun hle => h3 ?_
            have h6 := congrArg (fun l => l[y.length]?) h1
            simp only [List.append_assoc] at h6
            rw [List.getElem?_append_right (Nat.le_refl _), List.getElem?_append_right hle] at h6
            simp only [Nat.sub_self, List.getElem?_cons_zero] at h6
            rw [List.getElem?_append_left (by simp only [List.length_append] at h4; omega)] at h6
            exact List.mem_of_getElem? h6.symm
          rw [List.append_assoc] at h1
          obtain ⟨t, ht1, ht2⟩ | ⟨t, ht1, ht2⟩ := List.append_eq_append_iff.1 h1
          · cases t with
            | nil => simp only [List.append_nil] at ht1; subst ht1; omega
            | cons u t =>
              simp only [List.cons_append, List.cons.injEq] at ht2
              obtain ⟨rfl, ht2⟩ := ht2
              refine ⟨t, y', v, z, by simpa using ht2, ?_, h3, by simp, h5⟩
              rcases h2 with rfl | h2
              · simp at hlen
              · rw [ht1, List.getLast?_append] at h2
                cases t with
                | nil => exact Or.inl rfl
                | cons a t => right; simpa [List.getLast?_cons] using h2
          · have := congrArg List.length ht1
            simp only [List.length_append] at this
            omega
      · rw [if_neg hw]
        exact hnext hw

theorem collect_mem : ∀ (l : List (Except Err (Option Str))) (r : List Str), collect l = .ok r →
    ∀ q, q ∈ r ↔ Except.ok (some q) ∈ l := by
  intro l
  induction l with
  | nil => intro r h; cases h; simp
  | cons x l ih =>
    intro r h
    cases x with
    | error e => cases h
    | ok o =>
      simp only [collect] at h
      cases hl : collect l with
      | error e => simp [hl] at h
      | ok r' =>
        simp only [hl, Except.ok.injEq] at h
        subst h
        intro q
        rw [List.mem_append, ih r' hl q, List.mem_cons]
        cases o with
        | none => simp
        | some p => simp

/-- **C85** With `IMPLICIT_COMMAND_DEPENDENCIES` set to a number `k` (or `all`) the
dependencies are exactly: for each part of a command line between `&&`s and each of its
first `k` words that does not begin with `-` or `&`, the file of that name, or else, for
the first word of a part, what is on the search path; without the targets and sources. -/
theorem C85_thorough (E : Env) (n : Nat) (d : Disk) (path : List Str) (k : Option Nat) (own : List Str)
    (lines : List (List Str)) (deps : List Str) (h : heavyDeps E n d path k own lines = .ok deps) (q : Str) :
    q ∈ deps ↔ q ∉ own ∧ ∃ line ∈ lines, ∃ w b, WordAt line w b ∧ (∀ c, k = some c → b < c) ∧
      w.head? ≠ some '-' ∧ w.head? ≠ some '&' ∧ stripQuotes w ≠ [] ∧
      (d.isfile (stripQuotes w) = true ∧ q = d.abs (stripQuotes w) ∨
       d.isfile (stripQuotes w) = false ∧ b = 0 ∧ envWhereIs E n d path (stripQuotes w) = .ok (some q)) := by
  unfold heavyDeps at h
  cases hc : collect (lines.flatMap (heavyGo E n d path k 0)) with
  | error e => simp [hc] at h
  | ok l =>
    simp only [hc, Except.ok.injEq] at h
    subst h
    have hent : ∀ b w, Except.ok (some q) = heavyEntry E n d path b w ↔ (stripQuotes w ≠ [] ∧
      (d.isfile (stripQuotes w) = true ∧ q = d.abs (stripQuotes w) ∨
       d.isfile (stripQuotes w) = false ∧ b = 0 ∧ envWhereIs E n d path (stripQuotes w) = .ok (some q))) := by
      intro b w
      unfold heavyEntry
      dsimp only
      by_cases h1 : stripQuotes w = []
      · simp [h1]
      · by_cases h2 : d.isfile (stripQuotes w) = true
        · simp [h1, h2]
        · have h2' : d.isfile (stripQuotes w) = false := by simpa using h2
          by_cases h3 : b = 0
          · simp [h1, h2', h3, eq_comm]
          · simp [h1, h2', h3]
    have hdash : ∀ w, startsAmpDash w = false ↔ w.head? ≠ some '-' ∧ w.head? ≠ some '&' := by
      intro w
      unfold startsAmpDash
      cases w with
      | nil => simp
      | cons c w => simp [and_comm]
    rw [List.mem_filter, collect_mem _ _ hc q, List.mem_flatMap]
    simp only [Bool.not_eq_true', List.contains_eq_mem, decide_eq_false_iff_not]
    constructor
    · rintro ⟨⟨line, hline, hm⟩, hown⟩
      refine ⟨hown, line, hline, ?_⟩
      obtain ⟨x, y, w, z, h1, h2, h3, _, h5, h6, h7⟩ := (heavyGo_mem E n d path k line [] (by simp) _).1 hm
      exact ⟨w, y.length, ⟨x, y, z, by simpa using h1, h2, h3, rfl⟩, h5, (hdash w).1 h6 |>.1, (hdash w).1 h6 |>.2, (hent _ _).1 h7⟩
    · rintro ⟨hown, line, hline, w, b, ⟨x, y, z, h1, h2, h3, rfl⟩, h5, h6, h6', h7⟩
      refine ⟨⟨line, hline, ?_⟩, hown⟩
      exact (heavyGo_mem E n d path k line [] (by simp) _).2
        ⟨x, y, w, z, by simpa using h1, h2, h3, by simp, h5, (hdash w).2 ⟨h6, h6'⟩, (hent _ _).2 h7⟩

end Verif.Sgn
