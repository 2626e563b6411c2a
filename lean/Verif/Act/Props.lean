import Verif.Act.Model
/-!
# C39: action lists run in order and stop at the first failure
# C40: failures are reported in the exit status
-/
namespace Verif.Act

variable {W : Type}

/-! ### Specification -/

/-- A single command or Python function. -/
inductive Leaf (W : Type) where
  | cmd (c : Cmd)
  | fn (f : Fn W)

mutual
/-- The commands and functions of an action in the order in which they are written. -/
def leaves : Act W → List (Leaf W)
  | .cmd c => [.cmd c]
  | .fn f => [.fn f]
  | .list l => leavesL l
def leavesL : List (Act W) → List (Leaf W)
  | [] => []
  | a :: l => leaves a ++ leavesL l
end

/-- Running one of them. -/
def runLeaf (o : Opts W) : Leaf W → S W → Stat × S W
  | .cmd c, s => callCmd o c s
  | .fn f, s => callFn o f s

/-- All of them were run, one after the other, and all succeeded. -/
inductive AllOk (o : Opts W) : List (Leaf W) → S W → S W → Prop
  | nil (s) : AllOk o [] s s
  | cons {a l s s1 s2 st} (h : runLeaf o a s = (st, s1)) (hb : st.bad = false) (h2 : AllOk o l s1 s2) :
      AllOk o (a :: l) s s2

/-- They were run up to one that failed; those after it were not run. -/
def FailsAt (o : Opts W) (ls : List (Leaf W)) (s s' : S W) (st : Stat) : Prop :=
  ∃ pre a post s1, ls = pre ++ a :: post ∧ AllOk o pre s s1 ∧ runLeaf o a s1 = (st, s') ∧ st.bad = true

/-! ### C39 -/

theorem AllOk.append {o : Opts W} {a b s s1 s2} (h1 : AllOk o a s s1) (h2 : AllOk o b s1 s2) :
    AllOk o (a ++ b) s s2 := by
  induction h1 with
  | nil => exact h2
  | cons h hb _ ih => exact .cons h hb (ih h2)

theorem FailsAt.append_left {o : Opts W} {a b s s1 s2 st} (h1 : AllOk o a s s1) (h2 : FailsAt o b s1 s2 st) :
    FailsAt o (a ++ b) s s2 st := by
  obtain ⟨pre, x, post, s3, e, h3, h4, h5⟩ := h2
  exact ⟨a ++ pre, x, post, s3, by simp [e], h1.append h3, h4, h5⟩

theorem FailsAt.append_right {o : Opts W} {a s s2 st} (b : List (Leaf W)) (h2 : FailsAt o a s s2 st) :
    FailsAt o (a ++ b) s s2 st := by
  obtain ⟨pre, x, post, s3, e, h3, h4, h5⟩ := h2
  exact ⟨pre, x, post ++ b, s3, by simp [e], h3, h4, h5⟩

mutual
theorem call_spec (o : Opts W) : ∀ (a : Act W) (s s' : S W) (st : Stat), call o a s = (st, s') →
    if st.bad then FailsAt o (leaves a) s s' st else AllOk o (leaves a) s s'
  | .cmd c, s, s', st, h => by
    simp only [call] at h
    split
    · exact ⟨[], .cmd c, [], s, rfl, .nil s, h, by assumption⟩
    · exact .cons (a := .cmd c) h (by simpa using ‹¬ st.bad = true›) (.nil _)
  | .fn f, s, s', st, h => by
    simp only [call] at h
    split
    · exact ⟨[], .fn f, [], s, rfl, .nil s, h, by assumption⟩
    · exact .cons (a := .fn f) h (by simpa using ‹¬ st.bad = true›) (.nil _)
  | .list l, s, s', st, h => by
    simp only [call] at h
    exact callList_spec o l s s' st h
theorem callList_spec (o : Opts W) : ∀ (l : List (Act W)) (s s' : S W) (st : Stat), callList o l s = (st, s') →
    if st.bad then FailsAt o (leavesL l) s s' st else AllOk o (leavesL l) s s'
  | [], s, s', st, h => by
    simp only [callList] at h
    cases h
    exact AllOk.nil s
  | a :: l, s, s', st, h => by
    simp only [callList] at h
    match hc : call o a s with
    | (st1, s1) =>
      have h1 := call_spec o a s s1 st1 hc
      rw [hc] at h
      simp only at h
      split at h
      · rename_i hb
        cases h
        rw [if_pos hb] at h1 ⊢
        exact h1.append_right _
      · rename_i hb
        rw [if_neg hb] at h1
        have h2 := callList_spec o l s1 s' st h
        split
        · rename_i hb2; rw [if_pos hb2] at h2; exact h2.append_left h1
        · rename_i hb2; rw [if_neg hb2] at h2; exact h1.append h2
end

/-- At most one of the two happens, with one result. -/
theorem AllOk.det {o : Opts W} {l s s1 s2} (h1 : AllOk o l s s1) (h2 : AllOk o l s s2) : s1 = s2 := by
  induction h1 with
  | nil => cases h2; rfl
  | cons h hb _ ih => cases h2 with | cons h' _ h2 => rw [h] at h'; cases h'; exact ih h2

theorem not_both {o : Opts W} {l s s1 s2 st} (h1 : AllOk o l s s1) (h2 : FailsAt o l s s2 st) : False := by
  obtain ⟨pre, x, post, s3, e, h3, h4, h5⟩ := h2
  subst e
  induction h3 with
  | nil => cases h1 with | cons h hb _ => rw [h4] at h; cases h; rw [h5] at hb; cases hb
  | cons h hb _ ih => cases h1 with | cons h' _ h2 => rw [h] at h'; cases h'; exact ih h4 h2

theorem FailsAt.det {o : Opts W} {l s s1 s2 st1 st2} (h1 : FailsAt o l s s1 st1) (h2 : FailsAt o l s s2 st2) :
    s1 = s2 ∧ st1 = st2 := by
  obtain ⟨p1, a1, q1, m1, e1, ok1, r1, b1⟩ := h1
  obtain ⟨p2, a2, q2, m2, e2, ok2, r2, b2⟩ := h2
  induction ok1 generalizing l p2 with
  | nil =>
    cases ok2 with
    | nil => subst e1; simp at e2; obtain ⟨rfl, _⟩ := e2; rw [r1] at r2; cases r2; exact ⟨rfl, rfl⟩
    | cons h hb _ =>
      subst e1; simp at e2; obtain ⟨rfl, _⟩ := e2
      rw [r1] at h; cases h; rw [b1] at hb; cases hb
  | cons h hb _ ih =>
    cases ok2 with
    | nil => subst e1; simp at e2; obtain ⟨rfl, _⟩ := e2; rw [h] at r2; cases r2; rw [b2] at hb; cases hb
    | cons h' hb' ok2' =>
      subst e1; simp at e2; obtain ⟨rfl, e3⟩ := e2
      rw [h] at h'; cases h'
      exact ih rfl r1 _ e3 ok2'

/-- How a failure of an action leaves the executor. -/
def asRaised : Stat → Raised
  | .err e => .buildError e
  | .exit c => .exit c
  | .val _ => .buildError { status := .int 2, exitstatus := .int 2 }

theorem execute_spec (o : Opts W) (l : List (Act W)) (s s' : S W) (r : Raised) (h : execute o l s = (r, s')) :
    (r = .none ∧ AllOk o (leavesL l) s s') ∨ ∃ st, FailsAt o (leavesL l) s s' st ∧ r = asRaised st := by
  induction l generalizing s with
  | nil => simp only [execute] at h; cases h; exact .inl ⟨rfl, .nil _⟩
  | cons a l ih =>
    match hc : call o a s with
    | (st, s1) =>
      have h1 := call_spec o a s s1 st hc
      simp only [execute, hc] at h
      cases st with
      | err e => cases h; exact .inr ⟨_, FailsAt.append_right _ h1, rfl⟩
      | exit c => cases h; exact .inr ⟨_, FailsAt.append_right _ h1, rfl⟩
      | val v =>
        simp only at h
        cases hv : v.truthy with
        | true =>
          rw [hv] at h
          cases h
          rw [if_pos (by exact hv)] at h1
          exact .inr ⟨_, FailsAt.append_right _ h1, rfl⟩
        | false =>
          rw [hv] at h
          rw [if_neg (by simpa [Stat.bad] using hv)] at h1
          rcases ih s1 h with ⟨hr, ha⟩ | ⟨st, hf, hr⟩
          · exact .inl ⟨hr, h1.append ha⟩
          · exact .inr ⟨st, hf.append_left h1, hr⟩

/-- **C39 (order and first failure)** Executing a target's action list (with nested lists,
pre- and post-actions) runs its commands and functions in the order in which they
are written. It succeeds exactly if all of them were run and succeeded, and
otherwise the first that fails is the last that is run, and its failure is what is
raised. -/
theorem C39_in_order_until_first_failure (o : Opts W) (l : List (Act W)) (s s' : S W) :
    (execute o l s = (.none, s') ↔ AllOk o (leavesL l) s s') ∧
    ∀ r, r ≠ .none → (execute o l s = (r, s') ↔ ∃ st, FailsAt o (leavesL l) s s' st ∧ r = asRaised st) := by
  have hne : ∀ st, asRaised st ≠ .none := by intro st; cases st <;> simp [asRaised]
  have total : ∃ r1 s1, execute o l s = (r1, s1) := ⟨_, _, rfl⟩
  obtain ⟨r1, s1, h1⟩ := total
  rcases execute_spec o l s s1 r1 h1 with ⟨rfl, ha⟩ | ⟨st, hf, rfl⟩
  · refine ⟨⟨fun h => ?_, fun h => ?_⟩, fun r hr => ⟨fun h => ?_, ?_⟩⟩
    · rw [h1] at h; cases h; exact ha
    · rw [h1, ha.det h]
    · rw [h1] at h; cases h; exact absurd rfl hr
    · rintro ⟨st, hf, rfl⟩; exact (not_both ha hf).elim
  · refine ⟨⟨fun h => ?_, fun h => (not_both h hf).elim⟩, fun r hr => ⟨fun h => ?_, ?_⟩⟩
    · rw [h1] at h; cases hst : asRaised st with
      | none => exact absurd hst (hne st)
      | buildError e => rw [hst] at h; cases h
      | exit c => rw [hst] at h; cases h
    · rw [h1] at h; cases h; exact ⟨st, hf, rfl⟩
    · rintro ⟨st', hf', rfl⟩
      obtain ⟨e1, e2⟩ := hf.det hf'
      rw [h1, e1, e2]

/-- **C39 (`a + b`)** Adding actions puts their commands one after the other. -/
theorem C39_append (a b : Act W) : leaves (append a b) = leaves a ++ leaves b := by
  have hL : ∀ a b : List (Act W), leavesL (a ++ b) = leavesL a ++ leavesL b := by
    intro a b
    induction a with
    | nil => rfl
    | cons x a ih => simp [leavesL, ih]
  cases a <;> cases b <;> simp [append, leaves, leavesL, hL]

/-! #### The lines of one command -/

/-- The lines were run one after the other and all had status 0. -/
inductive LinesOk (spawn : List Str → W → Int × W) : List (List Str) → W → W → Prop
  | nil (w) : LinesOk spawn [] w w
  | cons {l ls w w1 w2} (h : spawn l w = (0, w1)) (h2 : LinesOk spawn ls w1 w2) : LinesOk spawn (l :: ls) w w2

/-- All lines were run, whatever their status. -/
inductive LinesRun (spawn : List Str → W → Int × W) : List (List Str) → W → W → Prop
  | nil (w) : LinesRun spawn [] w w
  | cons {l ls w r w1 w2} (h : spawn l w = (r, w1)) (h2 : LinesRun spawn ls w1 w2) : LinesRun spawn (l :: ls) w w2

theorem runLines_ignore (spawn : List Str → W → Int × W) (ls : List (List Str)) (w : W) :
    (runLines spawn true ls w).1 = .val (.int 0) ∧
    LinesRun spawn (ls.filter (fun l => !l.isEmpty)) w (runLines spawn true ls w).2 := by
  induction ls generalizing w with
  | nil => exact ⟨rfl, .nil w⟩
  | cons l ls ih =>
    simp only [runLines]
    by_cases he : l.isEmpty
    · simp only [he, if_true, List.filter_cons, Bool.not_true, Bool.false_eq_true, if_false]
      exact ih w
    · simp only [he, Bool.false_eq_true, if_false, List.filter_cons, Bool.not_false, if_true,
        Bool.not_true, Bool.false_and]
      obtain ⟨h1, h2⟩ := ih (spawn l w).2
      exact ⟨h1, .cons rfl h2⟩

theorem runLines_strict (spawn : List Str → W → Int × W) (ls : List (List Str)) (w : W) :
    ((runLines spawn false ls w).1 = .val (.int 0) ∧
      LinesOk spawn (ls.filter (fun l => !l.isEmpty)) w (runLines spawn false ls w).2) ∨
    ∃ pre l post w1 r, ls.filter (fun l => !l.isEmpty) = pre ++ l :: post ∧ LinesOk spawn pre w w1 ∧ r ≠ 0 ∧
      spawn l w1 = (r, (runLines spawn false ls w).2) ∧
      (runLines spawn false ls w).1 = .err { status := .int r, exitstatus := .int 2 } := by
  induction ls generalizing w with
  | nil => exact .inl ⟨rfl, .nil w⟩
  | cons l ls ih =>
    simp only [runLines]
    by_cases he : l.isEmpty
    · simp only [he, if_true, List.filter_cons, Bool.not_true, Bool.false_eq_true, if_false]
      exact ih w
    · simp only [he, Bool.false_eq_true, if_false, List.filter_cons, Bool.not_false, if_true, Bool.true_and]
      match hs : spawn l w with
      | (r, w1) =>
        by_cases hr : r = 0
        · subst hr
          simp only [bne_self_eq_false, Bool.false_eq_true, if_false]
          rcases ih w1 with ⟨h1, h2⟩ | ⟨pre, l', post, w2, r, e, h1, h2, h3, h4⟩
          · exact .inl ⟨h1, .cons hs h2⟩
          · exact .inr ⟨l :: pre, l', post, w2, r, by simp [e], .cons hs h1, h2, h3, h4⟩
        · have : (r != 0) = true := by simpa using hr
          simp only [this, if_true]
          exact .inr ⟨[], l, _, w, r, rfl, .nil w, hr, hs, rfl⟩

/-- A leading `-` or `@` in front of `w`. -/
theorem flags_at (w : Str) : flags ('@' :: w) = (true, (flags w).2.1, (flags w).2.2) := by
  simp [flags]

theorem flags_dash (w : Str) : flags ('-' :: w) = ((flags w).1, true, (flags w).2.2) := by
  simp [flags]

/-- **C39 (`-`)** A command that begins with `-` (or `@-`, `--`...) never fails, and all its
lines are run. -/
theorem C39_dash_ignores_failure (spawn : List Str → W → Int × W) (c : Cmd) (w : W)
    (h : (process c.lines).2.1 = true) :
    (cmdExec spawn c w).1 = .val (.int 0) ∧
    LinesRun spawn ((process c.lines).1.filter (fun l => !l.isEmpty)) w (cmdExec spawn c w).2 := by
  unfold cmdExec
  match hp : process c.lines with
  | (ls, i, _) =>
    rw [hp] at h
    simp only at h
    subst h
    exact runLines_ignore spawn ls w

theorem C39_dash_is_recognised (w : Str) (ws : List Str) (ls : List (List Str)) :
    (process ((('-' :: w) :: ws) :: ls)).2.1 = true ∧
    (process ((('-' :: w) :: ws) :: ls)).1 = (process ((w :: ws) :: ls)).1 := by
  simp [process, flags_dash]

/-- **C39 (no `-`)** A command that does not begin with `-` runs its lines in order until
one has a non-zero status; that status is the result. -/
theorem C39_lines_in_order (spawn : List Str → W → Int × W) (c : Cmd) (w : W)
    (h : (process c.lines).2.1 = false) :
    ((cmdExec spawn c w).1 = .val (.int 0) ∧
      LinesOk spawn ((process c.lines).1.filter (fun l => !l.isEmpty)) w (cmdExec spawn c w).2) ∨
    ∃ pre l post w1 r, (process c.lines).1.filter (fun l => !l.isEmpty) = pre ++ l :: post ∧
      LinesOk spawn pre w w1 ∧ r ≠ 0 ∧ spawn l w1 = (r, (cmdExec spawn c w).2) ∧
      (cmdExec spawn c w).1 = .err { status := .int r, exitstatus := .int 2 } := by
  unfold cmdExec
  match hp : process c.lines with
  | (ls, i, _) =>
    rw [hp] at h
    simp only at h
    subst h
    exact runLines_strict spawn ls w

/-- **C39 (`@`)** `@` in front of a command changes nothing but the printing, and with
it the command line is not printed. -/
theorem C39_at_only_silences (spawn : List Str → W → Int × W) (c : Cmd) (w : Str) (ws : List Str)
    (ls : List (List Str)) (x : W) :
    cmdExec spawn { c with lines := (('@' :: w) :: ws) :: ls } x =
      cmdExec spawn { c with lines := (w :: ws) :: ls } x ∧
    cmdDisplay { c with lines := (('@' :: w) :: ws) :: ls, cmdstr := .null } = [] := by
  constructor
  · simp [cmdExec, process, flags_at]
  · simp [cmdDisplay, process, flags_at]

/-! #### -n and -s -/

/-- What a command or function would print. -/
def display : Leaf W → Str
  | .cmd c => cmdDisplay c
  | .fn f => f.display.getD []

/-- The lines that are printed for these commands and functions. -/
def displays (o : Opts W) (l : List (Leaf W)) : List Str :=
  if o.shows then (l.map display).filter (fun t => !t.isEmpty) else []

theorem emit_out (o : Opts W) (t : Str) (s : S W) :
    emit o t s = { s with out := s.out ++ (if o.shows then [t].filter (fun t => !t.isEmpty) else []) } := by
  unfold emit
  cases o.shows <;> cases t <;> simp

theorem runLeaf_out (o : Opts W) (a : Leaf W) (s : S W) :
    (runLeaf o a s).2.out = s.out ++ (if o.shows then [display a].filter (fun t => !t.isEmpty) else []) := by
  cases a with
  | cmd c =>
    simp only [runLeaf, callCmd, emit_out, display]
    split <;> rfl
  | fn f =>
    simp only [runLeaf, callFn, emit_out, display]
    split <;> rfl

theorem displays_cons (o : Opts W) (a : Leaf W) (l : List (Leaf W)) :
    displays o (a :: l) = (if o.shows then [display a].filter (fun t => !t.isEmpty) else []) ++ displays o l := by
  unfold displays
  cases o.shows with
  | false => simp
  | true =>
    simp only [if_true, List.map_cons]
    rw [← List.filter_append]
    rfl

theorem AllOk.out {o : Opts W} {l s s'} (h : AllOk o l s s') : s'.out = s.out ++ displays o l := by
  induction h with
  | nil => simp [displays]
  | @cons a l s s1 s2 st h hb h2 ih =>
    have := runLeaf_out o a s
    rw [h] at this
    simp only at this
    rw [ih, this, displays_cons]
    simp

theorem dry_leaf (o : Opts W) (h : o.exec = false) (a : Leaf W) (s : S W) :
    (runLeaf o a s).1 = .val (.int 0) ∧ (runLeaf o a s).2.w = s.w := by
  cases a <;> simp [runLeaf, callCmd, callFn, h, emit_out]

theorem dry_allOk (o : Opts W) (h : o.exec = false) (l : List (Leaf W)) (s : S W) :
    ∃ s', AllOk o l s s' ∧ s'.w = s.w := by
  induction l generalizing s with
  | nil => exact ⟨s, .nil s, rfl⟩
  | cons a l ih =>
    obtain ⟨h1, h2⟩ := dry_leaf o h a s
    obtain ⟨s', h3, h4⟩ := ih (runLeaf o a s).2
    exact ⟨s', .cons (st := .val (.int 0)) (by rw [← h1]) rfl h3, by rw [h4, h2]⟩

/-- **C39 (-n)** With `-n` nothing is executed and nothing fails, and what is printed is
exactly what a real run of these actions prints if nothing fails. -/
theorem C39_dry_run (o : Opts W) (h : o.exec = false) (l : List (Act W)) (s : S W) :
    ∃ s', execute o l s = (.none, s') ∧ s'.w = s.w ∧ s'.out = s.out ++ displays o (leavesL l) ∧
      ∀ t t', execute { o with exec := true } l t = (.none, t') →
        t'.out = t.out ++ displays o (leavesL l) := by
  obtain ⟨s', h1, h2⟩ := dry_allOk o h (leavesL l) s
  refine ⟨s', (C39_in_order_until_first_failure o l s s').1.2 h1, h2, h1.out, fun t t' ht => ?_⟩
  exact (((C39_in_order_until_first_failure { o with exec := true } l t t').1.1 ht).out)

theorem silent_leaf (o : Opts W) (a : Leaf W) (s t : S W) (hw : s.w = t.w) :
    (runLeaf o a s).1 = (runLeaf { o with shows := false } a t).1 ∧
    (runLeaf o a s).2.w = (runLeaf { o with shows := false } a t).2.w := by
  cases a with
  | cmd c => simp only [runLeaf, callCmd, emit_out]; split <;> simp [hw]
  | fn f => simp only [runLeaf, callFn, emit_out]; split <;> simp [hw]

/-- **C39 (-s)** Printing or not makes no difference to what is executed and to the result. -/
theorem C39_silent_same_effects (o : Opts W) (l : List (Act W)) (s t : S W) (hw : s.w = t.w) :
    (execute o l s).1 = (execute { o with shows := false } l t).1 ∧
    (execute o l s).2.w = (execute { o with shows := false } l t).2.w := by
  have key : ∀ (ls : List (Leaf W)) (s t : S W), s.w = t.w →
      (∀ s', AllOk o ls s s' → ∃ t', AllOk { o with shows := false } ls t t' ∧ s'.w = t'.w) := by
    intro ls s t hw s' h
    induction h generalizing t with
    | nil => exact ⟨t, .nil t, hw⟩
    | @cons a l s s1 s2 st h hb _ ih =>
      obtain ⟨e1, e2⟩ := silent_leaf o a s t hw
      rw [h] at e1 e2
      simp only at e1 e2
      obtain ⟨t', h1, h2⟩ := ih (runLeaf { o with shows := false } a t).2 e2
      exact ⟨t', .cons (st := st) (by rw [e1]) hb h1, h2⟩
  match he : execute o l s with
  | (r, s') =>
    rcases execute_spec o l s s' r he with ⟨rfl, ha⟩ | ⟨st, ⟨pre, a, post, s1, e, h1, h2, h3⟩, rfl⟩
    · obtain ⟨t', ht, hw'⟩ := key _ s t hw s' ha
      rw [(C39_in_order_until_first_failure { o with shows := false } l t t').1.2 ht]
      exact ⟨rfl, hw'⟩
    · obtain ⟨t1, ht1, hw1⟩ := key _ s t hw s1 h1
      obtain ⟨e1, e2⟩ := silent_leaf o a s1 t1 hw1
      rw [h2] at e1 e2
      simp only at e1 e2
      have hne : asRaised st ≠ .none := by cases st <;> simp [asRaised]
      have := ((C39_in_order_until_first_failure { o with shows := false } l t
        (runLeaf { o with shows := false } a t1).2).2 (asRaised st) hne).2
        ⟨st, ⟨pre, a, post, t1, e, ht1, by rw [e1], h3⟩, rfl⟩
      rw [this]
      exact ⟨rfl, e2⟩

/-! ### C40 -/

/-- An `Exit()` or `sys.exit()` with code 0 or without code. -/
def ExitZero : Py → Prop
  | .explicitExit c => c.truthy = false
  | _ => False

/-- **C40 (conversion)** The exit status of a converted error is "failure" exactly if
the error is not an explicit exit with status 0 (or none). -/
theorem C40_convert_nonzero (e : Py) : (convert e).exitstatus.truthy = false ↔ ExitZero e := by
  cases e <;> simp [convert, ExitZero, Status.truthy]

/-- Reports that a task failed. -/
def Report.isFailure : Report → Bool
  | .ok => false
  | _ => true

/-- Reports of an explicit exit with status 0. -/
def Report.isExitZero : Report → Prop
  | .failed e => ExitZero e
  | _ => False

theorem report_exit (m : Mode) (hm : m ≠ .ignore) (g : Glob) (r : Report) (h : r.isFailure = true) :
    ((report m g r).exit.truthy = false ↔ r.isExitZero) ∧
    (report m g r).failures.length = g.failures.length + 1 := by
  cases r with
  | ok => cases h
  | unknown => cases m <;> simp_all [report, doFailed, Report.isExitZero, Status.truthy]
  | failed e =>
    have := C40_convert_nonzero e
    cases m <;> simp_all [report, doFailed, Report.isExitZero]

/-- **C40 (exit status)** Without `-i`, scons exits with success exactly if no task
failed, or the task whose failure was collected last ended in an explicit exit
with status 0. In every mode every failure is recorded in `GetBuildFailures()`. -/
theorem C40_exit_status (m : Mode) (hm : m ≠ .ignore) (rs : List Report) :
    success (rs.foldl (report m) Glob.init) = true ↔
      (∀ r ∈ rs, r.isFailure = false) ∨
      ∃ pre r post, rs = pre ++ r :: post ∧ r.isExitZero ∧ ∀ x ∈ post, x.isFailure = false := by
  have step : ∀ (rs : List Report) (g : Glob), (∀ r ∈ rs, r.isFailure = false) →
      rs.foldl (report m) g = g := by
    intro rs
    induction rs with
    | nil => intro g _; rfl
    | cons r rs ih =>
      intro g h
      have hr := h r List.mem_cons_self
      cases r with
      | ok => exact ih g (fun x hx => h x (List.mem_cons_of_mem _ hx))
      | unknown => cases hr
      | failed e => cases hr
  by_cases hall : ∀ r ∈ rs, r.isFailure = false
  · rw [step rs _ hall]
    exact ⟨fun _ => .inl hall, fun _ => rfl⟩
  · -- the last failure
    have last : ∃ pre r post, rs = pre ++ r :: post ∧ r.isFailure = true ∧ ∀ x ∈ post, x.isFailure = false := by
      clear step
      induction rs with
      | nil => exact absurd (by simp) hall
      | cons r rs ih =>
        by_cases h2 : ∀ x ∈ rs, x.isFailure = false
        · refine ⟨[], r, rs, rfl, ?_, h2⟩
          cases hr : r.isFailure with
          | true => rfl
          | false =>
            refine absurd (fun x hx => ?_) hall
            rcases List.mem_cons.1 hx with rfl | hx
            · exact hr
            · exact h2 x hx
        · obtain ⟨pre, r', post, e, h3, h4⟩ := ih h2
          exact ⟨r :: pre, r', post, by simp [e], h3, h4⟩
    obtain ⟨pre, r, post, e, hr, hpost⟩ := last
    have hval : (rs.foldl (report m) Glob.init).exit =
        (report m (pre.foldl (report m) Glob.init) r).exit := by
      rw [e, List.foldl_append, List.foldl_cons, step post _ hpost]
    unfold success
    rw [hval]
    have := (report_exit m hm (pre.foldl (report m) Glob.init) r hr).1
    constructor
    · intro h
      right
      exact ⟨pre, r, post, e, this.1 (by simpa using h), hpost⟩
    · rintro (h | ⟨pre', r', post', e', hz, hpost'⟩)
      · exact absurd h hall
      · have hr' : r'.isFailure = true := by
          cases r' <;> first | rfl | exact hz.elim
        have hrr : r = r' := by
          have uniq : ∀ (a b : List Report) (x y : Report) (c d : List Report),
              a ++ x :: c = b ++ y :: d → x.isFailure = true → y.isFailure = true →
              (∀ z ∈ c, z.isFailure = false) → (∀ z ∈ d, z.isFailure = false) → x = y := by
            intro a
            induction a with
            | nil =>
              intro b x y c d h hx hy hc hd
              cases b with
              | nil => simp at h; exact h.1
              | cons z b =>
                simp at h
                have := hc y (by rw [h.2]; simp)
                rw [hy] at this; cases this
            | cons z a ih =>
              intro b x y c d h hx hy hc hd
              cases b with
              | nil =>
                simp at h
                have := hd x (by rw [← h.2]; simp)
                rw [hx] at this; cases this
              | cons z' b => simp at h; exact ih b x y c d h.2 hx hy hc hd
          exact uniq pre pre' r r' post post' (by rw [← e, ← e']) hr hr' hpost hpost'
        subst hrr
        simpa using this.2 hz

/-- **C40** Without `-i`: if any task failed, and no task ended in an explicit exit
with status 0, the exit status of scons is not zero. Partial: with an explicit exit
with status 0 it can be zero although other tasks failed, see
`C40_counterexample_exit_zero_masks_failure`. -/
theorem C40_failure_is_reported_partial (m : Mode) (hm : m ≠ .ignore) (rs : List Report)
    (h : ∃ r ∈ rs, r.isFailure = true) (hz : ∀ r ∈ rs, ¬ r.isExitZero) :
    success (rs.foldl (report m) Glob.init) = false := by
  cases hs : success (rs.foldl (report m) Glob.init) with
  | false => rfl
  | true =>
    rcases (C40_exit_status m hm rs).1 hs with h' | ⟨pre, r, post, e, h1, _⟩
    · obtain ⟨r, hr, hf⟩ := h
      rw [h' r hr] at hf; cases hf
    · exact absurd h1 (hz r (by rw [e]; simp))

/-- **C40 (GetBuildFailures)** In every mode, one entry is recorded for each failed task,
in the order in which the failures were collected. -/
theorem C40_failures_recorded (m : Mode) (rs : List Report) :
    (rs.foldl (report m) Glob.init).failures = rs.filterMap (fun
      | .ok => none
      | .unknown => some { status := .int 2, exitstatus := .int 2 }
      | .failed e => some (convert e)) := by
  suffices ∀ g : Glob, (rs.foldl (report m) g).failures = g.failures ++ rs.filterMap (fun
      | .ok => none
      | .unknown => some { status := .int 2, exitstatus := .int 2 }
      | .failed e => some (convert e)) from by simpa [Glob.init] using this Glob.init
  induction rs with
  | nil => intro g; simp
  | cons r rs ih =>
    intro g
    rw [List.foldl_cons, ih]
    cases r <;> cases m <;> simp [report, doFailed]

/-- **C40 (-i)** With `-i` the exit status is success whatever fails. -/
theorem C40_ignore_errors (rs : List Report) : success (rs.foldl (report .ignore) Glob.init) = true := by
  suffices ∀ g : Glob, (rs.foldl (report .ignore) g).exit = g.exit from by
    unfold success; rw [this]; rfl
  induction rs with
  | nil => intro g; rfl
  | cons r rs ih =>
    intro g
    rw [List.foldl_cons, ih]
    cases r <;> rfl

/-! #### From a command to the exit status -/

/-- The report for a task that executes the action list `l`. -/
def taskReport (o : Opts W) (l : List (Act W)) (s : S W) : Report :=
  match taskException (execute o l s).1 with
  | none => .ok
  | some e => .failed e

/-- Whether a Python function's exception or return value counts as a failure with the
default `exitstatfunc`. -/
theorem fn_fails_iff (f : Fn W) (hf : f.exitstat = id) (o : Opts W) (ho : o.exec = true) (s : S W) :
    (callFn o f s).1.bad = true ↔
      match (f.call s.w).1 with
      | .exit _ => True
      | .raise e => (convert e).status.truthy = true
      | .ret v => v.truthy = true ∧ (convert v).status.truthy = true := by
  have hw : (emit o (f.display.getD []) s).w = s.w := by rw [emit_out]
  simp only [callFn, ho, if_true, fnExec, hw]
  match hc : f.call s.w with
  | (.exit c, w') => simp [applyExitstat, Stat.bad]
  | (.raise e, w') =>
    simp only [applyExitstat, hf, id]
    split <;> simp_all [Stat.bad]
  | (.ret v, w') =>
    simp only
    cases hv : v.truthy with
    | true =>
      simp only [if_true, applyExitstat, hf, id]
      split <;> simp_all [Stat.bad]
    | false =>
      simp only [Bool.false_eq_true, if_false, applyExitstat, hf, id, Stat.bad, false_and, iff_false,
        Bool.not_eq_true]
      cases v with
      | value s => simpa [Py.status, Py.truthy] using hv
      | str x =>
        cases x with
        | nil => rfl
        | cons => simp [Py.truthy] at hv
      | _ => simp [Py.truthy] at hv

/-- **C40 (end to end)** In a build without `-i`, `-n` in which no action exits explicitly
with status 0: if some task's action list fails (see C39: some command that is not
ignored has a non-zero status, or some Python function fails), scons does not exit
with success. -/
theorem C40_failed_action_fails_the_build (m : Mode) (hm : m ≠ .ignore) (o : Opts W)
    (tasks : List (List (Act W) × S W))
    (h : ∃ t ∈ tasks, ∃ s' st, FailsAt o (leavesL t.1) t.2 s' st)
    (hz : ∀ t ∈ tasks, ∀ c, (execute o t.1 t.2).1 = .exit c → c.truthy = true) :
    success ((tasks.map fun t => taskReport o t.1 t.2).foldl (report m) Glob.init) = false := by
  apply C40_failure_is_reported_partial m hm
  · obtain ⟨t, ht, s', st, hf⟩ := h
    refine ⟨taskReport o t.1 t.2, List.mem_map_of_mem (f := fun t => taskReport o t.1 t.2) ht, ?_⟩
    have hne : asRaised st ≠ .none := by cases st <;> simp [asRaised]
    have := ((C39_in_order_until_first_failure o t.1 t.2 s').2 _ hne).2 ⟨st, hf, rfl⟩
    unfold taskReport
    rw [this]
    cases st <;> rfl
  · intro r hr
    obtain ⟨t, ht, rfl⟩ := List.mem_map.1 hr
    have := hz t ht
    unfold taskReport
    match he : (execute o t.1 t.2).1 with
    | .none => exact fun h => h
    | .buildError e => exact fun h => h
    | .exit c =>
      have hc := this c he
      intro hx
      simp only [taskException, Report.isExitZero, ExitZero] at hx
      rw [hc] at hx; cases hx

end Verif.Act
