import Verif.Act.Props
/-!
# C39, one command or function, from the action call to the world

`C39_in_order_until_first_failure` speaks about the results of the single commands and
functions. Here these results are tied to what the user wrote (the words of the
command after substitution) and to what is run.
-/
namespace Verif.Act

variable {W : Type}

/-! ### Specification -/

/-- The word `w` consists of the prefix characters `pre` (only `@` and `-`) and the rest
`body` (which does not begin with one of these). -/
structure Prefixed (w pre body : Str) : Prop where
  split : w = pre ++ body
  pre_only : ∀ c ∈ pre, c = '@' ∨ c = '-'
  body_not : ∀ c r, body = c :: r → c ≠ '@' ∧ c ≠ '-'

/-- The lines that a command stands for: the first line without the prefix, then the others;
empty lines are left out. -/
def linesOf (body : Str) (ws : List Str) (ls : List (List Str)) : List (List Str) :=
  ((if body = [] then ws else body :: ws) :: ls).filter (fun l => !l.isEmpty)

/-! ### Proofs -/

theorem flags_prefixed (pre body : Str) (hp : ∀ c ∈ pre, c = '@' ∨ c = '-')
    (hb : ∀ c r, body = c :: r → c ≠ '@' ∧ c ≠ '-') :
    flags (pre ++ body) = (decide ('@' ∈ pre), decide ('-' ∈ pre), body) := by
  induction pre with
  | nil =>
    cases body with
    | nil => rfl
    | cons c r =>
      obtain ⟨h1, h2⟩ := hb c r rfl
      simp [flags, h1, h2]
  | cons c pre ih =>
    have ih := ih (fun x hx => hp x (List.mem_cons_of_mem _ hx))
    rcases hp c List.mem_cons_self with rfl | rfl
    · simp [flags, ih]
    · simp [flags, ih]

theorem every_word_prefixed (w : Str) : ∃ pre body, Prefixed w pre body := by
  induction w with
  | nil => exact ⟨[], [], rfl, by simp, by simp⟩
  | cons c w ih =>
    by_cases h : c = '@' ∨ c = '-'
    · obtain ⟨pre, body, h1, h2, h3⟩ := ih
      refine ⟨c :: pre, body, by simp [h1], ?_, h3⟩
      intro x hx
      rcases List.mem_cons.1 hx with rfl | hx
      · exact h
      · exact h2 x hx
    · refine ⟨[], c :: w, rfl, by simp, ?_⟩
      intro x r e
      cases e
      exact not_or.1 h

theorem process_prefixed {w pre body : Str} (h : Prefixed w pre body) (ws : List Str) (ls : List (List Str)) :
    process ((w :: ws) :: ls) =
      ((if body = [] then ws else body :: ws) :: ls, decide ('-' ∈ pre), decide ('@' ∈ pre)) := by
  obtain ⟨rfl, h2, h3⟩ := h
  simp only [process, flags_prefixed pre body h2 h3]
  cases body <;> simp

/-- **C39 (a command with `-`)** Calling a command action whose first word has `-` among
its prefix characters runs every line, in order, whatever their statuses, and succeeds. -/
theorem C39_command_ignoring (o : Opts W) (ho : o.exec = true) (c : Cmd) (hc : c.exitstat = id)
    {w pre body : Str} {ws : List Str} {ls : List (List Str)} (hl : c.lines = (w :: ws) :: ls)
    (hp : Prefixed w pre body) (hd : '-' ∈ pre) (s : S W) :
    (runLeaf o (.cmd c) s).1 = .val (.int 0) ∧
    LinesRun o.spawn (linesOf body ws ls) s.w (runLeaf o (.cmd c) s).2.w := by
  have hw : (emit o (cmdDisplay c) s).w = s.w := by rw [emit_out]
  have hpr := process_prefixed hp ws ls
  have := runLines_ignore o.spawn ((if body = [] then ws else body :: ws) :: ls) s.w
  simp only [runLeaf, callCmd, ho, if_true, cmdExec, hl, hpr, hd, decide_true, hw, hc]
  exact ⟨by rw [this.1]; rfl, this.2⟩

/-- **C39 (a command without `-`)** Calling a command action whose first word has no `-`
among its prefix characters runs the lines in order as long as their status is 0. If
all have status 0 it succeeds; otherwise the first line with another status is the
last that is run, and the action fails with this status. -/
theorem C39_command_strict (o : Opts W) (ho : o.exec = true) (c : Cmd) (hc : c.exitstat = id)
    {w pre body : Str} {ws : List Str} {ls : List (List Str)} (hl : c.lines = (w :: ws) :: ls)
    (hp : Prefixed w pre body) (hd : '-' ∉ pre) (s : S W) :
    ((runLeaf o (.cmd c) s).1 = .val (.int 0) ∧
      LinesOk o.spawn (linesOf body ws ls) s.w (runLeaf o (.cmd c) s).2.w) ∨
    ∃ before l after w1 r, linesOf body ws ls = before ++ l :: after ∧
      LinesOk o.spawn before s.w w1 ∧ r ≠ 0 ∧ o.spawn l w1 = (r, (runLeaf o (.cmd c) s).2.w) ∧
      (runLeaf o (.cmd c) s).1 = .err { status := .int r, exitstatus := .int 2 } := by
  have hw : (emit o (cmdDisplay c) s).w = s.w := by rw [emit_out]
  have hpr := process_prefixed hp ws ls
  have := runLines_strict o.spawn ((if body = [] then ws else body :: ws) :: ls) s.w
  have hd' : decide ('-' ∈ pre) = false := by simpa using hd
  simp only [runLeaf, callCmd, ho, if_true, cmdExec, hl, hpr, hd', hw, hc]
  rcases this with ⟨h1, h2⟩ | ⟨p, l, q, w1, r, h1, h2, h3, h4, h5⟩
  · exact .inl ⟨by rw [h1]; rfl, h2⟩
  · refine .inr ⟨p, l, q, w1, r, h1, h2, h3, h4, ?_⟩
    rw [h5]
    simp [applyExitstat, Status.truthy, h3]

/-- **C39 (printing)** Without `cmdstr`, what a command prints is its first line, without the
prefix, with the words that contain blanks in quotation marks; with `@` among the
prefix characters, or with `-s`, nothing. -/
theorem C39_command_prints (o : Opts W) (c : Cmd) (hs : c.cmdstr = .null)
    {w pre body : Str} {ws : List Str} {ls : List (List Str)} (hl : c.lines = (w :: ws) :: ls)
    (hp : Prefixed w pre body) (s : S W) :
    (runLeaf o (.cmd c) s).2.out =
      s.out ++ (if o.shows = true ∧ '@' ∉ pre then
        [cmdText (if body = [] then ws else body :: ws)].filter (fun t => !t.isEmpty) else []) := by
  rw [runLeaf_out]
  have : display (.cmd c : Leaf W) = if '@' ∈ pre then [] else cmdText (if body = [] then ws else body :: ws) := by
    simp only [display, cmdDisplay, hs, hl, process_prefixed hp ws ls, List.headD_cons]
    by_cases h : '@' ∈ pre <;> simp [h]
  rw [this]
  by_cases h : '@' ∈ pre <;> cases o.shows <;> simp [h]

/-- **C39 (a function)** Calling a Python function action runs the function once, in the world
as it is, and the world afterwards is the one it leaves. -/
theorem C39_function_runs_once (o : Opts W) (ho : o.exec = true) (f : Fn W) (s : S W) :
    (runLeaf o (.fn f) s).2.w = (f.call s.w).2 := by
  have hw : (emit o (f.display.getD []) s).w = s.w := by rw [emit_out]
  simp only [runLeaf, callFn, ho, if_true, fnExec, hw]
  match f.call s.w with
  | (.exit c, w') => rfl
  | (.raise e, w') => rfl
  | (.ret v, w') => cases hv : v.truthy <;> simp [hv]

/-- With `exitstatfunc` the status of a command or function is what this function makes of it;
it does not change what is run. -/
theorem C39_exitstat_only_maps (o : Opts W) (c : Cmd) (s : S W) :
    (runLeaf o (.cmd c) s).2 = (runLeaf o (.cmd { c with exitstat := id }) s).2 ∧
    (o.exec = true → (runLeaf o (.cmd c) s).1.bad =
      match (runLeaf o (.cmd { c with exitstat := id }) s).1 with
      | .err e => (c.exitstat e.status).truthy
      | .val v => (c.exitstat v).truthy
      | .exit _ => true) := by
  constructor
  · simp only [runLeaf, callCmd]
    have : cmdDisplay { c with exitstat := id } = cmdDisplay c := rfl
    rw [this]
    cases o.exec <;> rfl
  · intro ho
    have hd : cmdDisplay { c with exitstat := id } = cmdDisplay c := rfl
    have he : ∀ w, cmdExec o.spawn { c with exitstat := id } w = cmdExec o.spawn c w := fun _ => rfl
    simp only [runLeaf, callCmd, ho, if_true, hd, he]
    match hx : cmdExec o.spawn c (emit o (cmdDisplay c) s).w with
    | (.err e, w) =>
      simp only [applyExitstat]
      have hs : e.status.truthy = true := by
        unfold cmdExec at hx
        match hp : process c.lines with
        | (ls, i, _) =>
          rw [hp] at hx
          simp only at hx
          cases i with
          | true => have := (runLines_ignore o.spawn ls (emit o (cmdDisplay c) s).w).1; rw [hx] at this; cases this
          | false =>
            rcases runLines_strict o.spawn ls (emit o (cmdDisplay c) s).w with ⟨h, _⟩ | ⟨_, _, _, _, r, _, _, hr, _, h⟩
            · rw [hx] at h; cases h
            · rw [hx] at h
              simp only [Stat.err.injEq] at h
              rw [h]
              simpa [Status.truthy] using hr
      rw [show (id e.status : Status) = e.status from rfl, hs]
      simp only [if_true]
      split <;> simp_all [Stat.bad]
    | (.val v, w) => simp [applyExitstat, Stat.bad]
    | (.exit x, w) => simp [applyExitstat, Stat.bad]

/-- The hypotheses are met: `@-rm x`, then `cp a b`, where both fail: both are run. -/
theorem C39_command_nonvacuous :
    ∃ (o : Opts (List Str)) (c : Cmd) (w pre body : Str) (ws : List Str) (ls : List (List Str)),
      o.exec = true ∧ c.exitstat = id ∧ c.lines = (w :: ws) :: ls ∧ Prefixed w pre body ∧ '-' ∈ pre ∧
      (runLeaf o (.cmd c) ⟨[], []⟩).2.w = [['r', 'm'], ['c', 'p']] := by
  refine ⟨⟨true, true, fun l w => (1, w ++ [l.headD []])⟩,
    ⟨[["@-rm".toList, "x".toList], ["cp".toList, "a".toList]], .null, id⟩,
    "@-rm".toList, "@-".toList, "rm".toList, ["x".toList], [["cp".toList, "a".toList]], rfl, rfl, rfl,
    ⟨rfl, by decide, ?_⟩, by decide, rfl⟩
  intro c r h
  cases h
  decide

end Verif.Act
