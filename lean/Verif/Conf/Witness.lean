import Verif.Conf.Modes

/-!
# C70: a case that meets the hypotheses, and cases the code gets wrong

The check is a `TryRun`: node 0 is the text (a `Value`), 1 a project header the text includes, 2
`conftest.c`, 3 `conftest.o`, 4 the program, 5 its output.  Contents are numbers.
Actions: 10 writes the text, 11 compiles (it fails if the text or the header is not there or the header contains 0),
12 links, 13 runs the program.  3 is the node whose `store_info` is left on.
-/

namespace Verif.Conf.Witness

def effect (a : Nat) (cs : List (Option Nat)) : Effect Nat Nat :=
  match a, cs with
  | 10, [some x] => ⟨true, fun _ => some x⟩
  | 11, [some x, some y] => if y = 0 then ⟨false, fun _ => none⟩ else ⟨true, fun _ => some (100 * x + y)⟩
  | 12, [some x] => ⟨true, fun _ => some (x + 1)⟩
  | 13, [some x] => ⟨true, fun _ => some (x + 1)⟩
  | 14, [some x] => ⟨true, fun n => some (x + n)⟩
  | _, _ => ⟨false, fun _ => none⟩

def cfg : Cfg Nat Nat (Option Nat) Nat where
  mode := .auto
  dry := false
  noexec := false
  leaf n := n < 2
  viaEnv n := n ≠ 0
  track n := n = 3
  sig := id
  sem := effect

def tryRun : List (Task Nat Nat) :=
  [⟨[2], [0], 10⟩, ⟨[3], [2, 1], 11⟩, ⟨[4], [3], 12⟩, ⟨[5], [4], 13⟩]

/-- The text is 7, the header `h`. -/
def files (h : Nat) : Nat → Option Nat
  | 0 => some 7
  | 1 => some h
  | _ => none

def start : World Nat Nat (Option Nat) Nat := blank (files 1) cfg

theorem fair : Fair cfg := by
  refine ⟨fun _ _ h => h, ?_⟩
  intro a cs n
  show (effect a cs).ok = true → ((effect a cs).out n).isSome
  unfold effect
  split
  · simp
  · split <;> simp
  · simp
  · simp
  · simp
  · simp

theorem wf : WF cfg.leaf [] tryRun := by
  simp only [tryRun, WF, cfg]
  decide

def evs (h : Nat) : List (Ev Nat Nat Nat) := [.check false tryRun, .edit (files h), .check false tryRun]

/-- The histories of `C70_verdict_partial` and `C70_not_again`: a header is broken and a check that
succeeded fails, or is changed and the check succeeds with another output. -/
theorem regular (h : Nat) : Regular cfg start (evs h) := by
  refine ⟨⟨wf, fun n => Or.inl rfl⟩, trivial, ⟨wf, fun n => Or.inl ?_⟩, trivial⟩
  show (Ev.apply cfg (Ev.apply cfg start (.check false tryRun)) (.edit (files h))).stored n = none
  show (run { cfg with mode := modeOf false } tryRun start).w.stored n = none
  rw [run_stored]; rfl

theorem nonvacuous :
    (run cfg tryRun start).v = .ok ∧ (run cfg tryRun start).ran = [10, 11, 12, 13] ∧
    (run cfg tryRun start).w.file 5 = some 703 ∧
    (run cfg tryRun ((run cfg tryRun start).w)).ran = [] ∧
    (run cfg tryRun (Ev.apply cfg (run cfg tryRun start).w (.edit (files 0)))).v = .no ∧
    (run cfg tryRun (Ev.apply cfg (run cfg tryRun start).w (.edit (files 0)))).ran = [11] ∧
    (run cfg tryRun (Ev.apply cfg (run cfg tryRun start).w (.edit (files 2)))).v = .ok ∧
    (run cfg tryRun (Ev.apply cfg (run cfg tryRun start).w (.edit (files 2)))).w.file 5 = some 704 ∧
    (run { cfg with mode := .force } tryRun (run cfg tryRun start).w).ran = [10, 11, 12, 13] ∧
    (run { cfg with mode := .cache } tryRun start).v = .cacheError ∧
    (run { cfg with dry := true, noexec := true } tryRun start).v = .dryError := by
  refine ⟨?_, ?_, ?_, ?_, ?_, ?_, ?_, ?_, ?_, ?_, ?_⟩ <;> decide +kernel

/-- **C70** is false when a build has recorded the header's signature and the header is changed then:
`BuildNodes` sets `max_drift` to 0, so the recorded signature is taken for the header's, the check is taken to be up to
date, and it reports the old verdict. -/
theorem C70_stale_header :
    let w := Ev.apply cfg (Ev.apply cfg (Ev.apply cfg start (.check false tryRun)) (.mainBuild [1])) (.edit (files 0))
    (run cfg tryRun w).v = .ok ∧ (run cfg tryRun w).ran = [] ∧
      (scratch cfg.leaf cfg.sem tryRun (onlyLeaves cfg w)).1 = false := by
  refine ⟨?_, ?_, ?_⟩ <;> decide +kernel

/-- ... and for good, if the header is the recorded one again when the next run looks: the check made at a time
when the header was broken is recorded under the signature of the header that is not. -/
theorem C70_stale_for_good :
    let w1 := Ev.apply cfg (Ev.apply cfg start (.mainBuild [1])) (.edit (files 0))
    let w2 := Ev.apply cfg (run cfg tryRun w1).w (.edit (files 1))
    (run cfg tryRun w1).v = .no ∧ (run cfg tryRun w2).v = .no ∧ (run cfg tryRun w2).ran = [] ∧
      Current cfg w2 ∧ (scratch cfg.leaf cfg.sem tryRun (onlyLeaves cfg w2)).1 = true := by
  refine ⟨?_, ?_, ?_, ?_, ?_⟩
  · decide +kernel
  · decide +kernel
  · decide +kernel
  · intro n
    have hst : ∀ W : World Nat Nat (Option Nat) Nat,
        (Ev.apply cfg (run cfg tryRun W).w (.edit (files 1))).stored n = W.stored n :=
      fun W => congrFun (run_stored cfg tryRun W) n
    by_cases hn : n = 1
    · subst hn; right; decide +kernel
    · left
      rw [hst]
      show (if n ∈ [1] ∧ cfg.leaf n = true then _ else none) = none
      rw [if_neg]; simp [hn]
  · decide +kernel

/-- The directory of the checks removed, `.sconsign.dblite` kept. -/
def lost (w : World Nat Nat (Option Nat) Nat) : World Nat Nat (Option Nat) Nat :=
  { w with file := fun n => if cfg.leaf n then w.file n else none }

/-- **C70** is false when `.sconf_temp` is removed and `.sconsign.dblite` is not: `conftest.c` counts as up
to date though it is not there, the compilation is done without it, and the check that succeeded fails, in this
run and in all that follow, although nothing of the project has changed. -/
theorem C70_lost_directory :
    let w := lost (run cfg tryRun start).w
    (run cfg tryRun w).v = .no ∧ (run cfg tryRun w).ran = [11] ∧
      (run cfg tryRun (run cfg tryRun w).w).v = .no ∧ (run cfg tryRun (run cfg tryRun w).w).ran = [] ∧
      (scratch cfg.leaf cfg.sem tryRun (onlyLeaves cfg w)).1 = true := by
  refine ⟨?_, ?_, ?_, ?_, ?_⟩ <;> decide +kernel

/-- If only the output is lost, `TryRun` reports success and no output. -/
theorem C70_lost_output :
    let w := { (run cfg tryRun start).w with file := fun n => if n = 5 then none else (run cfg tryRun start).w.file n }
    (run cfg tryRun w).v = .ok ∧ (run cfg tryRun w).w.file 5 = none := by
  refine ⟨?_, ?_⟩ <;> decide +kernel

/-- **C70** is false after `--config=cache` with a changed header: that run removes what the check made
before it decides to take it from the cache (`TryRun` gives success and no output), and records the changed
header's signature for the intermediate file; the next ordinary run fails, although nothing is wrong. -/
theorem C70_cache_removes :
    let w := Ev.apply cfg (run cfg tryRun start).w (.edit (files 2))
    let r := run { cfg with mode := .cache } tryRun w
    r.v = .ok ∧ r.w.file 5 = none ∧ (run cfg tryRun r.w).v = .no ∧
      (run cfg tryRun (run cfg tryRun r.w).w).v = .no ∧ (run cfg tryRun (run cfg tryRun r.w).w).ran = [] ∧
      (scratch cfg.leaf cfg.sem tryRun (onlyLeaves cfg r.w)).1 = true := by
  refine ⟨?_, ?_, ?_, ?_, ?_, ?_⟩ <;> decide +kernel

/-- `-q` removes the files of a check that needs to be made again (`-n` does not: `C70_no_exec`); if the
change is undone, the check that succeeded fails. -/
theorem C70_question_removes :
    let w := Ev.apply cfg (run cfg tryRun start).w (.edit (files 2))
    let r := run { cfg with dry := true } tryRun w
    let w' := Ev.apply cfg r.w (.edit (files 1))
    r.v = .dryError ∧ w.file 3 = some 701 ∧ r.w.file 3 = none ∧ (run cfg tryRun w').v = .no ∧
      (scratch cfg.leaf cfg.sem tryRun (onlyLeaves cfg w')).1 = true := by
  refine ⟨?_, ?_, ?_, ?_, ?_⟩ <;> decide +kernel

/-- A check with two targets, one of which is lost: the other one is removed, and the check is reported to have
succeeded. -/
theorem C70_two_targets :
    let ks : List (Task Nat Nat) := [⟨[6, 7], [1], 14⟩]
    let w := { (run cfg ks start).w with file := fun n => if n = 6 then none else (run cfg ks start).w.file n }
    (run cfg ks start).v = .ok ∧ w.file 7 = some 8 ∧
    (run cfg ks w).v = .ok ∧ (run cfg ks w).w.file 6 = none ∧ (run cfg ks w).w.file 7 = none := by
  refine ⟨?_, ?_, ?_, ?_, ?_⟩ <;> decide +kernel

end Verif.Conf.Witness
