import Verif.Act.Props
/-!
# Actions and exit status: concrete cases and counterexamples
-/
namespace Verif.Act.Witness

open Verif.Act

/-- The world is the list of the commands that were run. -/
abbrev Log := List (List Str)

def w (s : String) : Str := s.toList

/-- `false` and `-false` have status 1 and 127, everything else status 0. -/
def spawn (l : List Str) (x : Log) : Int × Log :=
  (if l = [w "false"] then 1 else if l = [w "-false"] then 127 else 0, x ++ [l])

def o : Opts Log := { shows := true, exec := true, spawn := spawn }

def mk (ls : List (List Str)) : Cmd := { lines := ls, cmdstr := .null, exitstat := id }

def s0 : S Log := { w := [], out := [] }

/-- `["touch a", ["@touch b", "-false"], "false", "touch c"]`. -/
def acts : List (Act Log) :=
  [.cmd (mk [[w "touch", w "a"]]),
   .list [.cmd (mk [[w "@touch", w "b"]]), .cmd (mk [[w "-false"]])],
   .cmd (mk [[w "false"]]),
   .cmd (mk [[w "touch", w "c"]])]

theorem acts_run : (execute o acts s0).1 = .buildError { status := .int 1, exitstatus := .int 2 } ∧
    (execute o acts s0).2.w = [[w "touch", w "a"], [w "touch", w "b"], [w "false"], [w "false"]] ∧
    (execute o acts s0).2.out = [w "touch a", w "false", w "false"] := by
  refine ⟨?_, ?_, ?_⟩ <;> decide +kernel

/-- The second half of C39 applies to it: the failure is the third leaf. -/
theorem acts_fails : ∃ st, FailsAt o (leavesL acts) s0 (execute o acts s0).2 st ∧
    .buildError { status := .int 1, exitstatus := .int 2 } = asRaised st := by
  refine ((C39_in_order_until_first_failure o acts s0 _).2 _ (by simp)).1 ?_
  rw [← acts_run.1]

/-- ... and the first half to the actions before the failing one. -/
example : AllOk o (leavesL (acts.take 2)) s0 (execute o (acts.take 2) s0).2 :=
  (C39_in_order_until_first_failure o (acts.take 2) s0 _).1.1
    (Prod.ext (by decide +kernel) rfl)

example : (leavesL acts).length = 5 := by decide

/-- `-` on the first line: both lines run although the first fails. -/
def dashed : Cmd := mk [[w "@-false"], [w "touch", w "d"]]

example : (process dashed.lines).2.1 = true := by decide

example : cmdExec spawn dashed [] = (.val (.int 0), [[w "false"], [w "touch", w "d"]]) := by
  decide +kernel

/-- Without `-` the second line does not run. -/
def plain : Cmd := mk [[w "false"], [w "touch", w "d"]]

example : (process plain.lines).2.1 = false := by decide

example : cmdExec spawn plain [] = (.err { status := .int 1, exitstatus := .int 2 }, [[w "false"]]) := by
  decide +kernel

/-- `-n`. -/
def dry : Opts Log := { o with exec := false }

example : (execute dry acts s0).1 = .none ∧ (execute dry acts s0).2.w = [] ∧
    (execute dry acts s0).2.out = [w "touch a", w "false", w "false", w "touch c"] := by
  refine ⟨?_, ?_, ?_⟩ <;> decide +kernel

/-! ### Limits of C39 -/

/-- **C39, counterexample.** The prefixes are recognised on the first line only: for the
command `"touch a\n-false"` (from a variable that holds both lines) the second line is
run as the program named `-false` and its failure fails the action. -/
theorem C39_counterexample_prefix_on_second_line :
    cmdExec spawn (mk [[w "touch", w "a"], [w "-false"]]) [] =
      (.err { status := .int 127, exitstatus := .int 2 }, [[w "touch", w "a"], [w "-false"]]) := by
  decide +kernel

/-- An `exitstatfunc` that takes every status for success. -/
def lenient : Cmd := { plain with exitstat := fun _ => .int 0 }

/-- **C39, counterexample.** With an `exitstatfunc` that declares status 1 a success, the
rest of the lines of the same command is not run although the action succeeds: the
function is asked once for the action, not for each line. -/
theorem C39_counterexample_exitstatfunc_skips_lines :
    (execute o [.cmd lenient] s0).1 = .none ∧ (execute o [.cmd lenient] s0).2.w = [[w "false"]] := by
  refine ⟨?_, ?_⟩ <;> decide +kernel

/-! ### C40 -/

/-- A failed compilation and, later, an action that calls `Exit(0)`. -/
def masked : List Report :=
  [.failed (.buildError { status := .int 1, exitstatus := .int 2 }), .ok, .failed (.explicitExit (.int 0))]

/-- **C40, counterexample.** With -k a target fails, then another target's action calls
`Exit(0)`: scons exits with status 0, while `GetBuildFailures()` has the failure. -/
theorem C40_counterexample_exit_zero_masks_failure :
    success (masked.foldl (report .keepGoing) Glob.init) = true ∧
    (masked.foldl (report .keepGoing) Glob.init).failures =
      [{ status := .int 1, exitstatus := .int 2 }, { status := .int 0, exitstatus := .int 0 }] := by
  decide +kernel

/-- The exact statement of C40 applies to the case: success, because of the last report. -/
example : (∀ r ∈ masked, r.isFailure = false) ∨
      ∃ pre r post, masked = pre ++ r :: post ∧ r.isExitZero ∧ ∀ x ∈ post, x.isFailure = false :=
  (C40_exit_status .keepGoing (by decide) masked).1 C40_counterexample_exit_zero_masks_failure.1

/-- In the other order the failure is reported. -/
example : success (masked.reverse.foldl (report .keepGoing) Glob.init) = false := by decide +kernel

/-- C40's sufficient condition applies to a -k build with one failure between successes. -/
example : success ([Report.ok, .failed .exception, .ok].foldl (report .keepGoing) Glob.init) = false :=
  C40_failure_is_reported_partial .keepGoing (by decide) _ ⟨.failed .exception, by simp, rfl⟩
    (by intro r hr; simp at hr; rcases hr with rfl | rfl | rfl <;> exact fun h => h)

/-- The end-to-end statement applies to the action list above. -/
example : success (([(acts, s0), ([], s0)].map fun t => taskReport o t.1 t.2).foldl (report .stop) Glob.init)
    = false := by
  refine C40_failed_action_fails_the_build .stop (by decide) o _ ?_ ?_
  · obtain ⟨st, h, _⟩ := acts_fails
    exact ⟨(acts, s0), by simp, _, st, h⟩
  · intro t ht c hc
    simp at ht
    rcases ht with rfl | rfl
    · rw [acts_run.1] at hc; cases hc
    · simp [execute] at hc

/-- A Python function that ends with this exception. -/
def raises (e : Py) : Fn Log := { call := fun x => (.raise e, x), display := none, exitstat := id }

/-- `shutil.copy(a, a)` raises SameFileError, made with one argument: its errno is None. -/
def copySame : Fn Log := raises (.sameFile .none)

/-- **C40, counterexample.** A Python function action that ends in a SameFileError (or in
an OSError whose errno is 0) counts as successful: the exception is converted to a
BuildError whose status is None, and the status is what is tested. The target is
recorded as built and scons exits with status 0. -/
theorem C40_counterexample_same_file_error :
    (execute o [.fn copySame] s0).1 = .none ∧
    success ([taskReport o [.fn copySame] s0].foldl (report .stop) Glob.init) = true ∧
    (execute o [.fn (raises (.osError (.int 0)))] s0).1 = .none := by
  decide +kernel

/-- Any other exception fails. -/
example : (execute o [.fn (raises .exception)] s0).1 = .buildError { status := .int 2, exitstatus := .int 2 } := by
  decide +kernel

end Verif.Act.Witness
