import Verif.Build.SessionClean
import Verif.Build.ComposeWitness

/-!
# C74: concrete sessions

A session for which the hypotheses of C74 hold, and four that show what goes wrong without them.
-/

namespace Verif.Build

open Verif.Sig

section
variable {k : Nat}

/-- What happens next in a command: a step without failure, or the action of a node fails under `-k` and leaves no files. -/
inductive SCmd (k : Nat)
  | ok (c : Cmd k)
  | fail (n : Fin k) (post : List (Fin k))

/-- One step. -/
def sessExec (D : Desc (Fin k) Nat Nat) (C : TM.Cfg (Fin k)) (X : CSt (Fin k) Nat Nat Nat) : SCmd k → Option (CSt (Fin k) Nat Nat Nat)
  | .ok c => cexec D C X c
  | .fail n post => (TM.step C X.T (.finish n (some .keepGoing) post)).map fun T' => ⟨T', X.S.failAll (fun _ => none) (C.targets n), X.memo⟩

/-- The steps of a command. -/
def sessExecs (D : Desc (Fin k) Nat Nat) (C : TM.Cfg (Fin k)) : CSt (Fin k) Nat Nat Nat → List (SCmd k) → Option (CSt (Fin k) Nat Nat Nat)
  | X, [] => some X
  | X, c :: cs => (sessExec D C X c).bind fun X' => sessExecs D C X' cs

theorem sessExecs_sound {D : Desc (Fin k) Nat Nat} {C : TM.Cfg (Fin k)} {orig : List (Fin k)} {X X' X0 : CSt (Fin k) Nat Nat Nat} {cs : List (SCmd k)}
    (h : sessExecs D C X cs = some X') (h0 : CSteps exM D C (CmdStep (fun _ => []) orig) X0 X) : CSteps exM D C (CmdStep (fun _ => []) orig) X0 X' := by
  induction cs generalizing X with
  | nil => simp only [sessExecs, Option.some.injEq] at h; subst h; exact h0
  | cons c cs ih =>
    simp only [sessExecs, Option.bind_eq_some_iff] at h
    obtain ⟨X1, h1, h2⟩ := h
    cases c with
    | ok c =>
      obtain ⟨l, -, a2, a3, a4⟩ := cexec_sound h1
      exact ih h2 (.tail l h0 ⟨a2, a3 _⟩ a4)
    | fail n post =>
      simp only [sessExec, Option.map_eq_some_iff] at h1
      obtain ⟨T', hT, rfl⟩ := h1
      exact ih h2 (.tail (.finish n (some .keepGoing) post) h0 ⟨by simp [NoIgnore, TM.Lab.noIgnore], trivial⟩ (.fail hT))

/-- What the user does, and what happens in each command. -/
inductive Act (k : Nat)
  | edit (v : Fin k) (b : Option Nat)
  | build (orig : List (Fin k)) (cs : List (SCmd k))

/-- The event of an act. -/
def Act.event : Act k → Event (Fin k) Nat
  | .edit v b => .edit v b
  | .build orig _ => .build orig

/-- The command was carried out. -/
def okB (X : CSt (Fin k) Nat Nat Nat) : Bool :=
  decide (X.T.cands = [] ∧ X.T.tops = [] ∧ X.T.active = [] ∧ X.T.stopped = false ∧ X.T.failedTasks = ∅ ∧ X.T.pend = ∅)

theorem okB_sound {X : CSt (Fin k) Nat Nat Nat} (h : okB X = true) : Succeeded X := by
  simp only [okB, decide_eq_true_eq] at h
  obtain ⟨o1, o2, o3, o4, o5, o6⟩ := h
  refine ⟨⟨o1, Or.inl o2, o3⟩, o4, o5, ?_⟩
  rintro ⟨n, hn, _⟩
  rw [o6] at hn; simp at hn

/-- A session, latest act first; `chk` is asked about every command. -/
def sess (D : Desc (Fin k) Nat Nat) (C : TM.Cfg (Fin k)) (chk : List (Fin k) → CSt (Fin k) Nat Nat Nat → Bool) (P : Prompt (Fin k) Nat Nat Nat) :
    List (Act k) → Option (Prompt (Fin k) Nat Nat Nat)
  | [] => some P
  | .edit v b :: as => (sess D C chk P as).map fun P' => P'.edit v b
  | .build orig cs :: as => (sess D C chk P as).bind fun P' => (sessExecs D C (P'.start orig) cs).bind fun X =>
      if chk orig X then some (X.prompt D orig) else none

theorem alts_nil (orig : List (Fin k)) : orig ++ alts (fun _ => []) orig = orig := by
  simp

theorem sess_sound {D : Desc (Fin k) Nat Nat} {C : TM.Cfg (Fin k)} {chk : List (Fin k) → CSt (Fin k) Nat Nat Nat → Bool} {ok : List (Fin k) → CSt (Fin k) Nat Nat Nat → Prop}
    (hok : ∀ o X, chk o X = true → ok o X) {P P' : Prompt (Fin k) Nat Nat Nat} {as : List (Act k)} (h : sess D C chk P as = some P') :
    Session exM D C (fun _ => []) ok (as.reverse.map Act.event) P P' := by
  induction as generalizing P' with
  | nil => simp only [sess, Option.some.injEq] at h; subst h; exact .nil P
  | cons a as ih =>
    cases a with
    | edit v b =>
      simp only [sess, Option.map_eq_some_iff] at h
      obtain ⟨P1, h1, rfl⟩ := h
      simpa [Act.event] using (ih h1).edit v b
    | build orig cs =>
      simp only [sess, Option.bind_eq_some_iff] at h
      obtain ⟨P1, h1, X, h2, h3⟩ := h
      split at h3
      case isFalse => cases h3
      rename_i hc
      injection h3 with h3
      subst h3
      have := Session.build orig (ih h1) (sessExecs_sound h2 (.refl _)) (hok _ _ hc)
      rw [alts_nil] at this
      simpa [Act.event] using this

/-- `Tracked`, decidable. -/
def trackedB (D : Desc (Fin k) Nat Nat) (C : TM.Cfg (Fin k)) (orig : List (Fin k)) (X : CSt (Fin k) Nat Nat Nat) : Bool :=
  decide (∀ n ∈ X.seenNodes D orig, (∀ c ∈ X.T.seen n, c ∈ X.seenNodes D orig) ∧ (∀ m ∈ C.targets n, m ∈ X.seenNodes D orig) ∧
    ∀ m ∈ C.prereqs n, m ∈ X.seenNodes D orig)

/-- `Proper`, decidable. -/
def properB (D : Desc (Fin k) Nat Nat) (C : TM.Cfg (Fin k)) (orig : List (Fin k)) (X : CSt (Fin k) Nat Nat Nat) : Bool := okB X && trackedB D C orig X

theorem properB_sound {D : Desc (Fin k) Nat Nat} {C : TM.Cfg (Fin k)} {orig : List (Fin k)} {X : CSt (Fin k) Nat Nat Nat} (h : properB D C orig X = true) :
    Proper D C (fun _ => []) orig X := by
  simp only [properB, Bool.and_eq_true] at h
  refine ⟨okB_sound h.1, ?_⟩
  rw [alts_nil]
  have := h.2
  simp only [trackedB, decide_eq_true_eq] at this
  exact this

end

/-- Shorthand. -/
abbrev go {k : Nat} (pushed post : List (Fin k)) : SCmd k := .ok (.go pushed post)
/-- Shorthand. -/
abbrev fin {k : Nat} (n : Fin k) (post : List (Fin k)) : SCmd k := .ok (.fin n post)

/-! ## A session that works -/

/-- Build 2, change file 0, build 2 again, build it a third time. -/
def goodActs : List (Act 4) :=
  [.build [2] [go [1, 3] [], go [] [], go [0] [], go [] [1], go [] [2], go [] []],
   .build [2] [go [1, 3] [], go [] [], go [0] [], go [] [1], go [] [], fin 1 [2], go [] [], fin 2 []],
   .edit 0 (some 7),
   .build [2] [go [1, 3] [], go [] [], go [0] [], go [] [1], go [] [], fin 1 [2], go [] [], fin 2 []]]

theorem good_some : (sess exE exCfg (properB exE exCfg) (Prompt.fresh exF.fs fun _ => {}) goodActs).isSome = true := by decide +kernel

/-- The prompt afterwards. -/
def goodEnd : Prompt (Fin 4) Nat Nat Nat := (sess exE exCfg (properB exE exCfg) (Prompt.fresh exF.fs fun _ => {}) goodActs).get good_some

theorem good_eq : sess exE exCfg (properB exE exCfg) (Prompt.fresh exF.fs fun _ => {}) goodActs = some goodEnd := (Option.some_get good_some).symm

theorem goodMid_some : (sess exE exCfg (properB exE exCfg) (Prompt.fresh exF.fs fun _ => {}) goodActs.tail.tail).isSome = true := by decide +kernel

/-- The prompt after the first build and the edit. -/
def goodMid : Prompt (Fin 4) Nat Nat Nat := (sess exE exCfg (properB exE exCfg) (Prompt.fresh exF.fs fun _ => {}) goodActs.tail.tail).get goodMid_some

theorem goodMid_eq : sess exE exCfg (properB exE exCfg) (Prompt.fresh exF.fs fun _ => {}) goodActs.tail.tail = some goodMid := (Option.some_get goodMid_some).symm

/-- What happens in the second command. -/
def goodSteps : List (SCmd 4) := [go [1, 3] [], go [] [], go [0] [], go [] [1], go [] [], fin 1 [2], go [] [], fin 2 []]

theorem goodCmd_some : (sessExecs exE exCfg (goodMid.start [2]) goodSteps).isSome = true := by decide +kernel

/-- The second command of the session. -/
def goodCmd : CSt (Fin 4) Nat Nat Nat := (sessExecs exE exCfg (goodMid.start [2]) goodSteps).get goodCmd_some

theorem goodCmd_eq : sessExecs exE exCfg (goodMid.start [2]) goodSteps = some goodCmd := (Option.some_get goodCmd_some).symm

/-- The hypotheses of C74 hold for this session; the second command rebuilds the file, the third finds everything up to date and starts nothing. -/
theorem C74_nonvacuous :
    Session exM exE exCfg (fun _ => []) (Proper exE exCfg (fun _ => [])) (goodActs.reverse.map Act.event) (Prompt.fresh exF.fs fun _ => {}) goodEnd ∧
    (∀ e ∈ goodActs.reverse.map Act.event, LegalEvent exE e) ∧
    (∀ t ∈ [(2 : Fin 4)], Clean exM exE goodCmd.S.fs t (goodCmd.S.fs t)) ∧
    goodMid.S.fs 0 = some 7 ∧ goodMid.S.fs 2 = some 212 ∧ goodCmd.S.fs 2 = some 218 ∧ goodEnd.S.fs 2 = some 218 := by
  refine ⟨?_, ?_, ?_, by decide +kernel, by decide +kernel, by decide +kernel, by decide +kernel⟩
  · have h1 := good_eq
    generalize goodEnd = R at *
    exact sess_sound (fun _ _ h => properB_sound h) h1
  · have : (exE 0).isNone = true := by decide +kernel
    simp [goodActs, Act.event, LegalEvent, Option.isNone_iff_eq_none.1 this]
  · have h2 := goodMid_eq
    have h3 := goodCmd_eq
    have h4 : okB goodCmd = true := by decide +kernel
    generalize goodCmd = R at *
    generalize goodMid = Q at *
    have hs := sess_sound (ok := Proper exE exCfg (fun _ => [])) (fun _ _ h => properB_sound h) h2
    refine C74_session_builds_everything exM_faithful exE_wf exCfg_groups ?_ hs (sessExecs_sound h3 (.refl _)) (okB_sound h4)
    have : (exE 0).isNone = true := by decide +kernel
    simp [goodActs, Act.event, LegalEvent, Option.isNone_iff_eq_none.1 this]

/-! ## `Requires()` -/

/-- 0 and 1 are sources; 2 is built from 1; 3 is built from 0. -/
def reqE : Desc (Fin 4) Nat Nat := fun v =>
  if v = 0 ∨ v = 1 then none
  else if v = 2 then some (.found { sources := [1], depends := [], implicit := [], ignore := [], action := 1 })
  else some (.found { sources := [0], depends := [], implicit := [], ignore := [], action := 2 })

/-- `Requires(3, 2)`. -/
def reqCfg : TM.Cfg (Fin 4) :=
  { targets := fun n => [n], actTargets := fun n => if n = 0 ∨ n = 1 then [] else [n], prereqs := fun n => if n = 3 then [2] else [], sideEffects := fun _ => [] }

theorem reqCfg_groups : TM.Groups reqCfg (fun n => (reqE n).isSome) where
  wf := ⟨by decide, by decide, by decide, by decide⟩
  noSE := fun _ => rfl
  src := by decide
  all := by decide
  real := by decide
  pre := by decide

theorem reqE_wf : WF reqE := by
  intro t sc h fs
  unfold reqE at h
  split at h
  · cases h
  · split at h <;>
    · simp only [Option.some.injEq] at h
      subst h
      simp [Scan.asked, Scan.result, Leaf.children]

/-- Files. -/
def reqFs : Files (Fin 4) Nat := fun v => if v = 0 then some 4 else if v = 1 then some 5 else none

/-- `build 3`, change file 1, `build 2`. -/
def reqActs : List (Act 4) :=
  [.build [2] [go [] []],
   .edit 1 (some 9),
   .build [3] [go [2, 0] [], go [] [], go [1] [], go [] [2], go [] [], fin 2 [3], go [] [], fin 3 []]]

theorem req_some : (sess reqE reqCfg (fun _ => okB) (Prompt.fresh reqFs fun _ => {}) reqActs).isSome = true := by decide +kernel

/-- The prompt afterwards. -/
def reqEnd : Prompt (Fin 4) Nat Nat Nat := (sess reqE reqCfg (fun _ => okB) (Prompt.fresh reqFs fun _ => {}) reqActs).get req_some

theorem req_eq : sess reqE reqCfg (fun _ => okB) (Prompt.fresh reqFs fun _ => {}) reqActs = some reqEnd := (Option.some_get req_some).symm

/-- A file made by one command from one source. -/
theorem clean_of_one {k : Nat} {D : Desc (Fin k) Nat Nat} {fs : Files (Fin k) Nat} {v c : Fin k} {a : Nat}
    (hv : D v = some (.found { sources := [c], depends := [], implicit := [], ignore := [], action := a })) (hc : D c = none) :
    Clean exM D fs v (some (a * ((fs c).getD 0 + 1))) := by
  have := Clean.target (M := exM) (D := D) (src := fs) (v := v) fs hv
    (by simp [Scan.result, Leaf.children]; exact .source hc)
  simpa [Scan.result, Leaf.children, exM, Sem.see] using this

/-- **C74** is false of prerequisites: they are built by a command but not found by the walk over the children, so their state stays.  Here every command of the session is
carried out; after `build 3` (with `Requires(3, 2)`) and a change of the source file 1 of 2, `build 2` says that 2 is up to date. -/
theorem C74_requires :
    Session exM reqE reqCfg (fun _ => []) (fun _ X => Succeeded X) [.build [3], .edit 1 (some 9), .build [2]] (Prompt.fresh reqFs fun _ => {}) reqEnd ∧
    reqEnd.S.fs 1 = some 9 ∧ reqEnd.S.fs 2 = some 6 ∧ ¬ Clean exM reqE reqEnd.S.fs 2 (reqEnd.S.fs 2) := by
  have h0 : reqEnd.S.fs 1 = some 9 := by decide +kernel
  have h1 : reqEnd.S.fs 2 = some 6 := by decide +kernel
  refine ⟨?_, h0, h1, fun hcl => ?_⟩
  · have h1 := req_eq
    generalize reqEnd = R at *
    exact sess_sound (fun _ _ h => okB_sound h) h1
  · have := Clean.unique reqE_wf hcl (clean_of_one (c := 1) (a := 1) rfl rfl)
    rw [h0, h1] at this
    revert this; decide

/-! ## Actions with several targets -/

/-- `build 1`, change file 0, `build 2`; one action makes 1 and 2 from 0. -/
def peerActs : List (Act 4) :=
  [.build [2] [go [] []],
   .edit 0 (some 9),
   .build [1] [go [0] [], go [] [1], go [] [], fin 1 []]]

theorem peer_some : (sess pairE pairCfg (fun _ => okB) (Prompt.fresh pairF.fs fun _ => {}) peerActs).isSome = true := by decide +kernel

/-- The prompt afterwards. -/
def peerEnd : Prompt (Fin 4) Nat Nat Nat := (sess pairE pairCfg (fun _ => okB) (Prompt.fresh pairF.fs fun _ => {}) peerActs).get peer_some

theorem peer_eq : sess pairE pairCfg (fun _ => okB) (Prompt.fresh pairF.fs fun _ => {}) peerActs = some peerEnd := (Option.some_get peer_some).symm

/-- **C74** is false of actions with several targets: the other targets are built by a command but not found by the walk. -/
theorem C74_other_target :
    Session exM pairE pairCfg (fun _ => []) (fun _ X => Succeeded X) [.build [1], .edit 0 (some 9), .build [2]] (Prompt.fresh pairF.fs fun _ => {}) peerEnd ∧
    peerEnd.S.fs 0 = some 9 ∧ peerEnd.S.fs 2 = some 35 ∧ ¬ Clean exM pairE peerEnd.S.fs 2 (peerEnd.S.fs 2) := by
  have h0 : peerEnd.S.fs 0 = some 9 := by decide +kernel
  have h1 : peerEnd.S.fs 2 = some 35 := by decide +kernel
  refine ⟨?_, h0, h1, fun hcl => ?_⟩
  · have h1 := peer_eq
    generalize peerEnd = R at *
    exact sess_sound (fun _ _ h => okB_sound h) h1
  · have := Clean.unique pairE_wf hcl (clean_of_one (c := 0) (a := 7) rfl rfl)
    rw [h0, h1] at this
    revert this; decide

/-! ## Dependencies that a second scan no longer finds -/

/-- 0 and 4 are sources; 1 is generated from 0 and 3 from 4; 2 is built from 1 and, if the content of 1 is below 10, also from 3 (found by the scanner). -/
def dropE : Desc (Fin 5) Nat Nat := fun v =>
  if v = 0 ∨ v = 4 then none
  else if v = 1 then some (.found { sources := [0], depends := [], implicit := [], ignore := [], action := 1 })
  else if v = 3 then some (.found { sources := [4], depends := [], implicit := [], ignore := [], action := 1 })
  else some (.look 1 fun c =>
    if (c.getD 0) < 10 then .found { sources := [1], depends := [], implicit := [3], ignore := [], action := 2 }
    else .found { sources := [1], depends := [], implicit := [], ignore := [], action := 2 })

theorem dropE_wf : WF dropE := by
  intro t sc h fs
  unfold dropE at h
  split at h
  · cases h
  · split at h
    · simp only [Option.some.injEq] at h
      subst h
      simp [Scan.asked, Scan.result, Leaf.children]
    · split at h
      · simp only [Option.some.injEq] at h
        subst h
        simp [Scan.asked, Scan.result, Leaf.children]
      · simp only [Option.some.injEq] at h
        subst h
        by_cases h0 : (fs 1).getD 0 < 10 <;> simp [Scan.asked, Scan.result, Leaf.children, h0]

/-- Executors. -/
def dropCfg : TM.Cfg (Fin 5) :=
  { targets := fun n => [n], actTargets := fun n => if n = 0 ∨ n = 4 then [] else [n], prereqs := fun _ => [], sideEffects := fun _ => [] }

theorem dropCfg_groups : TM.Groups dropCfg (fun n => (dropE n).isSome) := TM.Groups.solo (fun _ => rfl) (fun _ => rfl) (by decide) (by decide)

/-- Files. -/
def dropFs : Files (Fin 5) Nat := fun v => if v = 0 then some 4 else if v = 4 then some 5 else none

/-- `build 2`; change 0, so that 2 no longer needs 3; `build 2`; change 4; `build 3`. -/
def dropActs : List (Act 5) :=
  [.build [3] [go [] []],
   .edit 4 (some 9),
   .build [2] [go [1, 3] [], go [4] [], go [] [3], go [] [], go [0] [], go [] [1], go [] [], fin 1 [2], go [] [], fin 2 []],
   .edit 0 (some 20),
   .build [2] [go [1, 3] [], go [4] [], go [] [3], go [] [], fin 3 [], go [0] [], go [] [1], go [] [], fin 1 [2], go [] [], fin 2 []]]

theorem drop_some : (sess dropE dropCfg (fun _ => okB) (Prompt.fresh dropFs fun _ => {}) dropActs).isSome = true := by decide +kernel

/-- The prompt afterwards. -/
def dropEnd : Prompt (Fin 5) Nat Nat Nat := (sess dropE dropCfg (fun _ => okB) (Prompt.fresh dropFs fun _ => {}) dropActs).get drop_some

theorem drop_eq : sess dropE dropCfg (fun _ => okB) (Prompt.fresh dropFs fun _ => {}) dropActs = some dropEnd := (Option.some_get drop_some).symm

/-- **C74** is false of dependencies that are found by reading a file that is itself built: when this changes, what the first scan of the command had found and the second one
did not is handled by the command but not found by the walk.  Here 2 includes the generated 1, which at first includes the generated 3 and then does not.  There are no
`Requires()` and no actions with several targets. -/
theorem C74_dropped_dependency :
    Session exM dropE dropCfg (fun _ => []) (fun _ X => Succeeded X) [.build [2], .edit 0 (some 20), .build [2], .edit 4 (some 9), .build [3]]
      (Prompt.fresh dropFs fun _ => {}) dropEnd ∧
    dropEnd.S.fs 4 = some 9 ∧ dropEnd.S.fs 3 = some 6 ∧ ¬ Clean exM dropE dropEnd.S.fs 3 (dropEnd.S.fs 3) := by
  have h0 : dropEnd.S.fs 4 = some 9 := by decide +kernel
  have h1 : dropEnd.S.fs 3 = some 6 := by decide +kernel
  refine ⟨?_, h0, h1, fun hcl => ?_⟩
  · have h1 := drop_eq
    generalize dropEnd = R at *
    exact sess_sound (fun _ _ h => okB_sound h) h1
  · have := Clean.unique dropE_wf hcl (clean_of_one (c := 4) (a := 1) rfl rfl)
    rw [h0, h1] at this
    revert this; decide

/-! ## Commands that fail -/

/-- 0 is a source; 1 is built from 0, 2 from 1, 3 from 2. -/
def chainE : Desc (Fin 4) Nat Nat := fun v =>
  if v = 0 then none
  else if v = 1 then some (.found { sources := [0], depends := [], implicit := [], ignore := [], action := 1 })
  else if v = 2 then some (.found { sources := [1], depends := [], implicit := [], ignore := [], action := 2 })
  else some (.found { sources := [2], depends := [], implicit := [], ignore := [], action := 3 })

/-- Executors. -/
def chainCfg : TM.Cfg (Fin 4) :=
  { targets := fun n => [n], actTargets := fun n => if n = 0 then [] else [n], prereqs := fun _ => [], sideEffects := fun _ => [] }

/-- Files. -/
def chainFs : Files (Fin 4) Nat := fun v => if v = 0 then some 4 else none

/-- `build -k 1 3`: the action of 1 fails; then 0 is changed. -/
def chainActs : List (Act 4) := [.edit 0 (some 5), .build [1, 3] [go [0] [], go [] [1], go [] [], .fail 1 [], go [2] [], go [] []]]

theorem chain_some : (sess chainE chainCfg (fun _ X => decide (X.T.cands = [] ∧ X.T.tops = [] ∧ X.T.active = [])) (Prompt.fresh chainFs fun _ => {}) chainActs).isSome = true := by
  decide +kernel

/-- The prompt afterwards. -/
def chainMid : Prompt (Fin 4) Nat Nat Nat :=
  (sess chainE chainCfg (fun _ X => decide (X.T.cands = [] ∧ X.T.tops = [] ∧ X.T.active = [])) (Prompt.fresh chainFs fun _ => {}) chainActs).get chain_some

theorem chain_eq : sess chainE chainCfg (fun _ X => decide (X.T.cands = [] ∧ X.T.tops = [] ∧ X.T.active = [])) (Prompt.fresh chainFs fun _ => {}) chainActs = some chainMid :=
  (Option.some_get chain_some).symm

/-- `build 2`. -/
def chainSteps : List (SCmd 4) := [go [1] [], go [0] [], go [] [1], go [] [], fin 1 [2], go [] [], fin 2 [3], go [] [], fin 3 []]

theorem chainCmd_some : (sessExecs chainE chainCfg (chainMid.start [2]) chainSteps).isSome = true := by decide +kernel

/-- The command `build 2`. -/
def chainCmd : CSt (Fin 4) Nat Nat Nat := (sessExecs chainE chainCfg (chainMid.start [2]) chainSteps).get chainCmd_some

theorem chainCmd_eq : sessExecs chainE chainCfg (chainMid.start [2]) chainSteps = some chainCmd := (Option.some_get chainCmd_some).symm

/-- **C74** is false after a command that failed: a node that was waiting for a node that could not be built is left waiting.  After `build -k 1 3`, in which the action of 1
fails, and a change of the source file, `build 2` is carried out and also makes 3, which nobody asked for and 2 does not depend on (contrary to C48 for single runs). -/
theorem C74_after_failure :
    Session exM chainE chainCfg (fun _ => []) (fun _ X => X.T.over) [.build [1, 3], .edit 0 (some 5)] (Prompt.fresh chainFs fun _ => {}) chainMid ∧
    CSteps exM chainE chainCfg (CmdStep (fun _ => []) [2]) (chainMid.start [2]) chainCmd ∧ Succeeded chainCmd ∧
    (3 : Fin 4) ∈ chainCmd.T.started ∧ chainMid.S.fs 3 = none ∧ (chainCmd.S.fs 3).isSome ∧ (3 : Fin 4) ∉ chainCmd.seenNodes chainE [2] := by
  refine ⟨?_, ?_, okB_sound (by decide +kernel), by decide +kernel, by decide +kernel, by decide +kernel, by decide +kernel⟩
  · have h1 := chain_eq
    generalize chainMid = R at *
    refine sess_sound (fun _ X h => ?_) h1
    simp only [decide_eq_true_eq] at h
    exact ⟨h.1, Or.inl h.2.1, h.2.2⟩
  · have h2 := chainCmd_eq
    generalize chainCmd = R at *
    generalize chainMid = Q at *
    exact sessExecs_sound h2 (.refl _)

/-! ## A plain project -/

theorem chainCfg_groups : TM.Groups chainCfg (fun n => (chainE n).isSome) := TM.Groups.solo (fun _ => rfl) (fun _ => rfl) (by decide) (by decide)

theorem chainE_found {n : Fin 4} {sc : Scan (Fin 4) Nat Nat} (h : chainE n = some sc) :
    ∃ c a, sc = .found { sources := [c], depends := [], implicit := [], ignore := [], action := a } ∧ (c < n) := by
  unfold chainE at h
  split at h
  · cases h
  · split at h
    · simp only [Option.some.injEq] at h; exact ⟨0, 1, h.symm, by omega⟩
    · split at h
      · simp only [Option.some.injEq] at h; exact ⟨1, 2, h.symm, by omega⟩
      · simp only [Option.some.injEq] at h; exact ⟨2, 3, h.symm, by omega⟩

theorem chainE_wf : WF chainE := by
  intro t sc h fs
  obtain ⟨c, a, rfl, hc⟩ := chainE_found h
  simp [Scan.asked, Scan.result, Leaf.children]

theorem chainE_plain : ScansSources chainE := by
  intro n sc h fs fs' _
  obtain ⟨c, a, rfl, hc⟩ := chainE_found h
  rfl

/-- `build 2`, change file 0. -/
def plainActs : List (Act 4) := [.edit 0 (some 7), .build [2] [go [1] [], go [0] [], go [] [1], go [] [], fin 1 [2], go [] [], fin 2 []]]

theorem plain_some : (sess chainE chainCfg (fun _ => okB) (Prompt.fresh chainFs fun _ => {}) plainActs).isSome = true := by decide +kernel

/-- The prompt afterwards. -/
def plainMid : Prompt (Fin 4) Nat Nat Nat := (sess chainE chainCfg (fun _ => okB) (Prompt.fresh chainFs fun _ => {}) plainActs).get plain_some

theorem plain_eq : sess chainE chainCfg (fun _ => okB) (Prompt.fresh chainFs fun _ => {}) plainActs = some plainMid := (Option.some_get plain_some).symm

/-- `build 3`. -/
def plainSteps : List (SCmd 4) := [go [2] [], go [1] [], go [0] [], go [] [1], go [] [], fin 1 [2], go [] [], fin 2 [3], go [] [], fin 3 []]

theorem plainCmd_some : (sessExecs chainE chainCfg (plainMid.start [3]) plainSteps).isSome = true := by decide +kernel

/-- The command `build 3`. -/
def plainCmd : CSt (Fin 4) Nat Nat Nat := (sessExecs chainE chainCfg (plainMid.start [3]) plainSteps).get plainCmd_some

theorem plainCmd_eq : sessExecs chainE chainCfg (plainMid.start [3]) plainSteps = some plainCmd := (Option.some_get plainCmd_some).symm

/-- The hypotheses of the theorem on plain projects hold for this session; `build 3` makes 1 and 2 again, which the first command had made from the old source. -/
theorem C74_plain_nonvacuous :
    (∀ t ∈ [(3 : Fin 4)], Clean exM chainE plainCmd.S.fs t (plainCmd.S.fs t)) ∧
    plainMid.S.fs 2 = some 12 ∧ plainCmd.S.fs 2 = some 18 ∧ plainCmd.S.fs 3 = some 57 ∧ plainCmd.T.started = [3, 2, 1] := by
  refine ⟨?_, by decide +kernel, by decide +kernel, by decide +kernel, by decide +kernel⟩
  have h2 := plain_eq
  have h3 := plainCmd_eq
  have h4 : okB plainCmd = true := by decide +kernel
  generalize plainCmd = R at *
  generalize plainMid = Q at *
  have hs := sess_sound (ok := fun _ X => Succeeded X) (fun _ _ h => okB_sound h) h2
  refine C74_plain_session_builds_everything exM_faithful chainE_wf chainCfg_groups chainE_plain (fun _ => rfl) (fun _ => rfl) ?_ hs (sessExecs_sound h3 (.refl _)) (okB_sound h4)
  have : (chainE 0).isNone = true := by decide +kernel
  simp [plainActs, Act.event, LegalEvent, Option.isNone_iff_eq_none.1 this]

end Verif.Build
