import Verif.Script.SconscriptProps

/-! # SConscript files: the working directory of the process (C68) -/

namespace Verif.Script.Scons

/-- The statement is not `SConscriptChdir`. -/
def Op.steady : Op → Prop
  | .chdirFlag _ => False
  | _ => True

/-- No statement of the script is `SConscriptChdir`. -/
def Prog.steady : Prog → Prop
  | .done => True
  | .seq s p => s.steady ∧ p.steady
  | .attempt _ b h r => b.steady ∧ h.steady ∧ r.steady

/-- No script calls `SConscriptChdir`. -/
def Setup.steady (U : Setup) : Prop := ∀ f fl, U.files f = some fl → fl.body.steady

/-- What holds while `SConscriptChdir` is on and the scripts' directories, and those to go back to, exist. -/
structure Base (U : Setup) (S : St) : Prop where
  flag : S.flag = true
  files : ∀ f fl d src, U.files f = some fl → fl.dir = some (d, src) → S.dirs d = true
  prevs : ∀ fr ∈ S.stack, S.dirs fr.prev = true

structure On (U : Setup) (S : St) : Prop extends Base U S where
  os : S.os = S.cwd
  cwd : S.dirs S.cwd = true

/-- While it is off. -/
structure Off (U : Setup) (S : St) : Prop where
  flag : S.flag = false
  os : S.os = U.top

def KeepOs (P : St → Prop) (run : St → Prog → Option (St × Out)) : Prop := ∀ S p S' o, p.steady → P S → run S p = some (S', o) → P S'

theorem leave_on {U : Setup} {S : St} (h : Base U S) {fr : Frame} {t : List Frame} (hs : S.stack = fr :: t) (P : List Dir) : On U (leave S P).1 := by
  have hp := h.prevs fr (by simp [hs])
  have hf := h.flag
  unfold leave
  simp only [hs, chdir, hf, hp, if_true, Bool.true_and]
  refine { flag := rfl, files := fun f fl d src h1 h2 => ?_, prevs := fun g hg => ?_, os := rfl, cwd := by simp }
  · simp [h.files f fl d src h1 h2]
  · simp [h.prevs g (by rw [hs]; exact List.mem_cons_of_mem _ hg)]

theorem leave_off {U : Setup} {S : St} (h : Off U S) {fr : Frame} {t : List Frame} (hs : S.stack = fr :: t) (P : List Dir) : Off U (leave S P).1 := by
  have hf := h.flag
  unfold leave
  simp only [hs, chdir, hf, Bool.false_eq_true, if_false]
  exact ⟨rfl, h.os⟩

theorem callFile_on {U : Setup} (hU : U.steady) {run : St → Prog → Option (St × Out)} (hg : Good run) (hk : KeepOs (On U) run) {S S' : St} {f : Name} {E : Vars} {o : Out} {v : Val} (h : callFile U run S f E = some (S', o, v)) (hS : On U S) : On U S' := by
  unfold callFile at h
  dsimp only at h
  generalize hfr : (⟨U.defaults, E, .none, S.cwd⟩ : Frame) = fr at h
  have hprev : fr.prev = S.cwd := by rw [← hfr]
  have hprevs : ∀ g ∈ fr :: S.stack, S.dirs g.prev = true := by
    intro g hg
    rcases List.mem_cons.1 hg with rfl | hg
    · rw [hprev]; exact hS.cwd
    · exact hS.prevs g hg
  cases hf : U.files f with
  | none =>
    rw [hf] at h
    simp only [Option.some.injEq, Prod.mk.injEq] at h
    rw [← h.1]
    exact leave_on (S := { S with stack := fr :: S.stack, reading := S.reading + 1, cwd := U.top, os := U.top }) ⟨hS.flag, hS.files, hprevs⟩ rfl _
  | some fl =>
    rw [hf] at h
    dsimp only at h
    cases hd : fl.dir with
    | none =>
      rw [hd] at h
      dsimp only at h
      cases hr : run { S with stack := fr :: S.stack, reading := S.reading + 1 } fl.body with
      | none => simp [hr] at h
      | some r =>
        obtain ⟨S2, o2⟩ := r
        rw [hr] at h
        simp only [Option.some.injEq, Prod.mk.injEq] at h
        have h2 : On U S2 := hk { S with stack := fr :: S.stack, reading := S.reading + 1 } _ _ _ (hU f fl hf) { flag := hS.flag, files := hS.files, prevs := hprevs, os := hS.os, cwd := hS.cwd } hr
        obtain ⟨fr', c1, _⟩ := hg _ _ _ _ fr S.stack hr rfl
        rw [← h.1]
        exact leave_on h2.toBase c1 _
    | some ds =>
      obtain ⟨d, src⟩ := ds
      rw [hd] at h
      have hdd := hS.files f fl d src hf hd
      have hfl := hS.flag
      simp only [chdir, hfl, hdd, if_true] at h
      generalize hX : ({ stack := fr :: S.stack, gexp := S.gexp, cwd := d, os := d, path := d :: S.path, reading := S.reading + 1, flag := true, dirs := S.dirs } : St) = X at h
      have hXO : On U X := by subst hX; exact { flag := rfl, files := hS.files, prevs := hprevs, os := rfl, cwd := hdd }
      have hXs : X.stack = fr :: S.stack := by subst hX; rfl
      cases hr : run X fl.body with
      | none => simp [hr] at h
      | some r =>
        obtain ⟨S2, o2⟩ := r
        rw [hr] at h
        simp only [Option.some.injEq, Prod.mk.injEq] at h
        have h2 : On U S2 := hk _ _ _ _ (hU f fl hf) hXO hr
        obtain ⟨fr', c1, _⟩ := hg _ _ _ _ fr S.stack hr hXs
        rw [← h.1]
        exact leave_on h2.toBase c1 _

theorem callFile_off {U : Setup} (hU : U.steady) {run : St → Prog → Option (St × Out)} (hg : Good run) (hk : KeepOs (Off U) run) {S S' : St} {f : Name} {E : Vars} {o : Out} {v : Val} (h : callFile U run S f E = some (S', o, v)) (hS : Off U S) : Off U S' := by
  unfold callFile at h
  dsimp only at h
  generalize hfr : (⟨U.defaults, E, .none, S.cwd⟩ : Frame) = fr at h
  cases hf : U.files f with
  | none =>
    rw [hf] at h
    simp only [Option.some.injEq, Prod.mk.injEq] at h
    rw [← h.1]
    exact leave_off (S := { S with stack := fr :: S.stack, reading := S.reading + 1, cwd := U.top, os := U.top }) ⟨hS.flag, rfl⟩ rfl _
  | some fl =>
    rw [hf] at h
    dsimp only at h
    cases hd : fl.dir with
    | none =>
      rw [hd] at h
      dsimp only at h
      cases hr : run { S with stack := fr :: S.stack, reading := S.reading + 1 } fl.body with
      | none => simp [hr] at h
      | some r =>
        obtain ⟨S2, o2⟩ := r
        rw [hr] at h
        simp only [Option.some.injEq, Prod.mk.injEq] at h
        have h2 : Off U S2 := hk { S with stack := fr :: S.stack, reading := S.reading + 1 } _ _ _ (hU f fl hf) ⟨hS.flag, hS.os⟩ hr
        obtain ⟨fr', c1, _⟩ := hg _ _ _ _ fr S.stack hr rfl
        rw [← h.1]
        exact leave_off h2 c1 _
    | some ds =>
      obtain ⟨d, src⟩ := ds
      rw [hd] at h
      have hfl := hS.flag
      simp only [chdir, hfl, Bool.false_eq_true, if_false] at h
      generalize hX : ({ stack := fr :: S.stack, gexp := S.gexp, cwd := d, os := U.top, path := d :: S.path, reading := S.reading + 1, flag := false, dirs := S.dirs } : St) = X at h
      have hXO : Off U X := by subst hX; exact ⟨rfl, rfl⟩
      have hXs : X.stack = fr :: S.stack := by subst hX; rfl
      cases hr : run X fl.body with
      | none => simp [hr] at h
      | some r =>
        obtain ⟨S2, o2⟩ := r
        rw [hr] at h
        simp only [Option.some.injEq, Prod.mk.injEq] at h
        have h2 : Off U S2 := hk _ _ _ _ (hU f fl hf) hXO hr
        obtain ⟨fr', c1, _⟩ := hg _ _ _ _ fr S.stack hr hXs
        rw [← h.1]
        exact leave_off h2 c1 _

theorem callFiles_keep {P : St → Prop} {U : Setup} {run : St → Prog → Option (St × Out)} (hc : ∀ S S' f E o v, callFile U run S f E = some (S', o, v) → P S → P S') {xs fs : List Name} {S S' : St} {acc : List Val} {r : Except Out (List Val)}
    (h : callFiles U run xs S fs acc = some (S', r)) (hS : P S) : P S' := by
  induction fs generalizing S acc with
  | nil =>
    simp only [callFiles, Option.some.injEq, Prod.mk.injEq] at h
    exact h.1 ▸ hS
  | cons f fs ih =>
    simp only [callFiles] at h
    split at h
    · simp only [Option.some.injEq, Prod.mk.injEq] at h; exact h.1 ▸ hS
    · rename_i E hE
      cases hx : callFile U run S f E with
      | none => simp [hx] at h
      | some c =>
        obtain ⟨S1, o, v⟩ := c
        rw [hx] at h
        have h1 := hc _ _ _ _ _ _ hx hS
        cases o with
        | ok => exact ih h h1
        | returned => simp only [Option.some.injEq, Prod.mk.injEq] at h; exact h.1 ▸ h1
        | error e => simp only [Option.some.injEq, Prod.mk.injEq] at h; exact h.1 ▸ h1

/-- `P` does not depend on the variables and on the global exports. -/
def Stable (P : St → Prop) : Prop := ∀ S, P S → ∀ fr t, S.stack = fr :: t → ∀ (fr' : Frame) G, fr'.prev = fr.prev → P { S with stack := fr' :: t, gexp := G }

theorem op_keep {P : St → Prop} (hP : Stable P) {U : Setup} {run : St → Prog → Option (St × Out)} (hg : Good run) (hc : ∀ S S' f E o v, callFile U run S f E = some (S', o, v) → P S → P S') {S S' : St} {fr : Frame} {t : List Frame} {s : Op} {o : Out}
    (hs : S.stack = fr :: t) (hst : s.steady) (h : op U run S fr t s = some (S', o)) (hS : P S) : P S' := by
  have same : ∀ G, P { S with gexp := G } := fun G => by
    have := hP S hS fr t hs fr G rfl
    rw [← hs] at this
    exact this
  cases s with
  | assign x f ys =>
    simp only [op] at h
    split at h <;> (simp only [Option.some.injEq, Prod.mk.injEq] at h; obtain ⟨rfl, rfl⟩ := h)
    · exact hS
    · exact hP S hS fr t hs _ S.gexp rfl
  | «export» xs =>
    simp only [op, Option.some.injEq, Prod.mk.injEq] at h
    obtain ⟨rfl, rfl⟩ := h
    exact same _
  | exportAs x y =>
    simp only [op] at h
    split at h <;> (simp only [Option.some.injEq, Prod.mk.injEq] at h; obtain ⟨rfl, rfl⟩ := h)
    · exact hS
    · exact same _
  | «import» xs =>
    simp only [op, Option.some.injEq, Prod.mk.injEq] at h
    obtain ⟨rfl, rfl⟩ := h
    exact hP S hS fr t hs _ S.gexp rfl
  | importAll =>
    simp only [op, Option.some.injEq, Prod.mk.injEq] at h
    obtain ⟨rfl, rfl⟩ := h
    exact hP S hS fr t hs _ S.gexp rfl
  | call x files xs =>
    simp only [op] at h
    cases hx : callFiles U run xs S files [] with
    | none => simp [hx] at h
    | some c =>
      obtain ⟨S1, r⟩ := c
      have h1 := callFiles_keep hc hx hS
      obtain ⟨c1, _⟩ := callFiles_good hg hx
      rw [hx] at h
      cases r with
      | error o1 =>
        simp only [Option.some.injEq, Prod.mk.injEq] at h
        exact h.1 ▸ h1
      | ok vs =>
        simp only [Option.some.injEq, Prod.mk.injEq] at h
        obtain ⟨h2, rfl⟩ := h
        cases x with
        | none => exact h2 ▸ h1
        | some x =>
          simp only [setTop, c1, hs] at h2
          subst h2
          exact hP S1 h1 fr t (c1.trans hs) _ S1.gexp rfl
  | ret xs stop =>
    simp only [op] at h
    split at h <;> (simp only [Option.some.injEq, Prod.mk.injEq] at h; obtain ⟨rfl, rfl⟩ := h)
    · exact hS
    · exact hP S hS fr t hs _ S.gexp rfl
  | raise n =>
    simp only [op, Option.some.injEq, Prod.mk.injEq] at h
    exact h.1 ▸ hS
  | chdirFlag b => exact hst.elim

theorem exec_keep {P : St → Prop} (hP : Stable P) {U : Setup} (hc : ∀ k, KeepOs P (exec U k) → ∀ S S' f E o v, callFile U (exec U k) S f E = some (S', o, v) → P S → P S') (k : Nat) : KeepOs P (exec U k) := by
  induction k with
  | zero => intro S p S' o _ _ h; cases h
  | succ k ih =>
    intro S p S' o hp hS h
    cases p with
    | done =>
      simp only [exec, Option.some.injEq, Prod.mk.injEq] at h
      exact h.1 ▸ hS
    | seq s p =>
      simp only [exec] at h
      cases hs : S.stack with
      | nil => simp [hs] at h
      | cons fr t =>
        rw [hs] at h
        dsimp only at h
        cases ho : op U (exec U k) S fr t s with
        | none => simp [ho] at h
        | some r =>
          obtain ⟨S1, o1⟩ := r
          have h1 := op_keep hP (exec_good U k) (hc k ih) hs hp.1 ho hS
          rw [ho] at h
          cases o1 with
          | ok => exact ih _ _ _ _ hp.2 h1 h
          | returned => simp only [Option.some.injEq, Prod.mk.injEq] at h; exact h.1 ▸ h1
          | error e => simp only [Option.some.injEq, Prod.mk.injEq] at h; exact h.1 ▸ h1
    | attempt all b hd r =>
      simp only [exec] at h
      cases ho : exec U k S b with
      | none => simp [ho] at h
      | some x =>
        obtain ⟨S1, o1⟩ := x
        have h1 := ih _ _ _ _ hp.1 hS ho
        rw [ho] at h
        have handler : (match exec U k S1 hd with | some (S2, .ok) => exec U k S2 r | x => x) = some (S', o) → P S' := by
          intro h
          cases hh : exec U k S1 hd with
          | none => simp [hh] at h
          | some y =>
            obtain ⟨S2, o2⟩ := y
            have h2 := ih _ _ _ _ hp.2.1 h1 hh
            rw [hh] at h
            cases o2 with
            | ok => exact ih _ _ _ _ hp.2.2 h2 h
            | returned => simp only [Option.some.injEq, Prod.mk.injEq] at h; exact h.1 ▸ h2
            | error e => simp only [Option.some.injEq, Prod.mk.injEq] at h; exact h.1 ▸ h2
        cases o1 with
        | ok => exact ih _ _ _ _ hp.2.2 h1 h
        | returned =>
          cases all with
          | false =>
            simp only [Bool.false_eq_true, if_false, Option.some.injEq, Prod.mk.injEq] at h
            exact h.1 ▸ h1
          | true => exact handler h
        | error e => exact handler h

theorem On.stable (U : Setup) : Stable (On U) := by
  intro S h fr t hs fr' G hp
  refine { flag := h.flag, files := h.files, prevs := fun g hg => ?_, os := h.os, cwd := h.cwd }
  rcases List.mem_cons.1 hg with rfl | hg
  · rw [hp]; exact h.prevs fr (by simp [hs])
  · exact h.prevs g (by rw [hs]; exact List.mem_cons_of_mem _ hg)

theorem Off.stable (U : Setup) : Stable (Off U) := fun _ h _ _ _ _ _ _ => ⟨h.flag, h.os⟩

/-- **C68** (partial: no script may call `SConscriptChdir` itself, and every directory must exist) With `SConscriptChdir` on, as it is by default: when the process is in the caller's directory before the call, it is there after the call,
however the scripts ended. -/
theorem C68_process_dir_partial {U : Setup} (hU : U.steady) {k : Nat} {S S' : St} {files xs : List Name} {r : Except Out (List Val)} (h : sconscript U k S files xs = some (S', r)) (hflag : S.flag = true) (hos : S.os = S.cwd)
    (hcwd : S.dirs S.cwd = true) (hfiles : ∀ f fl d src, U.files f = some fl → fl.dir = some (d, src) → S.dirs d = true) (hprevs : ∀ fr ∈ S.stack, S.dirs fr.prev = true) : S'.os = S.os ∧ S'.flag = true := by
  have h1 := callFiles_keep (P := On U) (fun _ _ _ _ _ _ h hS => callFile_on hU (exec_good U k) (exec_keep (On.stable U) (fun j hj _ _ _ _ _ _ => callFile_on hU (exec_good U j) hj) k) h hS) h
    { flag := hflag, files := hfiles, prevs := hprevs, os := hos, cwd := hcwd }
  exact ⟨by rw [h1.os, hos, (C68_caller_unchanged h).2.1], h1.flag⟩

/-- **C68** (partial: no script may call `SConscriptChdir` itself) With `SConscriptChdir` off: the process stays in the top directory. -/
theorem C68_process_dir_off_partial {U : Setup} (hU : U.steady) {k : Nat} {S S' : St} {files xs : List Name} {r : Except Out (List Val)} (h : sconscript U k S files xs = some (S', r)) (hflag : S.flag = false) (hos : S.os = U.top) :
    S'.os = U.top ∧ S'.flag = false := by
  have h1 := callFiles_keep (P := Off U) (fun _ _ _ _ _ _ h hS => callFile_off hU (exec_good U k) (exec_keep (Off.stable U) (fun j hj _ _ _ _ _ _ => callFile_off hU (exec_good U j) hj) k) h hS) h ⟨hflag, hos⟩
  exact ⟨h1.os, h1.flag⟩

/-! ## What goes wrong -/

def noVars : Vars := fun _ => none

def start : St := { stack := [⟨noVars, noVars, .none, "top"⟩], gexp := noVars, cwd := "top", os := "top", path := [], reading := 1, flag := true, dirs := fun d => d = "top" || d = "src" || d = "src/sub" }

/-- `build` is a variant directory of `src`, not duplicated and not there yet; its SConscript, read from `src`, calls that of `build/sub`. -/
def exVariant : Setup where
  files := fun f => match f with
    | "build/SConscript" => some ⟨some ("build", "src"), .seq (.call none ["build/sub/SConscript"] []) (.seq (.raise 0) .done)⟩
    | "build/sub/SConscript" => some ⟨some ("build/sub", "src/sub"), .done⟩
    | _ => none
  top := "top"
  defaults := noVars
  mustExist := true

/-- The state of `build/SConscript` before its call, and after it. -/
def before : St := { chdir { start with stack := ⟨noVars, noVars, .none, "top"⟩ :: start.stack } "build" "src" with path := ["build"] }

/-- **C68** is false of the process's directory in a variant directory that is not duplicated: a script read from `src` is in `src`; after it has called another script it is in the variant directory, which has been made for that. -/
theorem C68_variant_dir_left : before.os = "src" ∧ before.dirs "build" = false ∧
    ((sconscript exVariant 3 before ["build/sub/SConscript"] []).map fun r => (r.1.os, r.1.dirs "build", r.1.cwd)) = some ("build", true, "build") := by
  refine ⟨by decide +kernel, by decide +kernel, by decide +kernel⟩

/-- A script that turns `SConscriptChdir` off. -/
def exFlag : Setup := { exVariant with files := fun f => if f = "src/SConscript" then some ⟨some ("src", "src"), .seq (.chdirFlag false) .done⟩ else none }

/-- **C68** is false of the process's directory when a script calls `SConscriptChdir(0)`: the setting stays for the caller, and the process stays in the script's directory. -/
theorem C68_chdir_flag_leaks : start.os = "top" ∧ ((sconscript exFlag 4 start ["src/SConscript"] []).map fun r => (r.1.os, r.1.cwd, r.1.flag)) = some ("src", "top", false) := by
  refine ⟨rfl, by decide +kernel⟩

/-- A script on the standard input that returns. -/
def exStdin : Setup := { exVariant with files := fun f => if f = "-" then some ⟨none, .seq (.assign "x" (fun _ => .obj 1) []) (.seq (.ret ["x"] true) .done)⟩ else none }

def outOf : Option (St × Except Out (List Val)) → Option Out
  | some (_, .error o) => some o
  | some (_, .ok _) => some .ok
  | none => none

/-- **C68** is false of the standard input: `Return` in it ends the caller too, without a value. -/
theorem C68_stdin_return : outOf (sconscript exStdin 5 start ["-"] []) = some .returned := by decide +kernel

/-- A file: `Import('x')`, `x = f(x)`, `Return('x')`; another that exports `x` to it. -/
def exPlain : Setup where
  files := fun f => match f with
    | "src/SConscript" => some ⟨some ("src", "src"), .seq (.import ["x"]) (.seq (.assign "x" (fun l => .tuple l) ["x"]) (.seq (.ret ["x"] true) (.seq (.raise 1) .done)))⟩
    | _ => none
  top := "top"
  defaults := noVars
  mustExist := true

def startX : St := { start with stack := [⟨noVars.set "x" (.obj 7), noVars, .none, "top"⟩] }

/-- A case of all the theorems: the hypotheses hold, the call returns the changed value, the caller's `x` is the old one. -/
theorem C68_nonvacuous : exPlain.steady ∧ On exPlain startX ∧ ∃ S', sconscript exPlain 10 startX ["src/SConscript"] ["x"] = some (S', .ok [.tuple [.obj 7]]) ∧ S'.stack = startX.stack ∧ S'.os = "top" := by
  refine ⟨?_, ?_, ?_⟩
  · intro f fl h
    simp only [exPlain] at h
    split at h
    · simp only [Option.some.injEq] at h; subst h; simp [Prog.steady, Op.steady]
    · cases h
  · refine { flag := rfl, files := ?_, prevs := ?_, os := rfl, cwd := by decide }
    · intro f fl d src h hd
      simp only [exPlain] at h
      split at h
      · simp only [Option.some.injEq] at h; subst h; simp only [Option.some.injEq, Prod.mk.injEq] at hd; rw [← hd.1]; decide
      · cases h
    · intro fr hfr; simp only [startX, List.mem_singleton] at hfr; subst hfr; decide
  · refine ⟨_, rfl, rfl, rfl⟩

end Verif.Script.Scons
