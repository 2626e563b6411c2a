/-!
# Model of `SCons/Util/filelock.py`: `FileLock`

Any number of processes `P`; one lock file.  `os.open(…, O_CREAT|O_EXCL)` is atomic: it creates the file or raises `FileExistsError`.
-/

namespace Verif.Cache.Lock

/-- Result of `os.open`: a file descriptor. -/
abbrev Fd := Nat

/-- Program points of one `FileLock` object in one process. -/
inductive LPC
  /-- not in a call; `self.lock` -/
  | rest (lock : Option Fd)
  /-- in `acquire_lock`, before an attempt (line 129) -/
  | trying
  /-- reader: in `release_lock` called by `acquire_lock` (line 143), `self.lock = fd` -/
  | readerRelease (fd : Fd)
  /-- in `release_lock` after `os.close`, before `os.unlink` (line 150) -/
  | closing
  /-- killed -/
  | dead
  deriving DecidableEq

/-- A lock object: `timeout` (`none`: do not block) and `writer`. -/
structure LObj where
  blocking : Bool
  writer : Bool

structure LState (P : Type) where
  /-- does the lock file exist? -/
  file : Bool
  pc : P → LPC

/-- Observable events. -/
inductive LLabel (P : Type)
  | call (p : P)
  | acquired (p : P)
  | raised (p : P)
  | released (p : P)
  | killed (p : P)
  | tau

variable {P : Type} [DecidableEq P]

def upd {A B : Type} [DecidableEq A] (f : A → B) (a : A) (b : B) : A → B := fun x => if x = a then b else f x

/-- Steps.  `obj p` is the lock object used by process `p`.  (One object per process.) -/
inductive LStep (obj : P → LObj) : LState P → LLabel P → LState P → Prop
  /-- `acquire_lock()` is called (by `__enter__` only when not held, line 155) -/
  | call (s) (p) (h : s.pc p = .rest none) : LStep obj s (.call p) { s with pc := upd s.pc p .trying }
  /-- line 129 succeeds for a writer, line 144: `break` -/
  | createW (s) (p fd) (h : s.pc p = .trying) (hf : s.file = false) (hw : (obj p).writer = true) :
      LStep obj s (.acquired p) ⟨true, upd s.pc p (.rest (some fd))⟩
  /-- line 129 succeeds for a reader -/
  | createR (s) (p fd) (h : s.pc p = .trying) (hf : s.file = false) (hw : (obj p).writer = false) :
      LStep obj s .tau ⟨true, upd s.pc p (.readerRelease fd)⟩
  /-- lines 130-134: non-blocking -/
  | already (s) (p) (h : s.pc p = .trying) (hf : s.file = true) (hb : (obj p).blocking = false) :
      LStep obj s (.raised p) { s with pc := upd s.pc p (.rest none) }
  /-- lines 135-138: timeout expired -/
  | timeout (s) (p) (h : s.pc p = .trying) (hf : s.file = true) (hb : (obj p).blocking = true) :
      LStep obj s (.raised p) { s with pc := upd s.pc p (.rest none) }
  /-- line 139: `sleep`, then try again -/
  | retry (s) (p) (h : s.pc p = .trying) (hf : s.file = true) (hb : (obj p).blocking = true) : LStep obj s .tau s
  /-- reader, line 143/148-151: `if self.lock` is false for descriptor 0: nothing is released -/
  | readerSkips (s) (p) (h : s.pc p = .readerRelease 0) : LStep obj s (.acquired p) { s with pc := upd s.pc p (.rest (some 0)) }
  /-- reader, line 149-151 -/
  | readerUnlink (s) (p fd) (h : s.pc p = .readerRelease (fd + 1)) : LStep obj s (.acquired p) ⟨false, upd s.pc p (.rest none)⟩
  /-- `release_lock()`, line 148: with descriptor 0 nothing happens -/
  | releaseSkips (s) (p) (h : s.pc p = .rest (some 0)) : LStep obj s (.released p) s
  /-- `release_lock()` without a lock -/
  | releaseNone (s) (p) (h : s.pc p = .rest none) : LStep obj s (.released p) s
  /-- line 149 -/
  | close (s) (p fd) (h : s.pc p = .rest (some (fd + 1))) : LStep obj s .tau { s with pc := upd s.pc p .closing }
  /-- lines 150-151 -/
  | unlink (s) (p) (h : s.pc p = .closing) : LStep obj s (.released p) ⟨false, upd s.pc p (.rest none)⟩
  /-- the process is killed: the lock file, if any, stays -/
  | kill (s) (p) : LStep obj s (.killed p) { s with pc := upd s.pc p .dead }

inductive LRun (obj : P → LObj) : LState P → List (LLabel P) → LState P → Prop
  | nil (s) : LRun obj s [] s
  | snoc {s t u tr l} : LRun obj s tr t → LStep obj t l u → LRun obj s (tr ++ [l]) u

/-- The object says it holds the lock (`self.lock is not None`), or it is about to give it up but the file is still there. -/
def LPC.holds : LPC → Bool
  | .rest (some _) | .closing | .readerRelease _ => true
  | _ => false

/-- Process `p` holds the lock. -/
def Holds (s : LState P) (p : P) : Prop := (s.pc p).holds = true

structure LInv (s : LState P) : Prop where
  file : ∀ p, Holds s p → s.file = true
  unique : ∀ p q, Holds s p → Holds s q → p = q

theorem LInv.step {obj : P → LObj} {s t : LState P} {l : LLabel P} (h : LInv s) (st : LStep obj s l t) : LInv t := by
  obtain ⟨h1, h2⟩ := h
  cases st <;> constructor <;> simp only [Holds, upd] at * <;> grind [LPC.holds]

/-- Start: nobody is in a call; there may be a stale lock file. -/
def start (file : Bool) : LState P := ⟨file, fun _ => .rest none⟩

theorem LInv.run {obj : P → LObj} {f : Bool} {tr : List (LLabel P)} {s : LState P} (r : LRun obj (start f) tr s) : LInv s := by
  generalize hs : start f = s₀ at r
  induction r with
  | nil => subst hs; constructor <;> simp [Holds, start, LPC.holds]
  | snoc _ st ih => exact ih.step st

/-- **C30** (mutual exclusion).  At no time do two processes hold the lock, and while one holds it the lock file exists. -/
theorem C30_mutual_exclusion {obj : P → LObj} {f : Bool} {tr : List (LLabel P)} {s : LState P} (r : LRun obj (start f) tr s) :
    (∀ p q, Holds s p → Holds s q → p = q) ∧ ∀ p, Holds s p → s.file = true :=
  ⟨(LInv.run r).unique, (LInv.run r).file⟩

/-- What the trace says: `p` has acquired the lock and neither released it nor been killed since. -/
def HoldsByTrace (p : P) : List (LLabel P) → Prop
  | [] => False
  | l :: tr => -- newest first
    match l with
    | .acquired q => if q = p then True else HoldsByTrace p tr
    | .released q => if q = p then False else HoldsByTrace p tr
    | .killed q => if q = p then False else HoldsByTrace p tr
    | _ => HoldsByTrace p tr

omit [DecidableEq P] in
private theorem rev_snoc (tr : List (LLabel P)) (l) : (tr ++ [l]).reverse = l :: tr.reverse := by simp

theorem holds_of_trace {obj : P → LObj} {f : Bool} {tr : List (LLabel P)} {s : LState P} (r : LRun obj (start f) tr s) (p : P)
    (hw : (obj p).writer = true) (h : HoldsByTrace p tr.reverse) : Holds s p := by
  suffices H : ∀ s₀ tr s, s₀ = start f → LRun obj s₀ tr s → (∀ fd, s.pc p ≠ .readerRelease fd) ∧ (HoldsByTrace p tr.reverse → Holds s p) from
    (H _ _ _ rfl r).2 h
  clear h r
  intro s₀ tr s hs r
  induction r with
  | nil => subst hs; simp [start, HoldsByTrace]
  | snoc r st ih =>
    obtain ⟨i1, i2⟩ := ih
    rw [rev_snoc]
    cases st <;> simp only [HoldsByTrace, Holds, upd] at * <;> grind [LPC.holds]

/-- **C30** (mutual exclusion as seen by callers).  Two writers whose `acquire_lock` has returned and who have neither called release nor been killed
are the same process. -/
theorem C30_writers_exclude_each_other {obj : P → LObj} {f : Bool} {tr : List (LLabel P)} {s : LState P} (r : LRun obj (start f) tr s)
    (p q : P) (hp : (obj p).writer = true) (hq : (obj q).writer = true)
    (h1 : HoldsByTrace p tr.reverse) (h2 : HoldsByTrace q tr.reverse) : p = q :=
  (LInv.run r).unique p q (holds_of_trace r p hp h1) (holds_of_trace r q hq h2)

/-- **C30** (a reader never gets through while a writer holds the lock): the step that reports success to anybody requires that no other process holds it. -/
theorem C30_acquire_only_when_free {obj : P → LObj} {f : Bool} {tr : List (LLabel P)} {s t : LState P} (r : LRun obj (start f) tr s)
    {p q : P} (st : LStep obj s (.acquired p) t) (hq : (obj q).writer = true) (h : HoldsByTrace q tr.reverse) : q = p := by
  have hh := holds_of_trace r q hq h
  have := LInv.run r
  have hu := this.unique q p hh
  have hf := this.file q hh
  cases st <;> simp only [Holds] at * <;> grind [LPC.holds]

/-- **C30** (failure raises).  A call never returns without either creating the lock file itself or raising: when the file exists, the only things an attempt can
do are to raise or to try again. -/
theorem C30_busy_raises_or_waits {obj : P → LObj} {s t : LState P} {l : LLabel P} {p : P} (hp : s.pc p = .trying) (hf : s.file = true)
    (st : LStep obj s l t) (hch : t.pc p ≠ .trying) : l = .raised p ∨ l = .killed p := by
  cases st <;> (try simp only [upd] at hch) <;> grind

/-- **C30** (released locks can be taken again; partial).  After a writer other than one that got descriptor 0 releases, the file is gone and any attempt succeeds. -/
theorem C30_release_frees_partial {obj : P → LObj} {f : Bool} {tr : List (LLabel P)} {s t : LState P} (_r : LRun obj (start f) tr s)
    {p : P} (hp : s.pc p = .closing) (st : LStep obj s (.released p) t) (q : P) (hq : t.pc q = .trying) (hw : (obj q).writer = true) :
    ∃ u, LStep obj t (.acquired q) u := by
  cases st with
  | releaseSkips h => simp_all
  | releaseNone h => simp_all
  | unlink h => exact ⟨_, LStep.createW _ q 3 hq rfl hw⟩

/-- FOUND: `release_lock` tests `if self.lock:`; descriptor 0 (a process started with stdin closed) is falsy: the lock file is never removed and every
later attempt of anybody fails. -/
theorem C30_counterexample_descriptor_zero :
    ∃ s, LRun (fun _ : Nat => ⟨false, true⟩) (start false) [.call 0, .acquired 0, .released 0, .call 1, .raised 1] s ∧ s.file = true := by
  have r := LRun.nil (obj := fun _ : Nat => ⟨false, true⟩) (start false)
  have r := LRun.snoc r (LStep.call _ 0 rfl)
  have r := LRun.snoc r (LStep.createW _ 0 0 rfl rfl rfl)
  have r := LRun.snoc r (LStep.releaseSkips _ 0 rfl)
  have r := LRun.snoc r (LStep.call _ 1 rfl)
  have r := LRun.snoc r (LStep.already _ 1 rfl rfl rfl)
  exact ⟨_, r, rfl⟩

/-- Non-vacuity: a writer acquires, a second process waits, the first releases, the second acquires and releases. -/
example : ∃ s, LRun (fun _ : Nat => ⟨true, true⟩) (start false) [.call 0, .acquired 0, .call 1, .tau, .tau, .released 0, .acquired 1] s ∧
    HoldsByTrace 1 [.acquired 1, .released 0, .tau, .tau, .call 1, .acquired 0, .call (0 : Nat)] := by
  have r := LRun.nil (obj := fun _ : Nat => ⟨true, true⟩) (start false)
  have r := LRun.snoc r (LStep.call _ 0 rfl)
  have r := LRun.snoc r (LStep.createW _ 0 3 rfl rfl rfl)
  have r := LRun.snoc r (LStep.call _ 1 rfl)
  have r := LRun.snoc r (LStep.retry _ 1 rfl rfl rfl)
  have r := LRun.snoc r (LStep.close _ 0 2 rfl)
  have r := LRun.snoc r (LStep.unlink _ 0 rfl)
  have r := LRun.snoc r (LStep.createW _ 1 3 rfl rfl rfl)
  exact ⟨_, r, trivial⟩

end Verif.Cache.Lock
