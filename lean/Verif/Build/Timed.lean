import Verif.Build.Props
import Verif.Sig.Drift

/-!
# Whole builds with the timestamp deciders (C83)

The decision subsystem of `Verif.Sig` with files that have modification times, over whole projects and histories of runs, for
`Decider('timestamp-newer')`, `Decider('timestamp-match')` and `Decider('content-timestamp')` (/repo/SCons/Environment.py 1883-1906, /repo/SCons/Node/FS.py 3472-3551).

Simplifications: targets are handled one at a time (in any order the dependencies allow; for the interleaving of actions see C15), the process is not killed, one decider for all files,
`--max-drift=-1`, no repositories, no `CacheDir`.  A target may be built although it is up to date (another target of its command is not, or `AlwaysBuild()`).
-/

namespace Verif.Build

open Verif.Sig

variable {V B K A : Type} [DecidableEq V] [DecidableEq K]

/-- The state.  `db`: what `.sconsign` holds; `recd`: the targets for which this run will write a record; `began`: when the run began;
`had v τ b` (for the specification only): the file `v` has at some moment had the time stamp `τ` and the content `b`. -/
structure TSt (V B K : Type) where
  content : Files V B
  mtime : V → Int
  db : V → BInfo V K
  infos : Infos V K
  recd : V → Option (Target V K)
  done : V → Prop
  busy : Bool
  began : Int
  had : V → Int → Option B → Prop

/-- What the deciders see. -/
def TSt.world (M : Sem B K A) (S : TSt V B K) : World V B K where
  content := S.content
  mtime := S.mtime
  now := 0
  maxDrift := -1
  stored := fun v => { binfo := S.db v }
  hash := M.hash
  nofile := M.nofile
  size := M.size

/-- The time stamp of a file: that of a missing file is 0 (`get_timestamp`, FS.py 2806-2820). -/
def stampOf (b : Option B) (m : Int) : Int := if b.isSome then m else 0

/-- A file is written, or deleted. -/
def TSt.write (S : TSt V B K) (v : V) (b : Option B) (m : Int) : TSt V B K :=
  { S with
    content := fun x => if x = v then b else S.content x
    mtime := fun x => if x = v then m else S.mtime x
    had := fun x τ c => (x = v ∧ τ = stampOf b m ∧ c = b) ∨ S.had x τ c }

/-- `t` may be handled: see `St.ready`. -/
def TSt.ready (S : TSt V B K) (D : Desc V B A) (t : V) (sc : Scan V B A) : Prop :=
  S.busy = true ∧ D t = some sc ∧ ¬ S.done t ∧ ∀ c ∈ (sc.result S.content).children, S.done c

/-- What the action of a target makes of the present contents. -/
def Sem.make (M : Sem B K A) (l : Leaf V A) (fs : Files V B) : B := M.run l.action (l.children.map fun c => M.see (fs c))

/-- The records at the end of a run: the sigs in a record are references to the infos of the dependencies (Node/__init__.py 1205-1223), written as they are now. -/
def TSt.records (S : TSt V B K) (x : V) : BInfo V K :=
  match S.recd x with
  | some T => T.binfo S.infos
  | none => S.db x

inductive TLab (V B : Type)
  | begin (now : Int) | source (v : V) | current (t : V) | build (t : V) (b : B) (m : Int) | fail (t : V) | finishRun | edit (v : V) (b : Option B) (m : Int)

inductive TStep (M : Sem B K A) (d : Decider) (D : Desc V B A) : TSt V B K → TLab V B → TSt V B K → Prop
  | begin (S) (now : Int) : S.busy = false →
      TStep M d D S (.begin now) { S with busy := true, began := now, done := fun _ => False, infos := fun _ => {}, recd := fun _ => none }
  /-- a source file: `visited()`, FS.py 3031-3051 -/
  | source (S) (v : V) : S.busy = true → D v = none → ¬ S.done v →
      TStep M d D S (.source v) { S with infos := (S.world M).visited S.infos v, done := fun x => x = v ∨ S.done x }
  /-- a target is up to date: `visited()`, the record is made again -/
  | current (S) (t : V) (sc : Scan V B A) : S.ready D t sc →
      ((S.world M).isUpToDate d t ((sc.result S.content).target M) S.infos).1 = true →
      TStep M d D S (.current t) { S with
        infos := (S.world M).visited ((S.world M).isUpToDate d t ((sc.result S.content).target M) S.infos).2 t
        recd := fun x => if x = t then some ((sc.result S.content).target M) else S.recd x
        done := fun x => x = t ∨ S.done x }
  /-- a target is built at the time `m`: `built()` computes signature, time and size anew (Node/__init__.py 779-814) -/
  | build (S) (t : V) (sc : Scan V B A) (b : B) (m : Int) : S.ready D t sc → b = M.make (sc.result S.content) S.content →
      TStep M d D S (.build t b m) { S.write t (some b) m with
        infos := fun x => if x = t then ((S.write t (some b) m).world M).freshInfo t (some (M.hash b))
          else ((S.world M).isUpToDate d t ((sc.result S.content).target M) S.infos).2 x
        recd := fun x => if x = t then some ((sc.result S.content).target M) else S.recd x
        done := fun x => x = t ∨ S.done x }
  /-- the action fails and leaves no file -/
  | fail (S) (t : V) (sc : Scan V B A) : S.ready D t sc →
      TStep M d D S (.fail t) { S.write t none 0 with
        infos := fun x => if x = t then {} else ((S.world M).isUpToDate d t ((sc.result S.content).target M) S.infos).2 x }
  /-- the run ends; the records hold the infos of the dependencies as they are now -/
  | finishRun (S) : S.busy = true →
      TStep M d D S .finishRun { S with busy := false, db := S.records }
  | edit (S) (v : V) (b : Option B) (m : Int) : S.busy = false → TStep M d D S (.edit v b m) (S.write v b m)

/-! ### Specification -/

/-- A file gets a time stamp it has had before only with the content it had then. -/
def FreshTime (S : TSt V B K) (v : V) (b : Option B) (m : Int) : Prop := ∀ b', S.had v (stampOf b m) b' → b' = b

/-- The histories considered.  The user does not put other contents under the names of targets; no source is missing.
For `timestamp-match` and `content-timestamp`: the time stamp tells the versions of a file apart.
For `timestamp-newer`: the clock does not go backwards, it ticks between runs and edits, what the user writes is as new as the clock says. -/
def TLegal (d : Decider) (S : TSt V B K) : TLab V B → Prop
  | .begin now => d = .timestampNewer → ∀ v, (S.content v).isSome → S.mtime v < now
  | .source v => (S.content v).isSome
  | .current _ => True
  | .build t b m => (d = .timestampNewer → S.began ≤ m ∧ ∀ v, (S.content v).isSome → S.mtime v ≤ m) ∧ (d ≠ .timestampNewer → FreshTime S t (some b) m)
  | .fail t => d ≠ .timestampNewer → FreshTime S t none 0
  | .finishRun => True
  | .edit v b m => (b = none ∨ (S.db v).bactsig = none) ∧ (d = .timestampNewer → b.isSome → ∀ x, (S.content x).isSome → S.mtime x < m) ∧
      (d ≠ .timestampNewer → FreshTime S v b m)

/-- The descriptions of a history: the way to find the dependencies of a target changes only together with its command (e.g. they are all the same). -/
def Keyed (M : Sem B K A) (F : Desc V B A → Prop) : Prop :=
  ∀ D D', F D → F D' → ∀ t sc sc', D t = some sc → D' t = some sc' →
    ∀ g g' : Files V B, M.sig (sc.result g).action = M.sig (sc'.result g').action → sc = sc'

/-- The dependencies are listed in the order in which the scan looks at them, the files not looked at last. -/
def InOrder (D : Desc V B A) : Prop := ∀ t sc, D t = some sc → ∀ fs : Files V B, sc.asked fs <+: (sc.result fs).children

/-- States reachable from a fresh check-out: any files with any times, no records; `F`: the descriptions used, `ok`: the steps considered. -/
inductive TReach (M : Sem B K A) (d : Decider) (F : Desc V B A → Prop) (ok : TSt V B K → TLab V B → Prop) : Desc V B A → TSt V B K → Prop
  | init (D) (fs : Files V B) (mt : V → Int) : F D →
      TReach M d F ok D
        { content := fs, mtime := mt, db := fun _ => {}, infos := fun _ => {}, recd := fun _ => none, done := fun _ => False, busy := false, began := 0,
          had := fun v τ b => τ = stampOf (fs v) (mt v) ∧ b = fs v }
  | step {D S S'} (l : TLab V B) : TReach M d F ok D S → ok S l → TStep M d D S l S' → TReach M d F ok D S'
  | newDesc {D D' S} : TReach M d F ok D S → S.busy = false → F D' → TReach M d F ok D' S

end Verif.Build
