import Verif.Store.Dict

/-!
# Model of `SCons/dblite.py`: the signature database file

A small-step machine: one process that opens the database, changes it in memory and flushes it (`sync`) through a temporary file; every file
system operation is a step of its own, data reaches the temporary file in pieces of any size, any operation may raise, and the process may be
killed between any two steps.  Any number of process lifetimes follow one another on the same disk.

What survives a kill is what the operating system was told (a killed process, not a power failure).  `os.replace` is atomic (POSIX rename).
The bytes are those of a serialiser (`pickle`) given by a `Codec`.
-/

namespace Verif.Store

/-- What is assumed of `pickle.dump`/`pickle.loads`: loading a complete dump gives the value back; a dump is not empty; a dump that was
cut short is rejected (a pickle ends with its only STOP opcode, so `loads` of a strict prefix raises `EOFError`/`UnpicklingError`). -/
structure Codec (α β : Type) where
  enc : α → List β
  dec : List β → Option α
  dec_enc : ∀ a, dec (enc a) = some a
  enc_ne : ∀ a, enc a ≠ []
  dec_prefix : ∀ a p, p <+: enc a → p ≠ enc a → dec p = none

/-- The `flag` argument of `dblite.open`, `dblite.py:66-79`. -/
inductive Flag | r | w | c | n
  deriving DecidableEq

/-- The two files involved: the database and the temporary file next to it (`dblite.py:107-114`; different suffixes, so different files). -/
inductive FName | db | tmp
  deriving DecidableEq

/-- Contents of the files, `none` when absent. -/
abbrev Disk (β : Type) := FName → Option (List β)

/-- Creating or overwriting a file. -/
def Disk.put {β : Type} (fs : Disk β) (f : FName) (c : Option (List β)) : Disk β := fun x => if x = f then c else fs x

variable {K V β : Type} [DecidableEq K]

/-- `_Dblite` object: `_flag`, `_dict`, `_needs_sync` (`dblite.py:116-119`). -/
structure Handle (K V : Type) where
  flag : Flag
  dict : Dict K V
  needsSync : Bool

/-- Where the process is: not running (or before `open`); between calls on the handle; in `sync` with the bytes still to be written to the
temporary file (`dblite.py:195-196`); in `sync` after the temporary file was closed (`dblite.py:198-210`). -/
inductive Phase (K V β : Type)
  | off
  | idle (h : Handle K V)
  | dumping (h : Handle K V) (rest : List β)
  | dumped (h : Handle K V)

structure DbState (K V β : Type) where
  disk : Disk β
  phase : Phase K V β

/-- Labels: what the user of the API did or observed. -/
inductive DbLabel (K V : Type)
  /-- `dblite.open(file, flag)` returned -/
  | opened (f : Flag)
  /-- `dblite.open` raised -/
  | openFailed
  /-- `db[k] = v` -/
  | set (k : K) (v : V)
  /-- `del db[k]` -/
  | del (k : K)
  /-- `db.sync()` or `db.close()` was called -/
  | syncCalled
  /-- `db.close()` was called and had nothing to do, or `sync`/assignment raised because of flag `r` -/
  | nothing
  /-- some bytes were written -/
  | wrote
  /-- `db.sync()` succeeded -/
  | synced
  /-- `db.sync()` raised -/
  | syncFailed
  /-- the process was killed, or ended -/
  | gone
  deriving DecidableEq

/-- What `__init__` puts into `_dict` for given file contents, `dblite.py:139-168`: an empty file is an empty database; a corrupt one too
(`IGNORE_CORRUPT_DBFILES` is set by `SConsign.py:44`). -/
def loadBytes (C : Codec (Dict K V) β) (p : List β) : Dict K V :=
  if p = [] then [] else (C.dec p).getD []

/-- Steps of the process.  `chown`, `chmod` and the debugging copy (`KEEP_ALL_FILES`, off) do not change contents and are left out. -/
inductive DbStep (C : Codec (Dict K V) β) : DbState K V β → DbLabel K V → DbState K V β → Prop
  /-- `dblite.py:136-138`: flag `n` truncates the file in place. -/
  | openNew (fs) : DbStep C ⟨fs, .off⟩ (.opened .n) ⟨fs.put .db (some []), .idle ⟨.n, [], false⟩⟩
  /-- `dblite.py:139-168`: flags `r`, `w`, `c`, the file exists. -/
  | openOld (fs f p) (hf : f ≠ .n) (hp : fs .db = some p) :
      DbStep C ⟨fs, .off⟩ (.opened f) ⟨fs, .idle ⟨f, loadBytes C p, false⟩⟩
  /-- `dblite.py:145-150`: flag `c`, no file: an empty one is created. -/
  | openCreate (fs) (hp : fs .db = none) :
      DbStep C ⟨fs, .off⟩ (.opened .c) ⟨fs.put .db (some []), .idle ⟨.c, [], false⟩⟩
  /-- `dblite.py:147-148`: `raise e`. -/
  | openMissing (fs) (hp : fs .db = none) : DbStep C ⟨fs, .off⟩ .openFailed ⟨fs, .off⟩
  /-- `__setitem__`, `dblite.py:233-243` (the type checks are enforced by Lean's types here). -/
  | set (fs) (h : Handle K V) (k v) (hw : h.flag ≠ .r) :
      DbStep C ⟨fs, .idle h⟩ (.set k v) ⟨fs, .idle ⟨h.flag, Dict.set h.dict k v, true⟩⟩
  /-- `__delitem__`, `dblite.py:245-246`: neither checks the flag nor notes that a sync is needed. -/
  | del (fs) (h : Handle K V) (k) :
      DbStep C ⟨fs, .idle h⟩ (.del k) ⟨fs, .idle ⟨h.flag, Dict.del h.dict k, h.needsSync⟩⟩
  /-- `_check_writable` raises, `dblite.py:226-228`. -/
  | readOnly (fs) (h : Handle K V) (hr : h.flag = .r) : DbStep C ⟨fs, .idle h⟩ .nothing ⟨fs, .idle h⟩
  /-- `close` with nothing to do, `dblite.py:179-181`. -/
  | closeIdle (fs) (h : Handle K V) (hn : h.needsSync = false) : DbStep C ⟨fs, .idle h⟩ .nothing ⟨fs, .idle h⟩
  /-- `sync` (also from `close`), `dblite.py:194-196`: the temporary file is created or truncated. -/
  | syncStart (fs) (h : Handle K V) (hw : h.flag ≠ .r) :
      DbStep C ⟨fs, .idle h⟩ .syncCalled ⟨fs.put .tmp (some []), .dumping h (C.enc h.dict)⟩
  /-- some bytes reach the temporary file, `dblite.py:196`. -/
  | write (fs : Disk β) (h : Handle K V) (rest) (n : Nat) (c) (hc : fs .tmp = some c) :
      DbStep C ⟨fs, .dumping h rest⟩ .wrote ⟨fs.put .tmp (some (c ++ rest.take n)), .dumping h (rest.drop n)⟩
  /-- the file is closed after the last byte. -/
  | closeTmp (fs) (h : Handle K V) : DbStep C ⟨fs, .dumping h []⟩ .wrote ⟨fs, .dumped h⟩
  /-- `os.replace`, at the first or second attempt, `dblite.py:198-220`. -/
  | replace (fs : Disk β) (h : Handle K V) (c) (hc : fs .tmp = some c) :
      DbStep C ⟨fs, .dumped h⟩ .synced ⟨(fs.put .db (some c)).put .tmp none, .idle ⟨h.flag, h.dict, false⟩⟩
  /-- opening, writing or replacing raised. -/
  | raiseOpen (fs) (h : Handle K V) : DbStep C ⟨fs, .idle h⟩ .syncFailed ⟨fs, .idle h⟩
  | raiseDump (fs) (h : Handle K V) (rest) : DbStep C ⟨fs, .dumping h rest⟩ .syncFailed ⟨fs, .idle h⟩
  | raiseReplace (fs) (h : Handle K V) : DbStep C ⟨fs, .dumped h⟩ .syncFailed ⟨fs, .idle h⟩
  /-- killed at any point, or ended. -/
  | gone (fs ph) : DbStep C ⟨fs, ph⟩ .gone ⟨fs, .off⟩

/-- Executions; the trace lists the labels in order of time. -/
inductive DbRun (C : Codec (Dict K V) β) : DbState K V β → List (DbLabel K V) → DbState K V β → Prop
  | nil (s) : DbRun C s [] s
  | snoc {s t u tr l} : DbRun C s tr t → DbStep C t l u → DbRun C s (tr ++ [l]) u

/-! ## Specification: an ideal database

No files, no bytes, no phases: a saved dictionary, and the dictionary of the running process.  A sync replaces the saved dictionary in one
indivisible step at the moment it succeeds; everything else leaves it alone. -/

/-- The ideal database: what is saved, and what the running process sees. -/
structure Ideal (K V : Type) where
  saved : Dict K V
  mem : Dict K V

def Ideal.next (i : Ideal K V) : DbLabel K V → Ideal K V
  | .opened .n => ⟨[], []⟩
  | .opened _ => ⟨i.saved, i.saved⟩
  | .set k v => ⟨i.saved, Dict.set i.mem k v⟩
  | .del k => ⟨i.saved, Dict.del i.mem k⟩
  | .synced => ⟨i.mem, i.mem⟩
  | _ => i

def Ideal.after (i : Ideal K V) (tr : List (DbLabel K V)) : Ideal K V := tr.foldl Ideal.next i

/-- What the next process to open the file finds (flags `r`, `w`, `c`; nothing if there is no file). -/
def onDisk (C : Codec (Dict K V) β) (fs : Disk β) : Dict K V :=
  match fs .db with
  | none => []
  | some p => loadBytes C p

/-- The dictionary the process works with. -/
def Phase.dict? : Phase K V β → Option (Dict K V)
  | .off => none
  | .idle h | .dumping h _ | .dumped h => some h.dict

theorem loadBytes_enc (C : Codec (Dict K V) β) (d : Dict K V) : loadBytes C (C.enc d) = d := by
  simp [loadBytes, C.enc_ne, C.dec_enc]

/-- Invariant: disk and memory agree with the ideal database; during a dump the temporary file holds the bytes written so far. -/
structure DbInv (C : Codec (Dict K V) β) (s : DbState K V β) (i : Ideal K V) : Prop where
  saved : onDisk C s.disk = i.saved
  mem : ∀ d, s.phase.dict? = some d → d = i.mem
  dumping : ∀ h rest, s.phase = .dumping h rest → ∃ c, s.disk .tmp = some c ∧ c ++ rest = C.enc h.dict
  dumped : ∀ h, s.phase = .dumped h → s.disk .tmp = some (C.enc h.dict)

theorem DbInv.step {C : Codec (Dict K V) β} {s t : DbState K V β} {l : DbLabel K V} {i : Ideal K V}
    (h : DbInv C s i) (st : DbStep C s l t) : DbInv C t (i.next l) := by
  obtain ⟨h1, h2, h3, h4⟩ := h
  cases st with
  | openNew fs =>
    refine ⟨?_, ?_, ?_, ?_⟩ <;> simp [onDisk, Disk.put, loadBytes, Ideal.next, Phase.dict?]
  | openOld fs f p hf hp =>
    have e : i.next (.opened f) = ⟨i.saved, i.saved⟩ := by cases f <;> simp_all [Ideal.next]
    rw [e]
    refine ⟨h1, ?_, ?_, ?_⟩ <;> simp [Phase.dict?]
    simpa [onDisk, hp] using h1
  | openCreate fs hp =>
    have e : i.saved = [] := by simpa [onDisk, hp] using h1.symm
    refine ⟨?_, ?_, ?_, ?_⟩ <;> simp [onDisk, Disk.put, loadBytes, Ideal.next, Phase.dict?, e]
  | openMissing fs hp => exact ⟨h1, h2, h3, h4⟩
  | set fs h k v hw =>
    refine ⟨h1, ?_, ?_, ?_⟩ <;> simp [Phase.dict?, Ideal.next]
    rw [h2 h.dict rfl]
  | del fs h k =>
    refine ⟨h1, ?_, ?_, ?_⟩ <;> simp [Phase.dict?, Ideal.next]
    rw [h2 h.dict rfl]
  | readOnly fs h hr => exact ⟨h1, h2, h3, h4⟩
  | closeIdle fs h hn => exact ⟨h1, h2, h3, h4⟩
  | syncStart fs h hw =>
    refine ⟨?_, ?_, ?_, ?_⟩
    · simpa [onDisk, Disk.put, Ideal.next] using h1
    · simpa [Phase.dict?, Ideal.next] using h2
    · rintro h' rest ⟨⟩; exact ⟨[], by simp [Disk.put]⟩
    · rintro h' ⟨⟩
  | write fs h rest n c hc =>
    obtain ⟨c', hc', e⟩ := h3 h rest rfl
    refine ⟨?_, ?_, ?_, ?_⟩
    · simpa [onDisk, Disk.put, Ideal.next] using h1
    · simpa [Phase.dict?, Ideal.next] using h2
    · rintro h' rest' ⟨⟩
      have : c = c' := by simpa [hc] using hc'
      subst this
      exact ⟨c ++ rest.take n, by simp [Disk.put], by rw [List.append_assoc, List.take_append_drop, e]⟩
    · rintro h' ⟨⟩
  | closeTmp fs h =>
    obtain ⟨c', hc', e⟩ := h3 h [] rfl
    refine ⟨h1, h2, by rintro _ _ ⟨⟩, ?_⟩
    rintro h' ⟨⟩
    simpa [← e] using hc'
  | replace fs h c hc =>
    have e := h4 h rfl
    have : c = C.enc h.dict := by simpa [hc] using e
    subst this
    refine ⟨?_, ?_, by rintro _ _ ⟨⟩, by rintro _ ⟨⟩⟩
    · simpa [onDisk, Disk.put, Ideal.next, loadBytes_enc] using h2 h.dict rfl
    · simpa [Phase.dict?, Ideal.next] using h2
  | raiseOpen fs h => exact ⟨h1, h2, h3, h4⟩
  | raiseDump fs h rest => exact ⟨h1, h2, by rintro _ _ ⟨⟩, by rintro _ ⟨⟩⟩
  | raiseReplace fs h => exact ⟨h1, h2, by rintro _ _ ⟨⟩, by rintro _ ⟨⟩⟩
  | gone fs ph => exact ⟨h1, by simp [Phase.dict?], by rintro _ _ ⟨⟩, by rintro _ ⟨⟩⟩

theorem DbInv.run {C : Codec (Dict K V) β} {s t : DbState K V β} {tr : List (DbLabel K V)} {i : Ideal K V}
    (h : DbInv C s i) (r : DbRun C s tr t) : DbInv C t (i.after tr) := by
  induction r with
  | nil => simpa [Ideal.after] using h
  | snoc _ st ih => simpa [Ideal.after] using ih.step st

/-- The ideal database with the same saved dictionary as a disk. -/
def idealOf (C : Codec (Dict K V) β) (fs : Disk β) : Ideal K V := ⟨onDisk C fs, []⟩

theorem DbInv.init (C : Codec (Dict K V) β) (fs : Disk β) : DbInv C ⟨fs, .off⟩ (idealOf C fs) :=
  ⟨rfl, by simp [Phase.dict?], by rintro _ _ ⟨⟩, by rintro _ ⟨⟩⟩

/-- **C22** (refinement).  Start from any disk whatsoever.  After any history of opens, changes, syncs, failures and kills at any point, what
the next process reads from the database file is exactly what the ideal database has saved. -/
theorem C22_disk_refines_ideal (C : Codec (Dict K V) β) (fs : Disk β) {tr : List (DbLabel K V)} {s : DbState K V β}
    (r : DbRun C ⟨fs, .off⟩ tr s) : onDisk C s.disk = ((idealOf C fs).after tr).saved :=
  ((DbInv.init C fs).run r).saved

/-- ... and a running process sees what the ideal database's process sees. -/
theorem C22_memory_refines_ideal (C : Codec (Dict K V) β) (fs : Disk β) {tr : List (DbLabel K V)} {s : DbState K V β}
    (r : DbRun C ⟨fs, .off⟩ tr s) : ∀ d, s.phase.dict? = some d → d = ((idealOf C fs).after tr).mem :=
  ((DbInv.init C fs).run r).mem

/-- **C22** (bytes).  Between any two successful syncs the file is not touched at all: whatever happens (including kills, failures, restarts),
as long as no sync succeeds and nobody opens with flag `n`, the file holds the very bytes it held before (or has been created empty). -/
theorem C22_previous_contents_kept (C : Codec (Dict K V) β) {s t : DbState K V β} {tr : List (DbLabel K V)} (r : DbRun C s tr t)
    (h1 : DbLabel.synced ∉ tr) (h2 : DbLabel.opened .n ∉ tr) :
    t.disk .db = s.disk .db ∨ (s.disk .db = none ∧ t.disk .db = some []) := by
  induction r with
  | nil => exact .inl rfl
  | snoc r st ih =>
    simp only [List.mem_append, List.mem_singleton, not_or] at h1 h2
    have := ih h1.1 h2.1
    cases st <;> simp_all [Disk.put]

/-- **C22** (both).  Take any call of `sync` on a process whose dictionary is `d`, and any number of later writes, failures, retried syncs
and kills: at every point the file holds the bytes it held when `sync` was
called (empty if there was none), or a complete dump of `d`. -/
theorem C22_old_or_new_at_every_crash_point (C : Codec (Dict K V) β) {fs : Disk β} {h : Handle K V} {t : DbState K V β}
    {tr : List (DbLabel K V)} (r : DbRun C ⟨fs, .idle h⟩ (.syncCalled :: tr) t)
    (hq : ∀ l ∈ tr, l = .syncCalled ∨ l = .wrote ∨ l = .synced ∨ l = .syncFailed ∨ l = .gone ∨ l = .openFailed) :
    t.disk .db = fs .db ∨ t.disk .db = some (C.enc h.dict) := by
  suffices H : ∀ s u tr', DbRun C s tr' u → s = ⟨fs, .idle h⟩ → (∀ l ∈ tr', l = .syncCalled ∨ l = .wrote ∨ l = .synced ∨ l = .syncFailed ∨ l = .gone ∨ l = .openFailed) →
      (u.disk .db = fs .db ∨ u.disk .db = some (C.enc h.dict)) ∧ (∀ d, u.phase.dict? = some d → d = h.dict) ∧
      (∀ h' rest, u.phase = .dumping h' rest → ∃ c, u.disk .tmp = some c ∧ c ++ rest = C.enc h'.dict) ∧
      (∀ h', u.phase = .dumped h' → u.disk .tmp = some (C.enc h'.dict)) from
    (H _ _ _ r rfl (by intro l hl; rcases List.mem_cons.1 hl with rfl | hl; · exact .inl rfl
                       · exact hq l hl)).1
  intro s u tr' r hs hl
  subst hs
  induction r with
  | nil => exact ⟨.inl rfl, by simp [Phase.dict?], by rintro _ _ ⟨⟩, by rintro _ ⟨⟩⟩
  | snoc r st ih =>
    obtain ⟨i1, i2, i3, i4⟩ := ih (fun l h => hl l (by simp [h]))
    have hl' := hl _ (List.mem_append_right _ (List.mem_singleton.2 rfl))
    cases st with
    | openNew => simp at hl'
    | openOld => simp at hl'
    | openCreate => simp at hl'
    | openMissing => exact ⟨i1, i2, i3, i4⟩
    | set => simp at hl'
    | del => simp at hl'
    | readOnly => simp at hl'
    | closeIdle => simp at hl'
    | syncStart fs' h' hw =>
      refine ⟨by simpa [Disk.put] using i1, by simpa [Phase.dict?] using i2, ?_, by rintro _ ⟨⟩⟩
      rintro h' rest ⟨⟩; exact ⟨[], by simp [Disk.put]⟩
    | write fs' h' rest n c hc =>
      obtain ⟨c', hc', e⟩ := i3 h' rest rfl
      refine ⟨by simpa [Disk.put] using i1, by simpa [Phase.dict?] using i2, ?_, by rintro _ ⟨⟩⟩
      rintro h' rest' ⟨⟩
      have : c = c' := by simpa [hc] using hc'
      subst this
      exact ⟨c ++ rest.take n, by simp [Disk.put], by rw [List.append_assoc, List.take_append_drop, e]⟩
    | closeTmp fs' h' =>
      obtain ⟨c', hc', e⟩ := i3 h' [] rfl
      refine ⟨i1, i2, by rintro _ _ ⟨⟩, ?_⟩
      rintro h' ⟨⟩
      simpa [← e] using hc'
    | replace fs' h' c hc =>
      have e := i4 h' rfl
      have e' := i2 h'.dict rfl
      have : c = C.enc h'.dict := by simpa [hc] using e
      subst this
      refine ⟨.inr (by simp [Disk.put, e']), by simpa [Phase.dict?] using i2, by rintro _ _ ⟨⟩, by rintro _ ⟨⟩⟩
    | raiseOpen => exact ⟨i1, i2, i3, i4⟩
    | raiseDump => exact ⟨i1, i2, by rintro _ _ ⟨⟩, by rintro _ ⟨⟩⟩
    | raiseReplace => exact ⟨i1, i2, by rintro _ _ ⟨⟩, by rintro _ ⟨⟩⟩
    | gone => exact ⟨i1, by simp [Phase.dict?], by rintro _ _ ⟨⟩, by rintro _ ⟨⟩⟩

/-! ## C23: what was written is read back -/

/-- What one operation says about a key: a value, that there is none, or nothing. -/
def said (k : K) : DbLabel K V → Option (Option V)
  | .set k' v => if k' = k then some (some v) else none
  | .del k' => if k' = k then some none else none
  | _ => none

/-- The user's view of a session: the last thing said about a key.  `none`: nothing. -/
def lastSaid (k : K) : List (DbLabel K V) → Option (Option V)
  | [] => none
  | l :: tr => (lastSaid k tr).or (said k l)

/-- Labels of a session between an open and the sync that saves it. -/
def Quiet (l : DbLabel K V) : Prop :=
  match l with
  | .opened _ | .synced | .gone => False
  | _ => True

theorem Ideal.after_quiet (i : Ideal K V) (ops : List (DbLabel K V)) (hq : ∀ l ∈ ops, Quiet l) (k : K) :
    (i.after ops).saved = i.saved ∧
    Dict.get? (i.after ops).mem k = match lastSaid k ops with | some x => x | none => Dict.get? i.mem k := by
  induction ops generalizing i with
  | nil => simp [Ideal.after, lastSaid]
  | cons l ops ih =>
    have hl := hq l (by simp)
    have := ih (i.next l) (fun l h => hq l (by simp [h]))
    simp only [Ideal.after, List.foldl_cons] at this ⊢
    refine ⟨this.1.trans ?_, this.2.trans ?_⟩
    · cases l <;> simp_all [Ideal.next, Quiet]
    · rw [show lastSaid k (l :: ops) = (lastSaid k ops).or (said k l) from rfl]
      cases e : lastSaid k ops with
      | some x => simp
      | none =>
        have : (match said k l with | some x => x | none => Dict.get? i.mem k) = Dict.get? (i.next l).mem k := by
          cases l <;> simp_all [Ideal.next, Quiet, said, Dict.get?_set, Dict.get?_del] <;> grind
        simpa using this.symm

/-- **C23.**  Any history `t₀`; then a process opens the database (flag `c` or `w`, finding `before`), performs any operations (assignments and deletions, and any
number of failing syncs), and a sync succeeds; later there may be anything that does not save: kills, failures, reopenings, even further unsaved
changes.  A process opening the database then finds for each key the last value stored under it, nothing if it was deleted last, and
what `before` had if the key was not mentioned. -/
theorem C23_read_back (C : Codec (Dict K V) β) (fs : Disk β) {t₀ ops rest : List (DbLabel K V)} {f g : Flag} {s₀ s : DbState K V β}
    (hf : f ≠ .n) (hops : ∀ l ∈ ops, Quiet l) (hrest : ∀ l ∈ rest, l ≠ .synced ∧ l ≠ .opened .n) (hg : g ≠ .n)
    (r₀ : DbRun C ⟨fs, .off⟩ t₀ s₀)
    (r : DbRun C s₀ (.opened f :: ops ++ .synced :: rest ++ [.opened g]) s) :
    ∃ h, s.phase = .idle h ∧ ∀ k, Dict.get? h.dict k =
      match lastSaid k ops with
      | some x => x
      | none => Dict.get? (onDisk C s₀.disk) k := by
  have I₀ := (DbInv.init C fs).run r₀
  have I := I₀.run r
  generalize hi : (idealOf C fs).after t₀ = i at I₀ I
  have hph : ∃ h, s.phase = .idle h := by
    generalize htr : (DbLabel.opened f :: ops ++ DbLabel.synced :: rest ++ [DbLabel.opened g]) = tr at r
    cases r with
    | nil => simp at htr
    | snoc r st =>
      have := (List.append_inj' htr rfl).2
      cases st <;> simp_all
  obtain ⟨h, hh⟩ := hph
  refine ⟨h, hh, fun k => ?_⟩
  rw [I.mem h.dict (by simp [hh, Phase.dict?])]
  have hrestsaved : ∀ (j : Ideal K V) (tr : List (DbLabel K V)), (∀ l ∈ tr, l ≠ .synced ∧ l ≠ .opened .n) → (j.after tr).saved = j.saved := by
    intro j tr
    induction tr generalizing j with
    | nil => intro _; rfl
    | cons l tr ih =>
      intro hl
      have := ih (j.next l) (fun l h => hl l (by simp [h]))
      have hl' := hl l (by simp)
      simp only [Ideal.after, List.foldl_cons] at this ⊢
      rw [this]
      rcases l with ⟨⟨⟩⟩ | _ | _ | _ | _ | _ | _ | _ | _ | _ <;> simp_all [Ideal.next]
  have e1 : i.after (.opened f :: ops ++ .synced :: rest ++ [.opened g]) =
      ((((i.next (.opened f)).after ops).next .synced).after rest).next (.opened g) := by
    simp [Ideal.after]
  have e2 : ∀ (j : Ideal K V) (f : Flag), f ≠ .n → j.next (.opened f) = ⟨j.saved, j.saved⟩ := by
    intro j f hf; cases f <;> simp_all [Ideal.next]
  rw [e1, e2 _ g hg, hrestsaved _ _ hrest, e2 _ f hf]
  simp only [Ideal.next]
  rw [(Ideal.after_quiet _ ops hops k).2, I₀.saved]

/-- **C23** (no other keys): the same for a database created afresh (flag `n`): only keys mentioned are there. -/
theorem C23_read_back_new (C : Codec (Dict K V) β) (fs : Disk β) {ops rest : List (DbLabel K V)} {g : Flag} {s : DbState K V β}
    (hops : ∀ l ∈ ops, Quiet l) (hrest : ∀ l ∈ rest, l = .gone ∨ l = .nothing ∨ l = .openFailed) (hg : g ≠ .n)
    (r : DbRun C ⟨fs, .off⟩ (.opened .n :: ops ++ .synced :: rest ++ [.opened g]) s) :
    ∀ d, s.phase.dict? = some d → ∀ k, Dict.get? d k = (lastSaid k ops).getD none := by
  intro d hd k
  rw [((DbInv.init C fs).run r).mem d hd]
  have e1 : (idealOf C fs).after (.opened .n :: ops ++ .synced :: rest ++ [.opened g]) =
      (((((idealOf C fs).next (.opened .n)).after ops).next .synced).after rest).next (.opened g) := by
    simp [Ideal.after]
  have e2 : ∀ (j : Ideal K V), (j.after rest) = j := by
    intro j
    clear e1 r
    induction rest generalizing j with
    | nil => rfl
    | cons l rest ih =>
      have := hrest l (by simp)
      simp only [Ideal.after, List.foldl_cons] at ih ⊢
      rw [ih (fun l h => hrest l (by simp [h]))]
      rcases this with rfl | rfl | rfl <;> rfl
  rw [e1, e2]
  have e3 : ∀ (j : Ideal K V), j.next (.opened g) = ⟨j.saved, j.saved⟩ := by intro j; cases g <;> simp_all [Ideal.next]
  rw [e3]
  simp only [Ideal.next]
  rw [(Ideal.after_quiet _ ops hops k).2]
  cases lastSaid k ops <;> simp

/-- A session is never left unsaved by `close` when something was assigned: in a state between calls in which `close` has nothing to do
(`_needs_sync` is false), an assignment not followed by a successful sync cannot have happened. -/
theorem C23_close_does_not_skip_assignments (C : Codec (Dict K V) β) {s t : DbState K V β} {k : K} {v : V} {tr : List (DbLabel K V)}
    (r : DbRun C s (.set k v :: tr) t) (htr : ∀ l ∈ tr, Quiet l) : ∀ h, t.phase = .idle h → h.needsSync = true := by
  suffices H : ∀ tr' u, DbRun C s tr' u → ∀ tr, tr' = .set k v :: tr → (∀ l ∈ tr, Quiet l) →
      (match u.phase with | .off => False | .idle h | .dumping h _ | .dumped h => h.needsSync = true) by
    intro h hh
    have := H _ _ r tr rfl htr
    simpa [hh] using this
  intro tr' u r
  induction r with
  | nil => intro tr h; simp at h
  | @snoc t' _ tr₁ l r st ih =>
    intro tr e hq
    cases tr₁ with
    | nil =>
      simp at e
      obtain ⟨rfl, rfl⟩ := e
      cases st
      rfl
    | cons a tr₁ =>
      simp at e
      obtain ⟨rfl, rfl⟩ := e
      have := ih tr₁ rfl (fun l h => hq l (by simp [h]))
      have hl := hq l (by simp)
      cases st <;> simp_all [Quiet]

end Verif.Store
