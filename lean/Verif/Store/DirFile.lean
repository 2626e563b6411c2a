import Verif.Store.SConsign

/-!
# Model of `SConsign.DirFile.write` (`SConsign.py:360-418`): one `.sconsign` file per directory

Small steps, one per file system operation; any operation may fail with `OSError`; the process may be killed between any two steps, i.e. every
reachable state is a crash state.  `new` is the dictionary being written.
-/

namespace Verif.Store

/-- The two files: `.sconsign` and the temporary file `.scons<pid>`. -/
inductive DName | sconsign | temp
  deriving DecidableEq

/-- Contents of the two files. -/
abbrev DDisk (β : Type) := DName → Option (List β)

def DDisk.put {β : Type} (fs : DDisk β) (f : DName) (c : Option (List β)) : DDisk β := fun x => if x = f then c else fs x

/-- Program points of `write`. -/
inductive DPhase (β : Type)
  /-- before line 379 -/
  | start
  /-- lines 387-390, writing to the temporary file -/
  | dumpTemp (rest : List β)
  /-- lines 387-390, writing to `.sconsign` itself (the fall-back of line 383) -/
  | dumpDirect (rest : List β)
  /-- line 392: temporary file complete -/
  | remove
  /-- line 402; is `mode` bound? -/
  | rename (mode : Bool)
  /-- line 412, `.sconsign` was opened for writing (truncated), `fname` not yet -/
  | reopen (mode : Bool)
  /-- line 413 -/
  | copy (mode : Bool) (rest : List β)
  /-- line 415 -/
  | cleanup
  /-- returned -/
  | done
  /-- an exception left `write` -/
  | raised
  deriving DecidableEq

structure DState (β : Type) where
  disk : DDisk β
  phase : DPhase β

/-- Steps.  The Boolean label tells whether a fall-back writing in place was taken by this step. -/
inductive DStep {β : Type} (new : List β) : DState β → Bool → DState β → Prop
  /-- line 379 -/
  | openTemp (fs) : DStep new ⟨fs, .start⟩ false ⟨fs.put .temp (some []), .dumpTemp new⟩
  /-- lines 381-384 -/
  | openDirect (fs) : DStep new ⟨fs, .start⟩ true ⟨fs.put .sconsign (some []), .dumpDirect new⟩
  /-- lines 385-386 -/
  | openNone (fs) : DStep new ⟨fs, .start⟩ false ⟨fs, .done⟩
  | writeTemp (fs : DDisk β) (rest n c) (hc : fs .temp = some c) :
      DStep new ⟨fs, .dumpTemp rest⟩ false ⟨fs.put .temp (some (c ++ rest.take n)), .dumpTemp (rest.drop n)⟩
  | writeDirect (fs : DDisk β) (rest n c) (hc : fs .sconsign = some c) :
      DStep new ⟨fs, .dumpDirect rest⟩ false ⟨fs.put .sconsign (some (c ++ rest.take n)), .dumpDirect (rest.drop n)⟩
  | raiseTemp (fs rest) : DStep new ⟨fs, .dumpTemp rest⟩ false ⟨fs, .raised⟩
  | raiseDirect (fs rest) : DStep new ⟨fs, .dumpDirect rest⟩ false ⟨fs, .raised⟩
  | closeTemp (fs) : DStep new ⟨fs, .dumpTemp []⟩ false ⟨fs, .remove⟩
  /-- line 391: `fname == self.sconsign` -/
  | closeDirect (fs) : DStep new ⟨fs, .dumpDirect []⟩ false ⟨fs, .cleanup⟩
  /-- lines 393-395: all three succeed -/
  | removeOk (fs) : DStep new ⟨fs, .remove⟩ false ⟨fs.put .sconsign none, .rename true⟩
  /-- `stat` fails: `mode` stays unbound -/
  | statFails (fs) : DStep new ⟨fs, .remove⟩ false ⟨fs, .rename false⟩
  /-- `chmod` or `unlink` fails -/
  | unlinkFails (fs) : DStep new ⟨fs, .remove⟩ false ⟨fs, .rename true⟩
  /-- line 403 -/
  | renameOk (fs : DDisk β) (m c) (hc : fs .temp = some c) :
      DStep new ⟨fs, .rename m⟩ false ⟨(fs.put .sconsign (some c)).put .temp none, .cleanup⟩
  /-- lines 404-412, first `open` -/
  | renameFails (fs m) : DStep new ⟨fs, .rename m⟩ true ⟨fs.put .sconsign (some []), .reopen m⟩
  | renameFailsOpenFails (fs m) : DStep new ⟨fs, .rename m⟩ true ⟨fs, .raised⟩
  | reopenOk (fs : DDisk β) (m c) (hc : fs .temp = some c) : DStep new ⟨fs, .reopen m⟩ false ⟨fs, .copy m c⟩
  | reopenFails (fs m) : DStep new ⟨fs, .reopen m⟩ false ⟨fs, .raised⟩
  | copyWrite (fs : DDisk β) (m rest n c) (hc : fs .sconsign = some c) :
      DStep new ⟨fs, .copy m rest⟩ false ⟨fs.put .sconsign (some (c ++ rest.take n)), .copy m (rest.drop n)⟩
  | copyRaises (fs m rest) : DStep new ⟨fs, .copy m rest⟩ false ⟨fs, .raised⟩
  /-- line 414, `mode` bound -/
  | copyDone (fs) : DStep new ⟨fs, .copy true []⟩ false ⟨fs, .cleanup⟩
  /-- line 414, `mode` unbound: `UnboundLocalError` -/
  | copyUnbound (fs) : DStep new ⟨fs, .copy false []⟩ false ⟨fs, .raised⟩
  /-- lines 415-418 -/
  | unlinkTemp (fs) : DStep new ⟨fs, .cleanup⟩ false ⟨fs.put .temp none, .done⟩
  | unlinkTempFails (fs) : DStep new ⟨fs, .cleanup⟩ false ⟨fs, .done⟩

/-- Executions of `write`; the label tells whether some step took a fall-back. -/
inductive DRun {β : Type} (new : List β) : DState β → Bool → DState β → Prop
  | nil (s) : DRun new s false s
  | snoc {s t u a b} : DRun new s a t → DStep new t b u → DRun new s (a || b) u

variable {α β : Type}

/-- What the next run reads (`DirFile.__init__`, `SConsign.py:340-351`): nothing if there is no file or it does not load. -/
def readSconsign (C : Codec (List α) β) (fs : DDisk β) : List α :=
  match fs .sconsign with
  | none => []
  | some p => (C.dec p).getD []

/-- Invariant: `.sconsign` is absent, untouched or a prefix of the new contents; a strict prefix only after a fall-back. -/
structure DInv (new : List β) (old : Option (List β)) (fb : Bool) (s : DState β) : Prop where
  file : s.disk .sconsign = none ∨ s.disk .sconsign = old ∨ s.disk .sconsign = some new ∨
    (fb = true ∧ ∃ p, p <+: new ∧ s.disk .sconsign = some p)
  dumpTemp : ∀ rest, s.phase = .dumpTemp rest → ∃ c, s.disk .temp = some c ∧ c ++ rest = new
  dumpDirect : ∀ rest, s.phase = .dumpDirect rest → fb = true ∧ ∃ c, s.disk .sconsign = some c ∧ c ++ rest = new
  full : s.phase = .remove ∨ (∃ m, s.phase = .rename m) ∨ (∃ m, s.phase = .reopen m) → s.disk .temp = some new
  reopen : ∀ m, s.phase = .reopen m → fb = true ∧ s.disk .sconsign = some []
  copy : ∀ m rest, s.phase = .copy m rest → fb = true ∧ ∃ c, s.disk .sconsign = some c ∧ c ++ rest = new
  clean : s.phase = .cleanup → s.disk .sconsign = some new

theorem DInv.step {new : List β} {old : Option (List β)} {fb b : Bool} {s t : DState β} (h : DInv new old fb s) (st : DStep new s b t) :
    DInv new old (fb || b) t := by
  obtain ⟨h1, h2, h3, h4, h5, h6, h7⟩ := h
  cases st with
  | openTemp fs =>
    refine ⟨by simpa [DDisk.put] using h1, ?_, ?_, ?_, ?_, ?_, ?_⟩ <;> simp [DDisk.put]
  | openDirect fs =>
    refine ⟨.inr (.inr (.inr ⟨by simp, [], List.nil_prefix, by simp [DDisk.put]⟩)), ?_, ?_, ?_, ?_, ?_, ?_⟩ <;> simp [DDisk.put]
  | openNone fs => refine ⟨by simpa using h1, ?_, ?_, ?_, ?_, ?_, ?_⟩ <;> simp
  | writeTemp fs rest n c hc =>
    obtain ⟨c', hc', e⟩ := h2 rest rfl
    have : c = c' := by simpa [hc] using hc'
    subst this
    refine ⟨by simpa [DDisk.put] using h1, ?_, ?_, ?_, ?_, ?_, ?_⟩ <;> simp [DDisk.put]
    exact e
  | writeDirect fs rest n c hc =>
    obtain ⟨hf, c', hc', e⟩ := h3 rest rfl
    have : c = c' := by simpa [hc] using hc'
    subst this
    have hpre : c ++ rest.take n <+: new := by rw [← e]; exact (List.prefix_append_right_inj c).2 (List.take_prefix n rest)
    refine ⟨.inr (.inr (.inr ⟨by simp [hf], c ++ rest.take n, hpre, by simp [DDisk.put]⟩)), ?_, ?_, ?_, ?_, ?_, ?_⟩ <;> simp [DDisk.put]
    exact ⟨hf, e⟩
  | raiseTemp fs rest => refine ⟨by simpa using h1, ?_, ?_, ?_, ?_, ?_, ?_⟩ <;> simp
  | raiseDirect fs rest => refine ⟨by simpa using h1, ?_, ?_, ?_, ?_, ?_, ?_⟩ <;> simp
  | closeTemp fs =>
    obtain ⟨c', hc', e⟩ := h2 [] rfl
    refine ⟨by simpa using h1, ?_, ?_, ?_, ?_, ?_, ?_⟩ <;> simp
    simpa [← e] using hc'
  | closeDirect fs =>
    obtain ⟨hf, c', hc', e⟩ := h3 [] rfl
    refine ⟨by simpa using h1, ?_, ?_, ?_, ?_, ?_, ?_⟩ <;> simp
    simpa [← e] using hc'
  | removeOk fs =>
    have := h4 (.inl rfl)
    refine ⟨by simp [DDisk.put], ?_, ?_, ?_, ?_, ?_, ?_⟩ <;> simp_all [DDisk.put]
  | statFails fs => have := h4 (.inl rfl); refine ⟨by simpa using h1, ?_, ?_, ?_, ?_, ?_, ?_⟩ <;> simp_all
  | unlinkFails fs => have := h4 (.inl rfl); refine ⟨by simpa using h1, ?_, ?_, ?_, ?_, ?_, ?_⟩ <;> simp_all
  | renameOk fs m c hc =>
    have := h4 (.inr (.inl ⟨m, rfl⟩))
    have : c = new := by simpa [hc] using this
    subst this
    refine ⟨by simp [DDisk.put], ?_, ?_, ?_, ?_, ?_, ?_⟩ <;> simp [DDisk.put]
  | renameFails fs m =>
    have := h4 (.inr (.inl ⟨m, rfl⟩))
    refine ⟨.inr (.inr (.inr ⟨by simp, [], List.nil_prefix, by simp [DDisk.put]⟩)), ?_, ?_, ?_, ?_, ?_, ?_⟩ <;> simp_all [DDisk.put]
  | renameFailsOpenFails fs m => refine ⟨?_, ?_, ?_, ?_, ?_, ?_, ?_⟩ <;> simp <;> grind
  | reopenOk fs m c hc =>
    have e := h4 (.inr (.inr ⟨m, rfl⟩))
    have : c = new := by simpa [hc] using e
    subst this
    have h5' := h5 m rfl
    refine ⟨by simpa using h1, ?_, ?_, ?_, ?_, ?_, ?_⟩ <;> simp
    exact ⟨h5'.1, h5'.2⟩
  | reopenFails fs m => refine ⟨by simpa using h1, ?_, ?_, ?_, ?_, ?_, ?_⟩ <;> simp
  | copyWrite fs m rest n c hc =>
    obtain ⟨hf, c', hc', e⟩ := h6 m rest rfl
    have : c = c' := by simpa [hc] using hc'
    subst this
    have hpre : c ++ rest.take n <+: new := by rw [← e]; exact (List.prefix_append_right_inj c).2 (List.take_prefix n rest)
    refine ⟨.inr (.inr (.inr ⟨by simp [hf], c ++ rest.take n, hpre, by simp [DDisk.put]⟩)), ?_, ?_, ?_, ?_, ?_, ?_⟩ <;> simp [DDisk.put]
    exact ⟨hf, e⟩
  | copyRaises fs m rest => refine ⟨by simpa using h1, ?_, ?_, ?_, ?_, ?_, ?_⟩ <;> simp
  | copyDone fs =>
    obtain ⟨hf, c', hc', e⟩ := h6 true [] rfl
    refine ⟨by simpa using h1, ?_, ?_, ?_, ?_, ?_, ?_⟩ <;> simp
    simpa [← e] using hc'
  | copyUnbound fs => refine ⟨by simpa using h1, ?_, ?_, ?_, ?_, ?_, ?_⟩ <;> simp
  | unlinkTemp fs => refine ⟨by simpa [DDisk.put] using h1, ?_, ?_, ?_, ?_, ?_, ?_⟩ <;> simp [DDisk.put]
  | unlinkTempFails fs => refine ⟨by simpa using h1, ?_, ?_, ?_, ?_, ?_, ?_⟩ <;> simp

theorem DInv.run {new : List β} {fs : DDisk β} {fb : Bool} {t : DState β} (r : DRun new ⟨fs, .start⟩ fb t) :
    DInv new (fs .sconsign) fb t := by
  generalize hs : (⟨fs, .start⟩ : DState β) = s at r
  induction r with
  | nil => subst hs; refine ⟨.inr (.inl rfl), ?_, ?_, ?_, ?_, ?_, ?_⟩ <;> simp
  | snoc _ st ih => exact ih.step st

/-- **C25** (what the next run sees).  Whatever the directory contained (left-over temporary files too), wherever `write` is interrupted, whichever
operations fail: the next run reads the complete old entries, the complete new entries, or none at all (then everything is rebuilt). -/
theorem C25_next_run_reads_old_new_or_nothing (C : Codec (List α) β) (fs : DDisk β) (es : List α) {fb : Bool} {t : DState β}
    (r : DRun (C.enc es) ⟨fs, .start⟩ fb t) :
    readSconsign C t.disk = readSconsign C fs ∨ readSconsign C t.disk = es ∨ readSconsign C t.disk = [] := by
  have := (DInv.run r).file
  unfold readSconsign
  rcases this with h | h | h | ⟨-, p, hp, h⟩
  · simp [h]
  · simp [h]
  · simp [h, C.dec_enc]
  · by_cases e : p = C.enc es
    · simp [h, e, C.dec_enc]
    · simp [h, C.dec_prefix es p hp e]

/-- **C25** (the file).  As long as the temporary file can be created and renamed, the file under the final name is at every moment the old
file, the complete new file, or absent: never truncated. -/
theorem C25_never_truncated (C : Codec (List α) β) (fs : DDisk β) (es : List α) {t : DState β}
    (r : DRun (C.enc es) ⟨fs, .start⟩ false t) :
    t.disk .sconsign = fs .sconsign ∨ t.disk .sconsign = some (C.enc es) ∨ t.disk .sconsign = none := by
  rcases (DInv.run r).file with h | h | h | ⟨h, -⟩
  · exact .inr (.inr h)
  · exact .inl h
  · exact .inr (.inl h)
  · simp at h

/-- **C25** (completion).  When `write` returns after having been able to open one of the files, the new entries are on disk. -/
theorem C25_completed_write_is_read_back (C : Codec (List α) β) (fs : DDisk β) (es : List α) {fb : Bool} {t : DState β}
    (r : DRun (C.enc es) ⟨fs, .start⟩ fb t) (h : t.phase = .cleanup) : readSconsign C t.disk = es := by
  simp [readSconsign, (DInv.run r).clean h, C.dec_enc]

end Verif.Store
