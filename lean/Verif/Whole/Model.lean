import Verif.Build.Compose
import Verif.Pool.Compose
import Verif.TM.Term

/-!
# The whole program: worker threads, taskmaster, files and signatures

The worker pool of `Verif.Pool` (`Job.py:435-760`) with the taskmaster of `Verif.TM` acting on the files and signatures of `Verif.Build`: the
state of the pool's "taskmaster" is a `CSt` (walk + files + signature database + cached scans).  A run is any interleaving of steps of the
worker threads, of writes to files by actions in progress, and of an interrupt.

No new behaviour is defined here: the four relations of `TMI` are the steps of `Verif.Build.Compose`.
-/

set_option linter.unusedSectionVars false

namespace Verif.Whole

open Verif.Build Verif.Pool

variable {V B K A : Type} [DecidableEq V] [DecidableEq K] [Fintype V]

/-- Steps of an actual program: no `-i`; `no_next_candidate` (`Taskmaster/__init__.py:715-727`) does something only if there are candidates; a second
signal changes nothing. -/
def Real (X : CSt V B K A) (l : TM.Lab V) (_ : CSt V B K A) : Prop := l.noIgnore ∧ l.progress X.T

/-- The taskmaster with its effects, as the scheduler uses it (`Job.py:631-696`).  `P` restricts the steps considered. -/
def wtmi (M : Sem B K A) (D : Desc V B A) (C : TM.Cfg V) (P : CSt V B K A → TM.Lab V → CSt V B K A → Prop) : TMI (CSt V B K A) V where
  internal X X' := ∃ l, P X l X' ∧ IsConsider l ∧ CStep M D C X l X' ∧ X'.T.active = X.T.active
  give X n X' := ∃ l, P X l X' ∧ IsConsider l ∧ CStep M D C X l X' ∧ X'.T.active = n :: X.T.active
  empty X X' := X' = X ∧ X.T.cands = [] ∧ (X.T.tops = [] ∨ X.T.stopped = true)
  retire X n ok X' := ∃ res post, P X (.finish n res post) X' ∧ (ok = true ↔ res = none) ∧ CStep M D C X (.finish n res post) X'
  signal X X' := (P X .interrupt X' ∧ CStep M D C X .interrupt X') ∨
    ∃ t b, (X.S.running t).isSome ∧ X' = { X with S := X.S.write t b }

/-- The pool without files and signatures. -/
def proj (s : Pool (CSt V B K A) V) : Pool (TM.St V) V :=
  { pcs := s.pcs, st := s.st, jobs := s.jobs, results := s.results, lock := s.lock, tm := s.tm.T, max := s.max,
    given := s.given, execd := s.execd, retired := s.retired }

/-- a step of the program in which a worker, or the signal handler, does something -/
def Works (M : Sem B K A) (D : Desc V B A) (C : TM.Cfg V) (P : CSt V B K A → TM.Lab V → CSt V B K A → Prop) (s s' : Pool (CSt V B K A) V) : Prop :=
  Step (wtmi M D C P) s s' ∨ ∃ X', P s.tm .interrupt X' ∧ CStep M D C s.tm .interrupt X' ∧ s' = { s with tm := X' }

/-- a step in which an action in progress writes something under its target's name -/
def Writes (s s' : Pool (CSt V B K A) V) : Prop :=
  ∃ t b, (s.tm.S.running t).isSome ∧ s' = { s with tm := { s.tm with S := s.tm.S.write t b } }

theorem next_iff {M : Sem B K A} {D : Desc V B A} {C : TM.Cfg V} {P : CSt V B K A → TM.Lab V → CSt V B K A → Prop} {s s' : Pool (CSt V B K A) V} :
    Next (wtmi M D C P) s s' ↔ Works M D C P s s' ∨ Writes s s' := by
  constructor
  · rintro (h | ⟨X', h | ⟨t, b, h1, h2⟩, rfl⟩)
    · exact Or.inl (Or.inl h)
    · exact Or.inl (Or.inr ⟨X', h.1, h.2, rfl⟩)
    · exact Or.inr ⟨t, b, h1, by rw [h2]⟩
  · rintro ((h | ⟨X', h1, h2, rfl⟩) | ⟨t, b, h1, rfl⟩)
    · exact Or.inl h
    · exact Or.inr ⟨X', Or.inl ⟨h1, h2⟩, rfl⟩
    · exact Or.inr ⟨_, Or.inr ⟨t, b, h1, rfl⟩, rfl⟩

/-- The walk of a run of the whole program: a step of the pool over the walk, or nothing (a file was written). -/
theorem Next.proj {M : Sem B K A} {D : Desc V B A} {C : TM.Cfg V} {P : CSt V B K A → TM.Lab V → CSt V B K A → Prop}
    {Q : TM.St V → TM.Lab V → Prop} (hPQ : ∀ X l X', P X l X' → Q X.T l) {s s' : Pool (CSt V B K A) V}
    (h : Next (wtmi M D C P) s s') : Next (tmi C Q) (proj s) (proj s') ∨ Whole.proj s' = Whole.proj s := by
  rcases h with h | ⟨X', h | ⟨t, b, h1, h2⟩, rfl⟩
  · left; left
    cases h with
    | acquire i d h hl => exact .acquire (s := Whole.proj s) i d h hl
    | reacquire i h hl => exact .reacquire (s := Whole.proj s) i h hl
    | wait i d h hst => exact .wait (s := Whole.proj s) i d h hst
    | halt i d h hst => exact .halt (s := Whole.proj s) i d h hst
    | begin i d h hst => exact .begin (s := Whole.proj s) i d h hst
    | retire i k ok rs tm' h ht =>
      obtain ⟨res, post, h1, h2, h3⟩ := ht
      exact .retire (s := Whole.proj s) i k ok rs tm'.T h ⟨res, post, hPQ _ _ _ h1, h2, h3.tm⟩
    | retired i h => exact .retired (s := Whole.proj s) i h
    | internal i tm' h hst ht =>
      obtain ⟨l, h1, h2, h3, h4⟩ := ht
      exact .internal (s := Whole.proj s) i tm'.T h hst ⟨l, hPQ _ _ _ h1, h2, h3.tm, h4⟩
    | give i k tm' pcs' h hst ht hn =>
      obtain ⟨l, h1, h2, h3, h4⟩ := ht
      exact .give (s := Whole.proj s) i k tm'.T pcs' h hst ⟨l, hPQ _ _ _ h1, h2, h3.tm, h4⟩ hn
    | stall i tm' h hst ht hj =>
      exact .stall (s := Whole.proj s) i tm'.T h hst ⟨by rw [ht.1]; rfl, ht.2⟩ hj
    | complete i tm' h hst ht hj =>
      exact .complete (s := Whole.proj s) i tm'.T h hst ⟨by rw [ht.1]; rfl, ht.2⟩ hj
    | releaseExec i k h => exact .releaseExec (s := Whole.proj s) i k h
    | releaseIdle i h => exact .releaseIdle (s := Whole.proj s) i h
    | execute i k ok h => exact .execute (s := Whole.proj s) i k ok h
    | enqueue i k ok h => exact .enqueue (s := Whole.proj s) i k ok h
  · left; right
    exact ⟨X'.T, ⟨hPQ _ _ _ h.1, h.2.tm⟩, rfl⟩
  · right; rw [h2]; rfl

/-- Every run of the whole program is a run of the scheduler over the walk … -/
theorem Reach.proj {M : Sem B K A} {D : Desc V B A} {C : TM.Cfg V} {P : CSt V B K A → TM.Lab V → CSt V B K A → Prop}
    {Q : TM.St V → TM.Lab V → Prop} (hPQ : ∀ X l X', P X l X' → Q X.T l) {orig : List V} {S : St V B K A} {max : Nat}
    {s : Pool (CSt V B K A) V} (h : Reach (wtmi M D C P) (CSt.init orig S) max s) :
    Pool.Reach (tmi C Q) (TM.St.init orig) max (Whole.proj s) := by
  induction h with
  | refl => exact .refl
  | tail _ h ih =>
    rcases Next.proj hPQ h with h1 | h1
    · exact .tail ih h1
    · rw [h1]; exact ih

theorem Next.csteps {M : Sem B K A} {D : Desc V B A} {C : TM.Cfg V} {P : CSt V B K A → TM.Lab V → CSt V B K A → Prop} {s s' : Pool (CSt V B K A) V}
    {X : CSt V B K A} (h0 : CSteps M D C P X s.tm) (h : Next (wtmi M D C P) s s') : CSteps M D C P X s'.tm := by
  rcases h with h | ⟨X', h | ⟨t, b, h1, h2⟩, rfl⟩
  · cases h with
    | retire i k ok rs tm' h ht => obtain ⟨res, post, h1, h2, h3⟩ := ht; exact .tail _ h0 h1 h3
    | internal i tm' h hst ht => obtain ⟨l, h1, h2, h3, h4⟩ := ht; exact .tail _ h0 h1 h3
    | give i k tm' pcs' h hst ht hn => obtain ⟨l, h1, h2, h3, h4⟩ := ht; exact .tail _ h0 h1 h3
    | stall i tm' h hst ht hj => rw [show tm' = s.tm from ht.1]; exact h0
    | complete i tm' h hst ht hj => rw [show tm' = s.tm from ht.1]; exact h0
    | _ => exact h0
  · exact .tail _ h0 h.1 h.2
  · show CSteps M D C P X X'
    rw [h2]; exact .scribble t b h0 h1

/-- … and of the taskmaster acting on files and signatures. -/
theorem Reach.csteps {M : Sem B K A} {D : Desc V B A} {C : TM.Cfg V} {P : CSt V B K A → TM.Lab V → CSt V B K A → Prop} {X : CSt V B K A} {max : Nat}
    {s : Pool (CSt V B K A) V} (h : Reach (wtmi M D C P) X max s) : CSteps M D C P X s.tm := by
  induction h with
  | refl => exact .refl _
  | tail _ h ih => exact Next.csteps ih h

theorem CSteps.mono {M : Sem B K A} {D : Desc V B A} {C : TM.Cfg V} {P P' : CSt V B K A → TM.Lab V → CSt V B K A → Prop}
    (h : ∀ X l X', P X l X' → P' X l X') {X X' : CSt V B K A} (hs : CSteps M D C P X X') : CSteps M D C P' X X' := by
  induction hs with
  | refl => exact .refl _
  | tail l _ hP hs ih => exact .tail l ih (h _ _ _ hP) hs
  | scribble t b _ hr ih => exact .scribble t b ih hr

end Verif.Whole
