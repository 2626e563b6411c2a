import Verif.Build.Props

/-!
# Concrete histories: non-vacuity of C15/C19, and what goes wrong without the hypothesis on failed and killed runs
-/

namespace Verif.Build

open Verif.Sig

/-- Contents are numbers, the only action multiplies the sum of its inputs by its parameter; signatures and hashes are the identity. -/
def exM : Sem Nat Nat Nat := { run := fun a l => a * (l.sum + 1), sig := id, hash := id, nofile := 0, size := fun _ => 1 }

theorem exM_faithful : exM.Faithful := ⟨fun _ _ h => h, fun a b h => by cases (show a = b from h); rfl⟩

/-- 0 is a source; 1 is built from 0; if the content of 0 is below 10 then 2 is built from 0 and (found by the scanner) 1, otherwise from 0 alone. -/
def exD (act : Nat) : Desc (Fin 3) Nat Nat := fun v =>
  if v = 0 then none
  else if v = 1 then some (.look 0 fun _ => .found { sources := [0], depends := [], implicit := [], ignore := [], action := act })
  else some (.look 0 fun c =>
    if (c.getD 0) < 10 then .look 1 fun _ => .found { sources := [0], depends := [], implicit := [1], ignore := [], action := act + 1 }
    else .found { sources := [0], depends := [], implicit := [], ignore := [], action := act + 1 })

theorem exD_wf (act : Nat) : WF (exD act) := by
  intro t sc h fs
  unfold exD at h
  split at h
  · cases h
  · split at h
    · simp only [Option.some.injEq] at h
      subst h
      simp [Scan.asked, Scan.result, Leaf.children]
    · simp only [Option.some.injEq] at h
      subst h
      by_cases h0 : (fs 0).getD 0 < 10 <;> simp [Scan.asked, Scan.result, Leaf.children, h0]

/-- A fresh check-out. -/
def exS (c : Nat) : St (Fin 3) Nat Nat Nat :=
  { fs := fun v => if v = 0 then some c else none, db := fun _ => {}, disk := fun _ => {}, infos := fun _ => {}, done := fun _ => False, running := fun _ => none, busy := false }

/-! Histories are written as lists of labels; `exec` is an executable version of `Step`, proved sound. -/

/-- Boolean version of `St.ready` for a finished set given as a list. -/
def readyB (D : Desc (Fin 3) Nat Nat) (S : St (Fin 3) Nat Nat Nat) (done : List (Fin 3)) (t : Fin 3) : Option (Scan (Fin 3) Nat Nat) :=
  match D t with
  | none => none
  | some sc =>
    if S.busy = true ∧ t ∉ done ∧ (S.running t).isNone = true ∧ ∀ c ∈ (sc.result S.fs).children, c ∈ done then some sc else none

/-- One step, with the finished set kept as a list on the side. -/
def exec (D : Desc (Fin 3) Nat Nat) (S : St (Fin 3) Nat Nat Nat) (done : List (Fin 3)) : Lab (Fin 3) Nat → Option (St (Fin 3) Nat Nat Nat × List (Fin 3))
  | .begin => if S.busy = false then
      some ({ S with busy := true, done := fun _ => False, running := fun _ => none, infos := fun _ => {}, db := S.disk }, []) else none
  | .source v => if S.busy = true ∧ (D v).isNone = true ∧ v ∉ done then some ({ S with done := fun x => x = v ∨ S.done x }, v :: done) else none
  | .check t => (readyB D S done t).bind fun sc =>
      some ({ S with infos := ((S.world exM).isUpToDate .content t ((sc.result S.fs).target exM) S.infos).2 }, done)
  | .current t => (readyB D S done t).bind fun sc =>
      if (∀ c ∈ (sc.result S.fs).children, (S.infos c).csig.isSome = true) ∧ ((S.world exM).isUpToDate .content t ((sc.result S.fs).target exM) S.infos).1 = true then
        some ({ S with
          db := fun x => if x = t then ((sc.result S.fs).target exM).binfo S.infos else S.db x
          done := fun x => x = t ∨ S.done x }, t :: done) else none
  | .start t => (readyB D S done t).bind fun sc =>
      if (∀ c ∈ (sc.result S.fs).children, (S.infos c).csig.isSome = true) then
        some ({ S.write t none with
          infos := fun x => if x = t then {} else S.infos x
          running := fun x => if x = t then some ⟨sc.result S.fs, [(S.write t none).fs]⟩ else (S.write t none).running x }, done) else none
  | .finish t view =>
    match S.running t with
    | none => none
    | some r =>
      if S.busy = true ∧ ∀ c ∈ r.leaf.children, ∃ snap ∈ r.log, view c = snap c then
        some ({ S.write t (some (exM.run r.leaf.action (r.leaf.children.map fun c => exM.see (view c)))) with
          infos := fun x => if x = t then { csig := some (exM.hash (exM.run r.leaf.action (r.leaf.children.map fun c => exM.see (view c)))) } else S.infos x
          db := fun x => if x = t then (r.leaf.target exM).binfo S.infos else S.db x
          done := fun x => x = t ∨ S.done x
          running := fun x => if x = t then none else (S.write t (some (exM.run r.leaf.action (r.leaf.children.map fun c => exM.see (view c))))).running x }, t :: done)
      else none
  | .scribble t b => if S.busy = true ∧ (S.running t).isSome = true then some (S.write t b, done) else none
  | .fail t left => if S.busy = true ∧ (S.running t).isSome = true then
      some ({ S.write t left with running := fun x => if x = t then none else (S.write t left).running x }, done) else none
  | .finishRun => if S.busy = true ∧ ∀ t, (S.running t).isNone = true then some ({ S with busy := false, disk := S.db }, done) else none
  | .kill left => if S.busy = true then
      some ({ S with busy := false, running := fun _ => none, fs := fun x => if (S.running x).isSome then left x else S.fs x }, done) else none
  | .edit v b => if S.busy = false then some ({ S with fs := fun x => if x = v then b else S.fs x }, done) else none

theorem readyB_sound {D S done t sc} (hd : ∀ x, S.done x ↔ x ∈ done) (h : readyB D S done t = some sc) : S.ready D t sc := by
  unfold readyB at h
  split at h
  · cases h
  · split at h
    · rename_i sc' e h1
      cases h
      exact ⟨h1.1, e, fun h2 => h1.2.1 ((hd t).1 h2), Option.isNone_iff_eq_none.1 h1.2.2.1, fun c hc => (hd c).2 (h1.2.2.2 c hc)⟩
    · cases h

theorem exec_sound {D S done l S' done'} (hd : ∀ x, S.done x ↔ x ∈ done) (h : exec D S done l = some (S', done')) :
    Step exM D S l S' ∧ ∀ x, S'.done x ↔ x ∈ done' := by
  cases l with
  | begin =>
    simp only [exec] at h; split at h
    · cases h; exact ⟨.begin S (by assumption), by simp⟩
    · cases h
  | source v =>
    simp only [exec] at h; split at h
    · rename_i h1; cases h
      exact ⟨.source S v h1.1 (Option.isNone_iff_eq_none.1 h1.2.1) (fun h2 => h1.2.2 ((hd v).1 h2)), fun x => by simp [hd]⟩
    · cases h
  | check t =>
    simp only [exec, Option.bind_eq_some_iff] at h
    obtain ⟨sc, h1, h2⟩ := h
    cases h2; exact ⟨.check S t sc (readyB_sound hd h1), hd⟩
  | current t =>
    simp only [exec, Option.bind_eq_some_iff] at h
    obtain ⟨sc, h1, h2⟩ := h
    split at h2
    · rename_i hc; cases h2; exact ⟨.current S t sc (readyB_sound hd h1) hc.1 hc.2, fun x => by simp [hd]⟩
    · cases h2
  | start t =>
    simp only [exec, Option.bind_eq_some_iff] at h
    obtain ⟨sc, h1, h2⟩ := h
    split at h2
    · rename_i hc; cases h2; exact ⟨.start S t sc (readyB_sound hd h1) hc, hd⟩
    · cases h2
  | finish t view =>
    simp only [exec] at h
    split at h
    · cases h
    · rename_i r hr
      split at h
      · rename_i h1; cases h; exact ⟨.finish S t r view h1.1 hr h1.2, fun x => by simp [hd]⟩
      · cases h
  | scribble t b =>
    simp only [exec] at h
    split at h
    · rename_i h1; cases h
      obtain ⟨r, hr⟩ := Option.isSome_iff_exists.1 h1.2
      exact ⟨.scribble S t r b h1.1 hr, hd⟩
    · cases h
  | fail t left =>
    simp only [exec] at h
    split at h
    · rename_i h1; cases h
      obtain ⟨r, hr⟩ := Option.isSome_iff_exists.1 h1.2
      exact ⟨.fail S t r left h1.1 hr, hd⟩
    · cases h
  | finishRun =>
    simp only [exec] at h
    split at h
    · rename_i h1; cases h; exact ⟨.finishRun S h1.1 (fun t => Option.isNone_iff_eq_none.1 (h1.2 t)), hd⟩
    · cases h
  | kill left =>
    simp only [exec] at h
    split at h
    · cases h; exact ⟨.kill S left (by assumption), hd⟩
    · cases h
  | edit v b =>
    simp only [exec] at h
    split at h
    · cases h; exact ⟨.edit S v b (by assumption), hd⟩
    · cases h

/-- A history: steps and changes of the description. -/
def execAll (ok : St (Fin 3) Nat Nat Nat → Lab (Fin 3) Nat → Bool) :
    Nat → St (Fin 3) Nat Nat Nat → List (Fin 3) → List (Nat ⊕ Lab (Fin 3) Nat) → Option (Nat × St (Fin 3) Nat Nat Nat × List (Fin 3))
  | D, S, done, [] => some (D, S, done)
  | _, S, done, .inl D' :: ls => if S.busy = false then execAll ok D' S done ls else none
  | D, S, done, .inr l :: ls => if ok S l = true then (exec (exD D) S done l).bind fun p => execAll ok D p.1 p.2 ls else none

theorem execAll_sound {ok : St (Fin 3) Nat Nat Nat → Lab (Fin 3) Nat → Bool} {P : St (Fin 3) Nat Nat Nat → Lab (Fin 3) Nat → Prop}
    (hok : ∀ S l, ok S l = true → P S l) {ls} : ∀ {D S done D' S' done'}, Reach exM WF P (exD D) S → (∀ x, S.done x ↔ x ∈ done) →
      execAll ok D S done ls = some (D', S', done') → Reach exM WF P (exD D') S' ∧ ∀ x, S'.done x ↔ x ∈ done' := by
  induction ls with
  | nil => intro D S done D' S' done' h hd he; cases he; exact ⟨h, hd⟩
  | cons l ls ih =>
    intro D S done D' S' done' h hd he
    cases l with
    | inl D1 =>
      simp only [execAll] at he
      split at he
      · exact ih (.newDesc h (by assumption) (exD_wf D1)) hd he
      · cases he
    | inr l =>
      simp only [execAll] at he
      split at he
      · rename_i h1
        simp only [Option.bind_eq_some_iff] at he
        obtain ⟨⟨S1, d1⟩, h2, h3⟩ := he
        obtain ⟨g1, g2⟩ := exec_sound hd h2
        exact ih (.step l h (hok S l h1) g1) g2 h3
      · cases he

/-- Boolean version of `Legal`. -/
def legalB (S : St (Fin 3) Nat Nat Nat) : Lab (Fin 3) Nat → Bool
  | .fail _ left => left.isNone
  | .kill _ => false
  | .edit v b => b.isNone || (S.disk v).bactsig.isNone
  | _ => true

theorem legalB_sound (S l) (h : legalB S l = true) : Legal S l := by
  cases l <;> simp_all [legalB, Legal]

/-- `Legal`, except that a failing action may leave a file. -/
def LegalButFail (S : St (Fin 3) Nat Nat Nat) : Lab (Fin 3) Nat → Prop
  | .fail _ _ => True
  | l => Legal S l

/-- `Legal`, except that the process may be killed (leaving no partial files). -/
def LegalButKill (S : St (Fin 3) Nat Nat Nat) : Lab (Fin 3) Nat → Prop
  | .kill left => ∀ v, left v = none
  | l => Legal S l

def rd (S : List (Fin 3 × Nat)) : Fin 3 → Option Nat := fun v => (S.find? (·.1 = v)).map (·.2)

/-- Build everything; edit the source and the action; a concurrent incremental build in which 2 no longer depends on 1, so that both run at the same
time and 1 finishes after 2 has started. -/
def okHist : List (Nat ⊕ Lab (Fin 3) Nat) :=
  [.inr .begin, .inr (.source 0), .inr (.check 1), .inr (.start 1), .inr (.finish 1 (rd [(0, 5)])), .inr (.check 2), .inr (.start 2), .inr (.finish 2 (rd [(0, 5), (1, 42)])),
   .inr .finishRun, .inr (.edit 0 (some 20)), .inl 8,
   .inr .begin, .inr (.source 0), .inr (.check 2), .inr (.start 2), .inr (.check 1), .inr (.start 1), .inr (.finish 1 (rd [(0, 20)])), .inr (.finish 2 (rd [(0, 20)])),
   .inr .finishRun, .inr .begin, .inr (.source 0), .inr (.check 2), .inr (.current 2), .inr (.check 1), .inr (.current 1)]

/-- Non-vacuity of C15/C19: the history is legal and ends with all nodes finished; the contents are those of a clean build. -/
theorem exists_history : ∃ S, Reach exM WF Legal (exD 8) S ∧ S.busy = true ∧ (∀ v, S.done v) ∧ S.fs 1 = some 168 ∧ S.fs 2 = some 189 := by
  have h : ∃ S done, execAll legalB 7 (exS 5) [] okHist = some (8, S, done) ∧ S.busy = true ∧ (∀ v, v ∈ done) ∧ S.fs 1 = some 168 ∧ S.fs 2 = some 189 := by
    have : ((execAll legalB 7 (exS 5) [] okHist).map fun p => (p.1, p.2.1.busy, decide (∀ v, v ∈ p.2.2), p.2.1.fs 1, p.2.1.fs 2))
        = some (8, true, true, some 168, some 189) := by decide +kernel
    obtain ⟨⟨D, S, done⟩, h1, h2⟩ := Option.map_eq_some_iff.1 this
    simp only [Prod.mk.injEq, decide_eq_true_eq] at h2
    exact ⟨S, done, by rw [h1, h2.1], h2.2.1, h2.2.2.1, h2.2.2.2.1, h2.2.2.2.2⟩
  obtain ⟨S, done, h1, h2, h3, h4, h5⟩ := h
  obtain ⟨g1, g2⟩ := execAll_sound legalB_sound (.init _ _ (exD_wf 7)) (by simp) h1
  exact ⟨S, g1, h2, fun v => (g2 v).2 (h3 v), h4, h5⟩

/-- The clean content of node 1 with source content 5 and action 7. -/
theorem clean_one (src : Files (Fin 3) Nat) (h0 : src 0 = some 5) : Clean exM (exD 7) src 1 (some 42) := by
  have h : Clean exM (exD 7) src 1 _ := .target (sc := .look (0 : Fin 3) fun _ => .found { sources := [(0 : Fin 3)], depends := [], implicit := [], ignore := [], action := 7 }) src rfl (by
    intro d hd
    have : d = 0 := by simpa [Scan.result, Leaf.children] using hd
    subst this
    exact .source rfl)
  have e : exM.run 7 ([(0 : Fin 3)].map fun c => exM.see (src c)) = 42 := by simp [exM, Sem.see, h0]
  rw [← e]; exact h

/-- Build; edit the source; the action of 1 fails and leaves garbage; the edit is undone; build again. -/
def failHist : List (Nat ⊕ Lab (Fin 3) Nat) :=
  [.inr .begin, .inr (.source 0), .inr (.check 1), .inr (.start 1), .inr (.finish 1 (rd [(0, 5)])), .inr .finishRun,
   .inr (.edit 0 (some 6)), .inr .begin, .inr (.source 0), .inr (.check 1), .inr (.start 1), .inr (.fail 1 (some 999)), .inr .finishRun,
   .inr (.edit 0 (some 5)), .inr .begin, .inr (.source 0), .inr (.check 1), .inr (.current 1)]

/-- **Finding.**  A failing action that leaves a (partial) target file can make a later build wrong: the record of the last *successful* build is kept, so
when the edit that made the action fail is undone, the garbage is taken for the up-to-date target. -/
theorem C41_counterexample_failed_build : ∃ S, Reach exM WF LegalButFail (exD 7) S ∧ S.busy = true ∧ S.done 1 ∧ S.fs 1 = some 999 ∧
    ¬ Clean exM (exD 7) S.fs 1 (S.fs 1) := by
  have h : ∃ S done, execAll (fun S l => match l with | .fail _ _ => true | l => legalB S l) 7 (exS 5) [] failHist = some (7, S, done) ∧
      S.busy = true ∧ 1 ∈ done ∧ S.fs 1 = some 999 ∧ S.fs 0 = some 5 := by
    have : ((execAll (fun S l => match l with | .fail _ _ => true | l => legalB S l) 7 (exS 5) [] failHist).map fun p =>
        (p.1, p.2.1.busy, decide (1 ∈ p.2.2), p.2.1.fs 1, p.2.1.fs 0)) = some (7, true, true, some 999, some 5) := by decide +kernel
    obtain ⟨⟨D, S, done⟩, h1, h2⟩ := Option.map_eq_some_iff.1 this
    simp only [Prod.mk.injEq, decide_eq_true_eq] at h2
    exact ⟨S, done, by rw [h1, h2.1], h2.2.1, h2.2.2.1, h2.2.2.2.1, h2.2.2.2.2⟩
  obtain ⟨S, done, h1, h2, h3, h4, h5⟩ := h
  obtain ⟨g1, g2⟩ := execAll_sound (P := LegalButFail)
    (fun S l h => by cases l <;> simp_all [LegalButFail, legalB, Legal]) (.init _ _ (exD_wf 7)) (by simp) h1
  refine ⟨S, g1, h2, (g2 1).2 h3, h4, fun hc => ?_⟩
  have := hc.unique (exD_wf 7) (clean_one S.fs h5)
  rw [h4] at this
  cases this

/-- Build; edit the source; the next run rebuilds 1 but dies before it writes the signature file; the edit is undone; build again. -/
def killHist : List (Nat ⊕ Lab (Fin 3) Nat) :=
  [.inr .begin, .inr (.source 0), .inr (.check 1), .inr (.start 1), .inr (.finish 1 (rd [(0, 5)])), .inr .finishRun,
   .inr (.edit 0 (some 6)), .inr .begin, .inr (.source 0), .inr (.check 1), .inr (.start 1), .inr (.finish 1 (rd [(0, 6)])), .inr (.kill fun _ => none),
   .inr (.edit 0 (some 5)), .inr .begin, .inr (.source 0), .inr (.check 1), .inr (.current 1)]

/-- **Finding.**  If the process is killed after a target was rebuilt but before the signature file is written (that happens once, at the end of the run), the old
record stays; when the edit is undone, the target built from the *other* version of the source is taken for up to date. -/
theorem C41_counterexample_killed_build : ∃ S, Reach exM WF LegalButKill (exD 7) S ∧ S.busy = true ∧ S.done 1 ∧ S.fs 1 = some 49 ∧
    ¬ Clean exM (exD 7) S.fs 1 (S.fs 1) := by
  have hB : ∃ ok : St (Fin 3) Nat Nat Nat → Lab (Fin 3) Nat → Bool, (∀ S l, ok S l = true → LegalButKill S l) ∧
      ∃ S done, execAll ok 7 (exS 5) [] killHist = some (7, S, done) ∧ S.busy = true ∧ 1 ∈ done ∧ S.fs 1 = some 49 ∧ S.fs 0 = some 5 := by
    refine ⟨fun S l => match l with | .kill left => decide (∀ v, left v = none) | l => legalB S l, ?_, ?_⟩
    · intro S l h
      cases l <;> simp_all [LegalButKill, legalB, Legal]
    · have : ((execAll (fun S l => match l with | .kill left => decide (∀ v, left v = none) | l => legalB S l) 7 (exS 5) [] killHist).map fun p =>
          (p.1, p.2.1.busy, decide (1 ∈ p.2.2), p.2.1.fs 1, p.2.1.fs 0)) = some (7, true, true, some 49, some 5) := by decide +kernel
      obtain ⟨⟨D, S, done⟩, h1, h2⟩ := Option.map_eq_some_iff.1 this
      simp only [Prod.mk.injEq, decide_eq_true_eq] at h2
      exact ⟨S, done, by rw [h1, h2.1], h2.2.1, h2.2.2.1, h2.2.2.2.1, h2.2.2.2.2⟩
  obtain ⟨ok, hok, S, done, h1, h2, h3, h4, h5⟩ := hB
  obtain ⟨g1, g2⟩ := execAll_sound (P := LegalButKill) hok (.init _ _ (exD_wf 7)) (by simp) h1
  refine ⟨S, g1, h2, (g2 1).2 h3, h4, fun hc => ?_⟩
  have := hc.unique (exD_wf 7) (clean_one S.fs h5)
  rw [h4] at this
  cases this

end Verif.Build
