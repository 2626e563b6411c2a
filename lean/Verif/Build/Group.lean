import Verif.Build.Props

/-!
# What a task does to files and signatures

The effects of the Taskmaster's callbacks on the targets of one task (`Task.make_ready_current`, `prepare`, `executed_with_callbacks`, `failed`), one target after
the other, and that they are sequences of steps of `Verif.Build.Model`.
-/

set_option linter.unusedSectionVars false
set_option linter.unusedSimpArgs false
set_option linter.unusedVariables false

namespace Verif.Build

open Verif.Sig

variable {V B K A : Type} [DecidableEq V] [DecidableEq K]

/-! ## One target -/

/-- A source file is visited. -/
def St.effSource (S : St V B K A) (v : V) : St V B K A := { S with done := fun x => x = v ∨ S.done x }

/-- `t.is_up_to_date()`: the answer. -/
def St.isCurrent (M : Sem B K A) (S : St V B K A) (t : V) (l : Leaf V A) : Bool := ((S.world M).isUpToDate .content t (l.target M) S.infos).1

/-- `t.is_up_to_date()`: the content signatures it leaves in the nodes. -/
def St.effCheck (M : Sem B K A) (S : St V B K A) (t : V) (l : Leaf V A) : St V B K A :=
  { S with infos := ((S.world M).isUpToDate .content t (l.target M) S.infos).2 }

/-- `t.visited()` of an up-to-date target stores its info. -/
def St.effCurrent (M : Sem B K A) (S : St V B K A) (t : V) (l : Leaf V A) : St V B K A :=
  { S with
    db := fun x => if x = t then (l.target M).binfo S.infos else S.db x
    done := fun x => x = t ∨ S.done x }

/-- `t.prepare()` removes the file, and the action that makes it starts. -/
def St.effStart (S : St V B K A) (t : V) (l : Leaf V A) : St V B K A :=
  { S.write t none with
    infos := fun x => if x = t then {} else S.infos x
    running := fun x => if x = t then some ⟨l, [(S.write t none).fs]⟩ else (S.write t none).running x }

/-- The content the action writes to its target when it has seen `view` of the dependencies. -/
def Run.output (M : Sem B K A) (r : Run V B A) (view : V → Option B) : B :=
  M.run r.leaf.action (r.leaf.children.map fun c => M.see (view c))

/-- What an action has read, each dependency at some moment since it started. -/
def Run.sees (r : Run V B A) (view : V → Option B) : Prop := ∀ c ∈ r.leaf.children, ∃ snap ∈ r.log, view c = snap c

/-- The action of `t` has succeeded; `built()`. -/
def St.effFinish (M : Sem B K A) (S : St V B K A) (t : V) (r : Run V B A) (view : V → Option B) : St V B K A :=
  { S.write t (some (r.output M view)) with
    infos := fun x => if x = t then { csig := some (M.hash (r.output M view)) } else S.infos x
    db := fun x => if x = t then (r.leaf.target M).binfo S.infos else S.db x
    done := fun x => x = t ∨ S.done x
    running := fun x => if x = t then none else (S.write t (some (r.output M view))).running x }

/-- The action of `t` has ended and nothing is recorded; `left` is what is under its name. -/
def St.effFail (S : St V B K A) (t : V) (left : Option B) : St V B K A :=
  { S.write t left with running := fun x => if x = t then none else (S.write t left).running x }

/-! ## All targets of a task -/

/-- The first loop of `make_ready_current` (`Taskmaster/__init__.py:402-414`): every target is checked, also after one was found out of date; the answer is
whether all of them are up to date. -/
def St.checkAll (M : Sem B K A) (lf : V → Leaf V A) : List V → St V B K A → St V B K A × Bool
  | [], S => (S, true)
  | t :: ts, S => ((St.checkAll M lf ts (S.effCheck M t (lf t))).1, S.isCurrent M t (lf t) && (St.checkAll M lf ts (S.effCheck M t (lf t))).2)

/-- All targets are up to date (`:421-431`). -/
def St.currentAll (M : Sem B K A) (lf : V → Leaf V A) (ts : List V) (S : St V B K A) : St V B K A := ts.foldl (fun S t => S.effCurrent M t (lf t)) S

/-- `Task.prepare()` (`:205-214`) prepares every target. -/
def St.startAll (lf : V → Leaf V A) (ts : List V) (S : St V B K A) : St V B K A := ts.foldl (fun S t => S.effStart t (lf t)) S

/-- The action has succeeded (`executed_with_callbacks`, `:281-310`): `built()` for the targets that are still EXECUTING (`ex`), only `visited()` for those that were marked
failed meanwhile.  Each target's final content is put down just before its callback; before that the action may write anything (`scribble`). -/
def St.finishAll (M : Sem B K A) (ex : V → Bool) (rs : V → Run V B A) (views : V → V → Option B) (ts : List V) (S : St V B K A) : St V B K A :=
  ts.foldl (fun S t => if ex t then S.effFinish M t (rs t) (views t) else S.effFail t (some ((rs t).output M (views t)))) S

/-- The action has failed and leaves `left`. -/
def St.failAll (left : V → Option B) (ts : List V) (S : St V B K A) : St V B K A := ts.foldl (fun S t => S.effFail t (left t)) S

/-! ## What the effects change -/

theorem checkAll_fields (M : Sem B K A) (lf : V → Leaf V A) (ts : List V) (S : St V B K A) :
    (S.checkAll M lf ts).1.fs = S.fs ∧ (S.checkAll M lf ts).1.db = S.db ∧ (S.checkAll M lf ts).1.disk = S.disk ∧ (S.checkAll M lf ts).1.done = S.done ∧
    (S.checkAll M lf ts).1.running = S.running ∧ (S.checkAll M lf ts).1.busy = S.busy := by
  induction ts generalizing S with
  | nil => exact ⟨rfl, rfl, rfl, rfl, rfl, rfl⟩
  | cons t ts ih => exact ih (S.effCheck M t (lf t))

theorem currentAll_fields (M : Sem B K A) (lf : V → Leaf V A) (ts : List V) (S : St V B K A) :
    (S.currentAll M lf ts).fs = S.fs ∧ (S.currentAll M lf ts).infos = S.infos ∧ (S.currentAll M lf ts).disk = S.disk ∧
    (∀ x, (S.currentAll M lf ts).done x ↔ x ∈ ts ∨ S.done x) ∧ (S.currentAll M lf ts).running = S.running ∧ (S.currentAll M lf ts).busy = S.busy ∧
    ∀ x, x ∉ ts → (S.currentAll M lf ts).db x = S.db x := by
  induction ts generalizing S with
  | nil => simp [St.currentAll]
  | cons t ts ih =>
    obtain ⟨h1, h2, h3, h4, h5, h6, h7⟩ := ih (S.effCurrent M t (lf t))
    refine ⟨h1, h2, h3, fun x => ?_, h5, h6, fun x hx => ?_⟩
    · refine (h4 x).trans ?_
      simp only [St.effCurrent, List.mem_cons]; tauto
    · simp only [List.mem_cons, not_or] at hx
      refine (h7 x hx.2).trans ?_
      simp [St.effCurrent, hx.1]

theorem startAll_fields (lf : V → Leaf V A) (ts : List V) (S : St V B K A) :
    (∀ x, (S.startAll lf ts).fs x = if x ∈ ts then none else S.fs x) ∧ (S.startAll lf ts).db = S.db ∧ (S.startAll lf ts).disk = S.disk ∧
    (S.startAll lf ts).done = S.done ∧ (∀ x, ((S.startAll lf ts).running x).isSome ↔ x ∈ ts ∨ (S.running x).isSome) ∧ (S.startAll lf ts).busy = S.busy := by
  induction ts generalizing S with
  | nil => simp [St.startAll]
  | cons t ts ih =>
    obtain ⟨h1, h2, h3, h4, h5, h6⟩ := ih (S.effStart t (lf t))
    refine ⟨fun x => ?_, h2, h3, h4, fun x => ?_, h6⟩
    · refine (h1 x).trans ?_
      by_cases hx : x = t <;> simp [St.effStart, St.write, hx]
    · refine (h5 x).trans ?_
      by_cases hx : x = t <;> simp [St.effStart, St.write, hx]

theorem failAll_fields (left : V → Option B) (ts : List V) (S : St V B K A) :
    (∀ x, (S.failAll left ts).fs x = if x ∈ ts then left x else S.fs x) ∧ (S.failAll left ts).db = S.db ∧ (S.failAll left ts).disk = S.disk ∧
    (S.failAll left ts).done = S.done ∧ (∀ x, ((S.failAll left ts).running x).isSome ↔ x ∉ ts ∧ (S.running x).isSome) ∧ (S.failAll left ts).busy = S.busy ∧
    (S.failAll left ts).infos = S.infos := by
  induction ts generalizing S with
  | nil => simp [St.failAll]
  | cons t ts ih =>
    obtain ⟨h1, h2, h3, h4, h5, h6, h7⟩ := ih (S.effFail t (left t))
    refine ⟨fun x => ?_, h2, h3, h4, fun x => ?_, h6, h7⟩
    · refine (h1 x).trans ?_
      by_cases hx : x = t
      · subst hx; simp [St.effFail, St.write]
      · simp [St.effFail, St.write, hx]
    · refine (h5 x).trans ?_
      by_cases hx : x = t <;> simp [St.effFail, St.write, hx]

theorem finishAll_fields (M : Sem B K A) (ex : V → Bool) (rs : V → Run V B A) (views : V → V → Option B) (ts : List V) (S : St V B K A) :
    (∀ x, (S.finishAll M ex rs views ts).fs x = if x ∈ ts then some ((rs x).output M (views x)) else S.fs x) ∧ (S.finishAll M ex rs views ts).disk = S.disk ∧
    (∀ x, (S.finishAll M ex rs views ts).done x ↔ (x ∈ ts ∧ ex x = true) ∨ S.done x) ∧
    (∀ x, ((S.finishAll M ex rs views ts).running x).isSome ↔ x ∉ ts ∧ (S.running x).isSome) ∧ (S.finishAll M ex rs views ts).busy = S.busy := by
  induction ts generalizing S with
  | nil => simp [St.finishAll]
  | cons t ts ih =>
    by_cases he : ex t = true
    · obtain ⟨h1, h3, h4, h5, h6⟩ := ih (S.effFinish M t (rs t) (views t))
      have e : S.finishAll M ex rs views (t :: ts) = (S.effFinish M t (rs t) (views t)).finishAll M ex rs views ts := by simp [St.finishAll, he]
      rw [e]
      refine ⟨fun x => ?_, h3, fun x => ?_, fun x => ?_, h6⟩
      · refine (h1 x).trans ?_
        by_cases hx : x = t
        · subst hx; simp [St.effFinish, St.write]
        · simp [St.effFinish, St.write, hx]
      · refine (h4 x).trans ?_
        by_cases hx : x = t
        · subst hx; simp [St.effFinish, St.write, he]
        · simp [St.effFinish, St.write, hx]
      · refine (h5 x).trans ?_
        by_cases hx : x = t <;> simp [St.effFinish, St.write, hx]
    · obtain ⟨h1, h3, h4, h5, h6⟩ := ih (S.effFail t (some ((rs t).output M (views t))))
      have e : S.finishAll M ex rs views (t :: ts) = (S.effFail t (some ((rs t).output M (views t)))).finishAll M ex rs views ts := by simp [St.finishAll, he]
      rw [e]
      refine ⟨fun x => ?_, h3, fun x => ?_, fun x => ?_, h6⟩
      · refine (h1 x).trans ?_
        by_cases hx : x = t
        · subst hx; simp [St.effFail, St.write]
        · simp [St.effFail, St.write, hx]
      · refine (h4 x).trans ?_
        by_cases hx : x = t
        · subst hx; simp [St.effFail, St.write, he]
        · simp [St.effFail, St.write, hx]
      · refine (h5 x).trans ?_
        by_cases hx : x = t <;> simp [St.effFail, St.write, hx]

/-! ## The effects are sequences of steps -/

/-- The answer of `is_up_to_date()` does not depend on which signatures are cached, nor on what is stored for other nodes. -/
theorem isCurrent_congr {M : Sem B K A} {S S' : St V B K A} {t : V} {l : Leaf V A} (h1 : InfosOK (S.world M) S.infos) (h2 : InfosOK (S'.world M) S'.infos)
    (hfs : S'.fs = S.fs) (hdb : S'.db t = S.db t) : S'.isCurrent M t l = S.isCurrent M t l := by
  rw [Bool.eq_iff_iff]
  unfold St.isCurrent
  rw [C18_up_to_date_iff rfl h1 (drift_none M S) (by simp), C18_up_to_date_iff rfl h2 (drift_none M S') (by simp)]
  have e1 : (S'.world M).content = (S.world M).content := hfs
  have e2 : ((S'.world M).stored t).binfo = ((S.world M).stored t).binfo := hdb
  have e3 : (S'.world M).diskCsig = (S.world M).diskCsig := by funext v; simp [World.diskCsig, St.world, hfs]
  simp only [e1, e2, Unchanged, e3]

theorem checkAll_spec {M : Sem B K A} {lf : V → Leaf V A} {ts : List V} : ∀ {S : St V B K A}, InfosOK (S.world M) S.infos →
    InfosOK ((S.checkAll M lf ts).1.world M) (S.checkAll M lf ts).1.infos ∧ (∀ t ∈ ts, (S.checkAll M lf ts).1.checked (lf t)) ∧
      (∀ x, (S.infos x).csig.isSome → ((S.checkAll M lf ts).1.infos x).csig.isSome) ∧
      ((S.checkAll M lf ts).2 = true ↔ ∀ t ∈ ts, S.isCurrent M t (lf t) = true) := by
  induction ts with
  | nil => intro S h; exact ⟨h, by simp, fun _ h => h, by simp [St.checkAll]⟩
  | cons t ts ih =>
    intro S h
    have h1 : InfosOK ((S.effCheck M t (lf t)).world M) (S.effCheck M t (lf t)).infos := uptodate_ok (drift_none M S) h
    obtain ⟨a1, a2, a3, a4⟩ := ih h1
    obtain ⟨f1, f2, f3⟩ := uptodate_frame (S.world M) t ((lf t).target M) S.infos
    refine ⟨a1, fun t' ht' => ?_, fun x hx => a3 x (f3 x hx), ?_⟩
    · rcases List.mem_cons.1 ht' with rfl | ht'
      · exact fun c hc => a3 c (f2 c hc)
      · exact a2 t' ht'
    · simp only [St.checkAll, Bool.and_eq_true, a4, List.mem_cons, forall_eq_or_imp]
      refine and_congr_right fun _ => forall_congr' fun t' => forall_congr' fun _ => ?_
      rw [isCurrent_congr (S := S) h h1 rfl rfl]

theorem currentAll_db {M : Sem B K A} {lf : V → Leaf V A} {ts : List V} : ∀ {S : St V B K A} {t : V}, t ∈ ts →
    (S.currentAll M lf ts).db t = ((lf t).target M).binfo S.infos := by
  induction ts with
  | nil => intro S t h; cases h
  | cons x ts ih =>
    intro S t h
    by_cases ht : t ∈ ts
    · exact ih (S := S.effCurrent M x (lf x)) ht
    · have e : t = x := by
        rcases List.mem_cons.1 h with e | e
        · exact e
        · exact absurd e ht
      subst e
      refine ((currentAll_fields M lf ts (S.effCurrent M t (lf t))).2.2.2.2.2.2 t ht).trans ?_
      simp [St.effCurrent]

/-- Targets that can be handled: their scan results are those of the present files and all dependencies are finished. -/
def ReadyAll (D : Desc V B A) (lf : V → Leaf V A) (ts : List V) (S : St V B K A) : Prop :=
  ∀ t ∈ ts, ∃ sc, lf t = sc.result S.fs ∧ S.ready D t sc

theorem reach_inRun {M : Sem B K A} (hM : M.Faithful) {D : Desc V B A} {S : St V B K A} (h : Reach M WF Legal D S) (hb : S.busy = true) :
    ∃ src, InRun M D src S := (h.inv hM).2.busy hb

theorem reach_checkAll {M : Sem B K A} (hM : M.Faithful) {D : Desc V B A} {lf : V → Leaf V A} {ts : List V} : ∀ {S : St V B K A}, Reach M WF Legal D S → S.busy = true →
    ReadyAll D lf ts S → Reach M WF Legal D (S.checkAll M lf ts).1 ∧ (∀ t ∈ ts, (S.checkAll M lf ts).1.checked (lf t)) ∧
      (∀ x, (S.infos x).csig.isSome → ((S.checkAll M lf ts).1.infos x).csig.isSome) ∧
      ((S.checkAll M lf ts).2 = true ↔ ∀ t ∈ ts, S.isCurrent M t (lf t) = true) := by
  intro S h hb hr
  obtain ⟨s1, i1⟩ := reach_inRun hM h hb
  refine ⟨?_, (checkAll_spec i1.infos).2⟩
  clear i1 s1
  induction ts generalizing S with
  | nil => exact h
  | cons t ts ih =>
    obtain ⟨sc, hl, hrt⟩ := hr t (by simp)
    have h1 : Reach M WF Legal D (S.effCheck M t (lf t)) := by rw [hl]; exact .step (.check t) h trivial (.check S t sc hrt)
    exact ih (S := S.effCheck M t (lf t)) h1 hb (fun t' ht' => hr t' (by simp [ht']))

theorem reach_currentAll {M : Sem B K A} (hM : M.Faithful) {D : Desc V B A} {lf : V → Leaf V A} {ts : List V} (hn : ts.Nodup) : ∀ {S : St V B K A}, Reach M WF Legal D S →
    S.busy = true → ReadyAll D lf ts S → (∀ t ∈ ts, S.checked (lf t)) → (∀ t ∈ ts, S.isCurrent M t (lf t) = true) → Reach M WF Legal D (S.currentAll M lf ts) := by
  induction ts with
  | nil => intro S h _ _ _ _; exact h
  | cons t ts ih =>
    intro S h hb hr hck hup
    obtain ⟨sc, hl, hrt⟩ := hr t (by simp)
    have hck0 := hck t (by simp)
    have hup0 := hup t (by simp)
    have h1 : Reach M WF Legal D (S.effCurrent M t (lf t)) := by
      rw [hl] at hck0 hup0 ⊢
      exact .step (.current t) h trivial (.current S t sc hrt hck0 hup0)
    have hnt : ∀ t' ∈ ts, t' ≠ t := fun t' ht' e => (List.nodup_cons.1 hn).1 (e ▸ ht')
    refine ih (List.nodup_cons.1 hn).2 (S := S.effCurrent M t (lf t)) h1 hb (fun t' ht' => ?_) (fun t' ht' => hck t' (by simp [ht'])) (fun t' ht' => ?_)
    · obtain ⟨sc', e, r1, r2, r3, r4, r5⟩ := hr t' (by simp [ht'])
      refine ⟨sc', e, r1, r2, ?_, r4, fun c hc => Or.inr (r5 c hc)⟩
      rintro (e | e)
      · exact hnt t' ht' e
      · exact r3 e
    · obtain ⟨s1, i1⟩ := reach_inRun hM h hb
      obtain ⟨s2, i2⟩ := reach_inRun hM h1 hb
      rw [isCurrent_congr (S := S) i1.infos i2.infos rfl (by simp [St.effCurrent, hnt t' ht'])]
      exact hup t' (by simp [ht'])

theorem reach_startAll {M : Sem B K A} {D : Desc V B A} (hD : WF D) {lf : V → Leaf V A} {ts : List V} (hn : ts.Nodup) : ∀ {S : St V B K A}, Reach M WF Legal D S →
    ReadyAll D lf ts S → (∀ t ∈ ts, S.checked (lf t)) → Reach M WF Legal D (S.startAll lf ts) := by
  induction ts with
  | nil => intro S h _ _; exact h
  | cons t ts ih =>
    intro S h hr hck
    obtain ⟨sc, hl, hrt⟩ := hr t (by simp)
    have hck0 := hck t (by simp)
    have h1 : Reach M WF Legal D (S.effStart t (lf t)) := by
      rw [hl] at hck0 ⊢
      exact .step (.start t) h trivial (.start S t sc hrt hck0)
    have hnt : ∀ t' ∈ ts, t' ≠ t := fun t' ht' e => (List.nodup_cons.1 hn).1 (e ▸ ht')
    have hfs : ∀ d, S.done d → (S.effStart t (lf t)).fs d = S.fs d := by
      intro d hd
      have : d ≠ t := by rintro rfl; exact hrt.2.2.1 hd
      simp [St.effStart, St.write, this]
    refine ih (List.nodup_cons.1 hn).2 (S := S.effStart t (lf t)) h1 (fun t' ht' => ?_) (fun t' ht' c hc => ?_)
    · obtain ⟨sc', e, r1, r2, r3, r4, r5⟩ := hr t' (by simp [ht'])
      have hres : sc'.result S.fs = sc'.result (S.effStart t (lf t)).fs :=
        (result_eq fun d h1 _ => (hfs d (r5 d ((hD t' sc' r2 S.fs).1 d h1))).symm).1
      refine ⟨sc', e.trans hres, r1, r2, r3, ?_, ?_⟩
      · simp [St.effStart, St.write, hnt t' ht', r4]
      · rw [← hres]; exact r5
    · obtain ⟨sc', e, r1, r2, r3, r4, r5⟩ := hr t' (by simp [ht'])
      have hct : c ≠ t := by rintro rfl; rw [e] at hc; exact hrt.2.2.1 (r5 c hc)
      simp only [St.effStart, hct, if_false]
      exact hck t' (by simp [ht']) c hc

theorem reach_failAll {M : Sem B K A} {D : Desc V B A} {ts : List V} (hn : ts.Nodup) {left : V → Option B} (hleft : ∀ t ∈ ts, left t = none) :
    ∀ {S : St V B K A}, Reach M WF Legal D S → S.busy = true → (∀ t ∈ ts, (S.running t).isSome) → Reach M WF Legal D (S.failAll left ts) := by
  induction ts with
  | nil => intro S h _ _; exact h
  | cons t ts ih =>
    intro S h hb hr
    obtain ⟨r, hrt⟩ := Option.isSome_iff_exists.1 (hr t (by simp))
    have hl0 := hleft t (by simp)
    have h1 : Reach M WF Legal D (S.effFail t (left t)) := .step (.fail t (left t)) h hl0 (.fail S t r _ hb hrt)
    have hnt : ∀ t' ∈ ts, t' ≠ t := fun t' ht' e => (List.nodup_cons.1 hn).1 (e ▸ ht')
    refine ih (List.nodup_cons.1 hn).2 (fun t' ht' => hleft t' (by simp [ht'])) (S := S.effFail t (left t)) h1 hb (fun t' ht' => ?_)
    simpa [St.effFail, St.write, hnt t' ht'] using hr t' (by simp [ht'])

/-- `r'` is `r` some time later. -/
def Run.later (r r' : Run V B A) : Prop := r'.leaf = r.leaf ∧ ∀ s ∈ r.log, s ∈ r'.log

theorem reach_finishAll {M : Sem B K A} {D : Desc V B A} {ts : List V} (hn : ts.Nodup) {ex : V → Bool} (hex : ∀ t ∈ ts, ex t = true) {rs : V → Run V B A} {views : V → V → Option B}
    (hsee : ∀ t ∈ ts, (rs t).sees (views t)) :
    ∀ {S : St V B K A}, Reach M WF Legal D S → S.busy = true → (∀ t ∈ ts, ∃ r, S.running t = some r ∧ (rs t).later r) →
      Reach M WF Legal D (S.finishAll M ex rs views ts) := by
  induction ts with
  | nil => intro S h _ _; exact h
  | cons t ts ih =>
    intro S h hb hr
    obtain ⟨r, hrt, hl⟩ := hr t (by simp)
    have h1 : Reach M WF Legal D (S.effFinish M t (rs t) (views t)) := by
      have : S.effFinish M t (rs t) (views t) = S.effFinish M t r (views t) := by simp [St.effFinish, Run.output, hl.1]
      rw [this]
      refine .step (.finish t (views t)) h trivial (.finish S t r (views t) hb hrt fun c hc => ?_)
      obtain ⟨s, h1, h2⟩ := hsee t (by simp) c (by rw [← hl.1]; exact hc)
      exact ⟨s, hl.2 s h1, h2⟩
    have e : S.finishAll M ex rs views (t :: ts) = (S.effFinish M t (rs t) (views t)).finishAll M ex rs views ts := by
      simp [St.finishAll, hex t (by simp)]
    have hnt : ∀ t' ∈ ts, t' ≠ t := fun t' ht' e => (List.nodup_cons.1 hn).1 (e ▸ ht')
    rw [e]
    refine ih (List.nodup_cons.1 hn).2 (fun t' ht' => hex t' (by simp [ht'])) (fun t' ht' => hsee t' (by simp [ht'])) h1 hb (fun t' ht' => ?_)
    obtain ⟨r', hr', hl'⟩ := hr t' (by simp [ht'])
    exact ⟨{ r' with log := (S.write t (some ((rs t).output M (views t)))).fs :: r'.log }, by simp [St.effFinish, St.write, hnt t' ht', hr'], hl'.1,
      fun s hs => List.mem_cons_of_mem _ (hl'.2 s hs)⟩

end Verif.Build
