import Verif.Build.Group
import Verif.TM.Groups
import Verif.TM.Props2

/-!
# The Taskmaster drives a build: C44

`Verif.TM` models which node the Taskmaster looks at, returns and retires, with the scan results as arbitrary labels; `Verif.Build` models what handling a
node does to files and signatures, with the order as an arbitrary label, but *assuming* that a target is handled only when its dependencies are
finished.  Here the two run together: scan results come from the file contents (through the cached `node.implicit`), the files change as the
Taskmaster hands out tasks, and the assumption of `Verif.Build` is proved from the walk.

Actions may have any number of targets: all targets of an action are scanned, checked, started and finished together (one out-of-date target is enough to
run the action for all of them).  Modelled in addition: `node.implicit`, the cached result of a scan, which `Node.scan` reuses (`Node/__init__.py:1077-1084`) and which
`Node.built()` resets in the waiting parents and in the other targets of their actions (`:779-803`).  Simplifications: no side effects, one batch for each executor, no `-i`; a
node's check `is_up_to_date` in a task that then fails before `prepare()` removes something leaves no trace (it only caches content signatures); source nodes
are up to date when returned (a missing source makes the task fail in `prepare()`).
-/

set_option linter.unusedSectionVars false
set_option linter.unusedSimpArgs false
set_option linter.unusedVariables false

namespace Verif.Build

open Verif.Sig

variable {V B K A : Type} [DecidableEq V] [DecidableEq K] [Fintype V]

/-- A run in progress: the walk, the build state, and the cached scan results (`node.implicit` together with the explicit dependencies). -/
structure CSt (V B K A : Type) where
  T : TM.St V
  S : St V B K A
  memo : V → Option (Leaf V A)

/-- `node.scan(); node.children()` on the state `X`: the cached result if there is one (`Node/__init__.py:1083`), else a new scan; source files have no
dependencies. -/
def CSt.leafOf (D : Desc V B A) (X : CSt V B K A) (n : V) : Option (Leaf V A) :=
  (D n).map fun sc => (X.memo n).getD (sc.result X.S.fs)

/-- The dependency list handed to the Taskmaster, `executor.get_all_children()` (`Executor.py:305-315`): the children of all targets of `n`'s action, each once. -/
def CSt.kidsOf (D : Desc V B A) (C : TM.Cfg V) (X : CSt V B K A) (n : V) : List V :=
  ((C.targets n).flatMap fun t =>
    match X.leafOf D t with
    | none => []
    | some l => l.children).eraseDups

/-- Cached scan results after `n` was looked at; a node that is already past PENDING is not scanned (`Taskmaster/__init__.py:870-880`). -/
def CSt.scanned (D : Desc V B A) (C : TM.Cfg V) (X : CSt V B K A) (n : V) : TM.Scan V → V → Option (Leaf V A)
  | .raised => X.memo
  | .ok _ => if (X.T.state n).rank ≤ 1 then fun x => if x ∈ C.targets n then X.leafOf D x else X.memo x else X.memo

/-- The scan label agrees with the files: the scan raised, or returned what the scanner finds. -/
def CSt.scanOK (D : Desc V B A) (C : TM.Cfg V) (X : CSt V B K A) (n : V) (scan : TM.Scan V) : Prop :=
  scan = .raised ∨ scan = .ok (X.kidsOf D C n)

/-- The dependency lists `lf` of the targets `ts`. -/
def CSt.leaves (D : Desc V B A) (X : CSt V B K A) (ts : List V) (lf : V → Leaf V A) : Prop := ∀ t ∈ ts, X.leafOf D t = some (lf t)

/-- Scan results that are forgotten when `built()` is called for the targets of `n` that are still EXECUTING (`Node/__init__.py:783-803`): those of the waiting parents and of their
`target_peers` (`Builder.py:577-584`). -/
def CSt.forgets (C : TM.Cfg V) (X : CSt V B K A) (n x : V) : Prop := ∃ t ∈ C.targets n, X.T.state t = .executing ∧ ∃ p ∈ X.T.wp t, x ∈ C.targets p

instance (C : TM.Cfg V) (X : CSt V B K A) (n x : V) : Decidable (X.forgets C n x) := by unfold CSt.forgets; infer_instance

/-- Steps of a run: a step of the Taskmaster together with its effect on files and signatures. -/
inductive CStep (M : Sem B K A) (D : Desc V B A) (C : TM.Cfg V) : CSt V B K A → TM.Lab V → CSt V B K A → Prop
  /-- `n` is looked at but not returned, or its scan raises and the task fails -/
  | walk {X : CSt V B K A} {T' T1 alt scan pushed fate post n} :
      TM.step C X.T (.consider alt scan pushed fate post) = some T' → TM.nextCandidate X.T alt = some (T1, n) → X.scanOK D C n scan →
      TM.returned C X.T alt scan pushed = none →
      CStep M D C X (.consider alt scan pushed fate post) ⟨T', X.S, X.scanned D C n scan⟩
  /-- a source node is returned; it is up to date -/
  | source {X : CSt V B K A} {T' alt scan pushed post n} :
      TM.step C X.T (.consider alt scan pushed (.internal none) post) = some T' → X.scanOK D C n scan →
      TM.returned C X.T alt scan pushed = some n → D n = none →
      CStep M D C X (.consider alt scan pushed (.internal none) post) ⟨T', X.S.effSource n, X.scanned D C n scan⟩
  /-- a target is returned and found up to date, and so are the other targets of its action -/
  | current {X : CSt V B K A} {T' alt scan pushed post n lf} :
      TM.step C X.T (.consider alt scan pushed (.internal none) post) = some T' → X.scanOK D C n scan →
      TM.returned C X.T alt scan pushed = some n → X.leaves D (C.targets n) lf → (X.S.checkAll M lf (C.targets n)).2 = true →
      CStep M D C X (.consider alt scan pushed (.internal none) post)
        ⟨T', (X.S.checkAll M lf (C.targets n)).1.currentAll M lf (C.targets n), X.scanned D C n scan⟩
  /-- a target is returned, a target of its action is found out of date, and the action is started -/
  | start {X : CSt V B K A} {T' alt scan pushed post n lf} :
      TM.step C X.T (.consider alt scan pushed .start post) = some T' → X.scanOK D C n scan →
      TM.returned C X.T alt scan pushed = some n → X.leaves D (C.targets n) lf → (X.S.checkAll M lf (C.targets n)).2 = false →
      CStep M D C X (.consider alt scan pushed .start post)
        ⟨T', (X.S.checkAll M lf (C.targets n)).1.startAll lf (C.targets n), X.scanned D C n scan⟩
  /-- a node is returned and its task fails before execution (`prepare()` raises: missing source, …) -/
  | early {X : CSt V B K A} {T' alt scan pushed fate m post n} :
      TM.step C X.T (.consider alt scan pushed fate post) = some T' → X.scanOK D C n scan → TM.Fate.failure fate = some m →
      TM.returned C X.T alt scan pushed = some n →
      CStep M D C X (.consider alt scan pushed fate post) ⟨T', X.S, X.scanned D C n scan⟩
  /-- … after `prepare()` has removed some of the old targets -/
  | removed {X : CSt V B K A} {T' alt scan pushed m post n lf gone} :
      TM.step C X.T (.consider alt scan pushed (.excReady true m) post) = some T' → X.scanOK D C n scan →
      TM.returned C X.T alt scan pushed = some n → X.leaves D (C.targets n) lf → (X.S.checkAll M lf (C.targets n)).2 = false → gone <+: C.targets n →
      CStep M D C X (.consider alt scan pushed (.excReady true m) post)
        ⟨T', ((X.S.checkAll M lf (C.targets n)).1.startAll lf gone).failAll (fun _ => none) gone, X.scanned D C n scan⟩
  /-- an action ends successfully: `executed_with_callbacks` (`:281-310`) calls `built()` for each target — but only `visited()` for one that was marked failed
  meanwhile (a dropped dependency failed).  `built()` resets the scan results of the waiting parents -/
  | finish {X : CSt V B K A} {T' n post rs views} :
      TM.step C X.T (.finish n none post) = some T' → (∀ t ∈ C.targets n, X.S.running t = some (rs t) ∧ (rs t).sees (views t)) →
      CStep M D C X (.finish n none post)
        ⟨T', X.S.finishAll M (fun t => X.T.state t = .executing) rs views (C.targets n), fun x => if X.forgets C n x then none else X.memo x⟩
  /-- an action fails, leaving `left` under the targets' names -/
  | fail {X : CSt V B K A} {T' n m post left} :
      TM.step C X.T (.finish n (some m) post) = some T' →
      CStep M D C X (.finish n (some m) post) ⟨T', X.S.failAll left (C.targets n), X.memo⟩
  | flush {X : CSt V B K A} {T'} : TM.step C X.T .flush = some T' → CStep M D C X .flush ⟨T', X.S, X.memo⟩
  | interrupt {X : CSt V B K A} {T'} : TM.step C X.T .interrupt = some T' → CStep M D C X .interrupt ⟨T', X.S, X.memo⟩

/-- Steps considered: no `-i`; an action that fails — or whose success is not recorded — leaves none of its targets (see C41 for what happens otherwise); and an
action is not handed out when one of its targets is marked as failed already (which needs `-k`, several targets, and a scan that no longer finds the failed
dependency). -/
def Tidy (C : TM.Cfg V) (X : CSt V B K A) (l : TM.Lab V) (X' : CSt V B K A) : Prop :=
  l.noIgnore ∧ (∀ n res post, l = .finish n res post → ∀ t ∈ C.targets n, X'.S.done t ∨ X'.S.fs t = none) ∧
  ∀ alt scan pushed fate post n, l = .consider alt scan pushed fate post → TM.returned C X.T alt scan pushed = some n →
    ∀ t ∈ C.targets n, X.T.state t ≠ .failed

/-- Runs. -/
inductive CSteps (M : Sem B K A) (D : Desc V B A) (C : TM.Cfg V) (P : CSt V B K A → TM.Lab V → CSt V B K A → Prop) : CSt V B K A → CSt V B K A → Prop
  | refl (X) : CSteps M D C P X X
  | tail {X X' X''} (l) : CSteps M D C P X X' → P X' l X'' → CStep M D C X' l X'' → CSteps M D C P X X''
  /-- a running action writes something under the name of one of its targets -/
  | scribble {X X'} (t : V) (b : Option B) : CSteps M D C P X X' → (X'.S.running t).isSome → CSteps M D C P X { X' with S := X'.S.write t b }

/-- The state in which a run for the targets `orig` starts. -/
def CSt.init (orig : List V) (S : St V B K A) : CSt V B K A := ⟨TM.St.init orig, S, fun _ => none⟩

/-! ## The invariant -/

/-- The action that makes `n` waits for `d`, or `d` has failed. -/
def Waits (C : TM.Cfg V) (T : TM.St V) (n d : V) : Prop := (∃ p ∈ T.wp d, n ∈ C.targets p) ∨ T.state d = .failed

/-- The cached scan result `l` of `n` is that of some file system `g` which differs from the present one only in files that `n` still waits for. -/
def Fresh (C : TM.Cfg V) (X : CSt V B K A) (n : V) (l : Leaf V A) (sc : Scan V B A) : Prop :=
  ∃ g : Files V B, l = sc.result g ∧ ∀ d ∈ sc.asked g,
    (Waits C X.T n d ∧ ¬ X.S.done d ∧ ((X.T.state d).rank ≤ 1 → X.S.fs d = g d)) ∨ (X.S.done d ∧ X.S.fs d = g d)

structure J (M : Sem B K A) (D : Desc V B A) (C : TM.Cfg V) (orig : List V) (X : CSt V B K A) : Prop where
  reach : Reach M WF Legal D X.S
  busy : X.S.busy = true
  tm : TM.Reach C (fun _ l => l.noIgnore) orig X.T
  done1 : ∀ v, (X.T.state v).done → X.S.done v
  done2 : ∀ v, X.S.done v → 1 < (X.T.state v).rank
  sync : ∀ n, X.S.done n → ∀ t ∈ C.targets n, X.S.done t
  run : ∀ v, (X.S.running v).isSome ↔ ∃ n ∈ X.T.active, v ∈ C.targets n
  memo : X.T.stopped = false → ∀ n l sc, (X.T.state n).rank ≤ 1 → X.memo n = some l → D n = some sc → Fresh C X n l sc

theorem returned_facts {C : TM.Cfg V} {S : TM.St V} {alt pushed : List V} {scan : TM.Scan V} {n : V}
    (h : TM.returned C S alt scan pushed = some n) :
    S.stopped = false ∧ (S.state n).rank ≤ 1 ∧ ∃ S1, TM.nextCandidate S alt = some (S1, n) := by
  unfold TM.returned at h
  split at h
  · cases h
  rename_i hs
  split at h
  · cases h
  rename_i S1 k hnc
  split at h
  · rename_i S2 hcn
    simp only [Option.some.injEq] at h; subst h
    obtain ⟨kids, hk, hr, -⟩ := TM.considerNode_ready hcn
    rw [(TM.nextCandidate_fields hnc).1] at hr
    exact ⟨by simpa using hs, hr, S1, hnc⟩
  · cases h

theorem J.tmInv {M : Sem B K A} {D : Desc V B A} {C : TM.Cfg V} {orig : List V} {X : CSt V B K A} {tgt : V → Prop} (hC : TM.Groups C tgt)
    (h : J M D C orig X) : TM.Inv C orig X.T := TM.Reach.inv (hC.project orig) (fun _ l _ => hC.noSELab l) h.tm

theorem J.activeRank {M : Sem B K A} {D : Desc V B A} {C : TM.Cfg V} {orig : List V} {X : CSt V B K A} {tgt : V → Prop} (hC : TM.Groups C tgt)
    (h : J M D C orig X) {n t : V} (hn : n ∈ X.T.active) (ht : t ∈ C.targets n) : 1 < (X.T.state t).rank := by
  have hi := h.tmInv hC
  exact hi.started t (hi.startedRest.act n hn t ht)

/-- A node that is returned, and the other targets of its action: neither finished nor being made. -/
theorem J.returned {M : Sem B K A} {D : Desc V B A} {C : TM.Cfg V} {orig : List V} {X : CSt V B K A} {tgt : V → Prop} (hC : TM.Groups C tgt)
    (h : J M D C orig X) {n : V} {alt pushed : List V} {scan : TM.Scan V} (hr : TM.returned C X.T alt scan pushed = some n)
    {t : V} (ht : t ∈ C.targets n) : ¬ X.S.done t ∧ X.S.running t = none ∧ (X.T.state t ≠ .failed → (X.T.state t).rank ≤ 1) := by
  obtain ⟨hst, hrank, -⟩ := returned_facts hr
  have hnt : n ∈ C.targets t := by rw [hC.wf.peers n t ht]; exact hC.wf.self n
  have hnd : ¬ X.S.done t := fun hd => by
    have := h.done2 n (h.sync t hd n hnt); omega
  have hna : ∀ m ∈ X.T.active, t ∉ C.targets m := fun m hm htm => by
    have hnm : n ∈ C.targets m := by rw [← hC.wf.peers m t htm]; exact hnt
    have := h.activeRank hC hm hnm
    omega
  refine ⟨hnd, ?_, fun hnf => ?_⟩
  · cases hrn : X.S.running t with
    | none => rfl
    | some r =>
      obtain ⟨m, hm, htm⟩ := (h.run t).1 (by rw [hrn]; rfl)
      exact absurd htm (hna m hm)
  · by_contra hgt
    cases e : X.T.state t with
    | noState => rw [e] at hgt; simp [TM.NState.rank] at hgt
    | pending => rw [e] at hgt; simp [TM.NState.rank] at hgt
    | executing =>
      rcases (h.tmInv hC).exec t (hC.notSE t) e with ⟨m, hm, htm⟩ | hE
      · exact hna m hm htm
      · exact hE.elim
    | upToDate => exact hnd (h.done1 t (by rw [e]; trivial))
    | executed => exact hnd (h.done1 t (by rw [e]; trivial))
    | failed => exact hnf e

theorem CSt.mem_kidsOf {D : Desc V B A} {C : TM.Cfg V} {X : CSt V B K A} {n t c : V} {l : Leaf V A} (ht : t ∈ C.targets n) (hl : X.leafOf D t = some l)
    (hc : c ∈ l.children) : c ∈ X.kidsOf D C n := by
  unfold CSt.kidsOf
  rw [List.mem_eraseDups, List.mem_flatMap]
  exact ⟨t, ht, by rw [hl]; exact hc⟩

/-- When a node is returned, the (possibly cached) scan results of all targets of its action are those of the present files, and all dependencies are finished. -/
theorem J.coherent {M : Sem B K A} {D : Desc V B A} {C : TM.Cfg V} {orig : List V} {X : CSt V B K A} {tgt : V → Prop} (hC : TM.Groups C tgt) (hD : WF D)
    (h : J M D C orig X) {n : V} {alt pushed : List V} {scan : TM.Scan V} (hs : X.scanOK D C n scan) (hr : TM.returned C X.T alt scan pushed = some n)
    (hnf : ∀ t ∈ C.targets n, X.T.state t ≠ .failed) {t : V} (ht : t ∈ C.targets n) {sc : Scan V B A} (hsc : D t = some sc) :
    X.leafOf D t = some (sc.result X.S.fs) ∧ ∀ c ∈ (sc.result X.S.fs).children, X.S.done c := by
  obtain ⟨hst, -, -⟩ := returned_facts hr
  have hrank := (h.returned hC hr ht).2.2 (hnf t ht)
  obtain ⟨kids, hk, hdone⟩ := TM.C01_dependencies_finished_when_returned hr
  have hkids : kids = X.kidsOf D C n := by
    rcases hs with e | e
    · rw [e] at hk; cases hk
    · rw [e] at hk; cases hk; rfl
  have hd : ∀ l, X.leafOf D t = some l → ∀ c ∈ l.children, X.S.done c := by
    intro l hl c hc
    apply h.done1
    apply hdone
    rw [List.mem_append]; right
    rw [hkids]; exact CSt.mem_kidsOf ht hl hc
  have hl : X.leafOf D t = some (sc.result X.S.fs) := by
    cases hm : X.memo t with
    | none => simp [CSt.leafOf, hsc, hm]
    | some l =>
      have hl : X.leafOf D t = some l := by simp [CSt.leafOf, hsc, hm]
      obtain ⟨g, hg, hagree⟩ := h.memo hst t l sc hrank hm hsc
      rw [hl]
      have : sc.result g = sc.result X.S.fs := (result_eq fun d h1 _ => by
        rcases hagree d h1 with ⟨_, h2, _⟩ | ⟨_, h2⟩
        · exact absurd (hd l hl d (by rw [hg]; exact (hD t sc hsc g).1 d h1)) h2
        · exact h2.symm).1
      rw [hg, this]
  exact ⟨hl, hd _ hl⟩

theorem J.ready {M : Sem B K A} {D : Desc V B A} {C : TM.Cfg V} {orig : List V} {X : CSt V B K A} {tgt : V → Prop} (hC : TM.Groups C tgt)
    (hD : WF D) (h : J M D C orig X)
    {n : V} {alt pushed : List V} {scan : TM.Scan V} (hs : X.scanOK D C n scan) (hr : TM.returned C X.T alt scan pushed = some n)
    (hnf : ∀ t ∈ C.targets n, X.T.state t ≠ .failed) {lf : V → Leaf V A} (hl : X.leaves D (C.targets n) lf) : ReadyAll D lf (C.targets n) X.S := by
  intro t ht
  have hl := hl t ht
  obtain ⟨h1, h2, -⟩ := h.returned hC hr ht
  cases hsc : D t with
  | none => simp [CSt.leafOf, hsc] at hl
  | some sc =>
    obtain ⟨h3, h4⟩ := h.coherent hC hD hs hr hnf ht hsc
    rw [h3] at hl
    exact ⟨sc, (Option.some.inj hl).symm, h.busy, hsc, h1, h2, h4⟩

/-- the freshness of cached scans is preserved by a step that changes only certain files -/
theorem Fresh.step {C : TM.Cfg V} {X X' : CSt V B K A} {n : V} {l : Leaf V A} {sc : Scan V B A} (h : Fresh C X n l sc)
    (hd : ∀ d, Waits C X.T n d → ¬ X.S.done d →
      (Waits C X'.T n d ∧ ¬ X'.S.done d ∧ ((X'.T.state d).rank ≤ 1 → (X.T.state d).rank ≤ 1 ∧ X'.S.fs d = X.S.fs d)) ∨
      (X'.S.done d ∧ (X.T.state d).rank ≤ 1 ∧ X'.S.fs d = X.S.fs d))
    (hk : ∀ d, X.S.done d → X'.S.done d ∧ X'.S.fs d = X.S.fs d) : Fresh C X' n l sc := by
  obtain ⟨g, hg, ha⟩ := h
  refine ⟨g, hg, fun d hdm => ?_⟩
  rcases ha d hdm with ⟨h1, h2, h3⟩ | ⟨h1, h2⟩
  · rcases hd d h1 h2 with ⟨a1, a2, a3⟩ | ⟨a1, a2, a3⟩
    · exact Or.inl ⟨a1, a2, fun hr => by rw [(a3 hr).2, h3 (a3 hr).1]⟩
    · exact Or.inr ⟨a1, by rw [a3, h3 a2]⟩
  · obtain ⟨a1, a2⟩ := hk d h1
    exact Or.inr ⟨a1, by rw [a2, h2]⟩

theorem rank_of_failed {s : TM.NState} (h : s = .failed) : ¬ s.rank ≤ 1 := by rw [h]; simp [TM.NState.rank]

theorem Waits.mono {C : TM.Cfg V} {T T' : TM.St V} {n d : V} (h : Waits C T n d) (hw : ∀ p, p ∈ T.wp d → p ∈ T'.wp d)
    (hf : T.state d = .failed → T'.state d = .failed) : Waits C T' n d := by
  rcases h with ⟨p, h1, h2⟩ | h
  · exact Or.inl ⟨p, hw p h1, h2⟩
  · exact Or.inr (hf h)

/-- a node just scanned and not returned waits for everything its scan looked at that is not finished -/
theorem fresh_of_scan {D : Desc V B A} {C : TM.Cfg V} {tgt : V → Prop} (hC : TM.Groups C tgt) {X : CSt V B K A} {T' : TM.St V} {n t : V} {scan : TM.Scan V} (hD : WF D)
    (hdone1 : ∀ v, (X.T.state v).done → X.S.done v)
    (hkeep : ∀ l sc memo', X.memo t = some l → D t = some sc → Fresh C ⟨T', X.S, memo'⟩ t l sc)
    (htn : t ∈ C.targets n) (ht : tgt n) (hf : TM.SkipFacts C tgt n scan X.T T') (hs : X.scanOK D C n scan) (hr : (X.T.state n).rank ≤ 1)
    (hr' : T'.state t ≠ .failed) {memo'} {l : Leaf V A} {sc : Scan V B A} (hl : X.leafOf D t = some l) (hsc : D t = some sc) :
    Fresh C ⟨T', X.S, memo'⟩ t l sc := by
  cases hm : X.memo t with
  | some l' =>
    have : l = l' := by simp [CSt.leafOf, hsc, hm] at hl; exact hl.symm
    subst this
    exact hkeep l sc memo' hm hsc
  | none =>
    have hl' : l = sc.result X.S.fs := by simp [CSt.leafOf, hsc, hm] at hl; exact hl.symm
    refine ⟨X.S.fs, hl', fun d hd => ?_⟩
    obtain ⟨ks, hk, hks⟩ := hf.kids hr ht
    have hdk : d ∈ ks := by
      rcases hs with e | e
      · rw [e] at hk; cases hk
      · rw [e] at hk; cases hk
        exact CSt.mem_kidsOf htn hl (by rw [hl']; exact (hD t sc hsc X.S.fs).1 d hd)
    rcases hks with e | e
    · exact absurd (e t htn) hr'
    by_cases hdd : X.S.done d
    · exact Or.inr ⟨hdd, rfl⟩
    · rcases e d hdk with e | e
      · exact absurd (hdone1 d e) hdd
      · exact Or.inl ⟨Or.inl ⟨n, e, htn⟩, hdd, fun _ => rfl⟩

/-- The invariant is preserved by every tidy step. -/
theorem J.step {M : Sem B K A} (hM : M.Faithful) {D : Desc V B A} (hD : WF D) {C : TM.Cfg V} (hC : TM.Groups C (fun n => (D n).isSome)) {orig : List V}
    {X X' : CSt V B K A} {lab : TM.Lab V} (h : J M D C orig X) (hP : Tidy C X lab X') (hs : CStep M D C X lab X') : J M D C orig X' := by
  obtain ⟨hni, htidy, hrev⟩ := hP
  have hTM : ∀ {T'}, TM.step C X.T lab = some T' → TM.Reach C (fun _ l => l.noIgnore) orig T' := fun e => .tail lab h.tm hni e
  have hpast : ∀ {T'}, TM.step C X.T lab = some T' → ∀ v, X.S.done v → 1 < (T'.state v).rank :=
    fun e v hv => TM.step_past e (hC.notSE v) (h.done2 v hv)
  -- the scan results kept for other nodes
  have hmemo : ∀ {n scan x l}, x ∉ C.targets n → X.scanned D C n scan x = some l → X.memo x = some l := by
    intro n scan x l hx hm
    cases scan with
    | raised => exact hm
    | ok ks =>
      simp only [CSt.scanned] at hm
      split at hm
      · simp only [if_neg hx] at hm; exact hm
      · exact hm
  have hnd : ∀ {t r}, X.S.running t = some r → ¬ X.S.done t := by
    intro t r hr
    obtain ⟨src, hR⟩ := reach_inRun hM h.reach h.busy
    exact (hR.run t r hr).1
  -- a failure that changes no file but those of `gone`
  have hfailed : ∀ {T' : TM.St V} {S' : St V B K A} {memo' : V → Option (Leaf V A)} {n : V}, TM.FailFacts (C.targets n) X.T T' → X.T.stopped = false →
      (∀ x, X.S.done x → S'.done x ∧ S'.fs x = X.S.fs x) → (∀ x, S'.done x → X.S.done x) → (∀ x, x ∉ C.targets n → S'.fs x = X.S.fs x) →
      (∀ x l, x ∉ C.targets n → memo' x = some l → X.memo x = some l) →
      T'.stopped = false → ∀ x l sc, (T'.state x).rank ≤ 1 → memo' x = some l → D x = some sc → Fresh C ⟨T', S', memo'⟩ x l sc := by
    intro T' S' memo' n hf hst0 hd1 hd2 hfs hmm hst x l sc hx hm hDx
    have hxn : x ∉ C.targets n := fun e => rank_of_failed (hf.self x e) hx
    have hrx : (X.T.state x).rank ≤ 1 := by
      rcases hf.state x with e | e
      · rw [← e]; exact hx
      · exact absurd hx (rank_of_failed e)
    refine (h.memo hst0 x l sc hrx (hmm x l hxn hm) hDx).step (fun d h1 h2 => Or.inl ⟨?_, fun e => h2 (hd2 d e), fun hr => ?_⟩) hd1
    · rcases h1 with ⟨p, hp, hxp⟩ | e
      · rcases hf.wp hst p d hp with e | e
        · exact Or.inl ⟨p, e, hxp⟩
        · exact Or.inr e.2
      · refine Or.inr ?_
        rcases hf.state d with e' | e'
        · exact e'.trans e
        · exact e'
    · have hdn : d ∉ C.targets n := fun e => rank_of_failed (hf.self d e) hr
      refine ⟨?_, hfs d hdn⟩
      rcases hf.state d with e | e
      · simp only at hr; rw [← e]; exact hr
      · exact absurd hr (rank_of_failed e)
  have hfdone : ∀ {T' : TM.St V} {n : V}, TM.FailFacts (C.targets n) X.T T' → ∀ v, (T'.state v).done → X.S.done v := by
    intro T' n hf v hv
    rcases hf.state v with e | e
    · exact h.done1 v (e ▸ hv)
    · rw [e] at hv; exact hv.elim
  cases hs with
  | @walk T' T1 alt scan pushed fate post n hstep hnc hsc hr =>
    obtain ⟨hst0, S1, n', hnc', hcons⟩ := hC.consider hni hstep
    rw [hnc] at hnc'; obtain ⟨-, rfl⟩ : T1 = S1 ∧ n = n' := by simpa using hnc'
    cases hcons with
    | skip _ _ hf =>
      refine ⟨h.reach, h.busy, hTM hstep, ?_, hpast hstep, h.sync, ?_, ?_⟩
      · intro v hv
        rcases hf.state v with e | e | ⟨rfl, e, _⟩
        · exact h.done1 v (e ▸ hv)
        · simp only at hv; rw [e] at hv; exact hv.elim
        · simp only at hv; rw [e] at hv; exact hv.elim
      · intro v; rw [h.run v, hf.active]
      · intro hst x l sc hx hm hDx
        simp only at hst hx hm ⊢
        rw [hf.stopped] at hst
        have hrx : (X.T.state x).rank ≤ 1 := by
          rcases hf.state x with e | e | ⟨rfl, _, e⟩
          · rw [← e]; exact hx
          · exact absurd hx (rank_of_failed e)
          · exact e
        have hkeep : ∀ l sc memo', X.memo x = some l → D x = some sc → Fresh C ⟨T', X.S, memo'⟩ x l sc := by
          intro l sc memo' hmy hDy
          refine (h.memo hst x l sc hrx hmy hDy).step (fun d h1 h2 => Or.inl ⟨h1.mono (fun p hp => hf.wp d hp) ?_, h2, fun hr => ⟨?_, rfl⟩⟩) (fun d h1 => ⟨h1, rfl⟩)
          · intro e
            rcases hf.state d with e' | e' | ⟨rfl, _, e'⟩
            · exact e'.trans e
            · exact e'
            · exact absurd e' (rank_of_failed e)
          · rcases hf.state d with e | e | ⟨rfl, _, e⟩
            · simp only at hr; rw [← e]; exact hr
            · exact absurd hr (rank_of_failed e)
            · exact e
        by_cases hxn : x ∈ C.targets n
        · cases scan with
          | raised => exact hkeep l sc _ hm hDx
          | ok ks =>
            simp only [CSt.scanned] at hm
            split at hm
            · rename_i hrn
              simp only [if_pos hxn] at hm
              have htn : (D n).isSome = true := by
                have := hC.all x (by rw [hDx]; rfl) n (by rw [hC.wf.peers n x hxn]; exact hC.wf.self n)
                exact this
              exact fresh_of_scan hC hD h.done1 hkeep hxn htn hf hsc hrn (fun e => rank_of_failed e hx) hm hDx
            · exact hkeep l sc _ hm hDx
        · exact hkeep l sc _ (hmemo hxn hm) hDx
    | raised m _ hraise hrk hact hf =>
      refine ⟨h.reach, h.busy, hTM hstep, hfdone hf, hpast hstep, h.sync, ?_, ?_⟩
      · intro v; rw [h.run v, hact]
      · exact hfailed hf hst0 (fun x hx => ⟨hx, rfl⟩) (fun _ hx => hx) (fun _ _ => rfl) (fun x l hx hm => hmemo hx hm)
    | failed _ _ _ hr' => rw [hr] at hr'; cases hr'
    | current hr' => rw [hr] at hr'; cases hr'
    | start hr' => rw [hr] at hr'; cases hr'
  | @source T' alt scan pushed post n hstep hsc hr hDn =>
    obtain ⟨hst0, S1, n', hnc', hcons⟩ := hC.consider hni hstep
    obtain ⟨r1, r2, r3⟩ := h.returned hC hr (hC.wf.self n)
    obtain ⟨-, r4, -⟩ := returned_facts hr
    have hone : C.targets n = [n] := hC.src n (by rw [hDn]; simp)
    cases hcons with
    | skip _ hr' => rw [hr] at hr'; cases hr'
    | failed _ m hm => cases hm
    | current hr' hact hstp hstate hwp =>
      rw [hr] at hr'; cases hr'
      simp only [hone, List.mem_singleton] at hstate hwp
      refine ⟨.step (.source n) h.reach trivial (.source X.S n h.busy hDn r1), h.busy, hTM hstep, ?_, ?_, ?_, ?_, ?_⟩
      · intro v hv
        simp only [hstate] at hv
        split at hv
        · rename_i e; exact Or.inl e
        · exact Or.inr (h.done1 v hv)
      · rintro v (rfl | hv)
        · simp only [hstate, if_true]; simp [TM.NState.rank]
        · exact hpast hstep v hv
      · rintro v (rfl | hv) t ht
        · rw [hone] at ht; left; simpa using ht
        · exact Or.inr (h.sync v hv t ht)
      · intro v; rw [hact]; exact h.run v
      · intro hst x l sc hx hm hDx
        simp only at hst hx hm ⊢
        rw [hstate] at hx
        split at hx
        · simp [TM.NState.rank] at hx
        rename_i hxn
        refine (h.memo hst0 x l sc hx (hmemo (by rw [hone]; simpa using hxn) hm) hDx).step (fun d h1 h2 => ?_) (fun d h1 => ⟨Or.inr h1, rfl⟩)
        by_cases hdn : d = n
        · subst hdn; exact Or.inr ⟨Or.inl rfl, r4, rfl⟩
        · refine Or.inl ⟨h1.mono (fun p hp => by rw [hwp, if_neg hdn]; exact hp) (fun e => by rw [hstate, if_neg hdn]; exact e), ?_, fun hr => ⟨?_, rfl⟩⟩
          · rintro (e | e)
            · exact hdn e
            · exact h2 e
          · rw [hstate, if_neg hdn] at hr; exact hr
  | @current T' alt scan pushed post n lf hstep hsc hr hl hup =>
    obtain ⟨hst0, S1, n', hnc', hcons⟩ := hC.consider hni hstep
    have hnf := hrev _ _ _ _ _ n rfl hr
    have hready := h.ready hC hD hsc hr hnf hl
    have hret := fun t (ht : t ∈ C.targets n) => h.returned hC hr ht
    obtain ⟨a1, a2, a3, a4⟩ := reach_checkAll hM h.reach h.busy hready
    obtain ⟨c1, c2, c3, c4, c5, c6⟩ := checkAll_fields M lf (C.targets n) X.S
    have hcur : ∀ t ∈ C.targets n, (X.S.checkAll M lf (C.targets n)).1.isCurrent M t (lf t) = true := by
      intro t ht
      obtain ⟨s1, i1⟩ := reach_inRun hM h.reach h.busy
      obtain ⟨s2, i2⟩ := reach_inRun hM a1 (by rw [c6]; exact h.busy)
      rw [isCurrent_congr (S := X.S) i1.infos i2.infos c1 (by rw [c2])]
      exact a4.1 hup t ht
    generalize hS1 : (X.S.checkAll M lf (C.targets n)).1 = Y at *
    have hreadyY : ReadyAll D lf (C.targets n) Y := by
      intro t ht
      obtain ⟨sc, e1, e2, e3, e4, e5, e6⟩ := hready t ht
      refine ⟨sc, by rw [c1]; exact e1, by rw [c6]; exact e2, e3, by rw [c4]; exact e4, by rw [c5]; exact e5, ?_⟩
      rw [c1, c4]; exact e6
    obtain ⟨d1, d2, d3, d4, d5, d6, d7⟩ := currentAll_fields M lf (C.targets n) Y
    cases hcons with
    | skip _ hr' => rw [hr] at hr'; cases hr'
    | failed _ m hm => cases hm
    | current hr' hact hstp hstate hwp =>
      rw [hr] at hr'; cases hr'
      refine ⟨reach_currentAll hM (hC.wf.nodup n) a1 (by rw [c6]; exact h.busy) hreadyY a2 hcur, by simp only [d6, c6]; exact h.busy, hTM hstep, ?_, ?_, ?_, ?_, ?_⟩
      · intro v hv
        simp only at hv ⊢
        rw [hstate] at hv
        rw [d4, c4]
        split at hv
        · rename_i e; exact Or.inl e
        · exact Or.inr (h.done1 v hv)
      · intro v hv
        simp only at hv ⊢
        rw [d4, c4] at hv
        rcases hv with hv | hv
        · rw [hstate, if_pos hv]; simp [TM.NState.rank]
        · exact hpast hstep v hv
      · intro v hv t ht
        simp only [d4, c4] at hv ⊢
        rcases hv with hv | hv
        · exact Or.inl (by rw [← hC.wf.peers n v hv]; exact ht)
        · exact Or.inr (h.sync v hv t ht)
      · intro v; simp only [d5, c5, hact]; exact h.run v
      · intro hst x l sc hx hm hDx
        simp only at hst hx hm ⊢
        rw [hstate] at hx
        split at hx
        · simp [TM.NState.rank] at hx
        rename_i hxn
        refine (h.memo hst0 x l sc hx (hmemo hxn hm) hDx).step (fun d h1 h2 => ?_) (fun d h1 => ⟨by simp only [d4, c4]; exact Or.inr h1, by simp only [d1, c1]⟩)
        simp only [d1, c1, d4, c4]
        by_cases hdn : d ∈ C.targets n
        · exact Or.inr ⟨Or.inl hdn, (hret d hdn).2.2 (hnf d hdn), trivial⟩
        · refine Or.inl ⟨h1.mono (fun p hp => by rw [hwp, if_neg hdn]; exact hp) (fun e => by rw [hstate, if_neg hdn]; exact e), ?_, fun hr => ⟨?_, trivial⟩⟩
          · rintro (e | e)
            · exact hdn e
            · exact h2 e
          · rw [hstate, if_neg hdn] at hr; exact hr
  | @start T' alt scan pushed post n lf hstep hsc hr hl hup =>
    obtain ⟨hst0, S1, n', hnc', hcons⟩ := hC.consider hni hstep
    have hnf := hrev _ _ _ _ _ n rfl hr
    have hready := h.ready hC hD hsc hr hnf hl
    have hret := fun t (ht : t ∈ C.targets n) => h.returned hC hr ht
    obtain ⟨a1, a2, a3, a4⟩ := reach_checkAll hM h.reach h.busy hready
    obtain ⟨c1, c2, c3, c4, c5, c6⟩ := checkAll_fields M lf (C.targets n) X.S
    generalize hS1 : (X.S.checkAll M lf (C.targets n)).1 = Y at *
    have hreadyY : ReadyAll D lf (C.targets n) Y := by
      intro t ht
      obtain ⟨sc, e1, e2, e3, e4, e5, e6⟩ := hready t ht
      refine ⟨sc, by rw [c1]; exact e1, by rw [c6]; exact e2, e3, by rw [c4]; exact e4, by rw [c5]; exact e5, ?_⟩
      rw [c1, c4]; exact e6
    obtain ⟨d1, d2, d3, d4, d5, d6⟩ := startAll_fields lf (C.targets n) Y
    cases hcons with
    | skip _ hr' => rw [hr] at hr'; cases hr'
    | failed _ m hm => cases hm
    | start hr' hact hstp hstate hwp =>
      rw [hr] at hr'; cases hr'
      refine ⟨reach_startAll hD (hC.wf.nodup n) a1 hreadyY a2, by simp only [d6, c6]; exact h.busy, hTM hstep, ?_, ?_, ?_, ?_, ?_⟩
      · intro v hv
        simp only at hv ⊢
        rw [hstate] at hv
        rw [d4, c4]
        split at hv
        · exact hv.elim
        · exact h.done1 v hv
      · intro v hv
        simp only [d4, c4] at hv
        exact hpast hstep v hv
      · intro v hv t ht
        simp only [d4, c4] at hv ⊢
        exact h.sync v hv t ht
      · intro v
        simp only [d5, c5, hact, List.mem_cons]
        rw [h.run v]
        constructor
        · rintro (e | ⟨m, e1, e2⟩)
          · exact ⟨n, Or.inl rfl, e⟩
          · exact ⟨m, Or.inr e1, e2⟩
        · rintro ⟨m, rfl | e1, e2⟩
          · exact Or.inl e2
          · exact Or.inr ⟨m, e1, e2⟩
      · intro hst x l sc hx hm hDx
        simp only at hst hx hm ⊢
        rw [hstate] at hx
        split at hx
        · simp [TM.NState.rank] at hx
        rename_i hxn
        refine (h.memo hst0 x l sc hx (hmemo hxn hm) hDx).step (fun d h1 h2 => ?_) (fun d h1 => ?_)
        · simp only [d1, c1, d4, c4]
          refine Or.inl ⟨h1.mono (fun p hp => by rw [hwp]; exact hp) (fun e => ?_), h2, fun hr => ?_⟩
          · rw [hstate, if_neg (fun hd => hnf d hd e)]; exact e
          · rw [hstate] at hr
            split at hr
            · simp [TM.NState.rank] at hr
            · rename_i hdn; exact ⟨hr, by rw [if_neg hdn]⟩
        · have hdn : d ∉ C.targets n := fun e => (hret d e).1 h1
          simp only [d1, c1, d4, c4]
          exact ⟨h1, by rw [if_neg hdn]⟩
  | @early T' alt scan pushed fate m post n hstep hsc hfm hr =>
    obtain ⟨hst0, S1, n', hnc', hcons⟩ := hC.consider hni hstep
    cases hcons with
    | skip _ hr' => rw [hr] at hr'; cases hr'
    | raised _ hr' => rw [hr] at hr'; cases hr'
    | current hr' => cases hfm
    | start hr' => cases hfm
    | failed _ m' hm' hr' hact hf =>
      rw [hr] at hr'; cases hr'
      refine ⟨h.reach, h.busy, hTM hstep, hfdone hf, hpast hstep, h.sync, ?_, ?_⟩
      · intro v; rw [h.run v, hact]
      · exact hfailed hf hst0 (fun x hx => ⟨hx, rfl⟩) (fun _ hx => hx) (fun _ _ => rfl) (fun x l hx hm => hmemo hx hm)
  | @removed T' alt scan pushed m post n lf gone hstep hsc hr hl hup hgone =>
    obtain ⟨hst0, S1, n', hnc', hcons⟩ := hC.consider hni hstep
    have hnf := hrev _ _ _ _ _ n rfl hr
    have hready := h.ready hC hD hsc hr hnf hl
    have hret := fun t (ht : t ∈ C.targets n) => h.returned hC hr ht
    obtain ⟨a1, a2, a3, a4⟩ := reach_checkAll hM h.reach h.busy hready
    obtain ⟨c1, c2, c3, c4, c5, c6⟩ := checkAll_fields M lf (C.targets n) X.S
    generalize hS1 : (X.S.checkAll M lf (C.targets n)).1 = Y at *
    have hsub : ∀ t ∈ gone, t ∈ C.targets n := fun t ht => hgone.subset ht
    have hnd' : gone.Nodup := hgone.sublist.nodup (hC.wf.nodup n)
    have hreadyY : ReadyAll D lf gone Y := by
      intro t ht
      obtain ⟨sc, e1, e2, e3, e4, e5, e6⟩ := hready t (hsub t ht)
      refine ⟨sc, by rw [c1]; exact e1, by rw [c6]; exact e2, e3, by rw [c4]; exact e4, by rw [c5]; exact e5, ?_⟩
      rw [c1, c4]; exact e6
    obtain ⟨d1, d2, d3, d4, d5, d6⟩ := startAll_fields lf gone Y
    have hst1 := reach_startAll hD hnd' a1 hreadyY (fun t ht => a2 t (hsub t ht))
    generalize hZ : Y.startAll lf gone = Z at *
    obtain ⟨e1, e2, e3, e4, e5, e6, e7⟩ := failAll_fields (fun _ => none) gone Z
    have hb : Z.busy = true := by rw [d6, c6]; exact h.busy
    cases hcons with
    | skip _ hr' => rw [hr] at hr'; cases hr'
    | failed _ m' hm' hr' hact hf =>
      rw [hr] at hr'; cases hr'
      refine ⟨reach_failAll hnd' (fun _ _ => rfl) hst1 hb (fun t ht => by rw [d5]; exact Or.inl ht), by simp only [e6]; exact hb, hTM hstep, ?_, ?_, ?_, ?_, ?_⟩
      · intro v hv; simp only [e4, d4, c4]; exact hfdone hf v hv
      · intro v hv; simp only [e4, d4, c4] at hv; exact hpast hstep v hv
      · intro v hv t ht; simp only [e4, d4, c4] at hv ⊢; exact h.sync v hv t ht
      · intro v
        simp only [e5, d5, c5, hact]
        rw [← h.run v]
        constructor
        · rintro ⟨hv1, hv2 | hv2⟩
          · exact absurd hv2 hv1
          · exact hv2
        · intro hv
          refine ⟨fun hg => ?_, Or.inr hv⟩
          rw [(hret v (hsub v hg)).2.1] at hv; cases hv
      · refine hfailed hf hst0 (fun x hx => ?_) (fun x hx => ?_) (fun x hx => ?_) (fun x l hx hm => hmemo hx hm)
        · have hg : x ∉ gone := fun hg => (hret x (hsub x hg)).1 hx
          refine ⟨by simp only [e4, d4, c4]; exact hx, ?_⟩
          simp only [e1, d1, c1, if_neg hg]
        · simp only [e4, d4, c4] at hx; exact hx
        · have hg : x ∉ gone := fun hg => hx (hsub x hg)
          simp only [e1, d1, c1, if_neg hg]
  | @finish T' n post rs views hstep hrun =>
    obtain ⟨hact, hact', hstp, hstate, hwp⟩ := hC.finish_ok hstep
    obtain ⟨f1, f2, f3, f4, f5⟩ := finishAll_fields M (fun t => decide (X.T.state t = .executing)) rs views (C.targets n) X.S
    have hex : ∀ t ∈ C.targets n, X.T.state t = .executing := by
      intro t ht
      rcases htidy n none post rfl t ht with e | e
      · simp only [f3] at e
        rcases e with e | e
        · simpa using e.2
        · exact absurd e (hnd (hrun t ht).1)
      · simp only [f1, if_pos ht] at e; cases e
    have hnodup := (h.tmInv hC).startedRest.actNodup
    have hpeer := (h.tmInv hC).startedRest.actPeer
    refine ⟨reach_finishAll (hC.wf.nodup n) (fun t ht => by simpa using hex t ht) (fun t ht => (hrun t ht).2) h.reach h.busy
      (fun t ht => ⟨rs t, (hrun t ht).1, rfl, fun s hs => hs⟩), by simp only [f5]; exact h.busy, hTM hstep, ?_, ?_, ?_, ?_, ?_⟩
    · intro v hv
      simp only [hstate] at hv
      simp only [f3]
      split at hv
      · rename_i e; exact Or.inl ⟨e.1, by simpa using e.2⟩
      · exact Or.inr (h.done1 v hv)
    · intro v hv
      simp only [f3] at hv
      rcases hv with ⟨h1, h2⟩ | hv
      · simp only [hstate]; rw [if_pos ⟨h1, hex v h1⟩]; simp [TM.NState.rank]
      · exact hpast hstep v hv
    · intro v hv t ht
      simp only [f3] at hv ⊢
      rcases hv with hv | hv
      · have : t ∈ C.targets n := by rw [← hC.wf.peers n v hv.1]; exact ht
        exact Or.inl ⟨this, by simpa using hex t this⟩
      · exact Or.inr (h.sync v hv t ht)
    · intro v
      simp only [f4, hact']
      rw [h.run v]
      constructor
      · rintro ⟨h1, m, h2, h3⟩
        exact ⟨m, (List.mem_erase_of_ne (by rintro rfl; exact h1 h3)).2 h2, h3⟩
      · rintro ⟨m, h2, h3⟩
        refine ⟨fun h4 => ?_, m, List.mem_of_mem_erase h2, h3⟩
        have hmn : m ∈ C.targets n := by
          rw [← hC.wf.peers n v h4, hC.wf.peers m v h3]; exact hC.wf.self m
        have := hpeer n hact m (List.mem_of_mem_erase h2) hmn
        subst this
        exact hnodup.not_mem_erase h2
    · intro hst x l sc hx hm hDx
      simp only at hst hx hm ⊢
      rw [hstp] at hst
      split at hm
      · cases hm
      rename_i hforget
      have hxn : x ∉ C.targets n := fun e => by
        rw [hstate, if_pos ⟨e, hex x e⟩] at hx; simp [TM.NState.rank] at hx
      have hrx : (X.T.state x).rank ≤ 1 := by rw [hstate, if_neg (fun e => hxn e.1)] at hx; exact hx
      refine (h.memo hst x l sc hrx hm hDx).step (fun d h1 h2 => ?_) (fun d h1 => ?_)
      · have hdn : d ∉ C.targets n := by
          intro hd
          rcases h1 with ⟨p, hp, hxp⟩ | e
          · exact hforget ⟨d, hd, hex d hd, p, hp, hxp⟩
          · rw [hex d hd] at e; cases e
        simp only [f3, f1, if_neg hdn]
        refine Or.inl ⟨h1.mono (fun p hp => by rw [hwp, if_neg hdn]; exact hp) (fun e => by rw [hstate, if_neg (fun e' => hdn e'.1)]; exact e), ?_, fun hr => ?_⟩
        · rintro (e | e)
          · exact hdn e.1
          · exact h2 e
        · rw [hstate, if_neg (fun e => hdn e.1)] at hr
          exact ⟨hr, trivial⟩
      · have hdn : d ∉ C.targets n := fun hd => hnd (hrun d hd).1 h1
        simp only [f3, f1, if_neg hdn]
        exact ⟨Or.inr h1, trivial⟩
  | @fail T' n m post left hstep =>
    have hm : m ≠ .ignore := by rintro rfl; exact hni
    obtain ⟨hact, hact', hstp, hf⟩ := hC.finish_fail hm hstep
    obtain ⟨f1, f2, f3, f4, f5, f6, f7⟩ := failAll_fields left (C.targets n) X.S
    have hrun : ∀ t ∈ C.targets n, (X.S.running t).isSome := fun t ht => (h.run t).2 ⟨n, hact, ht⟩
    have hnd' : ∀ t ∈ C.targets n, ¬ X.S.done t := fun t ht => by
      obtain ⟨r, hr⟩ := Option.isSome_iff_exists.1 (hrun t ht)
      exact hnd hr
    have hleft : ∀ t ∈ C.targets n, left t = none := by
      intro t ht
      rcases htidy n (some m) post rfl t ht with e | e
      · simp only [f4] at e; exact absurd e (hnd' t ht)
      · simpa only [f1, if_pos ht] using e
    have hnodup := (h.tmInv hC).startedRest.actNodup
    have hpeer := (h.tmInv hC).startedRest.actPeer
    refine ⟨reach_failAll (hC.wf.nodup n) hleft h.reach h.busy hrun, by simp only [f6]; exact h.busy, hTM hstep, ?_, ?_, ?_, ?_, ?_⟩
    · intro v hv; simp only [f4]; exact hfdone hf v hv
    · intro v hv; simp only [f4] at hv; exact hpast hstep v hv
    · intro v hv t ht; simp only [f4] at hv ⊢; exact h.sync v hv t ht
    · intro v
      simp only [f5, hact']
      rw [h.run v]
      constructor
      · rintro ⟨h1, m, h2, h3⟩
        exact ⟨m, (List.mem_erase_of_ne (by rintro rfl; exact h1 h3)).2 h2, h3⟩
      · rintro ⟨m, h2, h3⟩
        refine ⟨fun h4 => ?_, m, List.mem_of_mem_erase h2, h3⟩
        have hmn : m ∈ C.targets n := by
          rw [← hC.wf.peers n v h4, hC.wf.peers m v h3]; exact hC.wf.self m
        have := hpeer n hact m (List.mem_of_mem_erase h2) hmn
        subst this
        exact hnodup.not_mem_erase h2
    · intro hst
      have hst0 : X.T.stopped = false := by
        cases e : X.T.stopped with
        | false => rfl
        | true => rw [hstp e] at hst; cases hst
      refine hfailed hf hst0 (fun x hx => ?_) (fun x hx => ?_) (fun x hx => ?_) (fun x l _ hm => hm) hst
      · have hg : x ∉ C.targets n := fun hg => hnd' x hg hx
        exact ⟨by simp only [f4]; exact hx, by simp only [f1, if_neg hg]⟩
      · simp only [f4] at hx; exact hx
      · simp only [f1, if_neg hx]
  | @flush T' hstep =>
    have hfl : X.T.stopped = true ∧ T'.state = X.T.state ∧ T'.active = X.T.active ∧ T'.stopped = true := by
      simp only [TM.step] at hstep
      split at hstep
      · rename_i e
        simp only [Option.some.injEq] at hstep; subst hstep
        exact ⟨e, rfl, rfl, e⟩
      · cases hstep
    refine ⟨h.reach, h.busy, hTM hstep, ?_, hpast hstep, h.sync, ?_, ?_⟩
    · intro v hv; rw [hfl.2.1] at hv; exact h.done1 v hv
    · intro v; rw [hfl.2.2.1]; exact h.run v
    · intro hst; rw [hfl.2.2.2] at hst; cases hst
  | @interrupt T' hstep =>
    simp only [TM.step, Option.some.injEq] at hstep
    have hstep' := hstep
    subst hstep
    refine ⟨h.reach, h.busy, hTM (by simp [TM.step]), ?_, fun v hv => h.done2 v hv, h.sync, h.run, ?_⟩
    · intro v hv; exact h.done1 v hv
    · intro hst; cases hst

/-! ## Runs -/

theorem CStep.tm {M : Sem B K A} {D : Desc V B A} {C : TM.Cfg V} {X X' : CSt V B K A} {l : TM.Lab V} (h : CStep M D C X l X') :
    TM.step C X.T l = some X'.T := by cases h <;> assumption

/-- No failure is ignored (`-i` absent). -/
def NoIgnore (_ : CSt V B K A) (l : TM.Lab V) (_ : CSt V B K A) : Prop := l.noIgnore

/-- A run has just started: `begin` from a state reached by some history. -/
def Begun (M : Sem B K A) (D : Desc V B A) (S : St V B K A) : Prop := ∃ S0, Reach M WF Legal D S0 ∧ Step M D S0 .begin S

theorem J.init {M : Sem B K A} {D : Desc V B A} {C : TM.Cfg V} {orig : List V} {S : St V B K A} (h : Begun M D S) :
    J M D C orig (CSt.init orig S) := by
  obtain ⟨S0, h0, hs⟩ := h
  have hr : Reach M WF Legal D S := .step .begin h0 trivial hs
  cases hs with
  | begin hb =>
    refine ⟨hr, rfl, .refl _, ?_, ?_, (by intro n hn; exact hn.elim), ?_, ?_⟩
    · intro v hv; simp [CSt.init, TM.St.init, TM.NState.done] at hv
    · intro v hv; exact hv.elim
    · intro v; simp [CSt.init, TM.St.init]
    · intro _ n l sc _ hm; simp [CSt.init] at hm

/-- Writes of running actions do not disturb the invariant. -/
theorem J.scribble {M : Sem B K A} (hM : M.Faithful) {D : Desc V B A} (hD : WF D) {C : TM.Cfg V} (hC : TM.Groups C (fun n => (D n).isSome)) {orig : List V}
    {X : CSt V B K A} (h : J M D C orig X) {t : V} {b : Option B} (hr : (X.S.running t).isSome) :
    J M D C orig { X with S := X.S.write t b } := by
  obtain ⟨r, hr⟩ := Option.isSome_iff_exists.1 hr
  have hnd : ¬ X.S.done t := by
    obtain ⟨-, hi⟩ := h.reach.inv hM
    obtain ⟨src, hR⟩ := hi.busy h.busy
    exact (hR.run t r hr).1
  have hrank : 1 < (X.T.state t).rank := by
    obtain ⟨n, h1, h2⟩ := (h.run t).1 (by rw [hr]; rfl)
    exact h.activeRank hC h1 h2
  refine ⟨.step (.scribble t b) h.reach trivial (.scribble X.S t r b h.busy hr), h.busy, h.tm, h.done1, h.done2, h.sync, ?_, ?_⟩
  · intro v
    rw [← h.run v]
    simp [St.write]
  · intro hst x l sc hx hm hDx
    refine (h.memo hst x l sc hx hm hDx).step (fun d h1 h2 => Or.inl ⟨h1, h2, fun hr => ⟨hr, ?_⟩⟩) (fun d h1 => ⟨h1, ?_⟩)
    · have hdt : d ≠ t := by rintro rfl; simp only at hr; omega
      simp [St.write, hdt]
    · have hdt : d ≠ t := by rintro rfl; exact hnd h1
      simp [St.write, hdt]

theorem CSteps.j {M : Sem B K A} (hM : M.Faithful) {D : Desc V B A} (hD : WF D) {C : TM.Cfg V} (hC : TM.Groups C (fun n => (D n).isSome)) {orig : List V}
    {X X' : CSt V B K A} (h : CSteps M D C (Tidy C) X X') (h0 : J M D C orig X) : J M D C orig X' := by
  induction h with
  | refl => exact h0
  | tail l _ hP hs ih => exact ih.step hM hD hC hP hs
  | scribble t b _ hr ih => exact ih.scribble hM hD hC hr

theorem CSteps.failedTasks_sub {M : Sem B K A} {D : Desc V B A} {C : TM.Cfg V} {P} {X X' : CSt V B K A} (h : CSteps M D C P X X') :
    X.T.failedTasks ⊆ X'.T.failedTasks := by
  induction h with
  | refl => exact Finset.Subset.refl _
  | tail l _ _ hs ih => exact fun f hf => TM.failedTasks_mono hs.tm (ih hf)
  | scribble t b _ hr ih => exact ih

/-- Without failures every step is tidy. -/
theorem tidy_of_no_failure {M : Sem B K A} {D : Desc V B A} {C : TM.Cfg V} (hC : TM.Groups C (fun n => (D n).isSome)) {orig : List V}
    {X X' : CSt V B K A} {l : TM.Lab V} (h : J M D C orig X) (hni : l.noIgnore) (hs : CStep M D C X l X') (hf : X'.T.failedTasks = ∅) :
    Tidy C X l X' := by
  have hi := h.tmInv hC
  have hnf : ∀ t, X.T.state t ≠ .failed := by
    intro t e
    obtain ⟨f, hf1, _⟩ := hi.failed t e
    have := TM.failedTasks_mono hs.tm hf1
    rw [hf] at this; simp at this
  refine ⟨hni, fun n res post e => ?_, fun _ _ _ _ _ n _ _ t _ => hnf t⟩
  subst e
  intro t ht
  cases hs with
  | @finish T' _ _ rs views hstep hrun =>
    left
    have hact : TM.ActX C X.T := TM.Steps.inv (I := fun S => TM.Inv C orig S ∧ TM.ActX C S)
      (fun S l S' hI _ hs => ⟨TM.Inv.step (hC.project orig).wf (hC.project orig).iso hI.1 (hC.noSELab l) hs,
        hI.2.step (hC.project orig).wf (hC.project orig).iso hI.1 (hC.noSELab l) hs⟩) h.tm
      ⟨TM.Inv.init (fun x _ => hC.notSE x), by simp [TM.ActX, TM.St.init]⟩ |>.2
    obtain ⟨hna, -⟩ := hC.finish_ok hstep
    simp only [(finishAll_fields M _ rs views (C.targets n) X.S).2.2.1]
    rcases (hact n hna t ht).1 with e | e
    · exact Or.inl ⟨ht, by simpa using e⟩
    · exact absurd e (hnf t)
  | fail hstep =>
    exfalso
    have hm : n ∈ (C.targets n).toFinset := by simp [hC.wf.self n]
    simp only at hf
    simp only [TM.step] at hstep
    split at hstep
    case isFalse => cases hstep
    rw [(TM.failTask_fields hstep).1] at hf
    have : n ∈ (∅ : Finset V) := by rw [← hf]; exact Finset.mem_union.2 (Or.inr hm)
    simp at this

theorem CSteps.j_of_no_failure {M : Sem B K A} (hM : M.Faithful) {D : Desc V B A} (hD : WF D) {C : TM.Cfg V}
    (hC : TM.Groups C (fun n => (D n).isSome)) {orig : List V} {X X' : CSt V B K A} (h : CSteps M D C NoIgnore X X')
    (hf : X'.T.failedTasks = ∅) (h0 : J M D C orig X) : J M D C orig X' := by
  induction h with
  | refl => exact h0
  | @tail X1 X2 l h1 hP hs ih =>
    have hf1 : X1.T.failedTasks = ∅ := by
      apply Finset.subset_empty.1
      intro f hff
      rw [← hf]; exact TM.failedTasks_mono hs.tm hff
    exact (ih hf1).step hM hD hC (tidy_of_no_failure hC (ih hf1) hP hs hf) hs
  | scribble t b _ hr ih => exact (ih hf).scribble hM hD hC hr

/-! ## Histories -/

/-- Histories of a project directory: the user edits files (of those SCons has built, only deletes), changes the description, and runs `scons`; each run is a run of the
Taskmaster that has ended (possibly with failures, by interruption, or because a failure stopped it) and then writes the signatures. -/
inductive Hist (M : Sem B K A) : Desc V B A → St V B K A → Prop
  | init (D) (fs : Files V B) : WF D →
      Hist M D { fs := fs, db := fun _ => {}, disk := fun _ => {}, infos := fun _ => {}, done := fun _ => False, running := fun _ => none, busy := false }
  | edit {D S S'} (v : V) (b : Option B) : Hist M D S → (b = none ∨ (S.disk v).bactsig = none) → Step M D S (.edit v b) S' → Hist M D S'
  | newDesc {D D' S} : Hist M D S → WF D' → Hist M D' S
  | build {D S S1 X S'} (C : TM.Cfg V) (orig : List V) : Hist M D S → TM.Groups C (fun n => (D n).isSome) → Step M D S .begin S1 →
      CSteps M D C (Tidy C) (CSt.init orig S1) X → X.T.active = [] → Step M D X.S .finishRun S' → Hist M D S'

theorem Hist.reach {M : Sem B K A} (hM : M.Faithful) {D : Desc V B A} {S : St V B K A} (h : Hist M D S) :
    Reach M WF Legal D S ∧ S.busy = false := by
  induction h with
  | init D fs hD => exact ⟨.init D fs hD, rfl⟩
  | edit v b _ hl hs ih => exact ⟨.step (.edit v b) ih.1 hl hs, by cases hs; exact ih.2⟩
  | newDesc _ hD ih => exact ⟨.newDesc ih.1 ih.2 hD, ih.2⟩
  | build C orig h0 hC hb hrun hact hfin ih =>
    have hJ := hrun.j hM (ih.1.inv hM).1 hC (J.init ⟨_, ih.1, hb⟩)
    exact ⟨.step .finishRun hJ.reach trivial hfin, by cases hfin; rfl⟩

/-! ## C44 -/

/-- **C44.**  After any history of edits and of builds with whatever schedules and outcomes (failing actions leaving no file), consider a run of `scons` for the
targets `orig`, with any schedule, any number of jobs and any order of dependencies, that ends normally: the walk is over, it was not interrupted or
stopped, no task failed, and no dependency cycle is reported.  Then every requested target has exactly the content that a build from scratch
would give it, from the present sources and the present description.  Nothing is assumed about which targets were considered up to date, in which
order nodes were handled, or which of the scan results were re-used. -/
theorem C44_successful_run_builds_everything {M : Sem B K A} (hM : M.Faithful) {D : Desc V B A} {S S1 : St V B K A} {X : CSt V B K A} {C : TM.Cfg V}
    {orig : List V} (hist : Hist M D S) (hC : TM.Groups C (fun n => (D n).isSome)) (hb : Step M D S .begin S1)
    (hrun : CSteps M D C NoIgnore (CSt.init orig S1) X) (hover : X.T.over) (hns : X.T.stopped = false) (hok : X.T.failedTasks = ∅)
    {foundCycle : V → Bool} (hcl : ¬ TM.cleanupRaises X.T foundCycle) {t : V} (ht : t ∈ orig) : Clean M D X.S.fs t (X.S.fs t) := by
  obtain ⟨hr, -⟩ := hist.reach hM
  have hJ := hrun.j_of_no_failure hM (hr.inv hM).1 hC hok (J.init ⟨_, hr, hb⟩)
  have hdone : (X.T.state t).done := by
    by_contra hnd
    have hreach : TM.Reach C (TM.PlainLab C) orig X.T := TM.Steps.mono (fun _ l _ => hC.noSELab l) hJ.tm
    exact hcl (TM.C06_unbuilt_target_is_reported (hC.project orig) hreach hover hns foundCycle ht hnd
      (by rintro ⟨f, hf, _⟩; rw [hok] at hf; simp at hf))
  exact C19_incremental_equals_clean hM hJ.reach hJ.busy (hJ.done1 t hdone)

/-- **C44 (failures).**  Also in a run with failures under `-k`, or one that was stopped or interrupted: whatever the Taskmaster regards as finished has the
content of a clean build. -/
theorem C44_finished_targets_are_clean {M : Sem B K A} (hM : M.Faithful) {D : Desc V B A} {S S1 : St V B K A} {X : CSt V B K A} {C : TM.Cfg V}
    {orig : List V} (hist : Hist M D S) (hC : TM.Groups C (fun n => (D n).isSome)) (hb : Step M D S .begin S1)
    (hrun : CSteps M D C (Tidy C) (CSt.init orig S1) X) {t : V} (ht : (X.T.state t).done) : Clean M D X.S.fs t (X.S.fs t) := by
  obtain ⟨hr, -⟩ := hist.reach hM
  have hJ := hrun.j hM (hr.inv hM).1 hC (J.init ⟨_, hr, hb⟩)
  exact C19_incremental_equals_clean hM hJ.reach hJ.busy (hJ.done1 t ht)

/-- **C44 (scan cache).**  Whenever a target is returned for building in such a run, the dependency lists of all targets of its action — possibly the cached results of scans made
earlier in the run, before some of the dependencies were rebuilt — are the ones a scan of the present files would give, and everything in them is finished.
(`hnf`: no target of the action is marked as failed already, as in `Tidy`.) -/
theorem C44_cached_scan_is_current {M : Sem B K A} (hM : M.Faithful) {D : Desc V B A} {S S1 : St V B K A} {X : CSt V B K A} {C : TM.Cfg V}
    {orig : List V} (hist : Hist M D S) (hC : TM.Groups C (fun n => (D n).isSome)) (hb : Step M D S .begin S1)
    (hrun : CSteps M D C (Tidy C) (CSt.init orig S1) X) {n : V} {alt pushed : List V} {scan : TM.Scan V} (hs : X.scanOK D C n scan)
    (hr : TM.returned C X.T alt scan pushed = some n) (hnf : ∀ t ∈ C.targets n, X.T.state t ≠ .failed) :
    (∀ t ∈ C.targets n, ∀ sc, D t = some sc → X.leafOf D t = some (sc.result X.S.fs)) ∧ ∀ c ∈ X.kidsOf D C n, Clean M D X.S.fs c (X.S.fs c) := by
  obtain ⟨hre, -⟩ := hist.reach hM
  have hJ := hrun.j hM (hre.inv hM).1 hC (J.init ⟨_, hre, hb⟩)
  refine ⟨fun t ht sc hsc => (hJ.coherent hC (hre.inv hM).1 hs hr hnf ht hsc).1, fun c hc => ?_⟩
  unfold CSt.kidsOf at hc
  rw [List.mem_eraseDups, List.mem_flatMap] at hc
  obtain ⟨t, ht, hc⟩ := hc
  cases hsc : D t with
  | none => simp [CSt.leafOf, hsc] at hc
  | some sc =>
    obtain ⟨h1, h2⟩ := hJ.coherent hC (hre.inv hM).1 hs hr hnf ht hsc
    rw [h1] at hc
    exact C19_incremental_equals_clean hM hJ.reach hJ.busy (h2 c hc)

end Verif.Build
