import Verif.Pool.Props
import Verif.TM.Witness

/-!
# The scheduler driving the taskmaster

`tmi C P` is the taskmaster of `Verif.TM` seen through the interface of `Verif.Pool`.  Every run of the worker pool over it is a run of
the taskmaster model, so C01–C10 hold for the parallel scheduler; and when a worker leaves the loop, the walk is over.
-/

namespace Verif.Pool

open Verif.TM (Cfg St Lab Steps FailMode)

variable {V : Type} [DecidableEq V] [Fintype V]

/-- Labels of steps inside `next_task()` and the immediate retirement of tasks that are not executed. -/
def IsConsider : Lab V → Prop
  | .consider .. => True
  | .flush => True
  | _ => False

/-- The taskmaster model as an interface.  `P` restricts the labels (what kind of build it is).
`retire … true`: `executed()`; `retire … false`: `failed()` in some mode. -/
def tmi (C : Cfg V) (P : St V → Lab V → Prop) : TMI (St V) V where
  internal S S' := ∃ l, P S l ∧ IsConsider l ∧ TM.step C S l = some S' ∧ S'.active = S.active
  give S n S' := ∃ l, P S l ∧ IsConsider l ∧ TM.step C S l = some S' ∧ S'.active = n :: S.active
  empty S S' := S' = S ∧ S.cands = [] ∧ (S.tops = [] ∨ S.stopped = true)
  retire S n ok S' := ∃ res post, P S (.finish n res post) ∧ (ok = true ↔ res = none) ∧ TM.step C S (.finish n res post) = some S'
  signal S S' := P S .interrupt ∧ TM.step C S .interrupt = some S'

/-- the tasks the taskmaster regards as outstanding are those the scheduler has not retired -/
def Agree (s : Pool (St V) V) : Prop :=
  (s.tm.active : Multiset V) = (s.results : Multiset (V × Bool)).map Prod.fst + (s.pcs.map PC.tasks).sum

theorem finish_active {C : Cfg V} {S S' : St V} {n : V} {res : Option FailMode} {post : List V}
    (h : TM.step C S (.finish n res post) = some S') : n ∈ S.active ∧ S'.active = S.active.erase n := by
  simp only [TM.step] at h
  split at h
  case isFalse => cases h
  rename_i hn
  refine ⟨hn, ?_⟩
  split at h
  · rw [(TM.postprocess_failedTasks h).2.2.1]; rfl
  · rw [(TM.failTask_fields h).2.2.1]

theorem step_tm {C : Cfg V} {P : St V → Lab V → Prop} {s s' : Pool (St V) V} (h : Next (tmi C P) s s') : Steps C P s.tm s'.tm := by
  rcases h with h | ⟨tm', h, rfl⟩
  · cases h with
    | retire i k ok rs tm' h ht =>
      obtain ⟨res, post, hP, -, hs⟩ := ht
      exact .tail _ (.refl _) hP hs
    | internal i tm' h hst ht =>
      obtain ⟨l, hP, -, hs, -⟩ := ht
      exact .tail _ (.refl _) hP hs
    | give i k tm' pcs' h hst ht hn =>
      obtain ⟨l, hP, -, hs, -⟩ := ht
      exact .tail _ (.refl _) hP hs
    | stall i tm' h hst ht hj => rw [show tm' = s.tm from ht.1]; exact .refl _
    | complete i tm' h hst ht hj => rw [show tm' = s.tm from ht.1]; exact .refl _
    | _ => exact .refl _
  · exact .tail _ (.refl _) h.1 h.2

/-- **Refinement.** Every run of the parallel scheduler is a run of the taskmaster model. -/
theorem scheduler_refines_taskmaster {C : Cfg V} {P : St V → Lab V → Prop} {orig : List V} {max : Nat} {s : Pool (St V) V}
    (h : Reach (tmi C P) (St.init orig) max s) : TM.Reach C P orig s.tm := by
  induction h with
  | refl => exact .refl _
  | tail _ h ih => exact Steps.trans ih (step_tm h)

theorem Acc.agree {s : Pool (St V) V} (ha : Acc s) (h : Agree s) : s.given = s.retired.map Prod.fst + (s.tm.active : Multiset V) := by
  rw [h, ha.given, add_assoc]

theorem agree_iff {s : Pool (St V) V} (ha : Acc s) :
    Agree s ↔ s.given = s.retired.map Prod.fst + (s.tm.active : Multiset V) := by
  constructor
  · exact ha.agree
  · intro h
    have h1 := ha.given
    rw [h, add_assoc] at h1
    exact add_left_cancel h1

/-- **Agreement.** In every reachable state of the scheduler the taskmaster's outstanding tasks are exactly those not retired. -/
theorem scheduler_agrees {C : Cfg V} {P : St V → Lab V → Prop} {orig : List V} {max : Nat} {s : Pool (St V) V}
    (h : Reach (tmi C P) (St.init orig) max s) : Agree s := by
  induction h with
  | refl => simp [Agree, Pool.init, St.init, PC.tasks]
  | @tail a b hr h ih =>
    have hA := (Reach.inv hr).toAcc
    have hA' := ((Reach.inv hr).next h).toAcc
    rw [agree_iff hA']
    have ih' := (agree_iff hA).1 ih
    rcases h with h | ⟨tm', h, rfl⟩
    · cases h with
      | retire i k ok rs tm' h ht =>
        obtain ⟨res, post, hP, -, hs⟩ := ht
        obtain ⟨h1, h2⟩ := finish_active hs
        show a.given = ((k, ok) ::ₘ a.retired).map Prod.fst + (tm'.active : Multiset V)
        rw [h2, ih', Multiset.map_cons, Multiset.cons_add, ← Multiset.coe_erase, ← Multiset.add_cons,
          Multiset.cons_erase (by simpa using h1)]
      | internal i tm' h hst ht =>
        obtain ⟨l, hP, -, hs, h1⟩ := ht
        show a.given = a.retired.map Prod.fst + (tm'.active : Multiset V)
        rw [h1]; exact ih'
      | give i k tm' pcs' h hst ht hn =>
        obtain ⟨l, hP, -, hs, h1⟩ := ht
        show k ::ₘ a.given = a.retired.map Prod.fst + (tm'.active : Multiset V)
        rw [h1, ih', ← Multiset.cons_coe, Multiset.add_cons]
      | stall i tm' h hst ht hj =>
        show a.given = a.retired.map Prod.fst + (tm'.active : Multiset V)
        rw [show tm' = a.tm from ht.1]; exact ih'
      | complete i tm' h hst ht hj =>
        show a.given = a.retired.map Prod.fst + (tm'.active : Multiset V)
        rw [show tm' = a.tm from ht.1]; exact ih'
      | _ => exact ih'
    · show a.given = a.retired.map Prod.fst + (tm'.active : Multiset V)
      have : tm'.active = a.tm.active := by
        have := h.2; simp only [TM.step, Option.some.injEq] at this; rw [← this]
      rw [this]; exact ih'

/-- **When the scheduler says complete, the walk is over.** -/
theorem complete_is_over {C : Cfg V} {P : St V → Lab V → Prop} {orig : List V} {max : Nat} {s : Pool (St V) V}
    (h : Reach (tmi C P) (St.init orig) max s) (hc : s.st = .completed) : s.tm.over := by
  have hact : s.tm.active = [] := by
    have h1 := scheduler_agrees h
    obtain ⟨h2, h3⟩ := h.inv.toAcc.idle (h.inv.compl hc).1
    rw [Agree, h2, h3] at h1
    simpa using h1
  refine ⟨?_, ?_, hact⟩ <;> clear hact
  all_goals
    revert hc
    suffices hs : s.st = .completed → s.tm.cands = [] ∧ (s.tm.tops = [] ∨ s.tm.stopped = true) by
      first | exact fun hc => (hs hc).1 | exact fun hc => (hs hc).2
    induction h with
    | refl => intro hc; simp [Pool.init] at hc
    | @tail a b hr h ih =>
      rcases h with h | ⟨tm', h, rfl⟩
      · intro hc
        cases h with
        | retire i k ok rs tm' h ht =>
          have := (Reach.inv hr).srch i _ h trivial
          rw [show a.st = .completed from hc] at this; cases this
        | internal i tm' h hst ht => rw [show a.st = .completed from hc] at hst; cases hst
        | give i k tm' pcs' h hst ht hn => cases hc
        | stall i tm' h hst ht hj => cases hc
        | complete i tm' h hst ht hj =>
          show tm'.cands = [] ∧ (tm'.tops = [] ∨ tm'.stopped = true)
          rw [show tm' = a.tm from ht.1]; exact ht.2
        | wait i d h hst =>
          refine ih ?_
          have hc' : unstall a.st d = .completed := hc
          unfold unstall at hc'; split at hc'
          · cases hc'
          · exact hc'
        | halt i d h hst =>
          refine ih ?_
          have hc' : unstall a.st d = .completed := hc
          unfold unstall at hc'; split at hc'
          · cases hc'
          · exact hc'
        | begin i d h hst => cases hc
        | _ => exact ih hc
      · intro hc
        obtain ⟨h1, h2⟩ := ih hc
        have h3 := h.2
        simp only [TM.step, Option.some.injEq] at h3
        rw [← h3]; exact ⟨h1, Or.inr rfl⟩

theorem postprocess_possible (C : Cfg V) (S : St V) (ts : List V) : ∃ post S', TM.postprocess C S ts post = some S' := by
  simp only [TM.postprocess]
  exact ⟨Finset.toList _, _, by rw [if_pos (Finset.toList_toFinset _)]⟩

theorem failTask_possible (C : Cfg V) (S : St V) (ts : List V) (m : FailMode) : ∃ post S', TM.failTask C S ts m post = some S' := by
  cases m <;> exact postprocess_possible C _ _

/-- The kind of build does not exclude that a scan raises, that an execution succeeds or fails with `stop`, or that the candidates are given up. -/
structure Ample (P : St V → Lab V → Prop) : Prop where
  flush : ∀ S, S.cands ≠ [] → P S .flush
  raised : ∀ S post, P S (.consider [] .raised [] (.exc .stop) post)
  ok : ∀ S n post, P S (.finish n none post)
  failed : ∀ S n post, P S (.finish n (some .stop) post)

/-- `next_task()` always has an answer -/
theorem tm_next (C : Cfg V) {P : St V → Lab V → Prop} (hP : Ample P) (S : St V) : (∃ t', (tmi C P).internal S t') ∨ (∃ k t', (tmi C P).give S k t') ∨
    (∃ t', (tmi C P).empty S t') := by
  by_cases hst : S.stopped = true
  · by_cases hc : S.cands = []
    · exact Or.inr (Or.inr ⟨_, rfl, hc, Or.inr hst⟩)
    · left
      have hf : TM.step C S .flush = some { TM.willNotBuild { S with cands := [] } S.cands.toFinset false with
          clock := S.clock + 1 } := by simp only [TM.step, if_pos hst]
      exact ⟨_, .flush, hP.flush S hc, trivial, hf, rfl⟩
  · by_cases hc : S.cands = [] ∧ S.tops = []
    · exact Or.inr (Or.inr ⟨_, rfl, hc.1, Or.inl hc.2⟩)
    · left
      obtain ⟨S1, n, hn⟩ : ∃ S1 n, TM.nextCandidate S [] = some (S1, n) := by
        unfold TM.nextCandidate
        cases h1 : S.cands with
        | cons a l => exact ⟨_, _, rfl⟩
        | nil =>
          cases h2 : S.tops with
          | nil => exact absurd ⟨h1, h2⟩ hc
          | cons t ts => exact ⟨_, _, rfl⟩
      by_cases hr : 1 < (S1.state n).rank
      · have hf : TM.step C S (.consider [] .raised [] (.exc .stop) []) = some { S1 with clock := S1.clock + 1 } := by
          simp only [TM.step, if_neg hst, hn, TM.considerNode, if_pos hr]
        have ha : S1.active = S.active := TM.nextCandidate_active hn
        exact ⟨_, .consider [] .raised [] (.exc .stop) [], hP.raised _ _, trivial, hf, ha⟩
      · obtain ⟨post, S', h1⟩ := failTask_possible C (TM.markPending S1 n) (C.targets n) .stop
        have hf : TM.step C S (.consider [] .raised [] (.exc .stop) post) = some { S' with clock := S'.clock + 1 } := by
          simp only [TM.step, if_neg hst, hn, TM.considerNode, if_neg hr, TM.handOut, h1]; rfl
        have ha : S1.active = S.active := TM.nextCandidate_active hn
        refine ⟨_, .consider [] .raised [] (.exc .stop) post, hP.raised _ _, trivial, hf, ?_⟩
        show S'.active = _
        rw [(TM.failTask_fields h1).2.2.1]; exact ha

/-- the taskmaster model never gets stuck -/
theorem tm_live {C : Cfg V} {orig : List V} {max : Nat} {s : Pool (St V) V} {P : St V → Lab V → Prop} (hP : Ample P)
    (h : Reach (tmi C P) (St.init orig) max s) : (tmi C P).Live s where
  retire := by
    rintro k ok - ⟨i, rs, hp⟩
    have hk : k ∈ s.tm.active := by
      have h1 := scheduler_agrees h
      have h2 : k ∈ (s.tm.active : Multiset V) := by
        rw [h1, Multiset.mem_add]
        right
        have : ∀ (l : List (PC V)) (i : Nat), l[i]? = some (.retire ((k, ok) :: rs)) → k ∈ (l.map PC.tasks).sum := by
          intro l
          induction l with
          | nil => intro i h; simp at h
          | cons p l ih =>
            intro i h
            rw [List.map_cons, List.sum_cons, Multiset.mem_add]
            cases i with
            | zero => simp only [List.getElem?_cons_zero, Option.some.injEq] at h; subst h; left; simp [PC.tasks]
            | succ i => right; exact ih i (by simpa using h)
        exact this _ i hp
      simpa using h2
    cases ok with
    | true =>
      obtain ⟨post, S', h1⟩ := postprocess_possible C (TM.executed C { s.tm with active := s.tm.active.erase k, clock := s.tm.clock + 1 } (C.targets k)) (C.targets k)
      exact ⟨S', none, post, hP.ok _ _ _, by simp, by simp only [TM.step, if_pos hk]; exact h1⟩
    | false =>
      obtain ⟨post, S', h1⟩ := failTask_possible C { s.tm with active := s.tm.active.erase k, clock := s.tm.clock + 1 } (C.targets k) .stop
      exact ⟨S', some .stop, post, hP.failed _ _ _, by simp, by simp only [TM.step, if_pos hk]; exact h1⟩
  next := tm_next C hP s.tm

/-- **C12 for the real taskmaster**: the scheduler with the taskmaster model never deadlocks. -/
theorem C12_no_deadlock_with_taskmaster {C : Cfg V} {orig : List V} {max : Nat} {s : Pool (St V) V} {P : St V → Lab V → Prop} (hP : Ample P)
    (h : Reach (tmi C P) (St.init orig) max s) : (∀ p ∈ s.pcs, p = .halted) ∨ ∃ s', Step (tmi C P) s s' :=
  C12_no_deadlock h (tm_live hP h)

/-- **C05 for the parallel scheduler**: when a worker has left the loop, nothing failed and the walk was not interrupted, then every requested
target and everything it depends on is up to date or executed. -/
theorem C05_parallel_everything_requested_is_built {C : Cfg V} {orig : List V} {max : Nat} {s : Pool (St V) V}
    (hp : TM.Project C orig) (h : Reach (tmi C (TM.PlainLab C)) (St.init orig) max s) {i : Nat} (hh : s.pcs[i]? = some .halted)
    (hns : s.tm.stopped = false) (hok : s.tm.failedTasks = ∅) (ha : TM.Acyclic s.tm) {t x : V} (ht : t ∈ orig)
    (hx : Relation.ReflTransGen (TM.DependsOn s.tm) t x) : (s.tm.state x).done :=
  TM.C05_everything_requested_is_built hp (scheduler_refines_taskmaster h) (complete_is_over h (h.inv.halt i hh)) hns hok ha ht hx

/-- **C08 for the parallel scheduler**: two workers executing at the same time never run tasks that share a side-effect file. -/
theorem C08_parallel_side_effects_exclusive_partial {C : Cfg V} {orig : List V} {max : Nat} {s : Pool (St V) V}
    (hp : TM.Project C orig) (hA : ∀ n, ∀ x ∈ C.ses (C.targets n), x ∈ C.ses (C.actTargets n))
    (h : Reach (tmi C (TM.SELab C)) (St.init orig) max s) {i j : Nat} {a b f : V} (hi : s.pcs[i]? = some (.exec a))
    (hj : s.pcs[j]? = some (.exec b)) (hij : i ≠ j) (hsa : ∃ t ∈ C.targets a, f ∈ C.sideEffects t)
    (hsb : ∃ t ∈ C.targets b, f ∈ C.sideEffects t) : False := by
  have hag := scheduler_agrees h
  have hmem : ∀ (l : List (PC V)) (i : Nat) (k : V), l[i]? = some (.exec k) → {k} ≤ (l.map PC.tasks).sum := by
    intro l
    induction l with
    | nil => intro i k h; simp at h
    | cons p l ih =>
      intro i k h
      rw [List.map_cons, List.sum_cons]
      cases i with
      | zero =>
        simp only [List.getElem?_cons_zero, Option.some.injEq] at h; subst h
        exact Multiset.le_add_right _ _
      | succ i => exact le_trans (ih i k (by simpa using h)) (Multiset.le_add_left _ _)
  have hpair : ∀ (l : List (PC V)) (i j : Nat), i < j → ∀ a b, l[i]? = some (.exec a) → l[j]? = some (.exec b) →
      {a} + {b} ≤ (l.map PC.tasks).sum := by
    intro l
    induction l with
    | nil => intro i j _ a b h; simp at h
    | cons p l ih =>
      intro i j hij a b h1 h2
      rw [List.map_cons, List.sum_cons]
      cases j with
      | zero => omega
      | succ j =>
        cases i with
        | zero =>
          simp only [List.getElem?_cons_zero, Option.some.injEq] at h1; subst h1
          exact add_le_add (le_refl _) (hmem l j b (by simpa using h2))
        | succ i => exact le_trans (ih i j (by omega) a b (by simpa using h1) (by simpa using h2)) (Multiset.le_add_left _ _)
  have hle : {a} + {b} ≤ (s.tm.active : Multiset V) := by
    rw [hag]
    refine le_trans ?_ (Multiset.le_add_left _ _)
    rcases Nat.lt_or_gt_of_ne hij with h1 | h1
    · exact hpair _ i j h1 a b hi hj
    · rw [add_comm]; exact hpair _ j i h1 b a hj hi
  have hR := scheduler_refines_taskmaster h
  have hInv : TM.Inv C orig s.tm := TM.Reach.inv hp (fun _ _ h => h.1) hR
  have hnd := hInv.startedRest.actNodup
  have hab : a ≠ b := by
    rintro rfl
    have h1 := Multiset.count_le_of_le a hle
    have h2 : Multiset.count a (s.tm.active : Multiset V) ≤ 1 := by
      rw [Multiset.coe_count]; exact List.nodup_iff_count_le_one.1 hnd a
    simp at h1
    simp at h2
    omega
  have ha : a ∈ s.tm.active := by
    have := Multiset.mem_of_le hle (show a ∈ ({a} + {b} : Multiset V) by simp); simpa using this
  have hb : b ∈ s.tm.active := by
    have := Multiset.mem_of_le hle (show b ∈ ({a} + {b} : Multiset V) by simp); simpa using this
  exact TM.C08_side_effects_exclusive_partial hp hA hR ha hb hab hsa hsb

end Verif.Pool
