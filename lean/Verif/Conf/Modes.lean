import Verif.Conf.Checks

/-!
# C70: `--config=force`, `--config=cache`, `-n`
-/

set_option linter.unusedSectionVars false

namespace Verif.Conf
section
variable {N C H A : Type} [DecidableEq N] [DecidableEq H] [DecidableEq A]

/-! ## `--config=force` -/

theorem step_force {c : Cfg N C H A} (hm : c.mode = .force) (hdry : c.dry = false) (k : Task N A) (w : World N C H A)
    (hd : ∀ d ∈ k.deps, d ∉ k.targets) :
    (missing c w k = true → (step c k w).v = .no ∧ (step c k w).ran = []) ∧
    (missing c w k = false → (step c k w).ran = [k.act] ∧
      (step c k w).v = verdict (c.sem k.act (k.deps.map w.file)).ok ∧
      (∀ n ∈ k.targets, ((c.sem k.act (k.deps.map w.file)).out n).isSome →
        (step c k w).w.file n = (c.sem k.act (k.deps.map w.file)).out n)) := by
  refine ⟨fun h => ?_, fun h => ?_⟩
  · unfold step; rw [h]; exact ⟨rfl, rfl⟩
  · have hpf : k.deps.map (prepare c w k (ready c w k)).file = k.deps.map w.file :=
      List.map_congr_left fun d hd' => prepare_file (hd d hd')
    have e : step c k w = build c k (k.deps.map (csig c w)) (prepare c w k (ready c w k)) := by
      unfold step
      rw [h]
      simp only [Bool.false_eq_true, if_false]
      unfold execute
      rw [if_neg (fun h => by rw [hm] at h; cases h.1), if_neg (fun h => h.1 hm), hdry]
      rfl
    rw [e]
    unfold build
    rw [hpf]
    split <;> rename_i hok
    · refine ⟨rfl, by rw [hok]; rfl, fun n hn ho => ?_⟩
      simp only [visit, write, hn, if_true]
      cases hx : (c.sem k.act (k.deps.map w.file)).out n with
      | none => rw [hx] at ho; cases ho
      | some x => rfl
    · refine ⟨rfl, by simp only [Bool.not_eq_true] at hok; rw [hok]; rfl, fun n hn ho => ?_⟩
      simp only [write, hn, if_true]
      cases hx : (c.sem k.act (k.deps.map w.file)).out n with
      | none => rw [hx] at ho; cases ho
      | some x => rfl

theorem run_force {c : Cfg N C H A} (hm : c.mode = .force) (hdry : c.dry = false)
    (hmk : ∀ a cs n, (c.sem a cs).ok = true → ((c.sem a cs).out n).isSome) (ks : List (Task N A)) :
    ∀ (before : List N) (w : World N C H A) (f : N → Option C), WF c.leaf before ks →
      (∀ n, c.leaf n = true ∨ n ∈ before → w.file n = f n) →
      (run c ks w).v = verdict (scratch c.leaf c.sem ks f).1 ∧
      (run c ks w).ran <+: ks.map (·.act) ∧
      ((scratch c.leaf c.sem ks f).1 = true → (run c ks w).ran = ks.map (·.act) ∧
        ∀ n, c.leaf n = true ∨ n ∈ before ++ ks.flatMap (·.targets) →
          (run c ks w).w.file n = (scratch c.leaf c.sem ks f).2 n) := by
  induction ks with
  | nil =>
    intro before w f _ he
    exact ⟨rfl, by simp [run], fun _ => ⟨rfl, fun n hn => he n (by simpa using hn)⟩⟩
  | cons k ks ih =>
    intro before w f hw he
    have hd := hw.deps
    obtain ⟨w1, w2, w3, w4⟩ := hw
    have hdf : ∀ d ∈ k.deps, w.file d = f d := fun d hd' => he d (w3 d hd')
    have hmap : k.deps.map w.file = k.deps.map f := List.map_congr_left hdf
    obtain ⟨s1, s2⟩ := step_force hm hdry k w hd
    by_cases hmi : missing c w k = true
    · obtain ⟨h1, h2⟩ := s1 hmi
      have e : run c (k :: ks) w = ⟨(step c k w).w, [], .no⟩ := by simp only [run, h1, h2]
      have es : (scratch c.leaf c.sem (k :: ks) f).1 = false := by
        rw [scratch, if_pos ((missing_iff hdf).1 hmi)]
      rw [e, es]
      exact ⟨rfl, by simp, nofun⟩
    · have hm' : missing c w k = false := by simpa using hmi
      have hsc : ¬ ∃ d ∈ k.deps, c.leaf d = true ∧ f d = none := fun h => hmi ((missing_iff hdf).2 h)
      obtain ⟨h1, h2, h3⟩ := s2 hm'
      by_cases hok : (c.sem k.act (k.deps.map w.file)).ok = true
      · have hv : (step c k w).v = .ok := by rw [h2, hok]; rfl
        have e : run c (k :: ks) w = ⟨(run c ks (step c k w).w).w,
            (step c k w).ran ++ (run c ks (step c k w).w).ran, (run c ks (step c k w).w).v⟩ := by
          simp only [run, hv]
        have es : scratch c.leaf c.sem (k :: ks) f = scratch c.leaf c.sem ks
            (fun n => if n ∈ k.targets then (c.sem k.act (k.deps.map f)).out n else f n) := by
          rw [scratch, if_neg hsc, if_pos (by rw [← hmap]; exact hok)]
        obtain ⟨i1, i2, i3⟩ := ih (before ++ k.targets) (step c k w).w
          (fun n => if n ∈ k.targets then (c.sem k.act (k.deps.map f)).out n else f n) w4 (by
            intro n hn
            by_cases ht : n ∈ k.targets
            · rw [h3 n ht (hmk _ _ _ hok), if_pos ht, hmap]
            · rw [(step_other c k w ht).2, if_neg ht]
              apply he
              simpa [ht] using hn)
        rw [e, es, h1]
        refine ⟨i1, ?_, fun h => ⟨?_, fun n hn => (i3 h).2 n ?_⟩⟩
        · simpa using i2
        · simpa using (i3 h).1
        · simpa [or_assoc] using hn
      · have hok' : (c.sem k.act (k.deps.map w.file)).ok = false := by simpa using hok
        have hv : (step c k w).v = .no := by rw [h2, hok']; rfl
        have e : run c (k :: ks) w = ⟨(step c k w).w, [k.act], .no⟩ := by simp only [run, hv, h1]
        have es : (scratch c.leaf c.sem (k :: ks) f).1 = false := by
          rw [scratch, if_neg hsc, if_neg (by rw [← hmap]; exact hok)]
        rw [e, es]
        exact ⟨rfl, by simp, nofun⟩

/-- **C70, force.**  Whatever is recorded and whatever lies about in the directory of the checks, a
forced check reports what carrying it out from scratch would, runs the actions of its tasks in order
(all of them, if it succeeds), and leaves what it made. -/
theorem C70_force (c : Cfg N C H A) (hm : c.mode = .force) (hdry : c.dry = false)
    (hmk : ∀ a cs n, (c.sem a cs).ok = true → ((c.sem a cs).out n).isSome)
    (ks : List (Task N A)) (hks : WF c.leaf [] ks) (w : World N C H A) :
    let r := run c ks w
    let s := scratch c.leaf c.sem ks (onlyLeaves c w)
    (r.v = .ok ∨ r.v = .no) ∧ (r.v = .ok ↔ s.1 = true) ∧ r.ran <+: ks.map (·.act) ∧
      (s.1 = true → r.ran = ks.map (·.act) ∧ ∀ k ∈ ks, ∀ t ∈ k.targets, r.w.file t = s.2 t) := by
  intro r s
  obtain ⟨g1, g2, g3⟩ := run_force hm hdry hmk ks [] w (onlyLeaves c w) hks (by
      intro n hn
      simp only [List.not_mem_nil, or_false] at hn
      simp [onlyLeaves, hn])
  have g1 : r.v = verdict s.1 := g1
  refine ⟨?_, ?_, g2, fun h => ⟨(g3 h).1, fun k hk t ht => (g3 h).2 t (Or.inr ?_)⟩⟩
  · rw [g1]; cases s.1 <;> simp [verdict]
  · rw [g1]; cases s.1 <;> simp [verdict]
  · simp only [List.nil_append, List.mem_flatMap]; exact ⟨k, hk, ht⟩

/-! ## `--config=cache` -/

/-- The targets of `k` all have the record of a check. -/
def Recorded (w : World N C H A) (k : Task N A) : Prop :=
  ∀ t ∈ k.targets, ∃ r, w.info t = some r ∧ r.sconf = true

/-- ... of a check that succeeded. -/
def RecordedOk (w : World N C H A) (k : Task N A) : Prop :=
  ∀ t ∈ k.targets, ∃ r, w.info t = some r ∧ r.sconf = true ∧ r.failed = false

theorem collect_cachable {c : Cfg N C H A} {w : World N C H A} {k : Task N A} {s : St}
    (L : List N) (hx : ∃ t ∈ L, ∀ r, w.info t = some r → r.sconf = false) (a : Coll) :
    (L.foldl (collectOne c w k s) a).cachable = false := by
  have mono : ∀ (L : List N) (a : Coll), a.cachable = false → (L.foldl (collectOne c w k s) a).cachable = false := by
    intro L
    induction L with
    | nil => intro a h; exact h
    | cons t L ih =>
      intro a h
      rw [List.foldl_cons]
      apply ih
      by_cases ht : ∀ r, w.info t = some r → r.sconf = false
      · rw [collectOne_unrec ht]
      · simp only [not_forall] at ht
        obtain ⟨r, hi, hs⟩ := ht
        simp only [Bool.not_eq_false] at hs
        rw [collectOne_some hi hs]; exact h
  induction L generalizing a with
  | nil => simp at hx
  | cons t L ih =>
    obtain ⟨u, hu, hr⟩ := hx
    rw [List.foldl_cons]
    rcases List.mem_cons.1 hu with rfl | hu
    · apply mono; rw [collectOne_unrec hr]
    · exact ih ⟨u, hu, hr⟩ _

open Classical in
theorem step_cache {c : Cfg N C H A} (hm : c.mode = .cache) (k : Task N A) (w : World N C H A) :
    (step c k w).ran = [] ∧
    (step c k w).v = (if missing c w k = true then .no else if ¬ Recorded w k then .cacheError
      else if RecordedOk w k then .ok else .no) := by
  unfold step
  split <;> rename_i hmi
  · exact ⟨rfl, rfl⟩
  · unfold execute
    by_cases hr : Recorded w k
    · obtain ⟨q1, q2, -, q4⟩ := collect_fold (c := c) (w := prepare c w k (ready c w k)) (k := k)
        (s := ready c w k) k.targets (by rw [prepare_info]; exact hr) ⟨false, false, true⟩
      have q4 := q4 hm
      rw [if_neg (fun h => by unfold collect at h; rw [q1] at h; cases h.2),
        if_pos ⟨by rw [hm]; nofun, by unfold collect; exact q4⟩]
      rw [if_neg (not_not.2 hr)]
      by_cases hok : RecordedOk w k
      · rw [if_pos hok, if_neg]
        · exact ⟨rfl, rfl⟩
        · intro h
          unfold collect at h
          rcases q2.1 h with h | ⟨t, ht, r, h1, h2⟩
          · cases h
          · obtain ⟨r', h3, -, h4⟩ := hok t ht
            rw [prepare_info, h3] at h1; cases h1
            rw [h4] at h2; cases h2
      · rw [if_neg hok, if_pos]
        · exact ⟨rfl, rfl⟩
        · unfold collect
          rw [q2]
          right
          by_contra hc
          apply hok
          intro t ht
          obtain ⟨r, h1, h2⟩ := hr t ht
          refine ⟨r, h1, h2, ?_⟩
          cases hfl : r.failed with
          | false => rfl
          | true => exact absurd ⟨t, ht, r, by rw [prepare_info]; exact h1, hfl⟩ hc
    · have : (collect c (prepare c w k (ready c w k)) k (ready c w k)).cachable = false := by
        unfold collect
        apply collect_cachable
        unfold Recorded at hr
        simp only [not_forall] at hr
        obtain ⟨t, ht, h⟩ := hr
        refine ⟨t, ht, fun r hi => ?_⟩
        rw [prepare_info] at hi
        cases hs : r.sconf with
        | false => rfl
        | true => exact absurd ⟨r, hi, hs⟩ h
      rw [if_pos ⟨hm, this⟩, if_pos hr]
      exact ⟨rfl, rfl⟩

/-- What `--config=cache` should report: the tasks in order; one with a project file missing fails, one
without a record is an error, one recorded as failed fails. -/
inductive CacheSays (leaf : N → Bool) (w : World N C H A) : List (Task N A) → Verdict → Prop where
  | done : CacheSays leaf w [] .ok
  | missing {k ks} (h : ∃ d ∈ k.deps, leaf d = true ∧ w.file d = none) : CacheSays leaf w (k :: ks) .no
  | error {k ks} (h : ∀ d ∈ k.deps, leaf d = true → w.file d ≠ none) (hr : ¬ Recorded w k) :
    CacheSays leaf w (k :: ks) .cacheError
  | failed {k ks} (h : ∀ d ∈ k.deps, leaf d = true → w.file d ≠ none) (hr : Recorded w k) (hf : ¬ RecordedOk w k) :
    CacheSays leaf w (k :: ks) .no
  | next {k ks v} (h : ∀ d ∈ k.deps, leaf d = true → w.file d ≠ none) (hr : RecordedOk w k)
    (hn : CacheSays leaf w ks v) : CacheSays leaf w (k :: ks) v

theorem run_cache {c : Cfg N C H A} (hm : c.mode = .cache) (w0 : World N C H A) (ks : List (Task N A)) :
    ∀ (before : List N) (w : World N C H A), WF c.leaf before ks →
      (∀ n, n ∉ before → w.info n = w0.info n ∧ w.file n = w0.file n) →
      (∀ n ∈ before, c.leaf n = false) →
      (run c ks w).ran = [] ∧ CacheSays c.leaf w0 ks (run c ks w).v := by
  induction ks with
  | nil => intro before w _ _ _; exact ⟨rfl, .done⟩
  | cons k ks ih =>
    intro before w hw he hb
    obtain ⟨w1, w2, w3, w4⟩ := hw
    obtain ⟨s1, s2⟩ := step_cache hm k w
    have hlf : ∀ d, c.leaf d = true → w.file d = w0.file d := by
      intro d hl
      apply (he d _).2
      intro h; rw [hb d h] at hl; cases hl
    have hmis : missing c w k = true ↔ ∃ d ∈ k.deps, c.leaf d = true ∧ w0.file d = none := by
      unfold missing
      simp only [List.any_eq_true, Bool.and_eq_true, Option.isNone_iff_eq_none]
      constructor
      · rintro ⟨d, hd, h1, h2⟩; exact ⟨d, hd, h1, by rw [← hlf d h1]; exact h2⟩
      · rintro ⟨d, hd, h1, h2⟩; exact ⟨d, hd, h1, by rw [hlf d h1]; exact h2⟩
    have hin : ∀ t ∈ k.targets, w.info t = w0.info t := fun t ht => (he t (w2 t ht).2).1
    have hR : Recorded w k ↔ Recorded w0 k := by
      unfold Recorded
      exact forall₂_congr fun t ht => by rw [hin t ht]
    have hO : RecordedOk w k ↔ RecordedOk w0 k := by
      unfold RecordedOk
      exact forall₂_congr fun t ht => by rw [hin t ht]
    have hnot : ∀ v, (step c k w).v = v → v ≠ .ok → run c (k :: ks) w = ⟨(step c k w).w, [], v⟩ := by
      intro v hv hne
      cases v with
      | ok => exact absurd rfl hne
      | no => simp only [run, hv, s1]
      | cacheError => simp only [run, hv, s1]
      | dryError => simp only [run, hv, s1]
    by_cases hmi : missing c w k = true
    · rw [if_pos hmi] at s2
      rw [hnot .no s2 nofun]
      exact ⟨rfl, .missing (hmis.1 hmi)⟩
    · rw [if_neg hmi] at s2
      have hnm : ∀ d ∈ k.deps, c.leaf d = true → w0.file d ≠ none :=
        fun d hd hl h => hmi (hmis.2 ⟨d, hd, hl, h⟩)
      by_cases hr : Recorded w k
      · rw [if_neg (not_not.2 hr)] at s2
        by_cases hok : RecordedOk w k
        · rw [if_pos hok] at s2
          have e : run c (k :: ks) w = ⟨(run c ks (step c k w).w).w, (run c ks (step c k w).w).ran,
              (run c ks (step c k w).w).v⟩ := by
            simp only [run, s2, s1, List.nil_append]
          obtain ⟨i1, i2⟩ := ih (before ++ k.targets) (step c k w).w w4 (by
              intro n hn
              simp only [List.mem_append, not_or] at hn
              obtain ⟨g1, g2⟩ := step_other c k w hn.2
              rw [g1, g2]
              exact he n hn.1) (by
              intro n hn
              rcases List.mem_append.1 hn with h | h
              · exact hb n h
              · exact (w2 n h).1)
          rw [e]
          exact ⟨i1, .next hnm (hO.1 hok) i2⟩
        · rw [if_neg hok] at s2
          rw [hnot .no s2 nofun]
          exact ⟨rfl, .failed hnm (hR.1 hr) (fun h => hok (hO.2 h))⟩
      · rw [if_pos hr] at s2
        rw [hnot .cacheError s2 nofun]
        exact ⟨rfl, .error hnm (fun h => hr (hR.2 h))⟩

/-- **C70, cache.**  Whatever has changed, a check with `--config=cache` runs no action, and its verdict is the
recorded one, or an error if there is none. -/
theorem C70_cache (c : Cfg N C H A) (hm : c.mode = .cache) (ks : List (Task N A)) (hks : WF c.leaf [] ks)
    (w : World N C H A) : (run c ks w).ran = [] ∧ CacheSays c.leaf w ks (run c ks w).v :=
  run_cache hm w ks [] w hks (fun _ _ => ⟨rfl, rfl⟩) (by simp)

/-! ## `-n` and `-q` -/

theorem step_dry {c : Cfg N C H A} (hdry : c.dry = true) (k : Task N A) (w : World N C H A) :
    (step c k w).ran = [] := by
  unfold step
  split
  · rfl
  · unfold execute
    rw [hdry]
    split
    · rfl
    · split
      · split <;> rfl
      · rfl

/-- **C70, dry runs.**  With `-n` or `-q`, in every mode, no check runs any action. -/
theorem C70_dry_runs_nothing (c : Cfg N C H A) (hdry : c.dry = true) (ks : List (Task N A)) (w : World N C H A) :
    (run c ks w).ran = [] := by
  induction ks generalizing w with
  | nil => rfl
  | cons k ks ih =>
    unfold run
    split
    · simp [step_dry hdry, ih]
    · exact step_dry hdry k w

theorem step_n {c : Cfg N C H A} (hf : Fair c) (hdry : c.dry = true) (hn : c.noexec = true) (hm : c.mode = .auto)
    {k : Task N A} {w : World N C H A} (ht : Truthful c w) (hc : Current c w)
    (hd : ∀ d ∈ k.deps, d ∉ k.targets) (hne : k.targets ≠ []) :
    (step c k w).w = w ∧
    (missing c w k = true → (step c k w).v = .no) ∧
    (missing c w k = false → (step c k w).v ≠ .dryError →
      (step c k w).v = verdict (c.sem k.act (k.deps.map w.file)).ok) := by
  have hp : ∀ s, prepare c w k s = w := by
    intro s; unfold prepare; rw [if_neg]; rw [hn]; simp
  have hs : ∀ t r, w.info t = some r → r.sconf = true := fun t r h => (ht t r h).1
  cases hmis : missing c w k with
  | true =>
    have e : step c k w = ⟨w, [], .no⟩ := by unfold step; rw [hmis]; rfl
    rw [e]
    exact ⟨rfl, fun _ => rfl, nofun⟩
  | false =>
    by_cases hb : (collect c w k (ready c w k)).changed = false
    · have hmc : c.mode ≠ .cache := by rw [hm]; nofun
      obtain ⟨hu, -⟩ := collect_unchanged hd hmc hs (by rw [hp]; exact hb)
      have hr : ∀ t ∈ k.targets, ∃ r, w.info t = some r ∧ r.sigs = k.deps.map (csig c w) ∧ r.act = k.act := by
        intro t htt
        obtain ⟨r, g1, g2, g3, -⟩ := changed_false.1 (hu t htt)
        exact ⟨r, g1, g2, g3⟩
      obtain ⟨p1, p2, p3⟩ := step_settled hf hm ht hc hd hne hr hmis
      refine ⟨?_, nofun, fun _ _ => p2⟩
      by_cases hv : (step c k w).v = .ok
      · exact p3 hv
      · unfold step at hv ⊢
        rw [hmis] at hv ⊢
        simp only [Bool.false_eq_true, if_false, hp] at hv ⊢
        unfold execute at hv ⊢
        rw [if_neg (fun h => hmc h.1), if_pos ⟨by rw [hm]; nofun, hb⟩] at hv ⊢
        split
        · rfl
        · rename_i h; rw [if_neg h] at hv; exact absurd rfl hv
    · have e : step c k w = ⟨w, [], .dryError⟩ := by
        unfold step
        rw [hmis]
        simp only [Bool.false_eq_true, if_false, hp]
        unfold execute
        rw [if_neg (fun h => by rw [hm] at h; cases h.1), if_neg (fun h => hb h.2), if_pos hdry]
      rw [e]
      exact ⟨rfl, nofun, fun _ h => absurd rfl h⟩

theorem run_n {c : Cfg N C H A} (hf : Fair c) (hdry : c.dry = true) (hn : c.noexec = true) (hm : c.mode = .auto)
    (ks : List (Task N A)) :
    ∀ (before : List N) (w : World N C H A) (f : N → Option C), WF c.leaf before ks → Truthful c w → Current c w →
      (run c ks w).w = w ∧
      ((∀ n, c.leaf n = true ∨ n ∈ before → w.file n = f n) → (run c ks w).v ≠ .dryError →
        (run c ks w).v = verdict (scratch c.leaf c.sem ks f).1) := by
  induction ks with
  | nil => intro before w f _ _ _; exact ⟨rfl, fun _ _ => rfl⟩
  | cons k ks ih =>
    intro before w f hw ht hc
    have hd := hw.deps
    have hw' := hw
    obtain ⟨w1, w2, w3, w4⟩ := hw
    obtain ⟨s1, s2, s3⟩ := step_n hf hdry hn hm ht hc hd w1
    by_cases hv : (step c k w).v = .ok
    · have e : run c (k :: ks) w = ⟨(run c ks w).w, (step c k w).ran ++ (run c ks w).ran, (run c ks w).v⟩ := by
        simp only [run, hv, s1]
      have hmis : missing c w k = false := by
        cases h : missing c w k with
        | false => rfl
        | true => rw [s2 h] at hv; cases hv
      obtain ⟨i1, -⟩ := ih (before ++ k.targets) w f w4 ht hc
      rw [e]
      refine ⟨i1, fun he hx => ?_⟩
      have hdf : ∀ d ∈ k.deps, w.file d = f d := fun d hd' => he d (w3 d hd')
      have hmap : k.deps.map w.file = k.deps.map f := List.map_congr_left hdf
      have hok : (c.sem k.act (k.deps.map w.file)).ok = true := by
        have := s3 hmis (by rw [hv]; nofun)
        rw [hv] at this
        cases h : (c.sem k.act (k.deps.map w.file)).ok with
        | true => rfl
        | false => rw [h] at this; cases this
      have hsc : ¬ ∃ d ∈ k.deps, c.leaf d = true ∧ f d = none := fun h => by
        rw [(missing_iff hdf).2 h] at hmis; cases hmis
      have es : scratch c.leaf c.sem (k :: ks) f = scratch c.leaf c.sem ks
          (fun n => if n ∈ k.targets then (c.sem k.act (k.deps.map f)).out n else f n) := by
        rw [scratch, if_neg hsc, if_pos (by rw [← hmap]; exact hok)]
      rw [es]
      refine (ih (before ++ k.targets) w _ w4 ht hc).2 ?_ hx
      -- the files are there: a step that would not run gives `dryError` otherwise
      intro n hn'
      by_cases hnt : n ∈ k.targets
      · rw [if_pos hnt, ← hmap]
        have hun : changed c w k n = false := by
          have hp : ∀ s, prepare c w k s = w := by
            intro s; unfold prepare; rw [if_neg]; rw [hn]; simp
          by_contra hch
          have hcol : (collect c w k (ready c w k)).changed ≠ false := by
            intro h
            exact hch ((collect_unchanged hd (by rw [hm]; nofun) (fun t r h => (ht t r h).1) (by rw [hp]; exact h)).1 n hnt)
          have : (step c k w).v = .dryError := by
            unfold step
            rw [hmis]
            simp only [Bool.false_eq_true, if_false, hp]
            unfold execute
            rw [if_neg (fun h => by rw [hm] at h; cases h.1), if_neg (fun h => hcol h.2), if_pos hdry]
          rw [this] at hv; cases hv
        obtain ⟨r, g1, g2, g3, -⟩ := changed_false.1 hun
        obtain ⟨-, cs, g5, g6, g7⟩ := ht n r g1
        have hcs : cs = k.deps.map w.file := by
          apply (List.map_injective_iff.2 hf.inj)
          rw [← g5, g2, List.map_map]
          exact List.map_congr_left fun d _ => csig_current hc d
        subst hcs
        rw [g3] at g6 g7
        apply g7
        rw [hok] at g6
        cases hfl : r.failed with
        | false => rfl
        | true => rw [hfl] at g6; cases g6
      · rw [if_neg hnt]
        exact he n (by simpa [hnt] using hn')
    · have e : run c (k :: ks) w = ⟨(step c k w).w, (step c k w).ran, (step c k w).v⟩ := by
        unfold run
        cases h : (step c k w).v with
        | ok => exact absurd h hv
        | no => rfl
        | cacheError => rfl
        | dryError => rfl
      rw [e]
      refine ⟨s1, fun he hx => ?_⟩
      have hdf : ∀ d ∈ k.deps, w.file d = f d := fun d hd' => he d (w3 d hd')
      have hmap : k.deps.map w.file = k.deps.map f := List.map_congr_left hdf
      by_cases hmi : missing c w k = true
      · rw [scratch, if_pos ((missing_iff hdf).1 hmi)]
        exact s2 hmi
      · have hmis : missing c w k = false := by simpa using hmi
        have h3 := s3 hmis hx
        have hok : (c.sem k.act (k.deps.map w.file)).ok = false := by
          cases h : (c.sem k.act (k.deps.map w.file)).ok with
          | false => rfl
          | true => rw [h] at h3; exact absurd h3 hv
        rw [scratch, if_neg (fun h => hmi ((missing_iff hdf).2 h)), if_neg (by rw [← hmap, hok]; nofun)]
        show (step c k w).v = _
        rw [h3, hok]

/-- **C70, `-n`.**  After any regular history a check with `-n` changes nothing at all, and its verdict,
unless it is the error that something needs to be built, is that of the check from scratch. -/
theorem C70_no_exec (c : Cfg N C H A) (hf : Fair c) (h1 : c.dry = false) (h2 : c.noexec = false)
    (f : N → Option C) (es : List (Ev N C A)) (hr : Regular c (blank f c) es) (ks : List (Task N A))
    (hks : WF c.leaf [] ks) (hc : Current c (es.foldl (Ev.apply c) (blank f c))) :
    let w := es.foldl (Ev.apply c) (blank f c)
    let r := run { c with mode := .auto, dry := true, noexec := true } ks w
    r.w = w ∧ (r.v ≠ .dryError → (r.v = .ok ∨ r.v = .no) ∧
      (r.v = .ok ↔ (scratch c.leaf c.sem ks (onlyLeaves c w)).1 = true)) := by
  intro w r
  have hk : Kept c w := kept_history hf h1 h2 es ⟨nofun, fun _ _ => rfl, fun _ _ => rfl⟩ hr
  obtain ⟨g1, g2⟩ := run_n (c := { c with mode := .auto, dry := true, noexec := true }) ⟨hf.inj, hf.makes⟩ rfl rfl rfl ks []
    w (onlyLeaves c w) hks hk.truthful hc
  refine ⟨g1, fun hx => ?_⟩
  have g := g2 (by
      intro n hn
      simp only [List.not_mem_nil, or_false] at hn
      have : c.leaf n = true := hn
      simp [onlyLeaves, this]) hx
  have g : r.v = verdict (scratch c.leaf c.sem ks (onlyLeaves c w)).1 := g
  rw [g]
  cases (scratch c.leaf c.sem ks (onlyLeaves c w)).1 <;> simp [verdict]

end
end Verif.Conf
