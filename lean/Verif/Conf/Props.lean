import Verif.Conf.Model
import Mathlib.Data.List.Basic
import Mathlib.Data.List.Induction

/-!
# What Configure checks report
-/

set_option linter.unusedSectionVars false

namespace Verif.Conf
section
variable {N C H A : Type} [DecidableEq N] [DecidableEq H] [DecidableEq A]

/-! ## Specification: a check done from scratch -/

/-- All tasks of a check carried out, in order, from the contents `f`: the verdict and the contents
afterwards.  No records, no signatures. -/
def scratch (leaf : N → Bool) (sem : A → List (Option C) → Effect N C) :
    List (Task N A) → (N → Option C) → Bool × (N → Option C)
  | [], f => (true, f)
  | k :: ks, f =>
    if ∃ d ∈ k.deps, leaf d = true ∧ f d = none then (false, f)
    else if (sem k.act (k.deps.map f)).ok then
      scratch leaf sem ks (fun n => if n ∈ k.targets then (sem k.act (k.deps.map f)).out n else f n)
    else (false, f)

/-- The project as it is, and nothing left of earlier checks. -/
def onlyLeaves (c : Cfg N C H A) (w : World N C H A) : N → Option C :=
  fun n => if c.leaf n then w.file n else none

/-- The tasks of a check: every target is made by one task, which has at least one; a task uses project
files and what earlier tasks made. -/
def WF (leaf : N → Bool) : List N → List (Task N A) → Prop
  | _, [] => True
  | before, k :: ks =>
    k.targets ≠ [] ∧ (∀ t ∈ k.targets, leaf t = false ∧ t ∉ before) ∧
      (∀ d ∈ k.deps, leaf d = true ∨ d ∈ before) ∧ WF leaf (before ++ k.targets) ks

/-- Signatures tell contents apart, and an action that reports success has made its targets. -/
structure Fair (c : Cfg N C H A) : Prop where
  inj : Function.Injective c.sig
  makes : ∀ a cs n, (c.sem a cs).ok = true → ((c.sem a cs).out n).isSome

/-- The signatures stored for files are those of the files. -/
def Current (c : Cfg N C H A) (w : World N C H A) : Prop :=
  ∀ n, w.stored n = none ∨ w.stored n = some (c.sig (w.file n))

/-- What is recorded of checks is true of some inputs, and what was built is still there. -/
def Truthful (c : Cfg N C H A) (w : World N C H A) : Prop :=
  ∀ t r, w.info t = some r → r.sconf = true ∧ ∃ cs : List (Option C), r.sigs = cs.map c.sig ∧
    (c.sem r.act cs).ok = !r.failed ∧ (r.failed = false → w.file t = (c.sem r.act cs).out t)

/-! ## Lemmas -/

theorem csig_current {c : Cfg N C H A} {w : World N C H A} (h : Current c w) (n : N) :
    csig c w n = c.sig (w.file n) := by
  unfold csig
  rcases h n with h | h <;> rw [h]

theorem collectOne_some {c : Cfg N C H A} {w : World N C H A} {k : Task N A} {s : St} {t : N} {r : Rec H A}
    (h1 : w.info t = some r) (h2 : r.sconf = true) (a : Coll) :
    collectOne c w k s a t = ⟨if c.mode = .cache then a.changed
          else a.changed || (s != .upToDate && changed c w k t), a.cachedError || r.failed, a.cachable⟩ := by
  unfold collectOne; rw [h1]; simp only [h2, if_true]

theorem collectOne_unrec {c : Cfg N C H A} {w : World N C H A} {k : Task N A} {s : St} {t : N}
    (h : ∀ r, w.info t = some r → r.sconf = false) (a : Coll) :
    collectOne c w k s a t = ⟨s != .upToDate, a.cachedError, false⟩ := by
  unfold collectOne
  cases hi : w.info t with
  | none => rfl
  | some r => simp only [h r hi]; rfl

theorem collect_fold {c : Cfg N C H A} {w : World N C H A} {k : Task N A} {s : St}
    (L : List N) (hr : ∀ t ∈ L, ∃ r, w.info t = some r ∧ r.sconf = true) (a : Coll) :
    (L.foldl (collectOne c w k s) a).cachable = a.cachable ∧
    ((L.foldl (collectOne c w k s) a).cachedError = true ↔
      a.cachedError = true ∨ ∃ t ∈ L, ∃ r, w.info t = some r ∧ r.failed = true) ∧
    (c.mode ≠ .cache → ((L.foldl (collectOne c w k s) a).changed = true ↔
      a.changed = true ∨ (s = .executing ∧ ∃ t ∈ L, changed c w k t = true))) ∧
    (c.mode = .cache → (L.foldl (collectOne c w k s) a).changed = a.changed) := by
  induction L generalizing a with
  | nil => simp
  | cons t L ih =>
    obtain ⟨r, h1, h2⟩ := hr t (by simp)
    have ih := ih (fun t ht => hr t (by simp [ht])) (collectOne c w k s a t)
    rw [List.foldl_cons]
    rw [collectOne_some h1 h2] at ih ⊢
    generalize List.foldl (collectOne c w k s) _ L = R at ih ⊢
    obtain ⟨i1, i2, i3, i4⟩ := ih
    refine ⟨i1, ?_, ?_, ?_⟩
    · rw [i2]
      simp only [Bool.or_eq_true, List.mem_cons, exists_eq_or_imp, h1, Option.some.injEq, exists_eq_left']
      exact or_assoc
    · intro hm
      rw [i3 hm]
      simp only [if_neg hm, Bool.or_eq_true, List.mem_cons, exists_eq_or_imp, Bool.and_eq_true]
      generalize (∃ a ∈ L, changed c w k a = true) = P
      generalize changed c w k t = b
      generalize a.changed = b'
      cases s <;> cases b <;> cases b' <;> simp
    · intro hm
      rw [i4 hm]
      simp [hm]

/-- A target without a record in the loop. -/
theorem collect_unrec {c : Cfg N C H A} {w : World N C H A} {k : Task N A}
    (L : List N) (hx : ∃ t ∈ L, ∀ r, w.info t = some r → r.sconf = false) (a : Coll) :
    (L.foldl (collectOne c w k .executing) a).cachable = false ∧
    (c.mode ≠ .cache → (L.foldl (collectOne c w k .executing) a).changed = true) := by
  induction L using List.reverseRecOn with
  | nil => simp at hx
  | append_singleton L t ih =>
    rw [List.foldl_append, List.foldl_cons, List.foldl_nil]
    by_cases ht : ∀ r, w.info t = some r → r.sconf = false
    · rw [collectOne_unrec ht]
      exact ⟨rfl, fun _ => rfl⟩
    · have hx' : ∃ t ∈ L, ∀ r, w.info t = some r → r.sconf = false := by
        obtain ⟨u, hu, hr⟩ := hx
        rcases List.mem_append.1 hu with h | h
        · exact ⟨u, h, hr⟩
        · simp only [List.mem_singleton] at h
          subst h
          exact absurd hr ht
      obtain ⟨i1, i2⟩ := ih hx'
      simp only [not_forall] at ht
      obtain ⟨r, hi, hs⟩ := ht
      simp only [Bool.not_eq_false] at hs
      rw [collectOne_some hi hs]
      refine ⟨i1, fun hm => ?_⟩
      simp only [if_neg hm, i2 hm, Bool.true_or]

theorem changed_false {c : Cfg N C H A} {w : World N C H A} {k : Task N A} {t : N} :
    changed c w k t = false ↔ ∃ r, w.info t = some r ∧ r.sigs = k.deps.map (csig c w) ∧ r.act = k.act ∧
      (c.mode = .force → ∀ d ∈ k.deps, c.viaEnv d = false) := by
  unfold changed
  cases w.info t with
  | none => simp
  | some r =>
    simp only [Bool.or_eq_false_iff, Bool.not_eq_false', beq_iff_eq, Bool.and_eq_false_iff, Option.some.injEq,
      exists_eq_left']
    constructor
    · rintro ⟨⟨h1, h2⟩, h3⟩
      refine ⟨h2, h3, fun hm d hd => ?_⟩
      rcases h1 with h1 | h1
      · simp [hm] at h1
      · simp only [List.any_eq_false, Bool.not_eq_true] at h1
        exact h1 d hd
    · rintro ⟨h2, h3, h1⟩
      refine ⟨⟨?_, h2⟩, h3⟩
      by_cases hm : c.mode = .force
      · right; simp only [List.any_eq_false, Bool.not_eq_true]; exact h1 hm
      · left; simpa using hm

theorem ready_upToDate {c : Cfg N C H A} {w : World N C H A} {k : Task N A} :
    ready c w k = .upToDate ↔ ∀ t ∈ k.targets, (w.file t).isSome ∧ changed c w k t = false := by
  unfold ready
  split <;> rename_i h
  · simp only [List.all_eq_true, Bool.and_eq_true, Bool.not_eq_true'] at h
    simpa using h
  · simp only [List.all_eq_true, Bool.and_eq_true, Bool.not_eq_true'] at h
    simpa using h

theorem csig_prepare {c : Cfg N C H A} {w : World N C H A} {k : Task N A} {s : St} {d : N} (h : d ∉ k.targets) :
    csig c (prepare c w k s) d = csig c w d := by
  unfold prepare
  split
  · simp only [csig, if_neg h]
  · rfl

theorem map_csig_prepare {c : Cfg N C H A} {w : World N C H A} {k : Task N A} {s : St}
    (h : ∀ d ∈ k.deps, d ∉ k.targets) :
    k.deps.map (csig c (prepare c w k s)) = k.deps.map (csig c w) :=
  List.map_congr_left fun d hd => csig_prepare (h d hd)

theorem prepare_info {c : Cfg N C H A} {w : World N C H A} {k : Task N A} {s : St} :
    (prepare c w k s).info = w.info := by unfold prepare; split <;> rfl

theorem prepare_stored {c : Cfg N C H A} {w : World N C H A} {k : Task N A} {s : St} :
    (prepare c w k s).stored = w.stored := by unfold prepare; split <;> rfl

theorem prepare_file {c : Cfg N C H A} {w : World N C H A} {k : Task N A} {s : St} {n : N} (h : n ∉ k.targets) :
    (prepare c w k s).file n = w.file n := by unfold prepare; split <;> simp [h]

theorem changed_prepare {c : Cfg N C H A} {w : World N C H A} {k : Task N A} {s : St}
    (h : ∀ d ∈ k.deps, d ∉ k.targets) (t : N) :
    changed c (prepare c w k s) k t = changed c w k t := by
  unfold changed
  rw [prepare_info, map_csig_prepare h]

/-- What `collect_node_states` says about targets that need not be built: every one has a record, of this
action on these inputs. -/
theorem collect_unchanged {c : Cfg N C H A} {w : World N C H A} {k : Task N A}
    (hd : ∀ d ∈ k.deps, d ∉ k.targets) (hm : c.mode ≠ .cache)
    (hs : ∀ t r, w.info t = some r → r.sconf = true)
    (h : (collect c (prepare c w k (ready c w k)) k (ready c w k)).changed = false) :
    (∀ t ∈ k.targets, changed c w k t = false) ∧
    ((collect c (prepare c w k (ready c w k)) k (ready c w k)).cachedError = true ↔
      ∃ t ∈ k.targets, ∃ r, w.info t = some r ∧ r.failed = true) := by
  by_cases hr : ∀ t ∈ k.targets, ∃ r, w.info t = some r ∧ r.sconf = true
  · have hr' : ∀ t ∈ k.targets, ∃ r, (prepare c w k (ready c w k)).info t = some r ∧ r.sconf = true := by
      simpa only [prepare_info] using hr
    obtain ⟨-, h2, h3, -⟩ := collect_fold (c := c) (w := prepare c w k (ready c w k)) (k := k)
      (s := ready c w k) k.targets hr' ⟨false, false, true⟩
    have h3 := h3 hm
    unfold collect at h ⊢
    refine ⟨?_, ?_⟩
    · intro t ht
      cases hst : ready c w k with
      | upToDate => exact (ready_upToDate.1 hst t ht).2
      | executing =>
        by_contra hc
        simp only [Bool.not_eq_false] at hc
        rw [h3.2 (Or.inr ⟨hst, t, ht, by rw [changed_prepare hd]; exact hc⟩)] at h
        cases h
    · rw [h2, prepare_info]; simp
  · exfalso
    have hx : ∃ t ∈ k.targets, w.info t = none := by
      by_contra hc
      apply hr
      intro t ht
      cases hi : w.info t with
      | none => exact absurd ⟨t, ht, hi⟩ hc
      | some r => exact ⟨r, rfl, hs t r hi⟩
    obtain ⟨t, ht, hi⟩ := hx
    have hst : ready c w k = .executing := by
      cases hst : ready c w k with
      | executing => rfl
      | upToDate =>
        have := (ready_upToDate.1 hst t ht).2
        rw [changed_false, hi] at this
        simp at this
    rw [hst] at h
    have := (collect_unrec (c := c) (w := prepare c w k .executing) (k := k) k.targets
      ⟨t, ht, by rw [prepare_info, hi]; simp⟩ ⟨false, false, true⟩).2 hm
    unfold collect at h
    rw [this] at h
    cases h

/-- A run that does what it is for: neither `-n` nor `-q`, and not `--config=cache`. -/
structure Live (c : Cfg N C H A) : Prop where
  dry : c.dry = false
  noexec : c.noexec = false
  mode : c.mode ≠ .cache

theorem visit_id {c : Cfg N C H A} {w : World N C H A} {k : Task N A}
    (h : ∀ t ∈ k.targets, ∃ r, w.info t = some r ∧ r.sigs = k.deps.map (csig c w) ∧ r.act = k.act) :
    visit c k (k.deps.map (csig c w)) w = w := by
  have hi : (visit c k (k.deps.map (csig c w)) w).info = w.info := by
    funext n
    simp only [visit]
    split
    · rename_i hn
      obtain ⟨r, h1, h2, h3⟩ := h n hn.1
      rw [h1, ← h2, ← h3]
    · rfl
  cases hw : visit c k (k.deps.map (csig c w)) w
  cases w
  simp only [visit, World.mk.injEq] at hw
  rw [hw.1, hw.2.1]
  simp only [World.mk.injEq, true_and]
  rw [← hw.2.2]
  exact hi

/-- After a build every target has the record of it. -/
theorem visit_record {c : Cfg N C H A} {k : Task N A} {sigs : List H} {w : World N C H A} {f : N → Option (Rec H A)} {t : N}
    (ht : t ∈ k.targets) (hf : w.info = record k sigs false f) :
    (visit c k sigs w).info t = some ⟨true, sigs, k.act, false⟩ := by
  unfold visit
  simp only [hf, record, ht, if_true, true_and]
  split <;> rfl

theorem visit_other {c : Cfg N C H A} {k : Task N A} {sigs : List H} {w : World N C H A} {t : N}
    (ht : t ∉ k.targets) : (visit c k sigs w).info t = w.info t := by
  unfold visit; simp [ht]

/-- **One task** of a check, with true records: it reports what carrying it out would. -/
theorem step_live {c : Cfg N C H A} {w : World N C H A} {k : Task N A} (hf : Fair c) (hl : Live c)
    (ht : Truthful c w) (hc : Current c w) (hd : ∀ d ∈ k.deps, d ∉ k.targets)
    (hlf : ∀ t ∈ k.targets, w.stored t = none) (hne : k.targets ≠ []) :
    Truthful c (step c k w).w ∧ Current c (step c k w).w ∧ (step c k w).w.stored = w.stored ∧
    (∀ n, n ∉ k.targets → (step c k w).w.file n = w.file n) ∧
    (missing c w k = true → (step c k w).v = .no) ∧
    (missing c w k = false →
      ((c.sem k.act (k.deps.map w.file)).ok = false → (step c k w).v = .no) ∧
      ((c.sem k.act (k.deps.map w.file)).ok = true → (step c k w).v = .ok ∧
        ∀ n ∈ k.targets, (step c k w).w.file n = (c.sem k.act (k.deps.map w.file)).out n)) := by
  have hk : k.deps.map (csig c w) = (k.deps.map w.file).map c.sig := by
    rw [List.map_map]; exact List.map_congr_left fun d _ => csig_current hc d
  have hinj : ∀ cs : List (Option C), cs.map c.sig = k.deps.map (csig c w) → cs = k.deps.map w.file := by
    intro cs h
    rw [hk] at h
    exact (List.map_injective_iff.2 hf.inj) h
  cases hmis : missing c w k with
  | true =>
    have e : step c k w = ⟨w, [], .no⟩ := by unfold step; rw [hmis]; rfl
    rw [e]
    exact ⟨ht, hc, rfl, fun _ _ => rfl, fun _ => rfl, fun h => by cases h⟩
  | false =>
    have e : step c k w = execute c k (ready c w k) (k.deps.map (csig c w)) (prepare c w k (ready c w k)) := by
      unfold step; rw [hmis]; rfl
    have hs : ∀ t r, w.info t = some r → r.sconf = true := fun t r h => (ht t r h).1
    have hpf : k.deps.map (prepare c w k (ready c w k)).file = k.deps.map w.file :=
      List.map_congr_left fun d hd' => prepare_file (hd d hd')
    have hpc : Current c (prepare c w k (ready c w k)) := by
      intro n
      by_cases hn : n ∈ k.targets
      · left; rw [prepare_stored]; exact hlf n hn
      · rw [prepare_stored, prepare_file hn]; exact hc n
    by_cases hb : c.mode ≠ .force ∧ (collect c (prepare c w k (ready c w k)) k (ready c w k)).changed = false
    · -- nothing is built
      obtain ⟨hu, hce⟩ := collect_unchanged hd hl.mode hs hb.2
      have hrec : ∀ t ∈ k.targets, ∃ r, w.info t = some r ∧ r.sigs = k.deps.map (csig c w) ∧ r.act = k.act ∧
          (c.sem k.act (k.deps.map w.file)).ok = !r.failed ∧
          (r.failed = false → w.file t = (c.sem k.act (k.deps.map w.file)).out t) := by
        intro t htt
        obtain ⟨r, h1, h2, h3, -⟩ := changed_false.1 (hu t htt)
        obtain ⟨-, cs, h5, h6, h7⟩ := ht t r h1
        have := hinj cs (by rw [← h5, h2])
        subst this
        rw [h3] at h6 h7
        exact ⟨r, h1, h2, h3, h6, h7⟩
      have e2 : step c k w = if (collect c (prepare c w k (ready c w k)) k (ready c w k)).cachedError then
          ⟨prepare c w k (ready c w k), [], .no⟩
          else ⟨visit c k (k.deps.map (csig c w)) (prepare c w k (ready c w k)), [], .ok⟩ := by
        rw [e]; unfold execute
        rw [if_neg (fun h => hl.mode h.1), if_pos hb]
      by_cases hx : (collect c (prepare c w k (ready c w k)) k (ready c w k)).cachedError = true
      · rw [if_pos hx] at e2
        obtain ⟨t, htt, r, h1, h2⟩ := hce.1 hx
        have hno : (c.sem k.act (k.deps.map w.file)).ok = false := by
          obtain ⟨r', h1', -, -, h3, -⟩ := hrec t htt
          rw [h1] at h1'; cases h1'
          rw [h3, h2]; rfl
        rw [e2]
        refine ⟨?_, hpc, prepare_stored, fun n hn => prepare_file hn, nofun, fun _ => ⟨fun _ => rfl, fun h => ?_⟩⟩
        · intro u r' hr'
          rw [prepare_info] at hr'
          obtain ⟨g1, cs, g2, g3, g4⟩ := ht u r' hr'
          refine ⟨g1, cs, g2, g3, fun g => ?_⟩
          by_cases hut : u ∈ k.targets
          · obtain ⟨r'', q1, -, -, q2, -⟩ := hrec u hut
            rw [hr'] at q1; cases q1
            rw [hno, g] at q2; cases q2
          · rw [prepare_file hut]; exact g4 g
        · rw [hno] at h; cases h
      · rw [if_neg hx] at e2
        have hall : ∀ t ∈ k.targets, ∀ r, w.info t = some r → r.failed = false := by
          intro t htt r hr
          cases hfl : r.failed with
          | false => rfl
          | true => exact absurd (hce.2 ⟨t, htt, r, hr, hfl⟩) hx
        have hup : k.targets ≠ [] → (c.sem k.act (k.deps.map w.file)).ok = true := by
          intro hne
          obtain ⟨t, L, hL⟩ := List.exists_cons_of_ne_nil hne
          obtain ⟨r, h1, -, -, h3, -⟩ := hrec t (by simp [hL])
          rw [h3, hall t (by simp [hL]) r h1]; rfl
        have hst : ready c w k = .upToDate := by
          rw [ready_upToDate]
          intro t htt
          refine ⟨?_, hu t htt⟩
          obtain ⟨r, h1, -, -, h3, h4⟩ := hrec t htt
          rw [h4 (hall t htt r h1)]
          exact hf.makes _ _ _ (by rw [h3, hall t htt r h1]; rfl)
        have hp : prepare c w k (ready c w k) = w := by
          unfold prepare; rw [if_neg]; rw [hst]; simp
        rw [hp] at e2
        rw [visit_id (fun t htt => by
          obtain ⟨r, h1, h2, h3, -⟩ := hrec t htt
          exact ⟨r, h1, h2, h3⟩)] at e2
        rw [e2]
        refine ⟨ht, hc, rfl, fun _ _ => rfl, nofun, fun _ => ⟨fun h => ?_, fun h => ⟨rfl, fun t htt => ?_⟩⟩⟩
        · rw [hup hne] at h; cases h
        · obtain ⟨r, h1, -, -, -, h4⟩ := hrec t htt
          exact h4 (hall t htt r h1)
    · have e2 : step c k w = build c k (k.deps.map (csig c w)) (prepare c w k (ready c w k)) := by
        rw [e]; unfold execute
        rw [if_neg (fun h => hl.mode h.1), if_neg hb, hl.dry]; rfl
      by_cases hok : (c.sem k.act (k.deps.map w.file)).ok = true
      · have e3 : step c k w = ⟨visit c k (k.deps.map (csig c w)) { prepare c w k (ready c w k) with
            file := write k (c.sem k.act (k.deps.map w.file)) (prepare c w k (ready c w k)).file,
            info := record k (k.deps.map (csig c w)) false (prepare c w k (ready c w k)).info }, [k.act], .ok⟩ := by
          rw [e2]; unfold build; rw [hpf, if_pos hok]
        have hfile : ∀ n ∈ k.targets, (step c k w).w.file n = (c.sem k.act (k.deps.map w.file)).out n := by
          intro n hn
          rw [e3]
          simp only [visit, write, hn, if_true]
          have := hf.makes k.act (k.deps.map w.file) n hok
          cases ho : (c.sem k.act (k.deps.map w.file)).out n with
          | none => rw [ho] at this; cases this
          | some x => rfl
        have hother : ∀ n, n ∉ k.targets → (step c k w).w.file n = w.file n := by
          intro n hn
          rw [e3]
          simp only [visit, write, hn, if_false]
          exact prepare_file hn
        have hsto : (step c k w).w.stored = w.stored := by rw [e3]; exact prepare_stored
        refine ⟨?_, ?_, hsto, hother, nofun, fun _ => ⟨fun h => ?_, fun _ => ⟨by rw [e3], hfile⟩⟩⟩
        · intro t r hr
          by_cases htt : t ∈ k.targets
          · have : r = ⟨true, k.deps.map (csig c w), k.act, false⟩ := by
              rw [e3] at hr
              rw [visit_record htt rfl] at hr
              simpa using hr.symm
            subst this
            exact ⟨rfl, k.deps.map w.file, hk, by simp [hok], fun _ => hfile t htt⟩
          · have hr' : w.info t = some r := by
              rw [e3] at hr
              rw [visit_other htt] at hr
              simp only [record, htt, if_false, prepare_info] at hr
              exact hr
            obtain ⟨g1, cs, g2, g3, g4⟩ := ht t r hr'
            exact ⟨g1, cs, g2, g3, fun g => by rw [hother t htt]; exact g4 g⟩
        · intro n
          rw [hsto]
          by_cases hn : n ∈ k.targets
          · exact Or.inl (hlf n hn)
          · rw [hother n hn]; exact hc n
        · rw [hok] at h; cases h
      · have e3 : step c k w = ⟨{ prepare c w k (ready c w k) with
            file := write k (c.sem k.act (k.deps.map w.file)) (prepare c w k (ready c w k)).file,
            info := record k (k.deps.map (csig c w)) true (prepare c w k (ready c w k)).info }, [k.act], .no⟩ := by
          rw [e2]; unfold build; rw [hpf, if_neg hok]
        have hother : ∀ n, n ∉ k.targets → (step c k w).w.file n = w.file n := by
          intro n hn
          rw [e3]
          simp only [write, hn, if_false]
          exact prepare_file hn
        have hsto : (step c k w).w.stored = w.stored := by rw [e3]; exact prepare_stored
        simp only [Bool.not_eq_true] at hok
        refine ⟨?_, ?_, hsto, hother, nofun, fun _ => ⟨fun _ => by rw [e3], fun h => ?_⟩⟩
        · intro t r hr
          by_cases htt : t ∈ k.targets
          · have : r = ⟨true, k.deps.map (csig c w), k.act, true⟩ := by
              rw [e3] at hr
              simp only [record, htt, if_true, Option.some.injEq] at hr
              exact hr.symm
            subst this
            exact ⟨rfl, k.deps.map w.file, hk, by simp [hok], fun h => by cases h⟩
          · have hr' : w.info t = some r := by
              rw [e3] at hr
              simp only [record, htt, if_false, prepare_info] at hr
              exact hr
            obtain ⟨g1, cs, g2, g3, g4⟩ := ht t r hr'
            exact ⟨g1, cs, g2, g3, fun g => by rw [hother t htt]; exact g4 g⟩
        · intro n
          rw [hsto]
          by_cases hn : n ∈ k.targets
          · exact Or.inl (hlf n hn)
          · rw [hother n hn]; exact hc n
        · rw [hok] at h; cases h

end
end Verif.Conf
