import Verif.Conf.Props

/-!
# C70: what a check reports, over histories of edits, builds and checks
-/

set_option linter.unusedSectionVars false

namespace Verif.Conf
section
variable {N C H A : Type} [DecidableEq N] [DecidableEq H] [DecidableEq A]

/-- The state of things between two runs: records are true, no signature is stored for what checks make. -/
structure Kept (c : Cfg N C H A) (w : World N C H A) : Prop where
  truthful : Truthful c w
  none : ∀ n, c.leaf n = false → w.stored n = none
  bare : ∀ n, c.leaf n = true → w.info n = Option.none

/-- A task touches its own targets only. -/
theorem step_other (c : Cfg N C H A) (k : Task N A) (w : World N C H A) {n : N} (h : n ∉ k.targets) :
    (step c k w).w.info n = w.info n ∧ (step c k w).w.file n = w.file n := by
  have hb : (build c k (k.deps.map (csig c w)) (prepare c w k (ready c w k))).w.info n = w.info n ∧
      (build c k (k.deps.map (csig c w)) (prepare c w k (ready c w k))).w.file n = w.file n := by
    unfold build
    split
    · refine ⟨?_, ?_⟩
      · rw [visit_other h]
        simp only [record, h, if_false, prepare_info]
      · simp only [visit, write, h, if_false]
        exact prepare_file h
    · refine ⟨?_, ?_⟩
      · simp only [record, h, if_false, prepare_info]
      · simp only [write, h, if_false]
        exact prepare_file h
  have hp : (prepare c w k (ready c w k)).info n = w.info n ∧ (prepare c w k (ready c w k)).file n = w.file n :=
    ⟨by rw [prepare_info], prepare_file h⟩
  unfold step
  split
  · exact ⟨rfl, rfl⟩
  · unfold execute
    split
    · exact hp
    · split
      · split
        · exact hp
        · exact ⟨by rw [visit_other h]; exact hp.1, hp.2⟩
      · split
        · exact hp
        · exact hb

theorem step_stored (c : Cfg N C H A) (k : Task N A) (w : World N C H A) : (step c k w).w.stored = w.stored := by
  unfold step
  split
  · rfl
  · unfold execute
    split
    · exact prepare_stored
    · split
      · split
        · exact prepare_stored
        · exact prepare_stored
      · split
        · exact prepare_stored
        · unfold build
          split <;> exact prepare_stored

theorem WF.deps {leaf : N → Bool} {before : List N} {k : Task N A} {ks : List (Task N A)}
    (h : WF leaf before (k :: ks)) : ∀ d ∈ k.deps, d ∉ k.targets := by
  obtain ⟨-, h2, h3, -⟩ := h
  intro d hd ht
  obtain ⟨h4, h5⟩ := h2 d ht
  rcases h3 d hd with h | h
  · rw [h4] at h; cases h
  · exact h5 h

theorem missing_iff {c : Cfg N C H A} {w : World N C H A} {k : Task N A} {f : N → Option C}
    (h : ∀ d ∈ k.deps, w.file d = f d) :
    missing c w k = true ↔ ∃ d ∈ k.deps, c.leaf d = true ∧ f d = none := by
  unfold missing
  simp only [List.any_eq_true, Bool.and_eq_true, Option.isNone_iff_eq_none]
  constructor
  · rintro ⟨d, hd, h1, h2⟩; exact ⟨d, hd, h1, by rw [← h d hd]; exact h2⟩
  · rintro ⟨d, hd, h1, h2⟩; exact ⟨d, hd, h1, by rw [h d hd]; exact h2⟩

/-- Verdict of a boolean. -/
def verdict (b : Bool) : Verdict := if b then .ok else .no

theorem run_live {c : Cfg N C H A} (hf : Fair c) (hl : Live c) (ks : List (Task N A)) :
    ∀ (before : List N) (w : World N C H A) (f : N → Option C), WF c.leaf before ks → Kept c w → Current c w →
      (∀ n, c.leaf n = true ∨ n ∈ before → w.file n = f n) →
      Kept c (run c ks w).w ∧ Current c (run c ks w).w ∧ (run c ks w).w.stored = w.stored ∧
      (∀ n, c.leaf n = true ∨ n ∈ before → (run c ks w).w.file n = w.file n) ∧
      (run c ks w).v = verdict (scratch c.leaf c.sem ks f).1 ∧
      ((scratch c.leaf c.sem ks f).1 = true →
        ∀ n, c.leaf n = true ∨ n ∈ before ++ ks.flatMap (·.targets) →
          (run c ks w).w.file n = (scratch c.leaf c.sem ks f).2 n) := by
  induction ks with
  | nil =>
    intro before w f _ hk hc he
    exact ⟨hk, hc, rfl, fun _ _ => rfl, rfl, fun _ n hn => he n (by simpa using hn)⟩
  | cons k ks ih =>
    intro before w f hw hk hc he
    have hd := hw.deps
    obtain ⟨w1, w2, w3, w4⟩ := hw
    have hdf : ∀ d ∈ k.deps, w.file d = f d := fun d hd' => he d (w3 d hd')
    have hmap : k.deps.map w.file = k.deps.map f := List.map_congr_left hdf
    obtain ⟨s1, s2, s3, s4, s5, s6⟩ := step_live hf hl hk.truthful hc hd
      (fun t ht => hk.none t (w2 t ht).1) w1
    have hkept : Kept c (step c k w).w := ⟨s1, fun n hn => by rw [s3]; exact hk.none n hn, fun n hn => by
      rw [(step_other c k w (fun ht => by rw [(w2 n ht).1] at hn; cases hn)).1]; exact hk.bare n hn⟩
    have hnt : ∀ n, c.leaf n = true ∨ n ∈ before → n ∉ k.targets := by
      intro n hn ht
      obtain ⟨h4, h5⟩ := w2 n ht
      rcases hn with h | h
      · rw [h4] at h; cases h
      · exact h5 h
    have hno : (step c k w).v = .no → (scratch c.leaf c.sem (k :: ks) f).1 = false →
        Kept c (run c (k :: ks) w).w ∧ Current c (run c (k :: ks) w).w ∧ (run c (k :: ks) w).w.stored = w.stored ∧
      (∀ n, c.leaf n = true ∨ n ∈ before → (run c (k :: ks) w).w.file n = w.file n) ∧
      (run c (k :: ks) w).v = verdict (scratch c.leaf c.sem (k :: ks) f).1 ∧
      ((scratch c.leaf c.sem (k :: ks) f).1 = true →
        ∀ n, c.leaf n = true ∨ n ∈ before ++ (k :: ks).flatMap (·.targets) →
          (run c (k :: ks) w).w.file n = (scratch c.leaf c.sem (k :: ks) f).2 n) := by
      intro hv hs
      have e : run c (k :: ks) w = ⟨(step c k w).w, (step c k w).ran, .no⟩ := by
        simp only [run, hv]
      rw [e, hs]
      exact ⟨hkept, s2, s3, fun n hn => s4 n (hnt n hn), rfl, nofun⟩
    by_cases hm : missing c w k = true
    · refine hno (s5 hm) ?_
      unfold scratch
      rw [if_pos ((missing_iff hdf).1 hm)]
    · have hm' : missing c w k = false := by simpa using hm
      obtain ⟨t1, t2⟩ := s6 hm'
      have hsc : ¬ ∃ d ∈ k.deps, c.leaf d = true ∧ f d = none := fun h => hm ((missing_iff hdf).2 h)
      by_cases hok : (c.sem k.act (k.deps.map w.file)).ok = true
      · obtain ⟨t3, t4⟩ := t2 hok
        have e : run c (k :: ks) w = ⟨(run c ks (step c k w).w).w,
            (step c k w).ran ++ (run c ks (step c k w).w).ran, (run c ks (step c k w).w).v⟩ := by
          simp only [run, t3]
        have es : scratch c.leaf c.sem (k :: ks) f = scratch c.leaf c.sem ks
            (fun n => if n ∈ k.targets then (c.sem k.act (k.deps.map f)).out n else f n) := by
          rw [scratch, if_neg hsc, if_pos (by rw [← hmap]; exact hok)]
        obtain ⟨i1, i2, i3, i4, i5, i6⟩ := ih (before ++ k.targets) (step c k w).w
          (fun n => if n ∈ k.targets then (c.sem k.act (k.deps.map f)).out n else f n) w4 hkept s2 (by
            intro n hn
            by_cases ht : n ∈ k.targets
            · rw [t4 n ht, if_pos ht, hmap]
            · rw [s4 n ht, if_neg ht]
              apply he
              simpa [ht] using hn)
        rw [e, es]
        refine ⟨i1, i2, i3.trans s3, fun n hn => ?_, i5, fun h n hn => i6 h n ?_⟩
        · rw [i4 n (by rcases hn with h | h <;> simp [h]), s4 n (hnt n hn)]
        · simpa [or_assoc] using hn
      · have hok' : (c.sem k.act (k.deps.map w.file)).ok = false := by simpa using hok
        refine hno (t1 hok') ?_
        rw [scratch, if_neg hsc, if_neg (by rw [← hmap]; exact hok)]

/-! ## Histories -/

/-- What happens between checks and in them: project files are edited; a build records the signatures of
project files; a check, or the same forced, is made. -/
inductive Ev (N C A : Type) where
  | edit (f : N → Option C)
  | mainBuild (L : List N)
  | check (force : Bool) (ks : List (Task N A))

/-- The mode of a check. -/
def modeOf (force : Bool) : Mode := if force then .force else .auto

/-- What an event does. -/
def Ev.apply (c : Cfg N C H A) (w : World N C H A) : Ev N C A → World N C H A
  | .edit f => { w with file := fun n => if c.leaf n then f n else w.file n }
  | .mainBuild L =>
    { w with stored := fun n => if n ∈ L ∧ c.leaf n = true then some (c.sig (w.file n)) else w.stored n }
  | .check b ks => (run { c with mode := modeOf b } ks w).w

/-- Nothing stored, nothing built. -/
def blank (f : N → Option C) (c : Cfg N C H A) : World N C H A :=
  ⟨fun n => if c.leaf n then f n else none, fun _ => none, fun _ => none⟩

/-- The history `evs` from `w` is regular: checks are well formed, and when one is made the signatures
stored for project files are those of the files as they are. -/
def Regular (c : Cfg N C H A) : World N C H A → List (Ev N C A) → Prop
  | _, [] => True
  | w, e :: es => (match e with
      | .check _ ks => WF c.leaf [] ks ∧ Current c w
      | _ => True) ∧ Regular c (e.apply c w) es

theorem live_mode {c : Cfg N C H A} (b : Bool) (h1 : c.dry = false) (h2 : c.noexec = false) :
    Live { c with mode := modeOf b } := ⟨h1, h2, by cases b <;> simp [modeOf]⟩

theorem kept_apply {c : Cfg N C H A} (hf : Fair c) (h1 : c.dry = false) (h2 : c.noexec = false)
    {w : World N C H A} (hk : Kept c w) (e : Ev N C A) (hr : Regular c w [e]) : Kept c (e.apply c w) := by
  cases e with
  | edit f =>
    refine ⟨?_, hk.none, hk.bare⟩
    intro t r hr
    obtain ⟨g1, cs, g2, g3, g4⟩ := hk.truthful t r hr
    refine ⟨g1, cs, g2, g3, fun g => ?_⟩
    have : c.leaf t = false := by
      cases hl : c.leaf t with
      | false => rfl
      | true =>
        have hr : w.info t = some r := hr
        rw [hk.bare t hl] at hr; cases hr
    simp only [Ev.apply, this]
    exact g4 g
  | mainBuild L =>
    refine ⟨hk.truthful, fun n hn => ?_, hk.bare⟩
    simp only [Ev.apply, hn]
    simpa using hk.none n hn
  | check b ks =>
    obtain ⟨⟨r1, r2⟩, -⟩ := hr
    have hf' : Fair { c with mode := modeOf b } := ⟨hf.inj, hf.makes⟩
    have := (run_live hf' (live_mode b h1 h2) ks [] w (fun n => w.file n) r1 ⟨hk.truthful, hk.none, hk.bare⟩ r2
      (fun _ _ => rfl)).1
    exact ⟨this.truthful, this.none, this.bare⟩

theorem kept_history {c : Cfg N C H A} (hf : Fair c) (h1 : c.dry = false) (h2 : c.noexec = false)
    (es : List (Ev N C A)) : ∀ {w : World N C H A}, Kept c w → Regular c w es →
      Kept c (es.foldl (Ev.apply c) w) := by
  induction es with
  | nil => intro w hk _; exact hk
  | cons e es ih =>
    intro w hk hr
    exact ih (kept_apply hf h1 h2 hk e ⟨hr.1, trivial⟩) hr.2

/-- **C70, verdicts.**  After any regular history of edits, builds and checks (forced or not) that starts
from nothing, a check reports what carrying it out from scratch on the project's present files would
report; and if that is success, everything it makes is there with the contents it would have then. -/
theorem C70_verdict_partial (c : Cfg N C H A) (hf : Fair c) (h1 : c.dry = false) (h2 : c.noexec = false)
    (f : N → Option C) (es : List (Ev N C A)) (hr : Regular c (blank f c) es) (b : Bool) (ks : List (Task N A))
    (hks : WF c.leaf [] ks) (hc : Current c (es.foldl (Ev.apply c) (blank f c))) :
    let w := es.foldl (Ev.apply c) (blank f c)
    let r := run { c with mode := modeOf b } ks w
    let s := scratch c.leaf c.sem ks (onlyLeaves c w)
    (r.v = .ok ∨ r.v = .no) ∧ (r.v = .ok ↔ s.1 = true) ∧
      (s.1 = true → ∀ k ∈ ks, ∀ t ∈ k.targets, r.w.file t = s.2 t) := by
  intro w r s
  have hk : Kept c w := kept_history hf h1 h2 es ⟨nofun, fun _ _ => rfl, fun _ _ => rfl⟩ hr
  have hf' : Fair { c with mode := modeOf b } := ⟨hf.inj, hf.makes⟩
  obtain ⟨-, -, -, -, g1, g2⟩ := run_live hf' (live_mode b h1 h2) ks [] w (onlyLeaves c w) hks
    ⟨hk.truthful, hk.none, hk.bare⟩ hc (by
      intro n hn
      simp only [List.not_mem_nil, or_false] at hn
      have : c.leaf n = true := hn
      simp [onlyLeaves, this])
  have g1 : r.v = verdict s.1 := g1
  refine ⟨?_, ?_, fun h k hk t ht => g2 h t (Or.inr ?_)⟩
  · rw [g1]; cases s.1 <;> simp [verdict]
  · rw [g1]; cases s.1 <;> simp [verdict]
  · simp only [List.nil_append, List.mem_flatMap]; exact ⟨k, hk, ht⟩

/-! ## Nothing is done twice -/

theorem run_other (c : Cfg N C H A) (ks : List (Task N A)) : ∀ (w : World N C H A) (n : N),
    (∀ k ∈ ks, n ∉ k.targets) → (run c ks w).w.info n = w.info n ∧ (run c ks w).w.file n = w.file n := by
  induction ks with
  | nil => intro w n _; exact ⟨rfl, rfl⟩
  | cons k ks ih =>
    intro w n h
    obtain ⟨a1, a2⟩ := step_other c k w (h k (by simp))
    obtain ⟨b1, b2⟩ := ih (step c k w).w n (fun k' hk' => h k' (by simp [hk']))
    unfold run
    split
    · exact ⟨b1.trans a1, b2.trans a2⟩
    · exact ⟨a1, a2⟩

theorem run_stored (c : Cfg N C H A) (ks : List (Task N A)) : ∀ (w : World N C H A),
    (run c ks w).w.stored = w.stored := by
  induction ks with
  | nil => intro w; rfl
  | cons k ks ih =>
    intro w
    unfold run
    split
    · exact (ih _).trans (step_stored c k w)
    · exact step_stored c k w

theorem WF.later {leaf : N → Bool} {before : List N} {ks : List (Task N A)} (h : WF leaf before ks) :
    ∀ k ∈ ks, ∀ n, leaf n = true ∨ n ∈ before → n ∉ k.targets := by
  induction ks generalizing before with
  | nil => simp
  | cons k ks ih =>
    intro k' hk' n hn ht
    obtain ⟨-, h2, -, h4⟩ := h
    rcases List.mem_cons.1 hk' with rfl | hk'
    · obtain ⟨g1, g2⟩ := h2 n ht
      rcases hn with h | h
      · rw [g1] at h; cases h
      · exact g2 h
    · exact ih h4 k' hk' n (by rcases hn with h | h <;> simp [h]) ht

/-- After a task was dealt with its targets have the record of it. -/
theorem step_recorded {c : Cfg N C H A} {w : World N C H A} {k : Task N A} (hl : Live c)
    (hd : ∀ d ∈ k.deps, d ∉ k.targets)
    (hs : ∀ t r, w.info t = some r → r.sconf = true) (hm : missing c w k = false) :
    ∀ t ∈ k.targets, ∃ r, (step c k w).w.info t = some r ∧ r.sigs = k.deps.map (csig c w) ∧ r.act = k.act := by
  intro t ht
  unfold step
  rw [hm]
  simp only [Bool.false_eq_true, if_false]
  unfold execute
  rw [if_neg (fun h => hl.mode h.1)]
  by_cases hb : c.mode ≠ .force ∧ (collect c (prepare c w k (ready c w k)) k (ready c w k)).changed = false
  · rw [if_pos hb]
    obtain ⟨hu, -⟩ := collect_unchanged hd hl.mode hs hb.2
    obtain ⟨r, g1, g2, g3, -⟩ := changed_false.1 (hu t ht)
    split
    · exact ⟨r, by rw [prepare_info]; exact g1, g2, g3⟩
    · simp only [visit, ht, true_and, prepare_info, g1]
      split
      · exact ⟨_, rfl, rfl, rfl⟩
      · exact ⟨r, rfl, g2, g3⟩
  · rw [if_neg hb, hl.dry]
    simp only [Bool.false_eq_true, if_false]
    unfold build
    split
    · exact ⟨_, visit_record ht rfl, rfl, rfl⟩
    · refine ⟨⟨true, k.deps.map (csig c w), k.act, true⟩, ?_, rfl, rfl⟩
      simp only [record, ht, if_true]

/-- A task whose targets all have a true record of it is not done again. -/
theorem step_settled {c : Cfg N C H A} {w : World N C H A} {k : Task N A} (hf : Fair c) (hm : c.mode = .auto)
    (ht : Truthful c w) (hc : Current c w) (hd : ∀ d ∈ k.deps, d ∉ k.targets) (hne : k.targets ≠ [])
    (hr : ∀ t ∈ k.targets, ∃ r, w.info t = some r ∧ r.sigs = k.deps.map (csig c w) ∧ r.act = k.act)
    (hmis : missing c w k = false) :
    (step c k w).ran = [] ∧ (step c k w).v = verdict (c.sem k.act (k.deps.map w.file)).ok ∧
      ((step c k w).v = .ok → (step c k w).w = w) := by
  have hk : k.deps.map (csig c w) = (k.deps.map w.file).map c.sig := by
    rw [List.map_map]; exact List.map_congr_left fun d _ => csig_current hc d
  have hrec : ∀ t ∈ k.targets, ∃ r, w.info t = some r ∧ r.sconf = true ∧ r.sigs = k.deps.map (csig c w) ∧ r.act = k.act ∧
      (c.sem k.act (k.deps.map w.file)).ok = !r.failed ∧
      (r.failed = false → w.file t = (c.sem k.act (k.deps.map w.file)).out t) := by
    intro t htt
    obtain ⟨r, h1, h2, h3⟩ := hr t htt
    obtain ⟨h4, cs, h5, h6, h7⟩ := ht t r h1
    have : cs = k.deps.map w.file := (List.map_injective_iff.2 hf.inj) (by rw [← hk, ← h2, h5])
    subst this
    rw [h3] at h6 h7
    exact ⟨r, h1, h4, h2, h3, h6, h7⟩
  have hch : ∀ t ∈ k.targets, changed c w k t = false := by
    intro t htt
    obtain ⟨r, h1, h2, h3⟩ := hr t htt
    exact changed_false.2 ⟨r, h1, h2, h3, by rw [hm]; nofun⟩
  obtain ⟨-, q2, q3, -⟩ := collect_fold (c := c) (w := prepare c w k (ready c w k)) (k := k)
    (s := ready c w k) k.targets (by
      intro t htt
      obtain ⟨r, h1, h2, -⟩ := hrec t htt
      exact ⟨r, by rw [prepare_info]; exact h1, h2⟩) ⟨false, false, true⟩
  have hcol : (collect c (prepare c w k (ready c w k)) k (ready c w k)).changed = false := by
    cases hx : (collect c (prepare c w k (ready c w k)) k (ready c w k)).changed with
    | false => rfl
    | true =>
      unfold collect at hx
      rcases (q3 (by rw [hm]; nofun)).1 hx with h | ⟨-, t, htt, h⟩
      · cases h
      · rw [changed_prepare hd, hch t htt] at h; cases h
  have e : step c k w = if (collect c (prepare c w k (ready c w k)) k (ready c w k)).cachedError then
      ⟨prepare c w k (ready c w k), [], .no⟩
      else ⟨visit c k (k.deps.map (csig c w)) (prepare c w k (ready c w k)), [], .ok⟩ := by
    unfold step
    rw [hmis]
    simp only [Bool.false_eq_true, if_false]
    unfold execute
    rw [if_neg (fun h => by rw [hm] at h; cases h.1), if_pos ⟨by rw [hm]; nofun, hcol⟩]
  by_cases hok : (c.sem k.act (k.deps.map w.file)).ok = true
  · have hnf : ∀ t ∈ k.targets, ∀ r, w.info t = some r → r.failed = false := by
      intro t htt r h
      obtain ⟨r', h1, -, -, -, h2, -⟩ := hrec t htt
      rw [h] at h1; cases h1
      rw [hok] at h2
      cases hfl : r.failed with
      | false => rfl
      | true => rw [hfl] at h2; cases h2
    have hce : (collect c (prepare c w k (ready c w k)) k (ready c w k)).cachedError ≠ true := by
      intro h
      unfold collect at h
      rcases q2.1 h with h | ⟨t, htt, r, h1, h2⟩
      · cases h
      · rw [prepare_info] at h1
        rw [hnf t htt r h1] at h2; cases h2
    have hst : ready c w k = .upToDate := by
      rw [ready_upToDate]
      intro t htt
      refine ⟨?_, hch t htt⟩
      obtain ⟨r, h1, -, -, -, -, h4⟩ := hrec t htt
      rw [h4 (hnf t htt r h1)]
      exact hf.makes _ _ _ hok
    have hp : prepare c w k (ready c w k) = w := by
      unfold prepare; rw [if_neg]; rw [hst]; simp
    rw [if_neg hce, hp, visit_id hr] at e
    rw [e, hok]
    exact ⟨rfl, rfl, fun _ => rfl⟩
  · have hce : (collect c (prepare c w k (ready c w k)) k (ready c w k)).cachedError = true := by
      unfold collect
      rw [q2]
      obtain ⟨t, L, hL⟩ := List.exists_cons_of_ne_nil hne
      obtain ⟨r, h1, -, -, -, h2, -⟩ := hrec t (by simp [hL])
      refine Or.inr ⟨t, by simp [hL], r, by rw [prepare_info]; exact h1, ?_⟩
      simp only [Bool.not_eq_true] at hok
      rw [hok] at h2
      cases hfl : r.failed with
      | true => rfl
      | false => rw [hfl] at h2; cases h2
    rw [if_pos hce] at e
    simp only [Bool.not_eq_true] at hok
    rw [e, hok]
    exact ⟨rfl, rfl, nofun⟩

/-- **C70, nothing twice.**  A check made again, nothing having changed, runs no action and reports the
same; if that is success it leaves everything as it is. -/
theorem again {c c' : Cfg N C H A} (hf : Fair c) (hl : Live c) (hc' : c' = { c with mode := .auto }) (ks : List (Task N A)) :
    ∀ (before : List N) (w : World N C H A), WF c.leaf before ks → Kept c w → Current c w →
      (run c' ks (run c ks w).w).ran = [] ∧ (run c' ks (run c ks w).w).v = (run c ks w).v ∧
      ((run c ks w).v = .ok → (run c' ks (run c ks w).w).w = (run c ks w).w) := by
  induction ks with
  | nil => intro before w _ _ _; exact ⟨rfl, rfl, fun _ => rfl⟩
  | cons k ks ih =>
    intro before w hw hk hc
    have hd := hw.deps
    have hw' := hw
    obtain ⟨w1, w2, w3, w4⟩ := hw
    have hs : ∀ t r, w.info t = some r → r.sconf = true := fun t r h => (hk.truthful t r h).1
    obtain ⟨s1, s2, s3, s4, s5, s6⟩ := step_live hf hl hk.truthful hc hd
      (fun t ht => hk.none t (w2 t ht).1) w1
    have hkept : Kept c (step c k w).w := ⟨s1, fun n hn => by rw [s3]; exact hk.none n hn, fun n hn => by
      rw [(step_other c k w (fun ht => by rw [(w2 n ht).1] at hn; cases hn)).1]; exact hk.bare n hn⟩
    have hf' : Fair c' := by rw [hc']; exact ⟨hf.inj, hf.makes⟩
    have hcs : ∀ w : World N C H A, csig c' w = csig c w := by intro w; rw [hc']; rfl
    -- the world after all, `W`, as far as `k` is concerned
    have key : ∀ W : World N C H A, Truthful c W → Current c W →
        (∀ n, c.leaf n = true ∨ n ∈ before ++ k.targets → W.file n = (step c k w).w.file n ∧ W.info n = (step c k w).w.info n) →
        W.stored = w.stored → missing c w k = false →
        (step c' k W).ran = [] ∧ (step c' k W).v = (step c k w).v ∧ ((step c k w).v = .ok → (step c' k W).w = W) := by
      intro W hT hC hW hst hm
      have hfd : ∀ d ∈ k.deps, W.file d = w.file d := by
        intro d hd'
        rw [(hW d (by rcases w3 d hd' with h | h <;> simp [h])).1]
        exact s4 d (hd d hd')
      have hsig : k.deps.map (csig c W) = k.deps.map (csig c w) := by
        apply List.map_congr_left
        intro d hd'
        unfold csig
        rw [hst, hfd d hd']
      have hmap : k.deps.map W.file = k.deps.map w.file := List.map_congr_left hfd
      have hmis : missing c' W k = false := by
        have : missing c' W k = missing c w k := by
          rw [hc']
          unfold missing
          apply Bool.eq_iff_iff.2
          simp only [List.any_eq_true, Bool.and_eq_true]
          constructor <;> rintro ⟨d, hd', h1, h2⟩
          · exact ⟨d, hd', h1, by rw [← hfd d hd']; exact h2⟩
          · exact ⟨d, hd', h1, by rw [hfd d hd']; exact h2⟩
        rw [this, hm]
      obtain ⟨p1, p2, p3⟩ := step_settled (c := c') (w := W) (k := k) hf' (by rw [hc'])
        (by rw [hc']; exact hT) (by rw [hc']; exact hC) hd w1 (by
          intro t ht
          obtain ⟨r, g1, g2, g3⟩ := step_recorded hl hd hs hm t ht
          refine ⟨r, ?_, ?_, g3⟩
          · rw [(hW t (by simp [ht])).2]; exact g1
          · rw [hcs, hsig]; exact g2) hmis
      have hv : (step c' k W).v = (step c k w).v := by
        rw [p2, hmap]
        obtain ⟨t1, t2⟩ := s6 hm
        have : c'.sem = c.sem := by rw [hc']
        rw [this]
        cases hok : (c.sem k.act (k.deps.map w.file)).ok with
        | true => rw [(t2 hok).1]; rfl
        | false => rw [t1 hok]; rfl
      exact ⟨p1, hv, fun h => p3 (hv.trans h)⟩
    have hlater := hw'.2.2.2.later
    cases hm : missing c w k with
    | true =>
      have hv := s5 hm
      have e0 : step c k w = ⟨w, [], .no⟩ := by unfold step; rw [hm]; rfl
      have e1 : run c (k :: ks) w = ⟨w, [], .no⟩ := by simp only [run, e0]
      have e2 : step c' k w = ⟨w, [], .no⟩ := by
        have : missing c' w k = true := by rw [hc']; exact hm
        unfold step; rw [this]; rfl
      have e3 : run c' (k :: ks) w = ⟨w, [], .no⟩ := by simp only [run, e2]
      rw [e1, e3]
      exact ⟨rfl, rfl, fun h => by cases h⟩
    | false =>
      by_cases hv : (step c k w).v = .ok
      · have e : run c (k :: ks) w = ⟨(run c ks (step c k w).w).w,
            (step c k w).ran ++ (run c ks (step c k w).w).ran, (run c ks (step c k w).w).v⟩ := by
          simp only [run, hv]
        obtain ⟨i1, i2, i3⟩ := ih (before ++ k.targets) (step c k w).w w4 hkept s2
        have hrl := run_live hf hl ks (before ++ k.targets) (step c k w).w (step c k w).w.file w4 hkept s2 (fun _ _ => rfl)
        obtain ⟨k1, k2, k3⟩ := key (run c ks (step c k w).w).w hrl.1.truthful hrl.2.1 (by
            intro n hn
            obtain ⟨q1, q2⟩ := run_other c ks (step c k w).w n (fun k' hk' => hlater k' hk' n hn)
            exact ⟨q2, q1⟩) (by rw [run_stored, s3]) hm
        have e' : run c' (k :: ks) (run c ks (step c k w).w).w =
            ⟨(run c' ks (run c ks (step c k w).w).w).w, (run c' ks (run c ks (step c k w).w).w).ran,
             (run c' ks (run c ks (step c k w).w).w).v⟩ := by
          have hv' : (step c' k (run c ks (step c k w).w).w).v = .ok := k2.trans hv
          simp only [run, hv', k3 hv, k1, List.nil_append]
        rw [e]
        simp only
        rw [e']
        exact ⟨i1, i2, i3⟩
      · have hno : (step c k w).v = .no := by
          obtain ⟨t1, t2⟩ := s6 hm
          cases hok : (c.sem k.act (k.deps.map w.file)).ok with
          | true => exact absurd (t2 hok).1 hv
          | false => exact t1 hok
        have e : run c (k :: ks) w = ⟨(step c k w).w, (step c k w).ran, .no⟩ := by simp only [run, hno]
        obtain ⟨k1, k2, -⟩ := key (step c k w).w s1 s2 (fun n _ => ⟨rfl, rfl⟩) s3 hm
        have e' : run c' (k :: ks) (step c k w).w = ⟨(step c' k (step c k w).w).w, [], .no⟩ := by
          have hv' : (step c' k (step c k w).w).v = .no := k2.trans hno
          simp only [run, hv', k1]
        rw [e]
        simp only
        rw [e']
        exact ⟨rfl, rfl, nofun⟩

/-- **C70, nothing twice.**  After any regular history, a check (forced or not) followed at once by the
same check runs no action the second time, and reports the same, success or failure. -/
theorem C70_not_again (c : Cfg N C H A) (hf : Fair c) (h1 : c.dry = false) (h2 : c.noexec = false)
    (f : N → Option C) (es : List (Ev N C A)) (hr : Regular c (blank f c) es) (b : Bool) (ks : List (Task N A))
    (hks : WF c.leaf [] ks) (hc : Current c (es.foldl (Ev.apply c) (blank f c))) :
    let w := es.foldl (Ev.apply c) (blank f c)
    let r := run { c with mode := modeOf b } ks w
    let r' := run { c with mode := .auto } ks r.w
    r'.ran = [] ∧ r'.v = r.v ∧ (r.v = .ok → r'.w = r.w) := by
  intro w r r'
  have hk : Kept c w := kept_history hf h1 h2 es ⟨nofun, fun _ _ => rfl, fun _ _ => rfl⟩ hr
  exact again (c := { c with mode := modeOf b }) (c' := { c with mode := .auto }) ⟨hf.inj, hf.makes⟩ (live_mode b h1 h2) rfl ks [] w hks
    ⟨hk.truthful, hk.none, hk.bare⟩ hc

end
end Verif.Conf
