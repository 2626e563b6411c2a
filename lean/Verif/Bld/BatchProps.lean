import Verif.Bld.Batch
import Mathlib.Data.List.Induction
import Mathlib.Data.List.TakeWhile

/-!
# C77: batch builds — what a task leaves
-/

set_option linter.unusedSectionVars false
set_option linter.unusedSimpArgs false
set_option linter.unusedVariables false

namespace Verif.Batch

variable {K V : Type} [DecidableEq K] [DecidableEq V] {C A S : Type} [DecidableEq S]

/-! ## Specification -/

/-- Different contents have different signatures, and so have different actions. -/
structure NoClash (X : Tools V C A S) : Prop where
  h : ∀ x y, X.h x = X.h y → x = y
  hA : ∀ a ts ss a' ts' ss', X.hA a ts ss = X.hA a' ts' ss' → a = a' ∧ ts = ts' ∧ ss = ss'

/-- A target that is there, with the record of an action `a` and of contents `ds`, is what `a` makes of `ds`; and so are the entries of the cache. -/
structure Honest (X : Tools V C A S) (W : World V C S) : Prop where
  file : ∀ t c a ts ss ds, W.fs t = some c → W.db t = some ⟨ds.map X.h, X.hA a ts ss⟩ → c = X.make a t ds
  cache : ∀ t c a ts ss ds, W.cache (ds.map X.h, X.hA a ts ss, t) = some c → c = X.make a t ds

/-- The target is what its action makes of the present contents of its dependencies. -/
def Right (X : Tools V C A S) (E : Exec V A) (fs fs' : V → Option C) (t : V) : Prop := fs' t = some (X.make E.act t ((E.deps t).map fs))

/-- No target of the executor is a dependency of one, and no batch is without targets. -/
structure Sane (E : Exec V A) : Prop where
  deps : ∀ t ∈ E.allTargets, ∀ d ∈ E.deps t, d ∉ E.allTargets
  some : ∀ b ∈ E.batches, b.targets ≠ []

/-- The target is always built, missing, or its record is not that of the present dependencies and action. -/
def OutOfDate (X : Tools V C A S) (E : Exec V A) (W : World V C S) (t : V) : Prop :=
  E.always t = true ∨ W.fs t = none ∨ W.db t ≠ some ⟨(E.deps t).map fun d => X.h (W.fs d), X.hA E.act E.allTargets E.allSources⟩

/-- Every batch has one target. -/
def Single (E : Exec V A) : Prop := ∀ b ∈ E.batches, ∃ t, b.targets = [t]

/-- In every batch, the first target is out of date if any is. -/
def Led (X : Tools V C A S) (E : Exec V A) (W : World V C S) : Prop :=
  ∀ b ∈ E.batches, ∀ t ts, b.targets = t :: ts → ∀ u ∈ ts, OutOfDate X E W u → OutOfDate X E W t

/-- Enough for a batch build to be correct. -/
inductive Good (X : Tools V C A S) (E : Exec V A) (W : World V C S) : Prop
  /-- the command names all sources -/
  | all (h : E.use = .all)
  /-- all targets are removed first, those that come first in a batch in any case -/
  | removed (h : E.mode = .targets) (hp : ∀ b ∈ E.batches, ∀ t ts, b.targets = t :: ts → E.precious t = false)
  /-- there is no cache, the first targets tell the state of the others, and if all targets are removed first then precious targets are not kept before others that are not -/
  | led (h : X.cached = false) (hl : Led X E W) (hp : E.mode = .targets → ∀ b ∈ E.batches, ∀ t ts, b.targets = t :: ts → E.precious t = true → ∀ u ∈ ts, E.precious u = true)

theorem stale_iff {X : Tools V C A S} {E : Exec V A} {W : World V C S} {t : V} {there : Bool} :
    stale X E W there t = true ↔ E.always t = true ∨ there = false ∨ W.db t ≠ some (recOf X E W.fs t) := by
  unfold stale
  cases E.always t <;> cases there <;> simp

theorem stale_out {X : Tools V C A S} {E : Exec V A} {W : World V C S} {t : V} : stale X E W (W.fs t).isSome t = true ↔ OutOfDate X E W t := by
  rw [stale_iff]; unfold OutOfDate recOf Exec.actSig
  cases W.fs t <;> simp

theorem mem_targets {E : Exec V A} {v : V} : v ∈ E.allTargets ↔ ∃ b ∈ E.batches, v ∈ b.targets := by simp [Exec.allTargets]

theorem mem_changes {X : Tools V C A S} {E : Exec V A} {W : World V C S} {there : V → Bool} {b : Batch V} (hs : Sane E) :
    b ∈ changes X E W there ↔ b ∈ E.batches ∧ ∃ t ts, b.targets = t :: ts ∧ stale X E W (there t) t = true := by
  unfold changes
  rw [List.mem_filter]
  refine and_congr_right fun hb => ?_
  have := hs.some b hb
  cases e : b.targets with
  | nil => exact absurd e this
  | cons t ts => simp

theorem single_led {X : Tools V C A S} {E : Exec V A} {W : World V C S} (h : Single E) : Led X E W := by
  intro b hb t ts e u hu
  obtain ⟨t', e'⟩ := h b hb
  rw [e'] at e; cases e; simp at hu

theorem deps_remove {X : Tools V C A S} {E : Exec V A} (hs : Sane E) {fs fs' : V → Option C} (h : ∀ v, v ∉ E.allTargets → fs' v = fs v) {t : V} (ht : t ∈ E.allTargets) :
    (E.deps t).map fs' = (E.deps t).map fs :=
  List.map_congr_left fun d hd => h d (hs.deps t ht d hd)

theorem recOf_congr {X : Tools V C A S} {E : Exec V A} (hs : Sane E) {fs fs' : V → Option C} (h : ∀ v, v ∉ E.allTargets → fs' v = fs v) {t : V} (ht : t ∈ E.allTargets) :
    recOf X E fs' t = recOf X E fs t := by
  unfold recOf
  have : ((E.deps t).map fun d => X.h (fs' d)) = (E.deps t).map fun d => X.h (fs d) :=
    List.map_congr_left fun d hd => by rw [h d (hs.deps t ht d hd)]
  rw [this]

theorem map_map' {X : Tools V C A S} {l : List V} {fs : V → Option C} : (l.map fun d => X.h (fs d)) = (l.map fs).map X.h := by simp

theorem map_inj {X : Tools V C A S} (hN : NoClash X) : ∀ {l l' : List (Option C)}, l.map X.h = l'.map X.h → l = l' := by
  intro l
  induction l with
  | nil => intro l' h; cases l' with
    | nil => rfl
    | cons a as => simp at h
  | cons a as ih => intro l' h; cases l' with
    | nil => simp at h
    | cons b bs =>
      simp only [List.map_cons, List.cons.injEq] at h
      rw [hN.h _ _ h.1, ih h.2]

/-- A target that is there and not out of date is right. -/
theorem right_of_current {X : Tools V C A S} {E : Exec V A} {W : World V C S} (hH : Honest X W) {t : V} (h : ¬ OutOfDate X E W t) : Right X E W.fs W.fs t := by
  unfold OutOfDate at h
  simp only [not_or, ne_eq, not_not] at h
  obtain ⟨-, h2, h3⟩ := h
  obtain ⟨c, hc⟩ := Option.ne_none_iff_exists'.1 h2
  unfold Right
  rw [hc, hH.file t c E.act E.allTargets E.allSources ((E.deps t).map W.fs) hc (by rw [h3, map_map'])]

theorem cached_right {X : Tools V C A S} {E : Exec V A} {W : World V C S} (hH : Honest X W) {t : V} {c : C} (h : cachedFor X E W t = some c) :
    c = X.make E.act t ((E.deps t).map W.fs) := by
  unfold cachedFor at h
  split at h
  · unfold key at h
    rw [map_map'] at h
    exact hH.cache t c E.act E.allTargets E.allSources _ h
  · cases h

/-! ## What a task does -/

theorem remove_or (E : Exec V A) (ts : List V) (fs : V → Option C) (v : V) : remove E ts fs v = fs v ∨ remove E ts fs v = none := by
  unfold remove
  split
  · exact Or.inr rfl
  · exact Or.inl rfl

def early (X : Tools V C A S) (E : Exec V A) (W : World V C S) : List (Batch V) := changes X E W fun v => (W.fs v).isSome

def cleared (X : Tools V C A S) (E : Exec V A) (W : World V C S) : V → Option C :=
  remove E (match E.mode with
    | .changed => (early X E W).flatMap (·.targets)
    | .targets => E.allTargets) W.fs

def unlinked (X : Tools V C A S) (E : Exec V A) (W : World V C S) : V → Option C := fun v => if v ∈ retrieved X E W then none else cleared X E W v

def picked (X : Tools V C A S) (E : Exec V A) (W : World V C S) : List (Batch V) :=
  match E.use with
  | .changed => (match E.mode with
    | .changed => early X E W
    | .targets => changes X E W fun v => (cleared X E W v).isSome)
  | .all => E.batches

theorem runTask_cases (X : Tools V C A S) (E : Exec V A) (W : World V C S) :
    (needed X E W = false ∧ runTask X E W = ({ W with db := store X E W.fs W.db }, .current)) ∨
    (needed X E W = true ∧ retrieved X E W = E.allTargets ∧
      runTask X E W = ({ W with fs := fun v => if v ∈ E.allTargets then cachedFor X E W v else cleared X E W v, db := store X E W.fs W.db }, .fromCache)) ∨
    (needed X E W = true ∧ retrieved X E W ≠ E.allTargets ∧ X.ok E.act ((picked X E W).flatMap (·.sources)) W.fs = false ∧
      runTask X E W = ({ W with fs := unlinked X E W }, .failed ((picked X E W).flatMap (·.sources)))) ∨
    (needed X E W = true ∧ retrieved X E W ≠ E.allTargets ∧ X.ok E.act ((picked X E W).flatMap (·.sources)) W.fs = true ∧
      runTask X E W = ({ fs := writeAll X E (picked X E W) W.fs (unlinked X E W), db := store X E W.fs W.db,
                         cache := push X E W.fs (writeAll X E (picked X E W) W.fs (unlinked X E W)) W.cache }, .ran ((picked X E W).flatMap (·.sources)))) := by
  by_cases h1 : needed X E W = false
  · exact Or.inl ⟨h1, by unfold runTask; rw [if_pos h1]⟩
  · have h1' : needed X E W = true := by simpa using h1
    by_cases h2 : retrieved X E W = E.allTargets
    · refine Or.inr (Or.inl ⟨h1', h2, ?_⟩)
      unfold runTask cleared early; rw [if_neg h1]; simp only []; rw [if_pos h2]; simp only [h2]; rfl
    · by_cases h3 : X.ok E.act ((picked X E W).flatMap (·.sources)) W.fs = false
      · refine Or.inr (Or.inr (Or.inl ⟨h1', h2, h3, ?_⟩))
        unfold runTask; rw [if_neg h1]; simp only []; rw [if_neg h2]
        exact if_pos h3
      · refine Or.inr (Or.inr (Or.inr ⟨h1', h2, by simpa using h3, ?_⟩))
        unfold runTask; rw [if_neg h1]; simp only []; rw [if_neg h2]
        exact if_neg h3

theorem needed_iff {X : Tools V C A S} {E : Exec V A} {W : World V C S} : needed X E W = true ↔ ∃ t ∈ E.allTargets, OutOfDate X E W t := by
  unfold needed; simp only [List.any_eq_true, stale_out]

theorem cleared_other {X : Tools V C A S} {E : Exec V A} {W : World V C S} {v : V} (h : v ∉ E.allTargets) : cleared X E W v = W.fs v := by
  unfold cleared remove
  rw [if_neg]
  rintro ⟨h1, -⟩
  cases hm : E.mode <;> simp only [hm] at h1
  · exact h h1
  · unfold early changes at h1
    simp only [List.mem_flatMap, List.mem_filter] at h1
    obtain ⟨b, ⟨hb, -⟩, hv⟩ := h1
    exact h (mem_targets.2 ⟨b, hb, hv⟩)

theorem retrieved_sub {X : Tools V C A S} {E : Exec V A} {W : World V C S} {v : V} (h : v ∈ retrieved X E W) : v ∈ E.allTargets := List.takeWhile_subset _ h

theorem unlinked_other {X : Tools V C A S} {E : Exec V A} {W : World V C S} {v : V} (h : v ∉ E.allTargets) : unlinked X E W v = W.fs v := by
  unfold unlinked; rw [if_neg fun h' => h (retrieved_sub h'), cleared_other h]

theorem picked_sub {X : Tools V C A S} {E : Exec V A} {W : World V C S} {b : Batch V} (h : b ∈ picked X E W) : b ∈ E.batches := by
  unfold picked early changes at h
  cases hu : E.use <;> cases hm : E.mode <;> simp only [hu, hm, List.mem_filter] at h
  · exact h.1
  · exact h.1
  · exact h
  · exact h

theorem write_other {X : Tools V C A S} {E : Exec V A} {W : World V C S} {v : V} (h : v ∉ E.allTargets) :
    writeAll X E (picked X E W) W.fs (unlinked X E W) v = W.fs v := by
  unfold writeAll
  rw [if_neg, unlinked_other h]
  simp only [List.mem_flatMap, not_exists, not_and]
  exact fun b hb hv => h (mem_targets.2 ⟨b, picked_sub hb, hv⟩)

theorem retrieved_nil {X : Tools V C A S} {E : Exec V A} {W : World V C S} (h : X.cached = false) : retrieved X E W = [] := by
  unfold retrieved cachedFor
  cases E.allTargets <;> simp [h]

/-- A target that the action does not write is as before, and not out of date. -/
theorem kept {X : Tools V C A S} {E : Exec V A} {W : World V C S} (hs : Sane E) (hg : Good X E W) {t : V} (ht : t ∈ E.allTargets)
    (hp : t ∉ (picked X E W).flatMap (·.targets)) : ¬ OutOfDate X E W t ∧ unlinked X E W t = W.fs t := by
  have hp' : ∀ b ∈ E.batches, t ∈ b.targets → b ∉ picked X E W := by
    intro b hb htb hb'
    exact hp (List.mem_flatMap.2 ⟨b, hb', htb⟩)
  obtain ⟨b, hb, htb⟩ := mem_targets.1 ht
  have hnp := hp' b hb htb
  obtain ⟨t0, ts, e⟩ : ∃ t0 ts, b.targets = t0 :: ts := by
    have := hs.some b hb
    cases e : b.targets with
    | nil => exact absurd e this
    | cons t0 ts => exact ⟨t0, ts, rfl⟩
  have ht0 : t0 ∈ E.allTargets := mem_targets.2 ⟨b, hb, by simp [e]⟩
  cases hg with
  | all h => simp only [picked, h] at hnp; exact absurd hb hnp
  | removed h hpr =>
    cases hu : E.use with
    | all => simp only [picked, hu] at hnp; exact absurd hb hnp
    | changed =>
      exfalso; apply hnp
      simp only [picked, hu, h]
      refine (mem_changes hs).2 ⟨hb, t0, ts, e, ?_⟩
      rw [stale_iff]
      refine Or.inr (Or.inl ?_)
      simp [cleared, remove, h, ht0, hpr b hb t0 ts e]
  | led h hl hpr =>
    have hr := retrieved_nil (X := X) (E := E) (W := W) h
    have hun : ∀ v, unlinked X E W v = cleared X E W v := by intro v; simp [unlinked, hr]
    rw [hun]
    cases hu : E.use with
    | all => simp only [picked, hu] at hnp; exact absurd hb hnp
    | changed =>
      cases hm : E.mode with
      | changed =>
        simp only [picked, hu, hm, early] at hnp hp'
        have h0 : ¬ OutOfDate X E W t0 := fun h0 => hnp ((mem_changes hs).2 ⟨hb, t0, ts, e, stale_out.2 h0⟩)
        have h1 : ¬ OutOfDate X E W t := by
          rw [e] at htb
          rcases List.mem_cons.1 htb with rfl | htb
          · exact h0
          · exact fun h1 => h0 (hl b hb t0 ts e t htb h1)
        refine ⟨h1, ?_⟩
        unfold cleared remove
        rw [if_neg]
        simp only [hm, early]
        rintro ⟨hc, -⟩
        obtain ⟨b', hb', htb'⟩ := List.mem_flatMap.1 hc
        exact hp' b' ((mem_changes hs).1 hb').1 htb' hb'
      | targets =>
        simp only [picked, hu, hm] at hnp
        have hns : ¬ (stale X E W (cleared X E W t0).isSome t0 = true) := fun h0 => hnp ((mem_changes hs).2 ⟨hb, t0, ts, e, h0⟩)
        rw [stale_iff] at hns
        simp only [not_or, Bool.not_eq_true, Bool.not_eq_false, ne_eq, not_not] at hns
        have hpre : E.precious t0 = true := by
          by_contra hpre
          have := hns.2.1
          simp [cleared, remove, hm, ht0, hpre] at this
        have hcl : ∀ v, E.precious v = true → cleared X E W v = W.fs v := fun v hv => by simp [cleared, remove, hv]
        have h0 : ¬ OutOfDate X E W t0 := by
          rw [← stale_out, stale_iff, ← hcl t0 hpre]
          simp only [not_or, Bool.not_eq_true, Bool.not_eq_false, ne_eq, not_not]; exact hns
        rw [e] at htb
        rcases List.mem_cons.1 htb with rfl | htb
        · exact ⟨h0, hcl _ hpre⟩
        · exact ⟨fun h1 => h0 (hl b hb t0 ts e t htb h1), hcl _ (hpr hm b hb t0 ts e hpre t htb)⟩

/-- After a task that does not fail, every target of the executor is what the action makes of its dependencies. -/
theorem correct_deps {X : Tools V C A S} {E : Exec V A} {W W' : World V C S} {d : Did V} (hN : NoClash X) (hH : Honest X W) (hs : Sane E) (hg : Good X E W)
    (hr : runTask X E W = (W', d)) (hd : ∀ g, d ≠ .failed g) :
    (∀ t ∈ E.allTargets, W'.fs t = some (X.make E.act t ((E.deps t).map W.fs))) ∧ (∀ v, v ∉ E.allTargets → W'.fs v = W.fs v) ∧ Honest X W' := by
  -- it is enough to know the files and the cache
  have key1 : ∀ (fs' : V → Option C) (cache' : Key V S → Option C), (∀ t ∈ E.allTargets, Right X E W.fs fs' t) → (∀ v, v ∉ E.allTargets → fs' v = W.fs v) →
      (∀ k c, cache' k = some c → W.cache k = some c ∨ (k.2.2 ∈ E.allTargets ∧ k = key X E W.fs k.2.2 ∧ fs' k.2.2 = some c)) →
      Honest X ⟨fs', store X E W.fs W.db, cache'⟩ := by
    intro fs' cache' h1 h2 h3
    constructor
    · intro t c a ts ss ds hf hdb
      dsimp only at hf hdb
      unfold store at hdb
      by_cases ht : t ∈ E.allTargets
      · rw [if_pos ht] at hdb
        have h4 := h1 t ht
        unfold Right at h4
        rw [hf] at h4; cases h4
        simp only [recOf, Exec.actSig, Option.some.injEq, Rec.mk.injEq, map_map'] at hdb
        rw [map_inj hN hdb.1, (hN.hA _ _ _ _ _ _ hdb.2).1]
      · rw [if_neg ht] at hdb
        rw [h2 t ht] at hf
        exact hH.file t c a ts ss ds hf hdb
    · intro t c a ts ss ds hc
      dsimp only at hc
      rcases h3 _ _ hc with h | ⟨h4, h5, h6⟩
      · exact hH.cache t c a ts ss ds h
      · dsimp only at h4 h5 h6
        have h7 := h1 t h4
        unfold Right at h7
        rw [h6] at h7; cases h7
        simp only [key, Prod.mk.injEq, and_true, Exec.actSig, map_map'] at h5
        rw [map_inj hN h5.1, (hN.hA _ _ _ _ _ _ h5.2).1]
  rcases runTask_cases X E W with ⟨h1, h2⟩ | ⟨h1, h2, h3⟩ | ⟨h1, h2, h3, h4⟩ | ⟨h1, h2, h3, h4⟩
  · rw [h2] at hr; cases hr
    have h5 : ∀ t ∈ E.allTargets, Right X E W.fs W.fs t := by
      intro t ht
      refine right_of_current hH fun ho => ?_
      have := needed_iff.2 ⟨t, ht, ho⟩
      rw [h1] at this; cases this
    exact ⟨h5, fun _ _ => rfl, key1 _ _ h5 (fun _ _ => rfl) fun _ _ h => Or.inl h⟩
  · rw [h3] at hr; cases hr
    have h5 : ∀ t ∈ E.allTargets, Right X E W.fs (fun v => if v ∈ E.allTargets then cachedFor X E W v else cleared X E W v) t := by
      intro t ht
      have h6 : (cachedFor X E W t).isSome = true := by
        have h7 : t ∈ retrieved X E W := by rw [h2]; exact ht
        unfold retrieved at h7
        exact List.mem_takeWhile_imp (p := fun t => (cachedFor X E W t).isSome) h7
      obtain ⟨c, hc⟩ := Option.isSome_iff_exists.1 h6
      simp only [Right, ht, if_true]
      rw [hc, cached_right hH hc]
    have h6 : ∀ v, v ∉ E.allTargets → (fun v => if v ∈ E.allTargets then cachedFor X E W v else cleared X E W v) v = W.fs v := by
      intro v hv; simp only [hv, if_false]; exact cleared_other hv
    exact ⟨h5, h6, key1 _ _ h5 h6 fun _ _ h => Or.inl h⟩
  · rw [h4] at hr; cases hr
    exact absurd rfl (hd _)
  · rw [h4] at hr; cases hr
    have h5 : ∀ t ∈ E.allTargets, Right X E W.fs (writeAll X E (picked X E W) W.fs (unlinked X E W)) t := by
      intro t ht
      unfold Right writeAll
      by_cases hp : t ∈ (picked X E W).flatMap (·.targets)
      · rw [if_pos hp]
      · rw [if_neg hp]
        obtain ⟨h6, h7⟩ := kept hs hg ht hp
        rw [h7]; exact right_of_current hH h6
    refine ⟨h5, fun v hv => write_other hv, key1 _ _ h5 (fun v hv => write_other hv) ?_⟩
    intro k c hc
    unfold push at hc
    cases hk : W.cache k with
    | some c' => rw [hk] at hc; simp only at hc; exact Or.inl hc
    | none =>
      rw [hk] at hc; simp only at hc
      split at hc
      · rename_i h8; exact Or.inr ⟨h8.2.1, h8.2.2.2, hc⟩
      · cases hc

/-- The dependencies of a target: the sources of its batch and what is shared.  (Different batches of one target have the same sources: otherwise the second call is an error, C60.) -/
theorem deps_of {E : Exec V A} {b : Batch V} {t : V} (hb : b ∈ E.batches) (ht : t ∈ b.targets) (hsame : ∀ b' ∈ E.batches, t ∈ b'.targets → b'.sources = b.sources) :
    E.deps t = b.sources ++ E.shared := by
  unfold Exec.deps Exec.sourcesOf
  cases h : E.batches.find? fun b => decide (t ∈ b.targets) with
  | none =>
    rw [List.find?_eq_none] at h
    exact absurd (h b hb) (by simpa using ht)
  | some b' =>
    have h1 := List.mem_of_find?_eq_some h
    have h2 := List.find?_some h
    simp only [decide_eq_true_eq] at h2
    simp only [hsame b' h1 h2]

/-- **C77 (correct).**  After a task that does not fail, every target of every batch is what the action makes of the present contents of the sources of its batch and of the implicit dependencies,
no other file has changed, and records and cache are honest. -/
theorem C77_correct {X : Tools V C A S} {E : Exec V A} {W W' : World V C S} {d : Did V} (hN : NoClash X) (hH : Honest X W) (hs : Sane E) (hg : Good X E W)
    (hsame : ∀ b ∈ E.batches, ∀ b' ∈ E.batches, ∀ t ∈ b.targets, t ∈ b'.targets → b'.sources = b.sources) (hr : runTask X E W = (W', d)) (hd : ∀ g, d ≠ .failed g) :
    (∀ b ∈ E.batches, ∀ t ∈ b.targets, W'.fs t = some (X.make E.act t ((b.sources ++ E.shared).map W.fs))) ∧
    (∀ v, (∀ b ∈ E.batches, v ∉ b.targets) → W'.fs v = W.fs v) ∧ Honest X W' := by
  obtain ⟨h1, h2, h3⟩ := correct_deps hN hH hs hg hr hd
  refine ⟨fun b hb t ht => ?_, fun v hv => h2 v ?_, h3⟩
  · rw [← deps_of hb ht fun b' hb' ht' => hsame b hb b' hb' t ht ht']
    exact h1 t (mem_targets.2 ⟨b, hb, ht⟩)
  · intro h
    obtain ⟨b, hb, hv'⟩ := mem_targets.1 h
    exact hv b hb hv'

/-- **C77 (no cache).**  When a target must not be cached, the task is not satisfied from the cache; the target is never retrieved; and nothing is pushed for it. -/
theorem C77_nocache {X : Tools V C A S} {E : Exec V A} {W W' : World V C S} {d : Did V} {b : Batch V} {t : V} (hb : b ∈ E.batches) (ht : t ∈ b.targets) (hn : E.nocache t = true)
    (hr : runTask X E W = (W', d)) : d ≠ .fromCache ∧ ∀ s a, W'.cache (s, a, t) = W.cache (s, a, t) := by
  rcases runTask_cases X E W with ⟨h1, h2⟩ | ⟨h1, h2, h3⟩ | ⟨h1, h2, h3, h4⟩ | ⟨h1, h2, h3, h4⟩
  · rw [h2] at hr; cases hr; exact ⟨nofun, fun _ _ => rfl⟩
  · exfalso
    have h7 : t ∈ retrieved X E W := by rw [h2]; exact mem_targets.2 ⟨b, hb, ht⟩
    unfold retrieved at h7
    have := List.mem_takeWhile_imp (p := fun t => (cachedFor X E W t).isSome) h7
    simp [cachedFor, hn] at this
  · rw [h4] at hr; cases hr; exact ⟨nofun, fun _ _ => rfl⟩
  · rw [h4] at hr; cases hr
    refine ⟨nofun, fun s a => ?_⟩
    simp only [push]
    cases W.cache (s, a, t) <;> simp [hn]

/-- **C77 (failure).**  A failed action leaves records, cache and all other files alone, targets are as before or gone, and what is recorded stays honest. -/
theorem C77_failure {X : Tools V C A S} {E : Exec V A} {W W' : World V C S} {g : List V} (hH : Honest X W) (hr : runTask X E W = (W', .failed g)) :
    W'.db = W.db ∧ W'.cache = W.cache ∧ (∀ v, v ∉ E.allTargets → W'.fs v = W.fs v) ∧ (∀ v, W'.fs v = W.fs v ∨ W'.fs v = none) ∧ Honest X W' := by
  have h0 : ∀ v, unlinked X E W v = W.fs v ∨ unlinked X E W v = none := by
    intro v; unfold unlinked
    split
    · exact Or.inr rfl
    · exact remove_or _ _ _ _
  rcases runTask_cases X E W with ⟨h1, h2⟩ | ⟨h1, h2, h3⟩ | ⟨h1, h2, h3, h4⟩ | ⟨h1, h2, h3, h4⟩
  · rw [h2] at hr; cases hr
  · rw [h3] at hr; cases hr
  · rw [h4] at hr; cases hr
    refine ⟨rfl, rfl, fun v hv => unlinked_other hv, h0, ⟨fun t c a ts ss ds hf hdb => ?_, hH.cache⟩⟩
    rcases h0 t with h | h
    · dsimp only at hf; rw [h] at hf; exact hH.file t c a ts ss ds hf hdb
    · dsimp only at hf; rw [h] at hf; cases hf
  · rw [h4] at hr; cases hr

/-- **C77 (nothing to do).**  The action is not executed, and nothing is retrieved, exactly when no target of any batch is out of date; no file changes then. -/
theorem C77_nothing_iff {X : Tools V C A S} {E : Exec V A} {W W' : World V C S} {d : Did V} (hr : runTask X E W = (W', d)) :
    (d = .current ↔ ∀ t ∈ E.allTargets, ¬ OutOfDate X E W t) ∧ (d = .current → W'.fs = W.fs ∧ W'.cache = W.cache) := by
  rcases runTask_cases X E W with ⟨h1, h2⟩ | ⟨h1, h2, h3⟩ | ⟨h1, h2, h3, h4⟩ | ⟨h1, h2, h3, h4⟩
  · rw [h2] at hr; cases hr
    refine ⟨⟨fun _ t ht ho => ?_, fun _ => rfl⟩, fun _ => ⟨rfl, rfl⟩⟩
    have := needed_iff.2 ⟨t, ht, ho⟩
    rw [h1] at this; cases this
  · rw [h3] at hr; cases hr
    obtain ⟨t, ht, ho⟩ := needed_iff.1 h1
    exact ⟨⟨nofun, fun h => absurd ho (h t ht)⟩, nofun⟩
  · rw [h4] at hr; cases hr
    obtain ⟨t, ht, ho⟩ := needed_iff.1 h1
    exact ⟨⟨nofun, fun h => absurd ho (h t ht)⟩, nofun⟩
  · rw [h4] at hr; cases hr
    obtain ⟨t, ht, ho⟩ := needed_iff.1 h1
    exact ⟨⟨nofun, fun h => absurd ho (h t ht)⟩, nofun⟩

/-- **C77 (only what changed).**  With `$CHANGED_TARGETS` and `$CHANGED_SOURCES`, one target per batch and no cache, the command is given the sources of exactly the batches whose target is
out of date, in the order of the builder calls, and the targets of the others are not touched. -/
theorem C77_only_changed {X : Tools V C A S} {E : Exec V A} {W W' : World V C S} {g : List V} (hs : Sane E) (h1 : Single E) (hc : X.cached = false) (hm : E.mode = .changed)
    (hu : E.use = .changed) (hr : runTask X E W = (W', .ran g)) :
    (∃ p : Batch V → Bool, (∀ b ∈ E.batches, p b = true ↔ ∀ t ∈ b.targets, OutOfDate X E W t) ∧ g = (E.batches.filter p).flatMap (·.sources)) ∧
    ∀ t ∈ E.allTargets, ¬ OutOfDate X E W t → W'.fs t = W.fs t ∧ W'.db t = W.db t := by
  have hpk : picked X E W = changes X E W fun v => (W.fs v).isSome := by simp [picked, hu, hm, early]
  rcases runTask_cases X E W with ⟨a1, a2⟩ | ⟨a1, a2, a3⟩ | ⟨a1, a2, a3, a4⟩ | ⟨a1, a2, a3, a4⟩
  · rw [a2] at hr; cases hr
  · rw [a3] at hr; cases hr
  · rw [a4] at hr; cases hr
  · rw [a4] at hr; cases hr
    have hall : ∀ b ∈ picked X E W, ∀ t ∈ b.targets, OutOfDate X E W t := by
      intro b hb t ht
      rw [hpk] at hb
      obtain ⟨hb1, t0, ts, e, hst⟩ := (mem_changes hs).1 hb
      obtain ⟨t', e'⟩ := h1 b hb1
      rw [e'] at e; cases e
      rw [e'] at ht; simp at ht; subst ht
      exact stale_out.1 hst
    refine ⟨⟨_, fun b hb => ?_, by rw [hpk]; rfl⟩, fun t ht hnt => ?_⟩
    · obtain ⟨t', e'⟩ := h1 b hb
      rw [e']
      simp only [List.mem_singleton, forall_eq]
      exact stale_out
    · have hp : t ∉ (picked X E W).flatMap (·.targets) := by
        intro h
        obtain ⟨b, hb, htb⟩ := List.mem_flatMap.1 h
        exact hnt (hall b hb t htb)
      have hg : Good X E W := .led hc (single_led h1) fun h => by rw [hm] at h; cases h
      obtain ⟨-, h7⟩ := kept hs hg ht hp
      refine ⟨by simp only [writeAll, if_neg hp]; exact h7, ?_⟩
      unfold OutOfDate at hnt
      simp only [not_or, ne_eq, not_not] at hnt
      simp only [store, if_pos ht]
      rw [hnt.2.2]; rfl

/-- **C77 (all at once).**  With the default `$TARGETS` and no precious target, a command that is executed is given all sources, whatever it asks for, and every target is written. -/
theorem C77_targets_mode {X : Tools V C A S} {E : Exec V A} {W W' : World V C S} {d : Did V} (hs : Sane E) (hm : E.mode = .targets) (hp : ∀ t ∈ E.allTargets, E.precious t = false)
    (hr : runTask X E W = (W', d)) : ∀ g, d = .ran g ∨ d = .failed g → g = E.allSources := by
  have hpk : picked X E W = E.batches := by
    cases hu : E.use with
    | all => simp [picked, hu]
    | changed =>
      simp only [picked, hu, hm]
      unfold changes
      rw [List.filter_eq_self]
      intro b hb
      cases e : b.targets with
      | nil => rfl
      | cons t ts =>
        have ht : t ∈ E.allTargets := mem_targets.2 ⟨b, hb, by simp [e]⟩
        rw [stale_iff]
        refine Or.inr (Or.inl ?_)
        simp [cleared, remove, hm, ht, hp t ht]
  intro g hg
  rcases runTask_cases X E W with ⟨a1, a2⟩ | ⟨a1, a2, a3⟩ | ⟨a1, a2, a3, a4⟩ | ⟨a1, a2, a3, a4⟩
  · rw [a2] at hr; cases hr; simp at hg
  · rw [a3] at hr; cases hr; simp at hg
  · rw [a4, hpk] at hr; cases hr; simp at hg; exact hg.symm
  · rw [a4, hpk] at hr; cases hr; simp at hg; exact hg.symm

/-- **C77 (second run).**  When a task has not failed, the same task does nothing the second time: unless a target is always built. -/
theorem C77_second_run {X : Tools V C A S} {E : Exec V A} {W W' : World V C S} {d : Did V} (hN : NoClash X) (hH : Honest X W) (hs : Sane E) (hg : Good X E W)
    (hal : ∀ t ∈ E.allTargets, E.always t = false) (hr : runTask X E W = (W', d)) (hd : ∀ g, d ≠ .failed g) :
    (runTask X E W').2 = .current ∧ (runTask X E W').1.fs = W'.fs := by
  obtain ⟨h1, h2, h3⟩ := correct_deps hN hH hs hg hr hd
  have hdb : W'.db = store X E W.fs W.db := by
    rcases runTask_cases X E W with ⟨a1, a2⟩ | ⟨a1, a2, a3⟩ | ⟨a1, a2, a3, a4⟩ | ⟨a1, a2, a3, a4⟩
    · rw [a2] at hr; cases hr; rfl
    · rw [a3] at hr; cases hr; rfl
    · rw [a4] at hr; cases hr; exact absurd rfl (hd _)
    · rw [a4] at hr; cases hr; rfl
  have h4 : ∀ t ∈ E.allTargets, ¬ OutOfDate X E W' t := by
    intro t ht
    rw [← stale_out, stale_iff]
    simp only [not_or, Bool.not_eq_true, Bool.not_eq_false, ne_eq, not_not]
    refine ⟨hal t ht, by rw [h1 t ht]; rfl, ?_⟩
    rw [hdb]; simp only [store, if_pos ht]
    rw [recOf_congr hs h2 ht]
  generalize hq : runTask X E W' = q
  obtain ⟨W2, d2⟩ := q
  obtain ⟨h5, h6⟩ := C77_nothing_iff hq
  exact ⟨h5.2 h4, (h6 (h5.2 h4)).1⟩

/-- **C77 (another batch).**  One more builder call with the key makes all targets out of date: the signature of the action is over all targets and sources. -/
theorem C77_another_batch {X : Tools V C A S} {E : Exec V A} {W : World V C S} (hN : NoClash X) (b : Batch V) (hb : b.targets ≠ [] ∨ b.sources ≠ [])
    (hdb : ∀ t ∈ E.allTargets, W.db t = some (recOf X E W.fs t)) :
    ∀ t ∈ E.allTargets, OutOfDate X { E with batches := E.batches ++ [b] } W t := by
  intro t ht
  refine Or.inr (Or.inr ?_)
  rw [hdb t ht]
  intro h
  simp only [recOf, Option.some.injEq, Rec.mk.injEq] at h
  obtain ⟨-, h1, h2⟩ := hN.hA _ _ _ _ _ _ h.2
  simp only [Exec.allTargets, Exec.allSources, List.flatMap_append, List.flatMap_cons, List.flatMap_nil, List.append_nil] at h1 h2
  rcases hb with hb | hb
  · exact hb (by simpa using h1)
  · exact hb (by simpa using h2)

/-! ## Which calls are built together -/

/-- The batches of the calls with this key. -/
def ofKey (cs : List (Call K V)) (k : Option K) : List (Batch V) := (cs.filter fun c => decide (c.1 = k)).map (·.2)

theorem executors_append (cs : List (Call K V)) (c : Call K V) : executors (cs ++ [c]) = addCall (executors cs) c := by simp [executors]

/-- **C77 (who is built together).**  The calls with one key share one executor, which has their batches in the order of the calls; a call without a key has an executor of its own. -/
theorem C77_executors (cs : List (Call K V)) :
    (∀ k, (executors cs).filter (fun x => decide (x.1 = some k)) = if ofKey cs (some k) = [] then [] else [(some k, ofKey cs (some k))]) ∧
    (executors cs).filter (fun x => decide (x.1 = none)) = (ofKey cs none).map fun b => (none, [b]) := by
  induction cs using List.reverseRecOn with
  | nil => simp [executors, ofKey]
  | append_singleton cs c ih =>
    obtain ⟨ih1, ih2⟩ := ih
    rw [executors_append]
    obtain ⟨ck, b⟩ := c
    have happ : ∀ k, ofKey (cs ++ [(ck, b)]) k = ofKey cs k ++ if ck = k then [b] else [] := by
      intro k; unfold ofKey; rw [List.filter_append]
      by_cases h : ck = k <;> simp [h]
    cases ck with
    | none =>
      refine ⟨fun k => ?_, ?_⟩
      · simp only [addCall, List.filter_append, ih1 k, happ]; simp
      · simp only [addCall, List.filter_append, ih2, happ]; simp
    | some k0 =>
      by_cases hex : ((executors cs).any fun x => decide (x.1 = some k0)) = true
      · have hadd : addCall (executors cs) (some k0, b) = (executors cs).map fun x => if x.1 = some k0 then (x.1, x.2 ++ [b]) else x := by simp only [addCall, if_pos hex]
        have hfm : ∀ (k : Option K), ((executors cs).map fun x => if x.1 = some k0 then (x.1, x.2 ++ [b]) else x).filter (fun x => decide (x.1 = k)) =
            ((executors cs).filter (fun x => decide (x.1 = k))).map fun x => if x.1 = some k0 then (x.1, x.2 ++ [b]) else x := by
          intro k; rw [List.filter_map]; congr 1
          apply List.filter_congr; intro x _; simp only [Function.comp]; split <;> rfl
        have hne : ofKey cs (some k0) ≠ [] := by
          intro he
          have := ih1 k0
          rw [if_pos he, List.filter_eq_nil_iff] at this
          simp only [List.any_eq_true] at hex
          obtain ⟨x, hx, hx'⟩ := hex
          exact this x hx hx'
        refine ⟨fun k => ?_, ?_⟩
        · rw [hadd, hfm, ih1 k, happ]
          by_cases hk : k0 = k
          · subst hk; simp [hne]
          · simp only [Option.some.injEq, hk, if_false, List.append_nil]
            split
            · rfl
            · simp [Ne.symm hk]
        · rw [hadd, hfm, ih2, happ]; simp
      · have hadd : addCall (executors cs) (some k0, b) = executors cs ++ [(some k0, [b])] := by simp only [addCall, if_neg hex]
        have he : ofKey cs (some k0) = [] := by
          by_contra hne
          have := ih1 k0
          rw [if_neg hne] at this
          apply hex
          rw [List.any_eq_true]
          have hm : (some k0, ofKey cs (some k0)) ∈ (executors cs).filter (fun x => decide (x.1 = some k0)) := by rw [this]; simp
          exact ⟨_, (List.mem_filter.1 hm).1, by simp⟩
        refine ⟨fun k => ?_, ?_⟩
        · rw [hadd, List.filter_append, ih1 k, happ]
          by_cases hk : k0 = k
          · subst hk; simp [he]
          · simp [hk]
        · rw [hadd, List.filter_append, ih2, happ]; simp

/-- **C77 (Microsoft).**  When targets with the suffix `.obj` are compiled together, the compiler, told only the directory, writes exactly the declared targets; and only sources and targets with
the same directories are compiled together. -/
theorem C77_msvc {t s t' s' : Path} {k : List Char × List Char} (h : msvcKey t s = some k) (h' : msvcKey t' s' = some k) :
    t.dir = t'.dir ∧ s.dir = s'.dir ∧ (t.ext = ".obj".toList → msvcOutput t'.dir s = t) ∧ (t.ext ≠ ".obj".toList → msvcOutput t'.dir s ≠ t) := by
  unfold msvcKey at h h'
  split at h <;> split at h'
  · rename_i e e'
    simp only [Option.some.injEq] at h h'
    rw [← h'] at h; simp only [Prod.mk.injEq] at h
    refine ⟨h.1, h.2, fun hx => ?_, fun hx hy => hx ?_⟩
    · cases t; simp_all [msvcOutput]
    · rw [← hy]; rfl
  all_goals simp_all

end Verif.Batch
