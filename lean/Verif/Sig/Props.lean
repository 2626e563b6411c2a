import Verif.Sig.Model
import Mathlib.Data.List.Nodup
import Mathlib.Logic.Basic

/-!
# C16, C17, C18, C20, C21: the decision subsystem
-/

namespace Verif.Sig

variable {V B K : Type} [DecidableEq V] [DecidableEq K]

/-! ## Specification vocabulary -/

/-- Every content signature the process already holds in memory is that of the file on disk. -/
def InfosOK (W : World V B K) (I : Infos V K) : Prop := ∀ c k, (I c).csig = some k → k = W.diskCsig c

/-- Whatever `--max-drift` lets SCons reuse is the signature of the file on disk (see C20 for when this holds). -/
def DriftOK (W : World V B K) : Prop := ∀ c k, W.driftCsig c = some k → k = W.diskCsig c

/-- The list of nodes whose infos a build with `T` records, in the order of the recorded infos. -/
def Target.recorded (T : Target V K) : List V :=
  dedup [] (T.sources.filter (fun c => decide (c ∉ T.ignore))) ++ T.depends ++ T.implicit.filter (fun c => decide (c ∉ T.ignore))

/-- What a decider says about one dependency, from the point of view of the user: `r` is what the last build recorded for it. -/
def Unchanged (W : World V B K) (d : Decider) (target c : V) (r : Option (NInfo K)) : Prop :=
  match d with
  | .content => ∃ n, r = some n ∧ n.csig = some (W.diskCsig c)
  | .timestampMatch => ∃ n, r = some n ∧ n.timestamp = some (W.timestamp c)
  | .timestampNewer => W.timestamp c ≤ W.timestamp target
  | .contentTimestamp => ∃ n, r = some n ∧ (n.timestamp = some (W.timestamp c) ∨ n.csig = some (W.diskCsig c))

/-- A recorded info of `c` with the time stamp the file still has carries the signature of the present content (true as long as every change
of content changes the time stamp). -/
def StampOK (W : World V B K) (c : V) (r : Option (NInfo K)) : Prop :=
  ∀ n k, r = some n → n.timestamp = some (W.timestamp c) → n.csig = some k → k = W.diskCsig c

/-! ## Basic facts -/

theorem getCsig_spec {W : World V B K} {I : Infos V K} (hI : InfosOK W I) (hD : DriftOK W) (v : V) :
    (W.getCsig I v).1 = W.diskCsig v ∧ InfosOK W (W.getCsig I v).2 := by
  unfold World.getCsig
  split
  · rename_i k hk; exact ⟨hI v k hk, hI⟩
  · rename_i hk
    have h1 : (W.driftCsig v).getD (W.diskCsig v) = W.diskCsig v := by
      cases h : W.driftCsig v with
      | none => rfl
      | some k => simpa using hD v k h
    refine ⟨h1, ?_⟩
    intro c k hc
    simp only [setCsig] at hc
    split at hc
    · rename_i e; subst e; simp only [Option.some.injEq] at hc; rw [← hc]; exact h1
    · exact hI c k hc

theorem setCsig_ok {W : World V B K} {I : Infos V K} (hI : InfosOK W I) {v : V} {k : K} (hk : k = W.diskCsig v) :
    InfosOK W (setCsig I v k) := by
  intro c k' hc
  simp only [setCsig] at hc
  split at hc
  · rename_i e; subst e; simp only [Option.some.injEq] at hc; rw [← hc]; exact hk
  · exact hI c k' hc

theorem changedContent_spec {W : World V B K} {I : Infos V K} (hI : InfosOK W I) (hD : DriftOK W) (v : V) (r : Option (NInfo K)) :
    ((W.changedContent I v r).1 = false ↔ ∃ n, r = some n ∧ n.csig = some (W.diskCsig v)) ∧
      InfosOK W (W.changedContent I v r).2 := by
  obtain ⟨h1, h2⟩ := getCsig_spec hI hD v
  unfold World.changedContent
  cases r with
  | none => simp [h2]
  | some n =>
    obtain ⟨c, t, s⟩ := n
    cases c with
    | none => simp [h2]
    | some k => simp only [h1, h2, and_true]; constructor <;> simp <;> exact fun h => h.symm

theorem changedTimestampMatch_spec {W : World V B K} (v : V) (r : Option (NInfo K)) :
    W.changedTimestampMatch v r = false ↔ ∃ n, r = some n ∧ n.timestamp = some (W.timestamp v) := by
  unfold World.changedTimestampMatch
  cases r with
  | none => simp
  | some n =>
    obtain ⟨c, t, s⟩ := n
    cases t with
    | none => simp
    | some k => constructor <;> simp <;> exact fun h => h.symm

/-- The record a decider consults for dependency `c`: the one at the same position, except for `content-timestamp`, which looks it up by name. -/
def consulted (d : Decider) (bi : BInfo V K) (c : V) (r : Option (NInfo K)) : Option (NInfo K) :=
  match d with
  | .contentTimestamp => dictGet (dependencyMap bi) c
  | _ => r

/-- **C18**, one dependency: each decider answers as documented. -/
theorem ask_spec {W : World V B K} {d : Decider} {I : Infos V K} (hI : InfosOK W I) (hD : DriftOK W) (c target : V)
    (r : Option (NInfo K)) (bi : BInfo V K) (hS : d = .contentTimestamp → StampOK W c (dictGet (dependencyMap bi) c)) :
    ((W.ask d I c target r bi).1 = false ↔ Unchanged W d target c (consulted d bi c r)) ∧ InfosOK W (W.ask d I c target r bi).2 := by
  cases d with
  | content => exact changedContent_spec hI hD c r
  | timestampMatch => exact ⟨changedTimestampMatch_spec c r, hI⟩
  | timestampNewer =>
    refine ⟨?_, hI⟩
    simp [World.ask, World.changedTimestampNewer, Unchanged]
  | contentTimestamp =>
    have hS := hS rfl
    simp only [World.ask, World.changedTimestampThenContent, Unchanged, consulted]
    split
    · rename_i he
      refine ⟨?_, (getCsig_spec hI hD c).2⟩
      simp [dictGet, he]
    · split
      · rename_i m _ hm
        obtain ⟨g1, g2⟩ := changedContent_spec hI hD c (dictGet (dependencyMap bi) c)
        refine ⟨?_, g2⟩
        rw [g1]
        have hne := (changedTimestampMatch_spec (W := W) c (dictGet (dependencyMap bi) c)).not
        simp only [hm, Bool.true_eq_false, not_false_eq_true, true_iff] at hne
        constructor
        · rintro ⟨n, e1, e2⟩; exact ⟨n, e1, Or.inr e2⟩
        · rintro ⟨n, e1, e2 | e2⟩
          · exact absurd ⟨n, e1, e2⟩ hne
          · exact ⟨n, e1, e2⟩
      · rename_i m _ hm
        have hm' := (changedTimestampMatch_spec (W := W) c (dictGet (dependencyMap bi) c)).1 (by simpa using hm)
        obtain ⟨n, e1, e2⟩ := hm'
        have : InfosOK W I ∧ ∀ k, n.csig = some k → InfosOK W (setCsig I c k) :=
          ⟨hI, fun k hk => setCsig_ok hI (hS n k e1 e2 hk)⟩
        split
        · rename_i k t s he
          refine ⟨?_, ?_⟩
          · exact ⟨fun _ => ⟨n, e1, Or.inl e2⟩, fun _ => rfl⟩
          · refine this.2 k ?_
            rw [e1] at he; simp only [Option.some.injEq] at he; rw [he]
        · exact ⟨⟨fun _ => ⟨n, e1, Or.inl e2⟩, fun _ => rfl⟩, hI⟩

theorem loop_spec {W : World V B K} {d : Decider} (hD : DriftOK W) (target : V) (bi : BInfo V K)
    (cs : List V) (hS : d = .contentTimestamp → ∀ c ∈ cs, StampOK W c (dictGet (dependencyMap bi) c)) :
    ∀ (rs : List (Option (NInfo K))) (I : Infos V K), InfosOK W I →
      ((W.changedLoop d target bi I cs rs).1 = false ↔ ∀ p ∈ cs.zip rs, Unchanged W d target p.1 (consulted d bi p.1 p.2)) ∧
        InfosOK W (W.changedLoop d target bi I cs rs).2 := by
  induction cs with
  | nil => intro rs I hI; simp [World.changedLoop, hI]
  | cons c cs ih =>
    intro rs I hI
    cases rs with
    | nil => simp [World.changedLoop, hI]
    | cons r rs =>
      obtain ⟨h1, h2⟩ := ask_spec hI hD c target r bi (fun e => hS e c (by simp))
      obtain ⟨h3, h4⟩ := ih (fun e x hx => hS e x (by simp [hx])) rs _ h2
      simp only [World.changedLoop]
      refine ⟨?_, h4⟩
      simp only [Bool.or_eq_false_iff, h1, h3, List.zip_cons_cons, List.mem_cons, forall_eq_or_imp]

/-! ## C18 -/

/-- **C18** (and the exact meaning of "up to date"): a target with a builder is up to date iff it exists, the number of its dependencies is
that recorded, the recorded action signature is the present one, and every dependency is unchanged in the sense of the decider chosen. -/
theorem C18_up_to_date_iff {W : World V B K} {d : Decider} {target : V} {T : Target V K} {I : Infos V K}
    (hb : T.hasBuilder = true) (hI : InfosOK W I) (hD : DriftOK W)
    (hS : d = .contentTimestamp → ∀ c ∈ T.children, StampOK W c (dictGet (dependencyMap (W.stored target).binfo) c)) :
    (W.isUpToDate d target T I).1 = true ↔
      (∃ b, W.content target = some b) ∧
      T.children.length = (W.stored target).binfo.sigs.length ∧
      (W.stored target).binfo.bactsig = some T.actsig ∧
      ∀ p ∈ T.children.zip (W.stored target).binfo.sigs,
        Unchanged W d target p.1 (consulted d (W.stored target).binfo p.1 (some p.2)) := by
  unfold World.isUpToDate World.changed
  generalize hbi : (W.stored target).binfo = bi at *
  obtain ⟨h1, -⟩ := loop_spec (d := d) hD target bi T.children hS
    (bi.sigs.map some ++ List.replicate (T.children.length - bi.sigs.length) none) I hI
  have h2 : (W.content target).isSome = true ↔ ∃ b, W.content target = some b := Option.isSome_iff_exists
  simp only [hb, Bool.and_eq_true, Bool.not_eq_true', Bool.or_eq_false_iff, Bool.true_and, h1, h2]
  constructor
  · rintro ⟨g1, ⟨g2, g3⟩, g4⟩
    have g2 : T.children.length = bi.sigs.length := by simpa using g2
    refine ⟨g1, g2, by simpa using g4, ?_⟩
    rintro ⟨c, r⟩ hp
    refine g3 (c, some r) ?_
    rw [g2]; simp only [Nat.sub_self, List.replicate_zero, List.append_nil]
    rw [List.zip_map_right]
    exact List.mem_map.2 ⟨(c, r), hp, rfl⟩
  · rintro ⟨g1, g2, g3, g4⟩
    refine ⟨g1, ⟨by simp [g2], ?_⟩, by simp [g3]⟩
    rw [g2]; simp only [Nat.sub_self, List.replicate_zero, List.append_nil]
    rw [List.zip_map_right]
    intro p hp
    obtain ⟨q, hq, rfl⟩ := List.mem_map.1 hp
    exact g4 q hq

/-! ## What a build records -/

theorem binfo_sigs (T : Target V K) (I : Infos V K) : (T.binfo I).sigs = T.recorded.map I := by
  simp [Target.binfo, BInfo.sigs, Target.recorded]

theorem dedup_nodup (l : List V) : ∀ seen, (∀ x ∈ l, x ∉ seen) → l.Nodup → dedup seen l = l := by
  induction l with
  | nil => intros; rfl
  | cons x xs ih =>
    intro seen h1 h2
    rw [List.nodup_cons] at h2
    simp only [dedup, h1 x (by simp), if_false]
    rw [ih _ (fun y hy => ?_) h2.2]
    simp only [List.mem_cons, not_or]
    exact ⟨fun e => h2.1 (e ▸ hy), h1 y (by simp [hy])⟩

/-- Without a node that is both `Depends()` and `Ignore()`, the recorded list is the list of children. -/
theorem recorded_eq_children {T : Target V K} (hn : T.sources.Nodup) (hi : ∀ x ∈ T.depends, x ∉ T.ignore) :
    T.recorded = T.children := by
  unfold Target.recorded Target.children
  have : T.depends.filter (fun c => decide (c ∉ T.ignore)) = T.depends :=
    List.filter_eq_self.2 (fun x hx => by simp [hi x hx])
  rw [dedup_nodup _ _ (by simp) (List.Nodup.filter _ hn)]
  simp only [List.filter_append, this]

omit [DecidableEq V] [DecidableEq K] in
theorem mem_zip_map {A : Type} {f : V → A} {l : List V} {c : V} {r : A} (h : (c, r) ∈ l.zip (l.map f)) : c ∈ l ∧ r = f c := by
  induction l with
  | nil => simp at h
  | cons x xs ih =>
    simp only [List.map_cons, List.zip_cons_cons, List.mem_cons, Prod.mk.injEq] at h
    rcases h with ⟨rfl, rfl⟩ | h
    · simp
    · obtain ⟨h1, h2⟩ := ih h
      exact ⟨by simp [h1], h2⟩

/-! ## C16 -/

/-- `stored` is what a run that ended in world `W1` recorded for the target: it had the dependencies and action of `T`, and every dependency was
visited and hashed (the infos are those of the files as they were then). -/
def RecordedBy (W1 : World V B K) (T : Target V K) (bi : BInfo V K) : Prop :=
  bi = T.binfo (fun c => W1.freshInfo c (some (W1.diskCsig c)))

/-- **C16, content decider.**  Nothing changed ⇒ up to date.  Partial: a node that is both `Depends()` and `Ignore()` is excluded (there the
code fails, `C16_counterexample_depends_and_ignore`). -/
theorem C16_null_build_content_partial {W1 W2 : World V B K} {T : Target V K} {target : V} {I : Infos V K}
    (hn : T.sources.Nodup) (hi : ∀ x ∈ T.depends, x ∉ T.ignore) (hb : T.hasBuilder = true)
    (hrec : RecordedBy W1 T (W2.stored target).binfo)
    (hhash : W2.hash = W1.hash ∧ W2.nofile = W1.nofile)
    (hsame : ∀ c ∈ T.children, W2.content c = W1.content c)
    (hex : W2.content target ≠ none) (hI : InfosOK W2 I) (hD : DriftOK W2) :
    (W2.isUpToDate .content target T I).1 = true := by
  rw [C18_up_to_date_iff hb hI hD (by simp)]
  unfold RecordedBy at hrec
  have hs : (W2.stored target).binfo.sigs = T.children.map (fun c => W1.freshInfo c (some (W1.diskCsig c))) := by
    rw [hrec, binfo_sigs, recorded_eq_children hn hi]
  refine ⟨Option.ne_none_iff_exists'.1 hex, by rw [hs, List.length_map], by rw [hrec]; simp [Target.binfo, hb], ?_⟩
  rw [hs]
  rintro ⟨c, r⟩ hp
  obtain ⟨hc, rfl⟩ := mem_zip_map hp
  refine ⟨_, rfl, ?_⟩
  simp [World.freshInfo, World.diskCsig, hsame c hc, hhash.1, hhash.2]

/-! ## C21 -/

theorem dictGet_zip_map (l : List V) (I : Infos V K) (v : V) :
    dictGet (l.zip (l.map I)) v = if v ∈ l then some (I v) else none := by
  unfold dictGet
  by_cases hv : v ∈ l
  · simp only [hv, if_true]
    cases h : (l.zip (l.map I)).reverse.find? (fun p => decide (p.1 = v)) with
    | none =>
      exfalso
      rw [List.find?_eq_none] at h
      refine h (v, I v) ?_ (by simp)
      rw [List.mem_reverse, List.zip_map_right]
      refine List.mem_map.2 ⟨(v, v), ?_, rfl⟩
      clear h
      induction l with
      | nil => simp at hv
      | cons x xs ih =>
        rcases List.mem_cons.1 hv with h | h
        · simp [h]
        · simp [ih h]
    | some p =>
      have h1 := List.mem_of_find?_eq_some h
      have h2 := List.find?_some h
      obtain ⟨a, r⟩ := p
      rw [List.mem_reverse] at h1
      obtain ⟨h3, h4⟩ := mem_zip_map h1
      have h2 : a = v := by simpa using h2
      subst h2
      simp [h4]
  · simp only [hv, if_false, Option.map_eq_none_iff]
    rw [List.find?_eq_none]
    rintro ⟨a, r⟩ hp
    rw [List.mem_reverse] at hp
    have := (mem_zip_map hp).1
    simp only [decide_eq_true_eq]
    exact fun e => hv (e ▸ this)

/-- **C21.**  What the `content-timestamp` decider looks up for dependency `v` in a stored record is exactly what was recorded for `v`
itself, whatever the position of `v` in the old or the new dependency list; and it finds something iff `v` was a dependency then.
Partial: as in C16 a node that is both `Depends()` and `Ignore()` is excluded (`C21_counterexample_depends_and_ignore`). -/
theorem C21_looked_up_under_own_name_partial {T : Target V K} (hn : T.sources.Nodup) (hi : ∀ x ∈ T.depends, x ∉ T.ignore)
    (I : Infos V K) (v : V) :
    dictGet (dependencyMap (T.binfo I)) v = if v ∈ T.children then some (I v) else none := by
  have h1 : dependencyMap (T.binfo I) = T.children.zip (T.children.map I) := by
    rw [← recorded_eq_children hn hi]
    have : T.depends.filter (fun c => decide (c ∉ T.ignore)) = T.depends :=
      List.filter_eq_self.2 (fun x hx => by simp [hi x hx])
    simp only [dependencyMap, Target.binfo, Target.recorded, this, List.map_append]
  rw [h1, dictGet_zip_map]

/-- The general null build theorem: for each decider, if what it looks at is unchanged, the target is up to date. -/
theorem C16_null_build_partial {W1 W2 : World V B K} {T : Target V K} {target : V} {I : Infos V K} (d : Decider)
    (hn : T.sources.Nodup) (hi : ∀ x ∈ T.depends, x ∉ T.ignore) (hb : T.hasBuilder = true)
    (hrec : RecordedBy W1 T (W2.stored target).binfo)
    (hhash : W2.hash = W1.hash ∧ W2.nofile = W1.nofile)
    (hsame : ∀ c ∈ T.children, W2.content c = W1.content c)
    (hmtime : ∀ c ∈ T.children, W2.mtime c = W1.mtime c)
    (hnewer : d = .timestampNewer → ∀ c ∈ T.children, W2.timestamp c ≤ W2.timestamp target)
    (hex : W2.content target ≠ none) (hI : InfosOK W2 I) (hD : DriftOK W2) :
    (W2.isUpToDate d target T I).1 = true := by
  have hdisk : ∀ c ∈ T.children, W2.diskCsig c = W1.diskCsig c := fun c hc => by
    simp [World.diskCsig, hsame c hc, hhash.1, hhash.2]
  have htime : ∀ c ∈ T.children, W2.timestamp c = W1.timestamp c := fun c hc => by
    simp [World.timestamp, hsame c hc, hmtime c hc]
  unfold RecordedBy at hrec
  have hget : ∀ c ∈ T.children, dictGet (dependencyMap (W2.stored target).binfo) c =
      some (W1.freshInfo c (some (W1.diskCsig c))) := fun c hc => by
    rw [hrec, C21_looked_up_under_own_name_partial hn hi, if_pos hc]
  rw [C18_up_to_date_iff hb hI hD (fun _ c hc n k h1 h2 h3 => by
    rw [hget c hc] at h1
    simp only [Option.some.injEq] at h1
    subst h1
    simp only [World.freshInfo, Option.some.injEq] at h3
    rw [← h3, hdisk c hc])]
  have hs : (W2.stored target).binfo.sigs = T.children.map (fun c => W1.freshInfo c (some (W1.diskCsig c))) := by
    rw [hrec, binfo_sigs, recorded_eq_children hn hi]
  refine ⟨Option.ne_none_iff_exists'.1 hex, by rw [hs, List.length_map], by rw [hrec]; simp [Target.binfo, hb], ?_⟩
  rw [hs]
  rintro ⟨c, r⟩ hp
  obtain ⟨hc, rfl⟩ := mem_zip_map hp
  cases d with
  | content => exact ⟨_, rfl, by simp [World.freshInfo, hdisk c hc]⟩
  | timestampMatch => exact ⟨_, rfl, by simp [World.freshInfo, htime c hc]⟩
  | timestampNewer => exact hnewer rfl c hc
  | contentTimestamp => exact ⟨_, hget c hc, Or.inr (by simp [World.freshInfo, hdisk c hc])⟩

/-! ## C17 -/

/-- **C17.**  Old build with dependency description `T1` in world `W1`, now `T2` in `W2`.  If the content decider says "up to date", then the
target exists, the action signature is the recorded one, and the sequence of the dependencies' present contents is the recorded one.  Hence every
change of a dependency's content, every addition, removal or content-changing reordering, every change of the action signature, and a missing
target each trigger a rebuild (the hash is assumed collision free).  The old target may be any, including the exceptional case of C16. -/
theorem C17_up_to_date_means_nothing_changed {W1 W2 : World V B K} {T1 T2 : Target V K} {target : V} {I : Infos V K}
    (hb1 : T1.hasBuilder = true) (hb : T2.hasBuilder = true) (hrec : RecordedBy W1 T1 (W2.stored target).binfo)
    (hhash : W2.hash = W1.hash) (hinj : ∀ a b : B, W1.hash a = W1.hash b → a = b)
    (hI : InfosOK W2 I) (hD : DriftOK W2)
    (hup : (W2.isUpToDate .content target T2 I).1 = true) :
    W2.content target ≠ none ∧ T2.actsig = T1.actsig ∧
      T2.children.map (fun c => (W2.content c).getD W2.nofile) = T1.recorded.map (fun c => (W1.content c).getD W1.nofile) := by
  rw [C18_up_to_date_iff hb hI hD (by simp)] at hup
  obtain ⟨h1, h2, h3, h4⟩ := hup
  unfold RecordedBy at hrec
  refine ⟨Option.ne_none_iff_exists'.2 h1, ?_, ?_⟩
  · rw [hrec] at h3
    simp only [Target.binfo, hb1, if_true, Option.some.injEq] at h3
    exact h3.symm
  · have hs : (W2.stored target).binfo.sigs = T1.recorded.map (fun c => W1.freshInfo c (some (W1.diskCsig c))) := by
      rw [hrec, binfo_sigs]
    rw [hs] at h2 h4
    rw [List.length_map] at h2
    clear hs hrec h1 h3 hb hb1
    generalize T2.children = l2 at *
    generalize T1.recorded = l1 at *
    induction l2 generalizing l1 with
    | nil => cases l1 with
      | nil => rfl
      | cons x xs => simp at h2
    | cons y ys ih =>
      cases l1 with
      | nil => simp at h2
      | cons x xs =>
        simp only [List.map_cons, List.cons.injEq]
        refine ⟨?_, ih xs (by simpa using h2) (fun p hp => h4 p (by simp [hp]))⟩
        obtain ⟨n, e1, e2⟩ := h4 (y, _) (by simp only [List.map_cons, List.zip_cons_cons, List.mem_cons]; exact Or.inl rfl)
        simp only [consulted, Option.some.injEq] at e1
        rw [← e1] at e2
        simp only [World.freshInfo, Option.some.injEq, World.diskCsig, hhash] at e2
        exact (hinj _ _ e2).symm

/-- The four kinds of change, spelled out. -/
theorem C17_every_change_triggers_a_rebuild {W1 W2 : World V B K} {T1 T2 : Target V K} {target : V} {I : Infos V K}
    (hb1 : T1.hasBuilder = true) (hb : T2.hasBuilder = true) (hrec : RecordedBy W1 T1 (W2.stored target).binfo)
    (hhash : W2.hash = W1.hash) (hinj : ∀ a b : B, W1.hash a = W1.hash b → a = b) (hI : InfosOK W2 I) (hD : DriftOK W2)
    (hch : W2.content target = none ∨ T2.actsig ≠ T1.actsig ∨ T2.children.length ≠ T1.recorded.length ∨
      ∃ (i : Nat) (c1 c2 : V), T1.recorded[i]? = some c1 ∧ T2.children[i]? = some c2 ∧
        (W2.content c2).getD W2.nofile ≠ (W1.content c1).getD W1.nofile) :
    (W2.isUpToDate .content target T2 I).1 = false := by
  by_contra hup
  obtain ⟨h1, h2, h3⟩ := C17_up_to_date_means_nothing_changed hb1 hb hrec hhash hinj hI hD (by simpa using hup)
  rcases hch with h | h | h | ⟨i, c1, c2, e1, e2, h⟩
  · exact h1 h
  · exact h h2
  · exact h (by simpa using congrArg List.length h3)
  · have := congrArg (fun l => l[i]?) h3
    simp [e1, e2] at this
    exact h this

/-! ## C20 -/

/-- **C20.**  The content signature of a node not hashed before in this process is the one computed from the disk, unless `--max-drift` allows reuse:
a positive value only for a stored entry whose time stamp is non-zero, equals the file's and lies more than the drift in the past; zero always
(as documented: "always use the cached signature, no matter how old the file is"); a negative value never. -/
theorem C20_reuse_only_when_allowed {W : World V B K} {I : Infos V K} {v : V} (hI : (I v).csig = none) :
    (W.getCsig I v).1 = W.diskCsig v ∨
      (W.stored v).ninfo.csig = some (W.getCsig I v).1 ∧
        (W.maxDrift = 0 ∨
          0 < W.maxDrift ∧ (W.stored v).ninfo.timestamp = some (W.timestamp v) ∧ W.timestamp v ≠ 0 ∧
            W.timestamp v < W.now - W.maxDrift) := by
  unfold World.getCsig
  rw [hI]
  simp only
  cases hd : W.driftCsig v with
  | none => left; rfl
  | some k =>
    right
    simp only [Option.getD_some]
    unfold World.driftCsig at hd
    split at hd
    · split at hd
      · rename_i h1 h2
        split at hd
        · rename_i t k' e1 e2
          split at hd
          · rename_i h3
            simp only [Option.some.injEq] at hd
            subst hd
            refine ⟨e2, Or.inr ⟨h1, by rw [e1, h3.2], h3.2 ▸ h3.1, by omega⟩⟩
          · cases hd
        · cases hd
      · cases hd
    · split at hd
      · exact ⟨hd, Or.inl (by assumption)⟩
      · cases hd

/-- **C20**, the consequence: a file whose time stamp is not the stored one is always read and hashed (max_drift ≠ 0). -/
theorem C20_new_timestamp_is_hashed {W : World V B K} {I : Infos V K} {v : V} (hI : (I v).csig = none) (h0 : W.maxDrift ≠ 0)
    (hne : (W.stored v).ninfo.timestamp ≠ some (W.timestamp v)) : (W.getCsig I v).1 = W.diskCsig v := by
  rcases C20_reuse_only_when_allowed hI with h | ⟨-, h | h⟩
  · exact h
  · exact absurd h h0
  · exact absurd h.2.1 hne

theorem C20_negative_drift_always_hashes {W : World V B K} {I : Infos V K} {v : V} (hI : (I v).csig = none) (h0 : W.maxDrift < 0) :
    (W.getCsig I v).1 = W.diskCsig v := by
  rcases C20_reuse_only_when_allowed hI with h | ⟨-, h | h⟩
  · exact h
  · omega
  · omega

/-- `DriftOK` holds as soon as stored pairs (time stamp, signature) are truthful for files that still have that time stamp. -/
theorem driftOK_of_truthful {W : World V B K} (h0 : W.maxDrift ≠ 0) (h : ∀ v, StampOK W v (some (W.stored v).ninfo)) : DriftOK W := by
  intro c k hk
  unfold World.driftCsig at hk
  split at hk
  · split at hk
    · split at hk
      · rename_i t k' e1 e2
        split at hk
        · rename_i h3
          simp only [Option.some.injEq] at hk
          subst hk
          exact h c _ _ rfl (by rw [e1, h3.2]) e2
        · cases hk
      · cases hk
    · cases hk
  · simp [h0] at hk

end Verif.Sig
