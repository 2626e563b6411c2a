import Verif.Sig.Witness

/-!
# C59: `--debug=explain`

`Node.explain` (`Node/__init__.py:1637-1730`), called by `BuildTask.make_ready` for the first out-of-date target of a task.

Simplifications: dependencies are files; names are the nodes themselves (`prepare_dependencies`, `stringify`); no repositories; the wording of the lines is left out.
-/

namespace Verif.Sig

variable {V B K : Type} [DecidableEq V] [DecidableEq K]

/-- One line of an explanation. -/
inductive Line (V : Type)
  /-- "`v' is no longer a dependency" -/
  | removed (v : V)
  /-- "`v' is a new dependency" -/
  | added (v : V)
  /-- "`v' changed" -/
  | changed (v : V)
  /-- "the dependency order changed:" with both lists -/
  | order
  /-- "the contents of the build action changed" -/
  | actionContents
  /-- "the build action changed:" with both -/
  | action
  deriving DecidableEq

/-- What is printed. -/
inductive Why (V : Type)
  | absent                            -- because it doesn't exist
  | always                            -- because AlwaysBuild() is specified
  | noInfo                            -- Cannot explain why: No previous build information found
  | unknown                           -- for unknown reasons
  | because (lines : List (Line V))
  deriving DecidableEq

/-- The names of the three lists of a build info. -/
def BInfo.kids (b : BInfo V K) : List V := b.bsources ++ b.bdepends ++ b.bimplicit

/-- The call `_decider_map[k.changed_since_last_build](k, self, osig[k])` (`:1688`): no fourth argument, so `changed_timestamp_then_content`
(`FS.py:3495-3498`) takes the build info of the dependency itself. -/
def World.explainAsk (W : World V B K) (d : Decider) (I : Infos V K) (k target : V) (prev : Option (NInfo K)) : Bool × Infos V K :=
  W.ask d I k target prev (W.stored k).binfo

/-- The loop over the new dependencies, `:1684-1691`. -/
def World.explainLoop (W : World V B K) (d : Decider) (target : V) (old : BInfo V K) : Infos V K → List V → List (Line V)
  | _, [] => []
  | I, k :: ks =>
    if k ∉ old.kids then .added k :: W.explainLoop d target old I ks
    else
      let r := W.explainAsk d I k target (dictGet (dependencyMap old) k)
      (if r.1 then [.changed k] else []) ++ W.explainLoop d target old r.2 ks

/-- `explain()`, `:1637-1730`.  `hasNames`: the old record has the attribute `bsources`; `oldAct`, `newAct`: the printable commands `bact`. -/
def World.explain (W : World V B K) (d : Decider) (target : V) (T : Target V K) (alwaysBuild hasNames : Bool) (oldAct newAct : String) (I : Infos V K) : Why V :=
  if (W.content target).isNone then .absent
  else if alwaysBuild then .always
  else if !hasNames then .noInfo
  else
    let old := (W.stored target).binfo
    let new := T.binfo I
    let lines := (old.kids.filter (fun x => decide (x ∉ new.kids))).map .removed ++ W.explainLoop d target old I new.kids
    let lines := if lines = [] ∧ old.kids ≠ new.kids then [.order] else lines
    let lines := if lines = [] ∧ old.bactsig ≠ new.bactsig then (if oldAct = newAct then [.actionContents] else [.action]) else lines
    if lines = [] then .unknown else .because lines

/-- What a line says is true: `then`/`now` are the dependency lists, `was v` the record of `v` made by the last build. -/
def Line.True (W : World V B K) (d : Decider) (target : V) (thenD nowD : List V) (was : V → NInfo K) (thenAct nowAct : Option K) : Line V → Prop
  | .removed v => v ∈ thenD ∧ v ∉ nowD
  | .added v => v ∈ nowD ∧ v ∉ thenD
  | .changed v => v ∈ thenD ∧ v ∈ nowD ∧ ¬ Unchanged W d target v (some (was v))
  | .order => thenD ≠ nowD ∧ (∀ v, v ∈ thenD ↔ v ∈ nowD)
  | .actionContents => thenAct ≠ nowAct
  | .action => thenAct ≠ nowAct

/-- `get_binfo` lists the dependencies. -/
theorem binfo_kids {T : Target V K} (hn : T.sources.Nodup) (hi : ∀ x ∈ T.depends, x ∉ T.ignore) (I : Infos V K) : (T.binfo I).kids = T.children := by
  rw [← recorded_eq_children hn hi]
  have : T.depends.filter (fun c => decide (c ∉ T.ignore)) = T.depends := List.filter_eq_self.2 (fun x hx => by simp [hi x hx])
  simp only [BInfo.kids, Target.binfo, Target.recorded, this]

theorem explainLoop_spec {W : World V B K} {d : Decider} (hd : d ≠ .contentTimestamp) (hD : DriftOK W) (target : V) {T0 : Target V K} {I0 : Infos V K}
    (hn : T0.sources.Nodup) (hi : ∀ x ∈ T0.depends, x ∉ T0.ignore) (ks : List V) (I : Infos V K) (hI : InfosOK W I) (l : Line V) :
    l ∈ W.explainLoop d target (T0.binfo I0) I ks ↔
      ∃ k ∈ ks, (k ∉ T0.children ∧ l = .added k) ∨ (k ∈ T0.children ∧ ¬ Unchanged W d target k (some (I0 k)) ∧ l = .changed k) := by
  induction ks generalizing I with
  | nil => simp [World.explainLoop]
  | cons k ks ih =>
    simp only [World.explainLoop, binfo_kids hn hi]
    by_cases hk : k ∈ T0.children
    · rw [if_neg (by simpa using hk), C21_looked_up_under_own_name_partial hn hi, if_pos hk]
      obtain ⟨h1, h2⟩ := ask_spec hI hD k target (some (I0 k)) (W.stored k).binfo (d := d) (fun e => absurd e hd)
      have hc : consulted d (W.stored k).binfo k (some (I0 k)) = some (I0 k) := by cases d <;> simp_all [consulted]
      rw [hc] at h1
      have ih := ih (W.explainAsk d I k target (some (I0 k))).2 h2
      unfold World.explainAsk at ih ⊢
      rw [List.mem_append, ih]
      cases hr : (W.ask d I k target (some (I0 k)) (W.stored k).binfo).1 with
      | false =>
        have hu := h1.1 hr
        simp only [Bool.false_eq_true, if_false, List.not_mem_nil, false_or, List.mem_cons]
        constructor
        · rintro ⟨x, hx, h⟩; exact ⟨x, Or.inr hx, h⟩
        · rintro ⟨x, rfl | hx, h⟩
          · rcases h with h | h
            · exact absurd hk h.1
            · exact absurd hu h.2.1
          · exact ⟨x, hx, h⟩
      | true =>
        have hu : ¬ Unchanged W d target k (some (I0 k)) := fun h => by rw [h1.2 h] at hr; cases hr
        simp only [if_true, List.mem_cons, List.not_mem_nil, or_false]
        constructor
        · rintro (rfl | ⟨x, hx, h⟩)
          · exact ⟨k, Or.inl rfl, Or.inr ⟨hk, hu, rfl⟩⟩
          · exact ⟨x, Or.inr hx, h⟩
        · rintro ⟨x, rfl | hx, h⟩
          · rcases h with h | h
            · exact absurd hk h.1
            · exact Or.inl h.2.2
          · exact Or.inr ⟨x, hx, h⟩
    · rw [if_pos hk, List.mem_cons, ih I hI]
      constructor
      · rintro (rfl | ⟨x, hx, h⟩)
        · exact ⟨k, by simp, Or.inl ⟨hk, rfl⟩⟩
        · exact ⟨x, by simp [hx], h⟩
      · rintro ⟨x, hx, h⟩
        rcases List.mem_cons.1 hx with rfl | hx
        · rcases h with h | h
          · exact Or.inl h.2
          · exact absurd h.1 hk
        · exact Or.inr ⟨x, hx, h⟩

/-- The lines about dependencies. -/
theorem depLines_spec {W : World V B K} {d : Decider} (hd : d ≠ .contentTimestamp) (hD : DriftOK W) (target : V) {T0 T : Target V K} {I0 I : Infos V K}
    (hn0 : T0.sources.Nodup) (hi0 : ∀ x ∈ T0.depends, x ∉ T0.ignore) (hn : T.sources.Nodup) (hi : ∀ x ∈ T.depends, x ∉ T.ignore) (hI : InfosOK W I) (l : Line V) :
    l ∈ ((T0.binfo I0).kids.filter (fun x => decide (x ∉ (T.binfo I).kids))).map Line.removed ++ W.explainLoop d target (T0.binfo I0) I (T.binfo I).kids ↔
      (∃ v, v ∈ T0.children ∧ v ∉ T.children ∧ l = .removed v) ∨ (∃ v, v ∈ T.children ∧ v ∉ T0.children ∧ l = .added v) ∨
        ∃ v, v ∈ T0.children ∧ v ∈ T.children ∧ ¬ Unchanged W d target v (some (I0 v)) ∧ l = .changed v := by
  rw [List.mem_append, explainLoop_spec hd hD target hn0 hi0 _ I hI, binfo_kids hn hi, binfo_kids hn0 hi0]
  simp only [List.mem_map, List.mem_filter, decide_eq_true_eq]
  constructor
  · rintro (⟨v, ⟨h1, h2⟩, rfl⟩ | ⟨v, h1, h2 | h2⟩)
    · exact Or.inl ⟨v, h1, h2, rfl⟩
    · exact Or.inr (Or.inl ⟨v, h1, h2⟩)
    · exact Or.inr (Or.inr ⟨v, h2.1, h1, h2.2⟩)
  · rintro (⟨v, h1, h2, rfl⟩ | ⟨v, h1, h2⟩ | ⟨v, h1, h2, h3⟩)
    · exact Or.inl ⟨v, ⟨h1, h2⟩, rfl⟩
    · exact Or.inr ⟨v, h1, Or.inl h2⟩
    · exact Or.inr ⟨v, h2, Or.inr ⟨h1, h3⟩⟩

/-! ## C59 -/

theorem isNone_of_content {W : World V B K} {t : V} {b : B} (h : W.content t = some b) : (W.content t).isNone = false := by simp [h]

theorem because_eq {X lines : List (Line V)} (h : (if X = [] then Why.unknown else Why.because X) = .because lines) : lines = X := by
  split at h
  · cases h
  · injection h with h; exact h.symm

/-- **C59, every reason given is true.**  The record of the target is the one made by a run in which it had the dependencies and action of `T0` and the
infos were `I0`.  Partial: with `Decider('content-timestamp')`, and for a target with a node both in `Depends()` and in `Ignore()`, this is false of the
code (counterexamples below). -/
theorem C59_reasons_are_true_partial {W : World V B K} {d : Decider} (hd : d ≠ .contentTimestamp) (hD : DriftOK W) {target : V} {T0 T : Target V K} {I0 I : Infos V K}
    (hn0 : T0.sources.Nodup) (hi0 : ∀ x ∈ T0.depends, x ∉ T0.ignore) (hn : T.sources.Nodup) (hi : ∀ x ∈ T.depends, x ∉ T.ignore) (hI : InfosOK W I)
    (hrec : (W.stored target).binfo = T0.binfo I0) {ab hasNames : Bool} {oa na : String} {lines : List (Line V)}
    (h : W.explain d target T ab hasNames oa na I = .because lines) :
    ∀ l ∈ lines, l.True W d target T0.children T.children I0 (T0.binfo I0).bactsig (T.binfo I).bactsig := by
  unfold World.explain at h
  split at h
  · cases h
  split at h
  · cases h
  split at h
  · cases h
  simp only [hrec] at h
  have key := depLines_spec hd hD target hn0 hi0 hn hi (I0 := I0) hI
  generalize hL : ((T0.binfo I0).kids.filter (fun x => decide (x ∉ (T.binfo I).kids))).map Line.removed ++ W.explainLoop d target (T0.binfo I0) I (T.binfo I).kids = L at h key
  have h := because_eq h
  subst h
  intro l hl
  by_cases hL0 : L = []
  · have hno : ∀ v, v ∈ T0.children ↔ v ∈ T.children := by
      intro v
      constructor
      · intro hv
        by_contra hv'
        have := (key (.removed v)).2 (Or.inl ⟨v, hv, hv', rfl⟩)
        simp [hL0] at this
      · intro hv
        by_contra hv'
        have := (key (.added v)).2 (Or.inr (Or.inl ⟨v, hv, hv', rfl⟩))
        simp [hL0] at this
    by_cases hk : (T0.binfo I0).kids = (T.binfo I).kids
    · have hc : ¬ (L = [] ∧ (T0.binfo I0).kids ≠ (T.binfo I).kids) := fun h => h.2 hk
      simp only [if_neg hc] at hl
      split at hl
      · rename_i hb
        split at hl
        · simp only [List.mem_singleton] at hl; subst hl; exact hb.2
        · simp only [List.mem_singleton] at hl; subst hl; exact hb.2
      · simp [hL0] at hl
    · have hc : L = [] ∧ (T0.binfo I0).kids ≠ (T.binfo I).kids := ⟨hL0, hk⟩
      simp only [if_pos hc] at hl
      simp only [List.cons_ne_self, reduceCtorEq, false_and, if_false, List.mem_singleton] at hl
      subst hl
      rw [binfo_kids hn0 hi0, binfo_kids hn hi] at hk
      exact ⟨hk, hno⟩
  · have hc : ∀ p : Prop, ¬ (L = [] ∧ p) := fun p h => hL0 h.1
    simp only [if_neg (hc _)] at hl
    rcases (key l).1 hl with ⟨v, h1, h2, rfl⟩ | ⟨v, h1, h2, rfl⟩ | ⟨v, h1, h2, h3, rfl⟩
    · exact ⟨h1, h2⟩
    · exact ⟨h1, h2⟩
    · exact ⟨h1, h2, h3⟩

/-- **C59, every changed dependency is named**: one that went away, one that is new and one the decider finds changed. -/
theorem C59_changed_dependencies_are_named_partial {W : World V B K} {d : Decider} (hd : d ≠ .contentTimestamp) (hD : DriftOK W) {target : V} {T0 T : Target V K}
    {I0 I : Infos V K} (hn0 : T0.sources.Nodup) (hi0 : ∀ x ∈ T0.depends, x ∉ T0.ignore) (hn : T.sources.Nodup) (hi : ∀ x ∈ T.depends, x ∉ T.ignore)
    (hI : InfosOK W I) (hrec : (W.stored target).binfo = T0.binfo I0) {oa na : String} {b : B} (hex : W.content target = some b) {l : Line V}
    (hl : (∃ v, l = .removed v ∧ v ∈ T0.children ∧ v ∉ T.children) ∨ (∃ v, l = .added v ∧ v ∈ T.children ∧ v ∉ T0.children) ∨
      (∃ v, l = .changed v ∧ v ∈ T0.children ∧ v ∈ T.children ∧ ¬ Unchanged W d target v (some (I0 v)))) :
    ∃ lines, W.explain d target T false true oa na I = .because lines ∧ l ∈ lines := by
  unfold World.explain
  rw [isNone_of_content hex]
  simp only [hrec, Bool.false_eq_true, if_false, Bool.not_true]
  have key := (depLines_spec hd hD target hn0 hi0 hn hi (I0 := I0) hI l).2 (by
    rcases hl with ⟨v, rfl, h1, h2⟩ | ⟨v, rfl, h1, h2⟩ | ⟨v, rfl, h1, h2, h3⟩
    · exact Or.inl ⟨v, h1, h2, rfl⟩
    · exact Or.inr (Or.inl ⟨v, h1, h2, rfl⟩)
    · exact Or.inr (Or.inr ⟨v, h1, h2, h3, rfl⟩))
  generalize ((T0.binfo I0).kids.filter (fun x => decide (x ∉ (T.binfo I).kids))).map Line.removed ++ W.explainLoop d target (T0.binfo I0) I (T.binfo I).kids = L at key ⊢
  have hL0 : L ≠ [] := List.ne_nil_of_mem key
  have hc : ∀ p : Prop, ¬ (L = [] ∧ p) := fun p h => hL0 h.1
  simp only [if_neg (hc _), if_neg hL0]
  exact ⟨L, rfl, key⟩

/-- **C59, a rebuild is never "for unknown reasons".**  When the decision procedure finds an existing target out of date, the explanation gives a reason. -/
theorem C59_out_of_date_is_explained_partial {W : World V B K} {d : Decider} (hd : d ≠ .contentTimestamp) (hD : DriftOK W) {target : V} {T0 T : Target V K}
    {I0 I I' : Infos V K} (hn0 : T0.sources.Nodup) (hi0 : ∀ x ∈ T0.depends, x ∉ T0.ignore) (hn : T.sources.Nodup) (hi : ∀ x ∈ T.depends, x ∉ T.ignore)
    (hb : T.hasBuilder = true) (hI : InfosOK W I) (hI' : InfosOK W I') (hrec : (W.stored target).binfo = T0.binfo I0) {oa na : String} {b : B}
    (hex : W.content target = some b) (hout : (W.isUpToDate d target T I).1 = false) :
    ∃ lines, lines ≠ [] ∧ W.explain d target T false true oa na I' = .because lines := by
  by_cases hsome : ∃ l : Line V, (∃ v, l = .removed v ∧ v ∈ T0.children ∧ v ∉ T.children) ∨ (∃ v, l = .added v ∧ v ∈ T.children ∧ v ∉ T0.children) ∨
      (∃ v, l = .changed v ∧ v ∈ T0.children ∧ v ∈ T.children ∧ ¬ Unchanged W d target v (some (I0 v)))
  · obtain ⟨l, hl⟩ := hsome
    obtain ⟨lines, h1, h2⟩ := C59_changed_dependencies_are_named_partial hd hD hn0 hi0 hn hi hI' hrec (oa := oa) (na := na) hex hl
    exact ⟨lines, List.ne_nil_of_mem h2, h1⟩
  · have hnil : ∀ l, l ∉ ((T0.binfo I0).kids.filter (fun x => decide (x ∉ (T.binfo I').kids))).map Line.removed ++
        W.explainLoop d target (T0.binfo I0) I' (T.binfo I').kids := by
      intro l hl
      refine hsome ⟨l, ?_⟩
      rcases (depLines_spec hd hD target hn0 hi0 hn hi (I0 := I0) hI' l).1 hl with ⟨v, h1, h2, rfl⟩ | ⟨v, h1, h2, rfl⟩ | ⟨v, h1, h2, h3, rfl⟩
      · exact Or.inl ⟨v, rfl, h1, h2⟩
      · exact Or.inr (Or.inl ⟨v, rfl, h1, h2⟩)
      · exact Or.inr (Or.inr ⟨v, rfl, h1, h2, h3⟩)
    have hnil := List.eq_nil_iff_forall_not_mem.2 hnil
    unfold World.explain
    rw [isNone_of_content hex]
    simp only [hrec, Bool.false_eq_true, if_false, Bool.not_true, hnil, true_and]
    by_cases hk : (T0.binfo I0).kids = (T.binfo I').kids
    · have hact : (T0.binfo I0).bactsig ≠ (T.binfo I').bactsig := by
        intro hact
        have : (W.isUpToDate d target T I).1 = true := by
          rw [C18_up_to_date_iff hb hI hD (fun e => absurd e hd)]
          have hk' : T.children = T0.children := by rw [← binfo_kids hn0 hi0 I0, ← binfo_kids hn hi I', hk]
          have hs : (W.stored target).binfo.sigs = T0.children.map I0 := by rw [hrec, binfo_sigs, recorded_eq_children hn0 hi0]
          refine ⟨⟨b, hex⟩, by rw [hs, List.length_map, hk'], ?_, ?_⟩
          · rw [hrec, hact]; simp [Target.binfo, hb]
          · rw [hs, hk']
            rintro ⟨c, r⟩ hp
            obtain ⟨hc, rfl⟩ := mem_zip_map hp
            have hcons : consulted d (W.stored target).binfo c (some (I0 c)) = some (I0 c) := by cases d <;> simp_all [consulted]
            simp only [hcons]
            by_contra hun
            exact hsome ⟨.changed c, Or.inr (Or.inr ⟨c, rfl, hc, hk' ▸ hc, hun⟩)⟩
        rw [this] at hout; cases hout
      simp only [hk, ne_eq, not_true_eq_false, if_false, hact, not_false_eq_true, true_and, if_true]
      split
      · exact ⟨_, by simp, rfl⟩
      · exact ⟨_, by simp, rfl⟩
    · simp only [ne_eq, hk, not_false_eq_true, if_true, List.cons_ne_self, reduceCtorEq, false_and, if_false]
      exact ⟨_, by simp, rfl⟩

/-- The counterpart: a target that is up to date in every respect the decision procedure looks at would be explained with "unknown reasons" — nothing is made up.
(`explain` is called for such a target when a peer built by the same command is out of date.) -/
theorem C59_nothing_is_made_up_partial {W : World V B K} {d : Decider} (hd : d ≠ .contentTimestamp) (hD : DriftOK W) {target : V} {T : Target V K}
    {I0 I I' : Infos V K} (hn : T.sources.Nodup) (hi : ∀ x ∈ T.depends, x ∉ T.ignore)
    (hb : T.hasBuilder = true) (hI : InfosOK W I) (hI' : InfosOK W I') (hrec : (W.stored target).binfo = T.binfo I0) {oa na : String}
    (hup : (W.isUpToDate d target T I).1 = true) : W.explain d target T false true oa na I' = .unknown := by
  rw [C18_up_to_date_iff hb hI hD (fun e => absurd e hd)] at hup
  obtain ⟨⟨b, hex⟩, -, hact, hun⟩ := hup
  have hs : (W.stored target).binfo.sigs = T.children.map I0 := by rw [hrec, binfo_sigs, recorded_eq_children hn hi]
  have hnil : ((T.binfo I0).kids.filter (fun x => decide (x ∉ (T.binfo I').kids))).map Line.removed ++
      W.explainLoop d target (T.binfo I0) I' (T.binfo I').kids = [] := by
    refine List.eq_nil_iff_forall_not_mem.2 fun l hl => ?_
    rcases (depLines_spec hd hD target hn hi hn hi (I0 := I0) hI' l).1 hl with ⟨v, h1, h2, rfl⟩ | ⟨v, h1, h2, rfl⟩ | ⟨v, h1, h2, h3, rfl⟩
    · exact h2 h1
    · exact h2 h1
    · apply h3
      rw [hs] at hun
      have hz : (v, I0 v) ∈ T.children.zip (T.children.map I0) := by
        rw [List.zip_map_right, List.mem_map]
        refine ⟨(v, v), ?_, rfl⟩
        obtain ⟨i, hi, rfl⟩ := List.getElem_of_mem h1
        exact List.mem_iff_getElem.2 ⟨i, by simpa using hi, by simp⟩
      have := hun _ hz
      have hcons : consulted d (W.stored target).binfo v (some (I0 v)) = some (I0 v) := by cases d <;> simp_all [consulted]
      simpa only [hcons] using this
  unfold World.explain
  rw [isNone_of_content hex]
  have e1 : (T.binfo I0).kids = (T.binfo I').kids := by rw [binfo_kids hn hi, binfo_kids hn hi]
  have e2 : (T.binfo I0).bactsig = (T.binfo I').bactsig := rfl
  simp only [hrec, Bool.false_eq_true, if_false, Bool.not_true, hnil]
  simp only [e1, e2, ne_eq, not_true_eq_false, and_false, if_true, if_false]

/-! ## Counterexamples -/

/-- **Finding**, in general form.  With `Decider('content-timestamp')` every dependency that was kept is reported as changed, whatever its state, unless it
depends on itself: the decider is called without the node whose record it should consult and looks the dependency up in the dependency's own record. -/
theorem C59_content_timestamp_blames_everything {W : World V B K} {target : V} {old : BInfo V K} (ks : List V) (I : Infos V K) (k : V) (hk : k ∈ ks)
    (hold : k ∈ old.kids) (hown : dictGet (dependencyMap (W.stored k).binfo) k = none) :
    Line.changed k ∈ W.explainLoop .contentTimestamp target old I ks := by
  induction ks generalizing I with
  | nil => cases hk
  | cons x xs ih =>
    simp only [World.explainLoop]
    rcases List.mem_cons.1 hk with rfl | hk
    · rw [if_neg (by simpa using hold)]
      have : (W.explainAsk .contentTimestamp I k target (dictGet (dependencyMap old) k)).1 = true := by
        simp only [World.explainAsk, World.ask, World.changedTimestampThenContent]
        split
        · rfl
        · simp [hown, World.changedTimestampMatch, World.changedContent]
      simp [this]
    · split
      · exact List.mem_cons_of_mem _ (ih _ hk)
      · exact List.mem_append_right _ (ih _ hk)

/-- Only the action changed; with `content-timestamp` the three unchanged dependencies are blamed and the action is not mentioned.  With `content` the reason
given is the right one. -/
theorem C59_counterexample_content_timestamp :
    (okW.isUpToDate .contentTimestamp 1 { okT with actsig := 8 } (fun _ => {})).1 = false ∧
    (okW.isUpToDate .contentTimestamp 1 okT (fun _ => {})).1 = true ∧
    okW.explain .contentTimestamp 1 { okT with actsig := 8 } false true "cc" "cc -g" (fun _ => {}) = .because [.changed 0, .changed 2, .changed 3] ∧
    okW.explain .content 1 { okT with actsig := 8 } false true "cc" "cc -g" (fun _ => {}) = .because [.action] := by decide

/-- **Finding.**  With `Depends(t, x)` and `Ignore(t, x)`, the implicit dependency 3 is said to have changed although nothing has. -/
theorem C59_counterexample_depends_and_ignore :
    diW2.explain .content 1 diT false true "cc" "cc" (fun _ => {}) = .because [.changed 3] ∧
    RecordedBy (diW (fun _ => {})) diT (diW2.stored 1).binfo ∧ diW2.content 3 = (diW (fun _ => {})).content 3 := by
  refine ⟨by decide, rfl, rfl⟩

/-! ## The hypotheses are satisfiable -/

/-- Dependency 3 edited, 2 dropped, and a new dependency: each is named, and the theorem says each is true. -/
def exT2 : Target (Fin 4) Nat := { sources := [0], depends := [], implicit := [3, 1], ignore := [], hasBuilder := true, actsig := 7 }

def exW3 : World (Fin 4) Nat Nat := { okW with content := fun v => if v = 3 then some 99 else okW.content v }

theorem exW3_drift : DriftOK exW3 := by
  intro c k hk
  have : exW3.driftCsig c = none := by
    unfold World.driftCsig; simp [exW3, okW, diW]
  rw [this] at hk; cases hk

example : exW3.explain .content 1 exT2 false true "cc" "cc" (fun _ => {}) = .because [.removed 2, .changed 3, .added 1] := by decide

example : Line.True exW3 .content 1 okT.children exT2.children (fun c => (diW (fun _ => {})).freshInfo c (some ((diW (fun _ => {})).diskCsig c)))
    (some 7) (some 7) (.changed 3) :=
  C59_reasons_are_true_partial (W := exW3) (T0 := okT) (T := exT2) (by decide) exW3_drift (by decide) (by decide) (by decide) (by decide)
    (by intro c k hk; cases hk) rfl (oa := "cc") (na := "cc") (ab := false) (hasNames := true) (I := fun _ => {}) (lines := [.removed 2, .changed 3, .added 1]) (by decide) _ (by decide)

example : ∃ lines, lines ≠ [] ∧ exW3.explain .content 1 okT false true "a" "b" (fun _ => {}) = .because lines :=
  C59_out_of_date_is_explained_partial (W := exW3) (T0 := okT) (T := okT) (by decide) exW3_drift (by decide) (by decide) (by decide) (by decide) rfl
    (by intro c k hk; cases hk) (by intro c k hk; cases hk) rfl (b := 11) (by decide) (I := fun _ => {}) (by decide)

/-- The order of the dependencies changed. -/
example : okW.explain .content 1 { okT with depends := [3], implicit := [2] } false true "a" "a" (fun _ => {}) = .because [.order] := by decide

end Verif.Sig
