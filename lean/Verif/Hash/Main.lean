import Verif.Hash.Props

/-!
# C113: which database is used
-/

namespace Verif.Hash

/-- **C113**: a hash format that is asked for is the one that is used, upper or lower case, and if it cannot be had there is an error; if none is asked for, it is the first that can be had of md5, sha1 and sha256. -/
theorem C113_format (avail : Alg → Bool) (s : Str) (hs : s ≠ []) :
    (∀ g, setHashFormat avail (some s) = some g ↔ g.format = some s ∧ avail g.func = true ∧ g.func.name = s.map Char.toLower) ∧
    (∀ fmt, fmt = none ∨ fmt = some [] → ∀ g, setHashFormat avail fmt = some g ↔
      g.format = fmt ∧ g.func = (if avail .md5 then .md5 else if avail .sha1 then .sha1 else .sha256) ∧ avail g.func = true) := by
  constructor
  · rintro ⟨f, a⟩
    simp only [setHashFormat, if_neg hs, Option.map_eq_some_iff, Globals.mk.injEq, List.find?_eq_some_iff_append, allowed]
    constructor
    · rintro ⟨b, ⟨h1, as, bs, h2, _⟩, rfl, rfl⟩
      have : b ∈ [Alg.md5, .sha1, .sha256].filter avail := by rw [h2]; simp
      exact ⟨rfl, (List.mem_filter.1 this).2, by simpa using h1⟩
    · rintro ⟨rfl, h2, h3⟩
      refine ⟨a, ?_, rfl, rfl⟩
      have hne : ∀ b, b ≠ a → ¬ b.name = s.map Char.toLower := by
        intro b hb e
        apply hb
        rw [← h3] at e
        cases a <;> cases b <;> first | rfl | (exact absurd e (by decide))
      have : ([Alg.md5, .sha1, .sha256].filter avail).find? (fun x => decide (x.name = s.map Char.toLower)) = some a := by
        cases a
        · simp [List.filter_cons, h2, h3, List.find?_cons]
        · have := hne .md5 (by decide)
          cases hm : avail .md5 <;> simp [hm, List.filter_cons, h2, h3, List.find?_cons, this]
        · have := hne .md5 (by decide)
          have := hne .sha1 (by decide)
          cases hm : avail .md5 <;> cases hm' : avail .sha1 <;> simp [hm, hm', List.filter_cons, h2, h3, List.find?_cons, *]
      exact List.find?_eq_some_iff_append.1 this
  · rintro fmt hf ⟨f, a⟩
    have : setHashFormat avail fmt = (allowed avail).head?.map fun a => ⟨fmt, a⟩ := by
      rcases hf with rfl | rfl <;> simp [setHashFormat]
    rw [this]
    cases h1 : avail .md5 <;> cases h2 : avail .sha1 <;> cases h3 : avail .sha256 <;> cases a <;> simp [allowed, List.filter_cons, h1, h2, h3, eq_comm]

/-- **C113**: the name of the database tells the hash function: two runs have the same name only if they have the same function, and the plain name stands for md5. -/
theorem C113_filename (g g' : Globals) : (filename g = filename g' → g.func = g'.func) ∧ (filename g = ".sconsign".toList ↔ g.format = none ∧ g.func = .md5) ∧
    (g.format ≠ none → filename g = ".sconsign_".toList ++ g.func.name) := by
  obtain ⟨f, a⟩ := g
  obtain ⟨f', a'⟩ := g'
  cases f <;> cases f' <;> cases a <;> cases a' <;> simp [filename, Alg.name]

variable {F D : Type} [DecidableEq F] [DecidableEq D] {P : Project F D}

/-! ## The other databases stay as they are -/

theorem visit_isolated {n : Str} {old : F → Bool} (fs : List F) : ∀ (W : World F D) (M : Mem F D) (W' : World F D) (M' : Mem F D) (ks : List (F × Str)) (cs : List Bytes), Only n M →
    visit P old W M fs = some (W', M', ks, cs) → ∀ x, x ≠ .project n → W'.db x = W.db x := by
  induction fs with
  | nil =>
    intro W M W' M' ks cs h e
    simp only [visit, Option.some.injEq, Prod.mk.injEq] at e
    obtain ⟨rfl, rfl, rfl, rfl⟩ := e
    exact fun _ _ => rfl
  | cons f fs ih =>
    intro W M W' M' ks cs h e
    rw [visit] at e
    rcases hf : W.files f with _ | c <;> rw [hf] at e
    · cases e
    · simp only at e
      have h1 := getCsig_only (P := P) h W old f c
      rcases hg : getCsig P W old M f c with ⟨M1, k⟩
      rw [hg] at h1 e
      simp only at e
      obtain ⟨h2, h3⟩ := sconsign_only h1 (P.dirOf f)
      rcases hs : sconsign M1 (P.dirOf f) with ⟨M2, x⟩
      rw [hs] at h2 h3 e
      simp only at e h2 h3
      generalize hW : { W with db := Function.update W.db x (Function.update (W.db x) f { W.db x f with csig := some k, stamp := some (W.mtime f) }) } = W1 at e
      rcases hv : visit P old W1 M2 fs with _ | ⟨W2, M3, ks', cs'⟩ <;> rw [hv] at e
      · cases e
      · simp only [Option.some.injEq, Prod.mk.injEq] at e
        obtain ⟨rfl, rfl, rfl, rfl⟩ := e
        intro y hy
        rw [ih _ _ _ _ _ _ h2 hv y hy, ← hW]
        simp only
        rw [Function.update_of_ne]
        rw [h3]; exact hy

theorem tasks_isolated {n : Str} {old : F → Bool} (ts : List F) : ∀ (W W' : World F D) (M M' : Mem F D) (done ex : List F), Only n M → tasks P old W M ts = (W', M', done, ex) →
    Only n M' ∧ ∀ x, x ≠ .project n → W'.db x = W.db x := by
  induction ts with
  | nil =>
    intro W W' M M' done ex h e
    simp only [tasks, Prod.mk.injEq] at e
    obtain ⟨rfl, rfl, rfl, rfl⟩ := e
    exact ⟨h, fun _ _ => rfl⟩
  | cons t ts ih =>
    intro W W' M M' done ex h e
    rw [tasks] at e
    rcases hT : task P old W M t with _ | ⟨W1, M1, b⟩ <;> rw [hT] at e
    · simp only [Prod.mk.injEq] at e
      obtain ⟨rfl, rfl, rfl, rfl⟩ := e
      exact ⟨h, fun _ _ => rfl⟩
    · have key : Only n M1 ∧ ∀ x, x ≠ .project n → W1.db x = W.db x := by
        rw [task] at hT
        rcases hv : visit P old W M (P.deps t) with _ | ⟨W0, M0, ks, cs⟩ <;> rw [hv] at hT
        · cases hT
        obtain ⟨v1, v2⟩ := visit_only _ _ _ _ _ _ _ h hv
        have v3 := visit_isolated _ _ _ _ _ _ _ h hv
        simp only at hT
        obtain ⟨s1, s2⟩ := sconsign_only v1 (P.dirOf t)
        rcases hs : sconsign M0 (P.dirOf t) with ⟨M2, x⟩
        rw [hs] at s1 s2 hT
        simp only at s1 s2 hT
        split at hT
        · simp only [Option.some.injEq, Prod.mk.injEq] at hT
          obtain ⟨rfl, rfl, rfl⟩ := hT
          exact ⟨s1, v3⟩
        · simp only [Option.some.injEq, Prod.mk.injEq] at hT
          obtain ⟨rfl, rfl, rfl⟩ := hT
          refine ⟨⟨s1.per, s1.name, s1.opened, s1.sc⟩, fun y hy => ?_⟩
          simp only
          rw [Function.update_of_ne (by rw [s2]; exact hy)]
          exact v3 y hy
      rcases hR : tasks P old W1 M1 ts with ⟨W2, M2, done', ex'⟩
      simp only [hR, Prod.mk.injEq] at e
      obtain ⟨rfl, rfl, rfl, rfl⟩ := e
      obtain ⟨i1, i2⟩ := ih _ _ _ _ _ _ key.1 hR
      exact ⟨i1, fun x hx => (i2 x hx).trans (key.2 x hx)⟩

/-! ## Scripts -/

theorem script_quiet {old : F → Bool} (es : List (Ev F)) (W : World F D) (M : Mem F D) (h : ∀ e ∈ es, ∃ s, e = .setOption s) :
    script P old W M es = (W, { M with setting := lastSetting es M.setting }) := by
  induction es generalizing M with
  | nil => rfl
  | cons e es ih =>
    obtain ⟨s, rfl⟩ := h e List.mem_cons_self
    rw [script, ih _ fun e he => h e (List.mem_cons_of_mem _ he)]
    rfl

theorem ready_quiet {W W1 : World F D} {M : Mem F D} {r : Run F} (h : Quiet r) (e : ready P W r = some (W1, M)) :
    ∃ g, setHashFormat P.avail (asked r) = some g ∧ W1 = W ∧ Only (filename g) M := by
  rw [ready] at e
  rcases hs : start P with _ | M0 <;> rw [hs] at e
  · cases e
  · rw [start] at hs
    simp only [Option.map_eq_some_iff] at hs
    obtain ⟨g0, _, rfl⟩ := hs
    simp only at e
    rw [script_quiet _ _ _ h] at e
    simp only [Option.map_eq_some_iff, Prod.mk.injEq] at e
    obtain ⟨g, hg, rfl, rfl⟩ := e
    exact ⟨g, hg, rfl, ⟨rfl, rfl, .inl rfl, by simp⟩⟩

/-- **C113**: a run whose script does not use signatures has one database, named after the hash format that was asked for, and touches no other. -/
theorem C113_database {W W' : World F D} {M' : Mem F D} {done ex : List F} (r : Run F) (hq : Quiet r) (hr : run P W r = some (W', M', done, ex)) :
    ∃ g, setHashFormat P.avail (asked r) = some g ∧ (∀ d x, M'.sconsigns d = some x → x = .project (filename g)) ∧ ∀ x, x ≠ .project (filename g) → W'.db x = W.db x := by
  rw [run] at hr
  simp only [Option.map_eq_some_iff] at hr
  obtain ⟨⟨W1, M1⟩, h1, h2⟩ := hr
  obtain ⟨g, hg, rfl, ho⟩ := ready_quiet hq h1
  obtain ⟨t1, t2⟩ := tasks_isolated _ _ _ _ _ _ _ ho h2
  exact ⟨g, hg, t1.sc, t2⟩

theorem visit_name {n : Str} {old : F → Bool} (fs : List F) : ∀ (W : World F D) (M : Mem F D) (W' : World F D) (M' : Mem F D) (ks : List (F × Str)) (cs : List Bytes), M.dbName = some n →
    visit P old W M fs = some (W', M', ks, cs) → M'.dbName = some n := by
  have hsc : ∀ (M : Mem F D) (d : D), M.dbName = some n → (sconsign M d).1.dbName = some n := by
    intro M d h
    rw [sconsign]
    split
    · exact h
    · split
      · exact h
      · simp [h]
  induction fs with
  | nil =>
    intro W M W' M' ks cs h e
    simp only [visit, Option.some.injEq, Prod.mk.injEq] at e
    obtain ⟨rfl, rfl, rfl, rfl⟩ := e
    exact h
  | cons f fs ih =>
    intro W M W' M' ks cs h e
    rw [visit] at e
    rcases hf : W.files f with _ | c <;> rw [hf] at e
    · cases e
    · simp only at e
      have h1 : (getCsig P W old M f c).1.dbName = some n := by
        rw [getCsig]
        rcases hk : M.csigs f with _ | k
        · exact hsc M _ h
        · exact h
      have h2 := hsc _ (P.dirOf f) h1
      generalize hW : { W with db := Function.update W.db (sconsign (getCsig P W old M f c).1 (P.dirOf f)).2 (Function.update (W.db (sconsign (getCsig P W old M f c).1 (P.dirOf f)).2) f { W.db (sconsign (getCsig P W old M f c).1 (P.dirOf f)).2 f with csig := some (getCsig P W old M f c).2, stamp := some (W.mtime f) }) } = W1 at e
      rcases hv : visit P old W1 (sconsign (getCsig P W old M f c).1 (P.dirOf f)).1 fs with _ | ⟨W2, M3, ks', cs'⟩ <;> rw [hv] at e
      · cases e
      · simp only [Option.some.injEq, Prod.mk.injEq] at e
        obtain ⟨rfl, rfl, rfl, rfl⟩ := e
        exact ih _ _ _ _ _ _ h2 hv

theorem script_named {n : Str} {old : F → Bool} (es : List (Ev F)) (he : ∀ e ∈ es, ∀ m, e ≠ .sconsignFile m) : ∀ (W : World F D) (M : Mem F D), Only n M → M.dbName = some n →
    Only n (script P old W M es).2 ∧ (script P old W M es).2.dbName = some n ∧ (script P old W M es).1.last = W.last := by
  induction es with
  | nil => intro W M h h'; exact ⟨h, h', rfl⟩
  | cons e es ih =>
    intro W M h h'
    have ih := ih fun e h => he e (List.mem_cons_of_mem _ h)
    cases e with
    | setOption s => exact ih _ _ ⟨h.per, h.name, h.opened, h.sc⟩ h'
    | sconsignFile m => exact absurd rfl (he _ List.mem_cons_self m)
    | check fs =>
      rw [script]
      rcases hv : visit P old W M fs with _ | ⟨W1, M1, ks, cs⟩
      · exact ih _ _ h h'
      · obtain ⟨v1, v2⟩ := visit_only _ _ _ _ _ _ _ h hv
        obtain ⟨i1, i2, i3⟩ := ih _ _ v1 (visit_name _ _ _ _ _ _ _ h' hv)
        exact ⟨i1, i2, i3.trans v2⟩

/-- Without checks a script opens no database. -/
theorem script_before {old : F → Bool} (pre : List (Ev F)) (hp : ∀ e ∈ pre, ∀ fs, e ≠ .check fs) (rest : List (Ev F)) : ∀ (W : World F D) (M : Mem F D), M.opened = none → (∀ d, M.sconsigns d = none) →
    ∃ M1 : Mem F D, script P old W M (pre ++ rest) = script P old W M1 rest ∧ M1.opened = none ∧ ∀ d, M1.sconsigns d = none := by
  induction pre with
  | nil => intro W M h1 h2; exact ⟨M, rfl, h1, h2⟩
  | cons e pre ih =>
    intro W M h1 h2
    have ih := ih fun e h => hp e (List.mem_cons_of_mem _ h)
    cases e with
    | setOption s => exact ih W _ h1 h2
    | sconsignFile m => cases m <;> exact ih W _ h1 h2
    | check fs => exact absurd rfl (hp _ List.mem_cons_self fs)

theorem ready_named {n : Str} {W W1 : World F D} {M : Mem F D} {r : Run F} (h : Named n r) (e : ready P W r = some (W1, M)) : Only n M ∧ W1.last = W.last := by
  obtain ⟨hn, pre, es, hes, hpre, hno⟩ := h
  rw [ready] at e
  rcases hs : start P with _ | M0 <;> rw [hs] at e
  · cases e
  · rw [start] at hs
    simp only [Option.map_eq_some_iff] at hs
    obtain ⟨g0, _, rfl⟩ := hs
    simp only at e
    obtain ⟨M1, k1, k2, k3⟩ := script_before (P := P) (old := r.old) pre hpre (.sconsignFile (some n) :: es) W (⟨g0, none, none, false, none, fun _ => none, fun _ => none, 65536⟩ : Mem F D) rfl fun _ => rfl
    rw [hes, k1, script, if_neg hn] at e
    obtain ⟨s1, s2, s3⟩ := script_named (P := P) (old := r.old) (n := n) es hno W
      { M1 with perDir := false, dbName := some n } ⟨rfl, rfl, .inl k2, by simp [k3]⟩ rfl
    rcases hsc : script P r.old W { M1 with perDir := false, dbName := some n } es with ⟨W2, M2⟩
    rw [hsc] at s1 s2 s3
    simp only at s1 s2 s3
    simp only [hsc, Option.map_eq_some_iff, Prod.mk.injEq] at e
    obtain ⟨g, hg, rfl, rfl⟩ := e
    exact ⟨⟨s1.per, by simp [s2], s1.opened, s1.sc⟩, s3⟩

/-! ## A database in each directory -/

/-- In memory there are only databases of directories, each of its own, with this name. -/
structure Each (n : Str) (M : Mem F D) : Prop where
  per : M.perDir = true
  name : filename M.g = n
  sc : ∀ d x, M.sconsigns d = some x → x = .dir d n

theorem sconsign_each {n : Str} {M : Mem F D} (h : Each n M) (d : D) : Each n (sconsign M d).1 ∧ (sconsign M d).2 = .dir d n := by
  rw [sconsign]
  rcases hs : M.sconsigns d with _ | x
  · simp only [h.per, ↓reduceIte, h.name]
    refine ⟨⟨rfl, h.name, ?_⟩, trivial⟩
    intro d' x hx
    by_cases hd : d' = d
    · subst hd; simp at hx; exact hx.symm
    · simp only [Function.update_of_ne hd] at hx; exact h.sc d' x hx
  · exact ⟨h, h.sc d x hs⟩

theorem getCsig_each {n : Str} {M : Mem F D} (h : Each n M) (W : World F D) (old : F → Bool) (f : F) (c : Bytes) : Each n (getCsig P W old M f c).1 := by
  rw [getCsig]
  rcases hk : M.csigs f with _ | k
  · have := (sconsign_each h (P.dirOf f)).1
    rcases hs : sconsign M (P.dirOf f) with ⟨M1, x⟩
    rw [hs] at this
    exact ⟨this.per, this.name, this.sc⟩
  · exact h

theorem visit_each {n : Str} {old : F → Bool} (fs : List F) : ∀ (W : World F D) (M : Mem F D) (W' : World F D) (M' : Mem F D) (ks : List (F × Str)) (cs : List Bytes), Each n M →
    visit P old W M fs = some (W', M', ks, cs) → Each n M' ∧ ∀ x, (∀ d, x ≠ .dir d n) → W'.db x = W.db x := by
  induction fs with
  | nil =>
    intro W M W' M' ks cs h e
    simp only [visit, Option.some.injEq, Prod.mk.injEq] at e
    obtain ⟨rfl, rfl, rfl, rfl⟩ := e
    exact ⟨h, fun _ _ => rfl⟩
  | cons f fs ih =>
    intro W M W' M' ks cs h e
    rw [visit] at e
    rcases hf : W.files f with _ | c <;> rw [hf] at e
    · cases e
    · simp only at e
      have h1 := getCsig_each (P := P) h W old f c
      rcases hg : getCsig P W old M f c with ⟨M1, k⟩
      rw [hg] at h1 e
      simp only at e
      obtain ⟨h2, h3⟩ := sconsign_each h1 (P.dirOf f)
      rcases hs : sconsign M1 (P.dirOf f) with ⟨M2, x⟩
      rw [hs] at h2 h3 e
      simp only at e h2 h3
      generalize hW : { W with db := Function.update W.db x (Function.update (W.db x) f { W.db x f with csig := some k, stamp := some (W.mtime f) }) } = W1 at e
      rcases hv : visit P old W1 M2 fs with _ | ⟨W2, M3, ks', cs'⟩ <;> rw [hv] at e
      · cases e
      · simp only [Option.some.injEq, Prod.mk.injEq] at e
        obtain ⟨rfl, rfl, rfl, rfl⟩ := e
        obtain ⟨i1, i2⟩ := ih _ _ _ _ _ _ h2 hv
        refine ⟨i1, fun y hy => ?_⟩
        rw [i2 y hy, ← hW]
        simp only
        rw [Function.update_of_ne]
        rw [h3]; exact hy _

theorem tasks_each {n : Str} {old : F → Bool} (ts : List F) : ∀ (W W' : World F D) (M M' : Mem F D) (done ex : List F), Each n M → tasks P old W M ts = (W', M', done, ex) →
    Each n M' ∧ ∀ x, (∀ d, x ≠ .dir d n) → W'.db x = W.db x := by
  induction ts with
  | nil =>
    intro W W' M M' done ex h e
    simp only [tasks, Prod.mk.injEq] at e
    obtain ⟨rfl, rfl, rfl, rfl⟩ := e
    exact ⟨h, fun _ _ => rfl⟩
  | cons t ts ih =>
    intro W W' M M' done ex h e
    rw [tasks] at e
    rcases hT : task P old W M t with _ | ⟨W1, M1, b⟩ <;> rw [hT] at e
    · simp only [Prod.mk.injEq] at e
      obtain ⟨rfl, rfl, rfl, rfl⟩ := e
      exact ⟨h, fun _ _ => rfl⟩
    · have key : Each n M1 ∧ ∀ x, (∀ d, x ≠ .dir d n) → W1.db x = W.db x := by
        rw [task] at hT
        rcases hv : visit P old W M (P.deps t) with _ | ⟨W0, M0, ks, cs⟩ <;> rw [hv] at hT
        · cases hT
        obtain ⟨v1, v3⟩ := visit_each _ _ _ _ _ _ _ h hv
        simp only at hT
        obtain ⟨s1, s2⟩ := sconsign_each v1 (P.dirOf t)
        rcases hs : sconsign M0 (P.dirOf t) with ⟨M2, x⟩
        rw [hs] at s1 s2 hT
        simp only at s1 s2 hT
        split at hT
        · simp only [Option.some.injEq, Prod.mk.injEq] at hT
          obtain ⟨rfl, rfl, rfl⟩ := hT
          exact ⟨s1, v3⟩
        · simp only [Option.some.injEq, Prod.mk.injEq] at hT
          obtain ⟨rfl, rfl, rfl⟩ := hT
          refine ⟨⟨s1.per, s1.name, s1.sc⟩, fun y hy => ?_⟩
          simp only
          rw [Function.update_of_ne (by rw [s2]; exact hy _)]
          exact v3 y hy
      rcases hR : tasks P old W1 M1 ts with ⟨W2, M2, done', ex'⟩
      simp only [hR, Prod.mk.injEq] at e
      obtain ⟨rfl, rfl, rfl, rfl⟩ := e
      obtain ⟨i1, i2⟩ := ih _ _ _ _ _ _ key.1 hR
      exact ⟨i1, fun x hx => (i2 x hx).trans (key.2 x hx)⟩

/-- **C113**: after `SConsignFile(None)` each directory has its own database, named after the hash format that was asked for, and no other is touched. -/
theorem C113_directories {W W' : World F D} {M' : Mem F D} {done ex : List F} (r : Run F) (hq : PerDirectory r) (hr : run P W r = some (W', M', done, ex)) :
    ∃ g, setHashFormat P.avail (asked r) = some g ∧ (∀ d x, M'.sconsigns d = some x → x = .dir d (filename g)) ∧ ∀ x, (∀ d, x ≠ .dir d (filename g)) → W'.db x = W.db x := by
  rw [run] at hr
  simp only [Option.map_eq_some_iff] at hr
  obtain ⟨⟨W1, M1⟩, h1, h2⟩ := hr
  obtain ⟨es, hes, hq⟩ := hq
  rw [ready] at h1
  rcases hs : start P with _ | M0 <;> rw [hs] at h1
  · cases h1
  · rw [start] at hs
    simp only [Option.map_eq_some_iff] at hs
    obtain ⟨g0, _, rfl⟩ := hs
    simp only at h1
    rw [hes, script, script_quiet _ _ _ hq] at h1
    simp only [Option.map_eq_some_iff, Prod.mk.injEq] at h1
    obtain ⟨g, hg, rfl, rfl⟩ := h1
    obtain ⟨t1, t2⟩ := tasks_each _ _ _ _ _ _ _ ⟨rfl, rfl, by simp⟩ h2
    refine ⟨g, ?_, t1.sc, t2⟩
    rw [← hg, asked, hes]
    rfl

/-- What both kinds of histories have in common. -/
theorem one (n : Str) (ok : World F D → Run F → Prop) (hok : ∀ W r, ok W r → Ordered P r.targets ∧ ∀ W1 M, ready P W r = some (W1, M) → Only n M ∧ W1.last = W.last)
    (hL : Lengths P) {W W' : World F D} {M' : Mem F D} {done ex : List F} (h : Hist P ok W) (r : Run F) (ho : ok W r) (hr : run P W r = some (W', M', done, ex)) :
    Collision P W' ∨ ∀ t ∈ done, W'.last t = none ∨ Right P W' t := by
  have hmade : ∀ {W W' : World F D} {M' : Mem F D} {done ex : List F} (r : Run F), Made n W → ok W r → run P W r = some (W', M', done, ex) → Made n W' ∧ Only n M' := by
    intro W W' M' done ex r hm ho hr
    rw [run] at hr
    simp only [Option.map_eq_some_iff] at hr
    obtain ⟨⟨W1, M1⟩, h1, h2⟩ := hr
    obtain ⟨r1, r2⟩ := (hok _ _ ho).2 _ _ h1
    have := tasks_only _ _ _ _ _ _ _ r1 (fun t => by rw [r2]; exact hm t) h2
    exact ⟨this.2, this.1⟩
  have hall : ∀ {W : World F D}, Hist P ok W → Made n W := by
    intro W h
    induction h with
    | new => exact fun _ => .inl rfl
    | @edit W f c _ ih =>
      intro t
      by_cases ht : t = f
      · subst ht; left; simp [edit]
      · simpa [edit, Function.update_of_ne ht] using ih t
    | run r _ ho hr ih => exact (hmade r ih ho hr).1
  by_cases hC : Collision P W'
  · exact .inl hC
  · refine .inr fun t ht => ?_
    obtain ⟨m1, m2⟩ := hmade r (hall h) ho hr
    obtain ⟨x, h1, h2⟩ := (run_spec (hist_inv (fun W r h => (hok W r h).1) h) (hok _ _ ho).1 hr).2 t ht
    rcases m1 t with hl | hl
    · exact .inl hl
    · exact .inr (h2 hL hC (by rw [hl, m2.sc _ _ h1]))

/-- **C113**: a project that names its database (`SConsignFile(n)`) may be built with any hash formats in any order, with configure checks or without: every target that is visited is right, unless the user wrote it. -/
theorem C113_named (n : Str) (hL : Lengths P) {W W' : World F D} {M' : Mem F D} {done ex : List F} (h : Hist P (fun _ r => Ordered P r.targets ∧ Named n r) W) (r : Run F)
    (ho : Ordered P r.targets ∧ Named n r) (hr : run P W r = some (W', M', done, ex)) : Collision P W' ∨ ∀ t ∈ done, W'.last t = none ∨ Right P W' t :=
  one n _ (fun _ _ h => ⟨h.1, fun _ _ e => ready_named h.2 e⟩) hL h r ho hr

/-- **C113**: so may one that is always built with the same hash format. -/
theorem C113_one_format (fmt : Option Str) (hL : Lengths P) {W W' : World F D} {M' : Mem F D} {done ex : List F} (h : Hist P (fun _ r => Ordered P r.targets ∧ Quiet r ∧ asked r = fmt) W) (r : Run F)
    (ho : Ordered P r.targets ∧ Quiet r ∧ asked r = fmt) (hr : run P W r = some (W', M', done, ex)) : Collision P W' ∨ ∀ t ∈ done, W'.last t = none ∨ Right P W' t := by
  rcases hg : setHashFormat P.avail fmt with _ | g
  · rw [run] at hr
    simp only [Option.map_eq_some_iff] at hr
    obtain ⟨⟨W1, M1⟩, h1, h2⟩ := hr
    obtain ⟨g, h3, _⟩ := ready_quiet ho.2.1 h1
    rw [ho.2.2, hg] at h3; cases h3
  · refine one (filename g) _ (fun W r h => ⟨h.1, fun _ _ e => ?_⟩) hL h r ho hr
    obtain ⟨g', h1, h2, h3⟩ := ready_quiet h.2.1 e
    rw [h.2.2, hg] at h1; cases h1
    exact ⟨h3, by rw [h2]⟩

end Verif.Hash
