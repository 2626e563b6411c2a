import Verif.Prep.Props

/-!
# What is done before a command is run (C116): the theorems about one task
-/

namespace Verif.Prep

/-! ## What is touched -/

/-- Only files in `R` were removed, and only directories in `M` made, where nothing was or where a file was removed. -/
def Touch (R M : Path → Prop) (d d' : Disk) : Prop := ∀ q, d' q = d q ∨ (R q ∧ d' q = none) ∨ (M q ∧ d' q = some .dir ∧ (d q = none ∨ R q))

theorem Touch.refl {R M : Path → Prop} (d : Disk) : Touch R M d d := fun _ => .inl rfl

theorem Touch.of_eq {R M : Path → Prop} {d d' : Disk} (h : d' = d) : Touch R M d d' := fun _ => .inl (by rw [h])

theorem Touch.trans {R M : Path → Prop} {a b c : Disk} (h1 : Touch R M a b) (h2 : Touch R M b c) : Touch R M a c := by
  intro q
  rcases h2 q with h | h | ⟨h, h', h''⟩
  · rw [h]; exact h1 q
  · exact .inr (.inl h)
  · refine .inr (.inr ⟨h, h', ?_⟩)
    rcases h'' with h'' | h''
    · rcases h1 q with k | ⟨k, _⟩ | ⟨_, k, k'⟩
      · left; rw [← k]; exact h''
      · exact .inr k
      · exact k'
    · exact .inr h''

theorem Touch.mono {R M R' M' : Path → Prop} {a b : Disk} (h : Touch R M a b) (hr : ∀ q, R q → R' q) (hm : ∀ q, M q → M' q) : Touch R' M' a b := by
  intro q
  rcases h q with h | ⟨h, h'⟩ | ⟨h, h', h''⟩
  · exact .inl h
  · exact .inr (.inl ⟨hr q h, h'⟩)
  · exact .inr (.inr ⟨hm q h, h', h''.imp id (hr q)⟩)

theorem buildDir_touch (ex : Bool) (R : Path → Prop) (s : St) (p : Path) : Touch R (fun q => q = p) s.disk (buildDir ex s p).2.disk := by
  unfold buildDir
  split
  · exact .refl _
  · have hl := exists_looked s p
    rcases hx : exists? s p with ⟨b, s1⟩
    rw [hx] at hl
    replace hl : Looked s s1 := hl
    simp only
    split
    · exact .of_eq hl.disk
    · rcases hm : mkdir s1.disk p with _ | d
      · exact .of_eq hl.disk
      · show Touch _ _ _ d
        cases p with
        | nil => simp [mkdir] at hm; subst hm; exact .of_eq hl.disk
        | cons c r =>
          rw [mkdir] at hm
          split at hm
          · simp at hm; subst hm; exact .of_eq hl.disk
          · rename_i hn
            split at hm
            · simp only [Option.some.injEq] at hm
              subst hm
              intro q
              by_cases he : q = c :: r
              · subst he
                refine .inr (.inr ⟨rfl, upd_same .., .inl ?_⟩)
                rw [← hl.disk]
                by_contra h
                exact hn h
              · left; rw [upd_ne _ _ he, hl.disk]
            · simp at hm

theorem buildDirs_touch (ex : Bool) (R : Path → Prop) (l : List Path) (s : St) : Touch R (fun q => q ∈ l) s.disk (buildDirs ex s l).2.disk := by
  induction l generalizing s with
  | nil => exact .refl _
  | cons p l ih =>
    have h1 := buildDir_touch ex R s p
    rw [buildDirs]
    rcases hb : buildDir ex s p with ⟨e | u, s1⟩ <;> rw [hb] at h1
    · exact h1.mono (fun _ h => h) (by rintro q rfl; simp)
    · exact (h1.mono (fun _ h => h) (by rintro q rfl; simp)).trans ((ih s1).mono (fun _ h => h) (by intro q h; simp [h]))

theorem climb_looked (p : Path) (s : St) : Looked s (climb s p).2 := by
  induction p generalizing s with
  | nil =>
    have := exists_looked s []
    simp only [climb]
    split <;> exact this
  | cons c r ih =>
    have h1 := exists_looked s (c :: r)
    simp only [climb]
    split
    · exact h1
    · have h2 := ih (exists? s (c :: r)).2
      rcases hc : climb (exists? s (c :: r)).2 r with ⟨e | l, s1⟩ <;> rw [hc] at h2 <;> exact h1.trans h2

theorem climb_above (p : Path) (s : St) (l : List Path) (h : (climb s p).1 = .ok l) : ∀ q ∈ l, ∃ k, p = k ++ q := by
  induction p generalizing s l with
  | nil =>
    simp only [climb] at h
    split at h
    · simp at h; subst h; simp
    · simp at h
  | cons c r ih =>
    simp only [climb] at h
    split at h
    · simp at h; subst h; simp
    · rcases hc : climb (exists? s (c :: r)).2 r with ⟨e | l', s1⟩ <;> rw [hc] at h
      · simp at h
      · simp only [Except.ok.injEq] at h
        subst h
        intro q hq
        rcases List.mem_cons.1 hq with rfl | hq
        · exact ⟨[], rfl⟩
        · obtain ⟨k, hk⟩ := ih _ l' (by rw [hc]) q hq
          exact ⟨c :: k, by simp [hk]⟩

theorem create_touch (ex : Bool) (R : Path → Prop) (s : St) (p : Path) : Touch R (fun q => ∃ k, p = k ++ q) s.disk (create ex s p).2.disk := by
  have h1 := climb_looked p s
  have h2 := climb_above p s
  rw [create]
  rcases hc : climb s p with ⟨e | l, s1⟩ <;> rw [hc] at h1
  · exact .of_eq h1.disk
  · have h3 := buildDirs_touch ex R l.reverse s1
    rw [show s1.disk = s.disk from h1.disk] at h3
    exact h3.mono (fun _ h => h) fun q hq => h2 l (by rw [hc]) q (List.mem_reverse.1 hq)

theorem rmv_touch (ex : Bool) (M : Path → Prop) (s : St) (p : Path) : Touch (fun q => q = p) M s.disk (rmv ex s p).2.disk := by
  simp only [rmv]
  split
  · exact .refl _
  · split
    · exact .refl _
    · intro q
      by_cases he : q = p
      · subst he; exact .inr (.inl ⟨rfl, upd_same ..⟩)
      · exact .inl (upd_ne _ _ he)

theorem filePrepare_touch (G : Graph) (ex : Bool) (s : St) (p : Path) :
    Touch (fun q => q = p ∧ Removable G p) (fun q => G.upToDate p = false ∧ Above q p) s.disk (filePrepare G ex s p).2.disk := by
  have h1 := checkAll_looked G .noDepends (G.depends p) s
  rw [filePrepare]
  rcases hc : checkAll G .noDepends s (G.depends p) with ⟨e | u, s1⟩ <;> rw [hc] at h1
  · exact .of_eq h1.disk
  · have h2 := checkAll_looked G .noImplicit (G.implicit p) s1
    simp only
    rcases hc2 : checkAll G .noImplicit s1 (G.implicit p) with ⟨e | u, s2⟩ <;> rw [hc2] at h2
    · exact .of_eq (h1.trans h2).disk
    · simp only
      by_cases hu : G.upToDate p = true
      · rw [if_pos hu]; exact .of_eq (h1.trans h2).disk
      · rw [if_neg hu]
        have hu' : G.upToDate p = false := by simpa using hu
        have h3 := exists_looked s2 p
        rcases hx : exists? s2 p with ⟨b, s3⟩
        rw [hx] at h3
        have h4 : Looked s s3 := (h1.trans h2).trans h3
        simp only
        split
        · split
          · rename_i hd
            simp only [Bool.and_eq_true, Bool.not_eq_true'] at hd
            rw [← h4.disk]
            exact (rmv_touch ex _ s3 p).mono (by rintro q rfl; exact ⟨rfl, hd.1, hd.2, hu'⟩) fun _ h => h
          · exact .of_eq h4.disk
        · rw [← h4.disk]
          by_cases hp : p = []
          · subst hp
            -- the root itself: nothing above it
            have : (create ex s3 ([] : Path).tail).2.disk = s3.disk := by
              funext q
              simp only [List.tail_nil, create]
              have h5 := climb_looked [] s3
              rcases hc3 : climb s3 [] with ⟨e | l, s4⟩ <;> rw [hc3] at h5
              · show s4.disk q = _; rw [← h5.disk]
              · simp only [climb] at hc3
                split at hc3
                · injection hc3 with hc3 _
                  simp at hc3
                  subst hc3
                  show s4.disk q = _; rw [← h5.disk]
                · simp at hc3
            exact .of_eq this
          · refine (create_touch ex _ s3 p.tail).mono (fun _ h => h) ?_
            rintro q ⟨k, hk⟩
            obtain ⟨c, r, rfl⟩ := List.exists_cons_of_ne_nil hp
            exact ⟨hu', c :: k, by simp, by simp at hk; simp [hk]⟩

theorem prepareAll_touch (G : Graph) (ex : Bool) (l : List Path) (s : St) :
    Touch (fun q => q ∈ l ∧ Removable G q) (fun q => ∃ p ∈ l, G.upToDate p = false ∧ Above q p) s.disk (prepareAll G ex s l).2.disk := by
  induction l generalizing s with
  | nil => exact .refl _
  | cons p l ih =>
    have h1 : Touch (fun q => q ∈ p :: l ∧ Removable G q) (fun q => ∃ p' ∈ p :: l, G.upToDate p' = false ∧ Above q p') s.disk (filePrepare G ex s p).2.disk :=
      (filePrepare_touch G ex s p).mono (by rintro q ⟨rfl, h⟩; exact ⟨by simp, h⟩) fun q h => ⟨p, by simp, h⟩
    rw [prepareAll]
    rcases hb : filePrepare G ex s p with ⟨e | u, s1⟩ <;> rw [hb] at h1
    · exact h1
    · refine h1.trans ((ih s1).mono ?_ ?_)
      · rintro q ⟨h, h'⟩; exact ⟨by simp [h], h'⟩
      · rintro q ⟨p', h, h'⟩; exact ⟨p', by simp [h], h'⟩

/-- **C116.** Whatever nodes remember and however it ends, before a command is run only files are removed that are its targets or side effects, built, not precious and not up to date, and only directories made that
such files are in, where nothing was (or one of the removed files). -/
theorem C116_frame (G : Graph) (ex : Bool) (s : St) (t : Task) (q : Path) :
    let d := (taskPrepare G ex s t).2.disk
    d q = s.disk q ∨ ((q ∈ t.nodes G ∧ Removable G q) ∧ d q = none) ∨
    ((∃ p ∈ t.nodes G, G.upToDate p = false ∧ Above q p) ∧ d q = some .dir ∧ (s.disk q = none ∨ (q ∈ t.nodes G ∧ Removable G q))) := by
  have h1 := checkAll_looked G .noSource t.sources s
  simp only [taskPrepare]
  rcases hc : checkAll G .noSource s t.sources with ⟨e | u, s1⟩ <;> rw [hc] at h1
  · left; show s1.disk q = _; rw [← h1.disk]
  · have := prepareAll_touch G ex (t.nodes G) s1 q
    rw [show s1.disk = s.disk from h1.disk] at this
    exact this

/-- With a source missing the command is not run and nothing at all is touched. -/
theorem C116_missing_source (G : Graph) (ex : Bool) (s : St) (t : Task) (h : ∃ p ∈ t.sources, Absent G s p) :
    (∃ q ∈ t.sources, (taskPrepare G ex s t).1 = .error (.noSource q)) ∧ (taskPrepare G ex s t).2.disk = s.disk := by
  have h1 := checkAll_looked G .noSource t.sources s
  obtain ⟨q, hq, he⟩ := checkAll_bad G .noSource t.sources s h
  simp only [taskPrepare]
  rcases hc : checkAll G .noSource s t.sources with ⟨e | u, s1⟩ <;> rw [hc] at h1 he
  · exact ⟨⟨q, hq, he⟩, h1.disk⟩
  · simp at he

/-- The same for up-to-date targets' own checks: nothing is touched for targets that are up to date. -/
theorem C116_up_to_date (G : Graph) (ex : Bool) (s : St) (t : Task) (h : ∀ p ∈ t.nodes G, G.upToDate p = true) : (taskPrepare G ex s t).2.disk = s.disk := by
  funext q
  rcases C116_frame G ex s t q with h1 | ⟨⟨h1, h2⟩, _⟩ | ⟨⟨p, h1, h2, _⟩, _⟩
  · exact h1
  · simp [Removable, h q h1] at h2
  · rw [h p h1] at h2; cases h2

/-! ## Under -n -/

theorem buildDirs_dry (l : List Path) (s : St) : (buildDirs false s l).2.disk = s.disk := by
  induction l generalizing s with
  | nil => rfl
  | cons p l ih => simp only [buildDirs, buildDir, Bool.not_false, Bool.or_true, if_true]; rw [ih]

theorem create_dry (s : St) (p : Path) : (create false s p).2.disk = s.disk := by
  have h1 := climb_looked p s
  rw [create]
  rcases hc : climb s p with ⟨e | l, s1⟩ <;> rw [hc] at h1
  · exact h1.disk
  · rw [buildDirs_dry]; exact h1.disk

theorem filePrepare_dry (G : Graph) (s : St) (p : Path) : (filePrepare G false s p).2.disk = s.disk := by
  have h1 := checkAll_looked G .noDepends (G.depends p) s
  rw [filePrepare]
  rcases hc : checkAll G .noDepends s (G.depends p) with ⟨e | u, s1⟩ <;> rw [hc] at h1
  · exact h1.disk
  · have h2 := checkAll_looked G .noImplicit (G.implicit p) s1
    simp only
    rcases hc2 : checkAll G .noImplicit s1 (G.implicit p) with ⟨e | u, s2⟩ <;> rw [hc2] at h2
    · exact (h1.trans h2).disk
    · simp only
      by_cases hu : G.upToDate p = true
      · rw [if_pos hu]; exact (h1.trans h2).disk
      · rw [if_neg hu]
        have h3 := exists_looked s2 p
        rcases hx : exists? s2 p with ⟨b, s3⟩
        rw [hx] at h3
        have h4 := ((h1.trans h2).trans h3).disk
        simp only
        split
        · split
          · exact h4
          · exact h4
        · rw [create_dry]; exact h4

/-- Under -n nothing is touched, ever. -/
theorem C116_dry_run (G : Graph) (s : St) (t : Task) : (taskPrepare G false s t).2.disk = s.disk := by
  have h1 := checkAll_looked G .noSource t.sources s
  rw [taskPrepare]
  rcases hc : checkAll G .noSource s t.sources with ⟨e | u, s1⟩ <;> rw [hc] at h1
  · exact h1.disk
  · show (prepareAll G false s1 (t.nodes G)).2.disk = _
    have : ∀ (l : List Path) (s : St), (prepareAll G false s l).2.disk = s.disk := by
      intro l
      induction l with
      | nil => intro s; rfl
      | cons p l ih =>
        intro s
        have h := filePrepare_dry G s p
        rw [prepareAll]
        rcases hb : filePrepare G false s p with ⟨e | u, s1⟩ <;> rw [hb] at h
        · exact h
        · show (prepareAll G false s1 l).2.disk = _; rw [ih]; exact h
    rw [this]; exact h1.disk

/-! ## Ready -/

/-- What a command finds: the directories of its targets, and the targets removed that are to be. -/
def Ready (G : Graph) (d : Disk) (p : Path) : Prop := (G.upToDate p = false → DirsThere d p) ∧ (Removable G p → d p = none)

theorem rmv_spec {N T : Path → Prop} {s : St} (hi : Inv N T s) {p : Path} (hp : N p) :
    ∃ s', rmv true s p = (.ok (), s') ∧ Inv N T s' ∧ s'.disk p = none ∧ (∀ q, q ≠ p → s'.disk q = s.disk q ∧ s'.memo q = s.memo q) := by
  obtain ⟨hpne, hpnd, hpdir⟩ := hi.tree.files p hp
  refine ⟨{ disk := upd s.disk p none, memo := upd s.memo p none, made := s.made }, ?_, ?_, upd_same .., fun q hq => ⟨upd_ne _ _ hq, upd_ne _ _ hq⟩⟩
  · simp only [rmv, Bool.not_true, Bool.false_eq_true, if_false]
  · have hdir : ∀ q, s.disk q = some .dir → upd s.disk p none q = some .dir := by
      intro q hq
      rw [upd_ne]; exact hq
      rintro rfl; exact hpdir hq
    refine ⟨⟨hdir _ hi.tree.root, ?_, ?_, ?_⟩, ?_, ?_, ?_, ?_, ?_⟩
    · intro q hq
      show upd s.disk p none q = _ ∨ upd s.disk p none q = _
      rw [upd_ne _ _ (by rintro rfl; exact hpnd hq)]; exact hi.tree.need q hq
    · intro c q hq hn
      refine hdir _ (hi.tree.up c q hq ?_)
      intro h
      by_cases he : c :: q = p
      · subst he; exact hn (upd_same ..)
      · apply hn; show upd s.disk p none (c :: q) = _; rw [upd_ne _ _ he]; exact h
    · intro q hq
      obtain ⟨h1, h2, h3⟩ := hi.tree.files q hq
      refine ⟨h1, h2, ?_⟩
      show upd s.disk p none q ≠ _
      unfold upd; split
      · simp
      · exact h3
    · show upd s.memo p none [] ≠ _
      rw [upd_ne _ _ (Ne.symm hpne)]; exact hi.fresh.rootMemo
    · intro q hq hm
      dsimp only at hm
      have hne : q ≠ p := by rintro rfl; exact hpnd hq
      rw [upd_ne _ _ hne] at hm
      exact hdir _ (hi.fresh.dirs q hq hm)
    · intro q hq hm
      exact hdir _ (hi.fresh.made q hq hm)
    · intro x q hq hm
      dsimp only at hm
      by_cases he : x :: q = p
      · rw [he, upd_same] at hm; cases hm
      · rw [upd_ne _ _ he] at hm; exact hdir _ (hi.fresh.seen x q hq hm)
    · intro q b hq hm
      dsimp only at hm
      by_cases he : q = p
      · subst he; rw [upd_same] at hm; cases hm
      · rw [upd_ne _ _ he] at hm
        rw [hi.fresh.files q b hq hm, stat, stat]; dsimp only; rw [upd_ne _ _ he]

theorem present_keeps {G : Graph} {s s' : St} (h : Keeps s s') {p : Path} (hp : Present G s p) : Present G s' p := by
  rcases hp with hp | hp | hp | ⟨h1, h2⟩
  · exact .inl hp
  · exact .inr (.inl hp)
  · exact .inr (.inr (.inl hp))
  · exact .inr (.inr (.inr (h p h1 h2)))

theorem filePrepare_spec {N T : Path → Prop} (hTN : ∀ p, T p → N p) (G : Graph) {s : St} (hi : Inv N T s) {p : Path} (hN : N p) (hp : Removable G p → T p)
    (h1 : ∀ d ∈ G.depends p, Present G s d) (h2 : ∀ d ∈ G.implicit p, Present G s d) :
    ∃ s', filePrepare G true s p = (.ok (), s') ∧ Inv N T s' ∧ Ready G s'.disk p ∧ ∀ q, Present G s q → Present G s' q := by
  obtain ⟨hpne, hpnd, hpdir⟩ := hi.tree.files p hN
  have l1 := checkAll_looked G .noDepends (G.depends p) s
  have o1 := checkAll_ok G .noDepends (G.depends p) s h1
  rcases hc1 : checkAll G .noDepends s (G.depends p) with ⟨e1, s1⟩
  rw [hc1] at l1 o1
  replace l1 : Looked s s1 := l1
  have l2 := checkAll_looked G .noImplicit (G.implicit p) s1
  have o2 := checkAll_ok G .noImplicit (G.implicit p) s1 fun d hd => l1.present (h2 d hd)
  rcases hc2 : checkAll G .noImplicit s1 (G.implicit p) with ⟨e2, s2⟩
  rw [hc2] at l2 o2
  replace l2 : Looked s s2 := l1.trans l2
  simp only at o1 o2
  subst o1 o2
  simp only [filePrepare, hc1, hc2]
  by_cases hu : G.upToDate p = true
  · rw [if_pos hu]
    exact ⟨s2, rfl, l2.inv hi, ⟨by simp [hu], by simp [Removable, hu]⟩, fun q hq => l2.present hq⟩
  · rw [if_neg hu]
    have hx1 := exists_looked s2 p
    have hx2 := exists_eq s2 p
    rcases hx : exists? s2 p with ⟨b, s3⟩
    rw [hx] at hx1 hx2
    have l3 : Looked s s3 := l2.trans hx1
    have i3 := l3.inv hi
    have hb : Removable G p → b = stat s.disk p := by
      intro hrem
      simp only at hx2
      have i2 := l2.inv hi
      rcases hm : s2.memo p with _ | b'
      · rw [hm] at hx2; rw [hx2, ← l2.disk]; rfl
      · rw [hm] at hx2
        rw [hx2, ← l2.disk]
        exact i2.fresh.files p b' (hp hrem) hm
    obtain ⟨c, r, rfl⟩ := List.exists_cons_of_ne_nil hpne
    simp only
    by_cases hex : (b || isLink s3.disk (c :: r)) = true
    · rw [if_pos hex]
      have hdirs : DirsThere s3.disk (c :: r) := by
        refine dirsThere_of i3.tree hN ?_
        simp only at hx2
        simp only [Bool.or_eq_true] at hex
        rcases hex with hex | hex
        · rw [hex] at hx2
          rw [l3.disk, ← l2.disk]
          rcases hm : s2.memo (c :: r) with _ | b'
          · rw [hm] at hx2
            refine (l2.inv hi).tree.up c r (.inl hN) fun h => ?_
            simp [stat, h] at hx2
          · rw [hm] at hx2
            simp only [Option.getD_some] at hx2
            subst hx2
            exact (l2.inv hi).fresh.seen c r hN hm
        · refine i3.tree.up c r (.inl hN) fun h => ?_
          simp [isLink, h] at hex
      by_cases hr : (G.derived (c :: r) && !G.precious (c :: r)) = true
      · rw [if_pos hr]
        obtain ⟨s4, k1, k2, k3, k4⟩ := rmv_spec i3 hN
        refine ⟨s4, k1, k2, ⟨fun _ q hq => ?_, fun _ => k3⟩, ?_⟩
        · have : q ≠ c :: r := by rintro rfl; exact hpnd ⟨_, hN, hq⟩
          rw [(k4 q this).1]; exact hdirs q hq
        · intro q hq
          by_cases he : q = c :: r
          · subst he
            simp only [Bool.and_eq_true] at hr
            exact .inl hr.1
          · rcases l3.present hq with h | h | h | ⟨h, h'⟩
            · exact .inl h
            · exact .inr (.inl h)
            · exact .inr (.inr (.inl h))
            · refine .inr (.inr (.inr ⟨?_, by rw [(k4 q he).2]; exact h'⟩))
              rw [stat, (k4 q he).1]; exact h
      · rw [if_neg hr]
        refine ⟨s3, rfl, i3, ⟨fun _ => hdirs, ?_⟩, fun q hq => l3.present hq⟩
        intro hR
        rw [hR.1, hR.2.1] at hr
        simp at hr
    · rw [if_neg hex]
      have hnone : Removable G (c :: r) → s3.disk (c :: r) = none := by
        intro hrem
        rw [hb hrem, ← l3.disk] at hex
        rcases hd : s3.disk (c :: r) with _ | e
        · rfl
        · cases e <;> simp [stat, isLink, hd] at hex
      obtain ⟨s4, k1, k2, k3, k4, k5⟩ := create_spec hTN r i3 ⟨_, hN, above_self c r⟩
      refine ⟨s4, k1, k2, ⟨fun _ => dirsThere_of k2.tree hN k3, fun hrem => ?_⟩, fun q hq => present_keeps k5 (l3.present hq)⟩
      rcases k4.disk (c :: r) with h | ⟨_, _, l, hl⟩
      · rw [h]; exact hnone hrem
      · have := congrArg List.length hl
        simp at this
        omega

theorem ready_touch {N : Path → Prop} {G : Graph} {R M : Path → Prop} {d d' : Disk} (h : Touch R M d d') (hR : ∀ q, R q → ¬ NeedDir N q) (hM : ∀ q, M q → NeedDir N q)
    {p : Path} (hp : N p) (hnd : ¬ NeedDir N p) (hr : Ready G d p) : Ready G d' p := by
  refine ⟨fun hu q hq => ?_, fun hrm => ?_⟩
  · have hq' : NeedDir N q := ⟨p, hp, hq⟩
    rcases h q with k | ⟨k, _⟩ | ⟨_, k, _⟩
    · rw [k]; exact hr.1 hu q hq
    · exact absurd hq' (hR q k)
    · exact k
  · rcases h p with k | ⟨_, k⟩ | ⟨k, _⟩
    · rw [k]; exact hr.2 hrm
    · exact k
    · exact absurd (hM p k) hnd

theorem prepareAll_spec {N T : Path → Prop} (hTN : ∀ p, T p → N p) (G : Graph) (l : List Path) : ∀ {s : St}, Inv N T s → (∀ p ∈ l, N p ∧ (Removable G p → T p)) →
    (∀ p ∈ l, ∀ d, d ∈ G.depends p ∨ d ∈ G.implicit p → Present G s d) →
    ∃ s', prepareAll G true s l = (.ok (), s') ∧ Inv N T s' ∧ (∀ p ∈ l, Ready G s'.disk p) ∧ ∀ q, Present G s q → Present G s' q := by
  induction l with
  | nil => intro s hi _ _; exact ⟨s, rfl, hi, by simp, fun _ h => h⟩
  | cons p l ih =>
    intro s hi hT hd
    obtain ⟨s1, k1, k2, k3, k4⟩ := filePrepare_spec hTN G hi (hT p (by simp)).1 (hT p (by simp)).2 (fun d h => hd p (by simp) d (.inl h)) (fun d h => hd p (by simp) d (.inr h))
    obtain ⟨s2, j1, j2, j3, j4⟩ := ih k2 (fun q hq => hT q (by simp [hq])) (fun q hq d h => k4 d (hd q (by simp [hq]) d h))
    refine ⟨s2, by rw [prepareAll, k1]; exact j1, j2, ?_, fun q hq => j4 q (k4 q hq)⟩
    intro q hq
    rcases List.mem_cons.1 hq with rfl | hq
    · have ht := prepareAll_touch G true l s1
      rw [j1] at ht
      refine ready_touch ht (N := N) ?_ ?_ (hT q (by simp)).1 (hi.tree.files q (hT q (by simp)).1).2.1 k3
      · rintro r ⟨hr, _⟩; exact (hi.tree.files r (hT r (by simp [hr])).1).2.1
      · rintro r ⟨x, hx, _, ha⟩; exact ⟨x, (hT x (by simp [hx])).1, ha⟩
    · exact j3 q hq

/-- **C116.** When all sources and dependencies are there and no directory that SCons knows of has gone, the command is run, and it finds the directories of all its targets and none of the files that are to be removed. -/
theorem C116_ready (N T : Path → Prop) (hTN : ∀ p, T p → N p) (G : Graph) (s : St) (t : Task) (h1 : Tree N s.disk) (h2 : Fresh N T s) (h3 : ∀ p ∈ t.nodes G, N p ∧ (Removable G p → T p))
    (h4 : ∀ p ∈ t.sources, Present G s p) (h5 : ∀ p ∈ t.nodes G, ∀ d, d ∈ G.depends p ∨ d ∈ G.implicit p → Present G s d) :
    ∃ s', taskPrepare G true s t = (.ok (), s') ∧ Tree N s'.disk ∧ Fresh N T s' ∧
      ∀ p ∈ t.nodes G, (G.upToDate p = false → DirsThere s'.disk p) ∧ (Removable G p → s'.disk p = none) := by
  have l1 := checkAll_looked G .noSource t.sources s
  have o1 := checkAll_ok G .noSource t.sources s h4
  rcases hc1 : checkAll G .noSource s t.sources with ⟨e1, s1⟩
  rw [hc1] at l1 o1
  replace l1 : Looked s s1 := l1
  simp only at o1
  subst o1
  obtain ⟨s2, k1, k2, k3, _⟩ := prepareAll_spec hTN G (t.nodes G) (l1.inv ⟨h1, h2⟩) h3 fun p hp d hd => l1.present (h5 p hp d hd)
  exact ⟨s2, by simp only [taskPrepare, hc1]; exact k1, k2.tree, k2.fresh, k3⟩

end Verif.Prep
