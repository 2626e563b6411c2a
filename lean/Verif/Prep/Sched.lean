import Verif.Prep.Main

/-!
# What is done before a command is run (C116): missing dependencies, and many tasks at once
-/

namespace Verif.Prep

/-! ## Missing dependencies -/

def KeepsAbsent (M : Path → Prop) (s s' : St) : Prop := ∀ d, ¬ M d → stat s.disk d = false → s.memo d ≠ some true → stat s'.disk d = false ∧ s'.memo d ≠ some true

theorem KeepsAbsent.trans {M : Path → Prop} {a b c : St} (h1 : KeepsAbsent M a b) (h2 : KeepsAbsent M b c) : KeepsAbsent M a c := fun d hd h h' => h2 d hd (h1 d hd h h').1 (h1 d hd h h').2

theorem KeepsAbsent.mono {M M' : Path → Prop} {a b : St} (h : KeepsAbsent M a b) (hm : ∀ q, M q → M' q) : KeepsAbsent M' a b := fun d hd => h d fun hh => hd (hm d hh)

theorem KeepsAbsent.of_looked {M : Path → Prop} {s s' : St} (h : Looked s s') : KeepsAbsent M s s' := by
  intro d _ h1 h2
  refine ⟨by rw [h.disk]; exact h1, ?_⟩
  rcases h.memo d with hm | hm <;> rw [hm]
  · exact h2
  · rw [h1]; simp

theorem upd_none_ne {f : Path → Option Bool} {p d : Path} (h : f d ≠ some true) : upd f p none d ≠ some true := by
  unfold upd; split
  · simp
  · exact h

theorem buildDir_absent (ex : Bool) (s : St) (p : Path) : KeepsAbsent (fun q => q = p) s (buildDir ex s p).2 := by
  have ht := buildDir_touch ex (fun _ => False) s p
  intro d hd h1 h2
  refine ⟨?_, ?_⟩
  · rcases ht d with h | ⟨h, _⟩ | ⟨h, _⟩
    · rw [stat, h]; exact h1
    · exact h.elim
    · exact absurd h hd
  · unfold buildDir
    split
    · exact upd_none_ne h2
    · have hl := exists_looked s p
      rcases hx : exists? s p with ⟨b, s1⟩
      rw [hx] at hl
      replace hl : Looked s s1 := hl
      have h3 : s1.memo d ≠ some true := (KeepsAbsent.of_looked (M := fun _ => False) hl d (by simp) h1 h2).2
      simp only
      split
      · exact upd_none_ne h3
      · rcases mkdir s1.disk p with _ | d'
        · exact h3
        · exact upd_none_ne h3

theorem buildDirs_absent (ex : Bool) (l : List Path) (s : St) : KeepsAbsent (fun q => q ∈ l) s (buildDirs ex s l).2 := by
  induction l generalizing s with
  | nil => exact fun d _ h1 h2 => ⟨h1, h2⟩
  | cons p l ih =>
    have h1 := buildDir_absent ex s p
    rw [buildDirs]
    rcases hb : buildDir ex s p with ⟨e | u, s1⟩ <;> rw [hb] at h1
    · exact h1.mono (by rintro q rfl; simp)
    · exact (h1.mono (by rintro q rfl; simp)).trans ((ih s1).mono (by intro q h; simp [h]))

theorem create_absent (ex : Bool) (s : St) (p : Path) : KeepsAbsent (fun q => q ≠ [] ∧ ∃ k, p = k ++ q) s (create ex s p).2 := by
  have h1 := climb_looked p s
  have h2 := climb_above p s
  have h3 : ∀ l, (climb s p).1 = .ok l → [] ∉ l := by
    intro l hl
    clear h1 h2
    induction p generalizing s l with
    | nil =>
      simp only [climb] at hl
      split at hl
      · simp at hl; subst hl; simp
      · simp at hl
    | cons c r ih =>
      simp only [climb] at hl
      split at hl
      · simp at hl; subst hl; simp
      · rcases hc : climb (exists? s (c :: r)).2 r with ⟨e | l', s1⟩ <;> rw [hc] at hl
        · simp at hl
        · simp only [Except.ok.injEq] at hl
          subst hl
          simp [ih _ l' (by rw [hc])]
  rw [create]
  rcases hc : climb s p with ⟨e | l, s1⟩ <;> rw [hc] at h1
  · exact .of_looked h1
  · refine (KeepsAbsent.of_looked h1).trans ((buildDirs_absent ex l.reverse s1).mono fun q hq => ?_)
    have hq' := List.mem_reverse.1 hq
    exact ⟨by rintro rfl; exact h3 l (by rw [hc]) hq', h2 l (by rw [hc]) q hq'⟩

theorem filePrepare_absent (G : Graph) (ex : Bool) (s : St) (p : Path) : KeepsAbsent (fun q => Above q p) s (filePrepare G ex s p).2 := by
  have h1 := checkAll_looked G .noDepends (G.depends p) s
  rw [filePrepare]
  rcases hc : checkAll G .noDepends s (G.depends p) with ⟨e | u, s1⟩ <;> rw [hc] at h1
  · exact .of_looked h1
  · have h2 := checkAll_looked G .noImplicit (G.implicit p) s1
    simp only
    rcases hc2 : checkAll G .noImplicit s1 (G.implicit p) with ⟨e | u, s2⟩ <;> rw [hc2] at h2
    · exact .of_looked (h1.trans h2)
    · simp only
      by_cases hu : G.upToDate p = true
      · rw [if_pos hu]; exact .of_looked (h1.trans h2)
      · rw [if_neg hu]
        have h3 := exists_looked s2 p
        rcases hx : exists? s2 p with ⟨b, s3⟩
        rw [hx] at h3
        have h4 : Looked s s3 := (h1.trans h2).trans h3
        simp only
        split
        · split
          · refine (KeepsAbsent.of_looked h4).trans ?_
            intro d _ k1 k2
            simp only [rmv]
            split
            · exact ⟨k1, upd_none_ne k2⟩
            · split
              · exact ⟨k1, upd_none_ne k2⟩
              · refine ⟨?_, upd_none_ne k2⟩
                rw [stat]; dsimp only; unfold upd
                split
                · rename_i he; split at he <;> simp_all [stat]
                · rename_i he; split at he <;> simp_all [stat]
                · rfl
          · exact .of_looked h4
        · refine (KeepsAbsent.of_looked h4).trans ((create_absent ex s3 p.tail).mono ?_)
          rintro q ⟨hne, k, hk⟩
          cases p with
          | nil => simp at hk; exact absurd hk.2 hne
          | cons c r => exact ⟨c :: k, by simp, by simp at hk; simp [hk]⟩

/-- With an explicit or implicit dependency of a target missing the command is not run. -/
theorem C116_missing_dependency (G : Graph) (ex : Bool) (s : St) (t : Task) (p d : Path) (hp : p ∈ t.nodes G) (hd : d ∈ G.depends p ∨ d ∈ G.implicit p) (ha : Absent G s d)
    (hn : ∀ q ∈ t.nodes G, ¬ Above d q) : ∃ e, (taskPrepare G ex s t).1 = .error e := by
  have key : ∀ (l : List Path) (s : St), p ∈ l → (∀ q ∈ l, ¬ Above d q) → Absent G s d → ∃ e, (prepareAll G ex s l).1 = .error e := by
    intro l
    induction l with
    | nil => intro s h; simp at h
    | cons q l ih =>
      intro s hp hn ha
      rw [prepareAll]
      have h1 := filePrepare_absent G ex s q d (hn q (by simp)) ha.2.2.2.1 ha.2.2.2.2
      have hbad : q = p → ∃ e, (filePrepare G ex s q).1 = .error e := by
        rintro rfl
        rw [filePrepare]
        rcases hd with hd | hd
        · obtain ⟨r, _, he⟩ := checkAll_bad G .noDepends (G.depends q) s ⟨d, hd, ha⟩
          rcases hc : checkAll G .noDepends s (G.depends q) with ⟨e | u, s1⟩ <;> rw [hc] at he
          · exact ⟨_, rfl⟩
          · simp at he
        · have hl := checkAll_looked G .noDepends (G.depends q) s
          rcases hc : checkAll G .noDepends s (G.depends q) with ⟨e | u, s1⟩ <;> rw [hc] at hl
          · exact ⟨_, rfl⟩
          · obtain ⟨r, _, he⟩ := checkAll_bad G .noImplicit (G.implicit q) s1 ⟨d, hd, Looked.absent hl ha⟩
            simp only
            rcases hc2 : checkAll G .noImplicit s1 (G.implicit q) with ⟨e | u, s2⟩ <;> rw [hc2] at he
            · exact ⟨_, rfl⟩
            · simp at he
      rcases hb : filePrepare G ex s q with ⟨e | u, s1⟩
      · exact ⟨e, rfl⟩
      · rcases List.mem_cons.1 hp with rfl | hp
        · obtain ⟨e, he⟩ := hbad rfl
          rw [hb] at he; simp at he
        · rw [hb] at h1
          exact ih s1 hp (fun r hr => hn r (by simp [hr])) ⟨ha.1, ha.2.1, ha.2.2.1, h1⟩
  have hl := checkAll_looked G .noSource t.sources s
  rw [taskPrepare]
  rcases hc : checkAll G .noSource s t.sources with ⟨e | u, s1⟩ <;> rw [hc] at hl
  · exact ⟨_, rfl⟩
  · exact key _ s1 hp hn (Looked.absent hl ha)

/-! ## Many tasks at once -/

/-- What happens in a build: a task is prepared; a running command does something to the disk; a command has ended. -/
inductive Ev where
  | prepare (i : Nat)
  | work (i : Nat) (d : Disk)
  | finish (i : Nat)

/-- The state of a build: tasks whose commands are running, and of these the ones that have done nothing yet. -/
structure Sys where
  st : St
  running : List Nat
  idle : List Nat

/-- `Job` calls `prepare` in the main thread, commands run in others. When one has ended well, `built` makes the targets forget and look again, but not the side effects (Taskmaster/__init__.py 298-305,
Node/__init__.py 805-813). A command that fails is one that does not end here: its targets are not prepared again. -/
def step (G : Graph) (tasks : Nat → Task) (y : Sys) : Ev → Sys
  | .prepare i =>
    match taskPrepare G true y.st (tasks i) with
    | (.ok _, s) => { st := s, running := i :: y.running, idle := i :: y.idle }
    | (.error _, s) => { y with st := s }
  | .work i d => { y with st := { y.st with disk := d }, idle := y.idle.filter (· ≠ i) }
  | .finish i =>
    { st := { y.st with memo := fun p => if p ∈ (tasks i).targets then some (stat y.st.disk p) else y.st.memo p }, running := y.running.filter (· ≠ i), idle := y.idle.filter (· ≠ i) }

/-- The files of the build. -/
def Nodes (G : Graph) (tasks : Nat → Task) (p : Path) : Prop := ∃ i, p ∈ (tasks i).nodes G

/-- A command does not remove directories, leaves the targets of other tasks alone, makes no files where directories are needed and no directories where files are. -/
structure Decent (G : Graph) (tasks : Nat → Task) (i : Nat) (d d' : Disk) : Prop where
  tree : Tree (Nodes G tasks) d'
  dirs : ∀ q, NeedDir (Nodes G tasks) q → d q = some .dir → d' q = some .dir
  other : ∀ j, j ≠ i → ∀ p ∈ (tasks j).nodes G, p ∉ (tasks i).nodes G → d' p = d p

/-- Events that can happen: tasks that share files are not run at once, their sources and dependencies are there; commands are decent. -/
def Allowed (G : Graph) (tasks : Nat → Task) (y : Sys) : Ev → Prop
  | .prepare i => i ∉ y.running ∧ (∀ j ∈ y.running, ∀ p ∈ (tasks i).nodes G, p ∉ (tasks j).nodes G) ∧ (∀ p ∈ (tasks i).sources, Present G y.st p) ∧
      ∀ p ∈ (tasks i).nodes G, ∀ d, d ∈ G.depends p ∨ d ∈ G.implicit p → Present G y.st d
  | .work i d => i ∈ y.running ∧ Decent G tasks i y.st.disk d
  | .finish i => i ∈ y.running

/-- The states a build goes through. -/
inductive Reach (G : Graph) (tasks : Nat → Task) (y0 : Sys) : Sys → Prop
  | start : Reach G tasks y0 y0
  | next {y : Sys} (e : Ev) : Reach G tasks y0 y → Allowed G tasks y e → Reach G tasks y0 (step G tasks y e)

/-- Files of tasks that are not running, without the precious ones. -/
def Quiet (G : Graph) (tasks : Nat → Task) (run : List Nat) (p : Path) : Prop := Nodes G tasks p ∧ G.precious p = false ∧ ∀ i ∈ run, p ∉ (tasks i).nodes G

structure SInv (G : Graph) (tasks : Nat → Task) (y : Sys) : Prop where
  inv : Inv (Nodes G tasks) (Quiet G tasks y.running) y.st
  idleRun : ∀ i ∈ y.idle, i ∈ y.running
  disj : ∀ i ∈ y.running, ∀ j ∈ y.running, i ≠ j → ∀ p ∈ (tasks i).nodes G, p ∉ (tasks j).nodes G
  dirs : ∀ i ∈ y.running, ∀ p ∈ (tasks i).nodes G, G.upToDate p = false → DirsThere y.st.disk p
  gone : ∀ i ∈ y.idle, ∀ p ∈ (tasks i).nodes G, Removable G p → y.st.disk p = none

theorem sinv_step {G : Graph} {tasks : Nat → Task} (hside : ∀ p e, e ∈ G.sides p → G.precious e = true) {y : Sys} (h : SInv G tasks y) (e : Ev) (ha : Allowed G tasks y e) : SInv G tasks (step G tasks y e) := by
  cases e with
  | prepare i =>
    obtain ⟨a1, a2, a3, a4⟩ := ha
    have hT : ∀ p ∈ (tasks i).nodes G, Nodes G tasks p ∧ (Removable G p → Quiet G tasks y.running p) := fun p hp => ⟨⟨i, hp⟩, fun hr => ⟨⟨i, hp⟩, hr.2.1, fun j hj => a2 j hj p hp⟩⟩
    obtain ⟨s', k1, k2, k3, k4⟩ := C116_ready (Nodes G tasks) (Quiet G tasks y.running) (fun p hp => hp.1) G y.st (tasks i) h.inv.tree h.inv.fresh hT a3 a4
    have hfr := C116_frame G true y.st (tasks i)
    simp only [step, k1]
    rw [k1] at hfr
    have hdir : ∀ q, NeedDir (Nodes G tasks) q → y.st.disk q = some .dir → s'.disk q = some .dir := by
      intro q hq hd
      rcases hfr q with h1 | ⟨⟨h1, _⟩, _⟩ | ⟨_, h1, _⟩
      · rw [← hd]; exact h1
      · exact absurd hq (h.inv.tree.files q ⟨i, h1⟩).2.1
      · exact h1
    have hgone : ∀ p, Nodes G tasks p → y.st.disk p = none → s'.disk p = none := by
      intro p hp hd
      rcases hfr p with h1 | ⟨_, h1⟩ | ⟨⟨r, hr, _, hab⟩, _⟩
      · rw [← hd]; exact h1
      · exact h1
      · exact absurd ⟨r, ⟨i, hr⟩, hab⟩ (h.inv.tree.files p hp).2.1
    refine ⟨⟨k2, k3.rootMemo, k3.dirs, k3.made, k3.seen, fun p b hp => k3.files p b ⟨hp.1, hp.2.1, fun j hj => hp.2.2 j (by simp [hj])⟩⟩, ?_, ?_, ?_, ?_⟩
    · intro j hj
      rcases List.mem_cons.1 hj with rfl | hj
      · simp
      · simp [h.idleRun j hj]
    · intro j hj k hk hne p hp
      rcases List.mem_cons.1 hj with ej | hj' <;> rcases List.mem_cons.1 hk with ek | hk'
      · exact absurd (ej.trans ek.symm) hne
      · subst ej; exact a2 k hk' p hp
      · subst ek; exact fun hpk => a2 j hj' p hpk hp
      · exact h.disj j hj' k hk' hne p hp
    · intro j hj p hp hu
      rcases List.mem_cons.1 hj with rfl | hj
      · exact (k4 p hp).1 hu
      · exact fun q hq => hdir q ⟨p, ⟨j, hp⟩, hq⟩ (h.dirs j hj p hp hu q hq)
    · intro j hj p hp hr
      rcases List.mem_cons.1 hj with rfl | hj
      · exact (k4 p hp).2 hr
      · exact hgone p ⟨j, hp⟩ (h.gone j hj p hp hr)
  | work i d =>
    obtain ⟨a1, a2⟩ := ha
    refine ⟨⟨a2.tree, h.inv.fresh.rootMemo, fun q hq hm => a2.dirs q hq (h.inv.fresh.dirs q hq hm), fun q hq hm => a2.dirs q hq (h.inv.fresh.made q hq hm), fun c q hq hm => a2.dirs q ⟨_, hq, above_self c q⟩ (h.inv.fresh.seen c q hq hm), ?_⟩, ?_, h.disj, ?_, ?_⟩
    · intro p b hp hm
      rw [h.inv.fresh.files p b hp hm]
      obtain ⟨⟨j, hj⟩, _, hq⟩ := hp
      have hne : j ≠ i := by rintro rfl; exact hq j a1 hj
      rw [stat, stat]
      show _ = (match d p with | some (.file _) | some .dir => true | _ => false)
      rw [a2.other j hne p hj (hq i a1)]
      rfl
    · intro j hj
      exact h.idleRun j (List.mem_filter.1 hj).1
    · intro j hj p hp hu q hq
      exact a2.dirs q ⟨p, ⟨j, hp⟩, hq⟩ (h.dirs j hj p hp hu q hq)
    · intro j hj p hp hr
      obtain ⟨hj1, hj2⟩ := List.mem_filter.1 hj
      have hne : j ≠ i := by simpa using hj2
      show d p = none
      rw [a2.other j hne p hp (h.disj j (h.idleRun j hj1) i a1 hne p hp)]
      exact h.gone j hj1 p hp hr
  | finish i =>
    refine ⟨⟨h.inv.tree, ?_, ?_, h.inv.fresh.made, ?_, ?_⟩, ?_, ?_, ?_, ?_⟩
    · show (if _ then some (stat _ _) else _) ≠ _
      split
      · rw [stat_dir h.inv.tree.root]; simp
      · exact h.inv.fresh.rootMemo
    · intro q hq hm
      simp only [step] at hm
      split at hm
      · rename_i ht
        exact absurd hq (h.inv.tree.files q ⟨i, List.mem_flatMap.2 ⟨q, ht, by simp⟩⟩).2.1
      · exact h.inv.fresh.dirs q hq hm
    · intro c q hq hm
      simp only [step] at hm
      split at hm
      · refine h.inv.tree.up c q (.inl hq) fun hn => ?_
        simp [stat, hn] at hm
      · exact h.inv.fresh.seen c q hq hm
    · intro p b hp hm
      simp only [step] at hm
      split at hm
      · simp only [Option.some.injEq] at hm; exact hm.symm
      · rename_i hpi
        refine h.inv.fresh.files p b ⟨hp.1, hp.2.1, fun j hj => ?_⟩ hm
        by_cases hji : j = i
        · subst hji
          intro hn
          obtain ⟨x, hx, hpx⟩ := List.mem_flatMap.1 hn
          rcases List.mem_cons.1 hpx with rfl | hpx
          · exact hpi hx
          · have := hp.2.1; rw [hside x p hpx] at this; cases this
        · exact hp.2.2 j (by simp [step, hj, hji])
    · intro j hj
      simp only [step, List.mem_filter] at hj ⊢
      exact ⟨h.idleRun j hj.1, hj.2⟩
    · intro j hj k hk
      simp only [step, List.mem_filter] at hj hk
      exact h.disj j hj.1 k hk.1
    · intro j hj
      simp only [step, List.mem_filter] at hj
      exact h.dirs j hj.1
    · intro j hj
      simp only [step, List.mem_filter] at hj
      exact h.gone j hj.1

/-- **C116.** Through any build, in whatever order tasks are prepared, work and end: while a command runs the directories of its targets are there, and until it does its first thing the files that are to be removed are
not. -/
theorem C116_schedule (G : Graph) (tasks : Nat → Task) (hside : ∀ p e, e ∈ G.sides p → G.precious e = true) (s : St) (h1 : Tree (Nodes G tasks) s.disk) (h2 : Fresh (Nodes G tasks) (Nodes G tasks) s) (y : Sys)
    (hy : Reach G tasks { st := s, running := [], idle := [] } y) :
    (∀ i ∈ y.running, ∀ p ∈ (tasks i).nodes G, G.upToDate p = false → DirsThere y.st.disk p) ∧ (∀ i ∈ y.idle, ∀ p ∈ (tasks i).nodes G, Removable G p → y.st.disk p = none) := by
  have : SInv G tasks y := by
    induction hy with
    | start => exact ⟨⟨h1, h2.rootMemo, h2.dirs, h2.made, h2.seen, fun p b hp => h2.files p b hp.1⟩, by simp, by simp, by simp, by simp⟩
    | next e _ ha ih => exact sinv_step hside ih e ha
  exact ⟨this.dirs, this.gone⟩

/-- And every task that may be prepared is, without an error. -/
theorem C116_schedule_runs (G : Graph) (tasks : Nat → Task) (hside : ∀ p e, e ∈ G.sides p → G.precious e = true) (s : St) (h1 : Tree (Nodes G tasks) s.disk) (h2 : Fresh (Nodes G tasks) (Nodes G tasks) s) (y : Sys)
    (hy : Reach G tasks { st := s, running := [], idle := [] } y) (i : Nat) (ha : Allowed G tasks y (.prepare i)) : i ∈ (step G tasks y (.prepare i)).idle := by
  have h : SInv G tasks y := by
    clear ha
    induction hy with
    | start => exact ⟨⟨h1, h2.rootMemo, h2.dirs, h2.made, h2.seen, fun p b hp => h2.files p b hp.1⟩, by simp, by simp, by simp, by simp⟩
    | next e _ ha' ih => exact sinv_step hside ih e ha'
  obtain ⟨a1, a2, a3, a4⟩ := ha
  obtain ⟨s', k1, _⟩ := C116_ready (Nodes G tasks) (Quiet G tasks y.running) (fun p hp => hp.1) G y.st (tasks i) h.inv.tree h.inv.fresh (fun p hp => ⟨⟨i, hp⟩, fun hr => ⟨⟨i, hp⟩, hr.2.1, fun j hj => a2 j hj p hp⟩⟩) a3 a4
  simp [step, k1]

/-! ## A directory that cannot be made -/

/-- A link that leads nowhere stands where a directory should be, above another one: the task fails before its command is started. -/
theorem C116_link_above (G : Graph) (s : St) (x c y : String) (z : Path) (hd : G.depends (x :: c :: y :: z) = []) (hi : G.implicit (x :: c :: y :: z) = []) (hs : G.sides (x :: c :: y :: z) = [])
    (hu : G.upToDate (x :: c :: y :: z) = false) (hm : s.memo = fun _ => none) (hmade : s.made = fun _ => false) (h0 : s.disk (x :: c :: y :: z) = none) (h1 : s.disk (c :: y :: z) = none)
    (h2 : s.disk (y :: z) = some .dangling) (h3 : stat s.disk z = true) :
    (taskPrepare G true s { targets := [x :: c :: y :: z], sources := [] }).1 = .error .os := by
  have n1 : (y :: z) ≠ (c :: y :: z) := fun e => by have := congrArg List.length e; simp at this
  have n2 : (c :: y :: z) ≠ (x :: c :: y :: z) := fun e => by have := congrArg List.length e; simp at this
  have n3 : (y :: z) ≠ (x :: c :: y :: z) := fun e => by have := congrArg List.length e; simp at this
  have n4 : z ≠ (x :: c :: y :: z) := fun e => by have := congrArg List.length e; simp at this; omega
  have n5 : z ≠ (c :: y :: z) := fun e => by have := congrArg List.length e; simp at this; omega
  have n6 : z ≠ (y :: z) := fun e => by have := congrArg List.length e; simp at this
  obtain ⟨disk, memo, made⟩ := s
  simp only at hm hmade h0 h1 h2 h3
  subst hm; subst hmade
  have s0 : stat disk (x :: c :: y :: z) = false := by simp [stat, h0]
  have s1 : stat disk (c :: y :: z) = false := by simp [stat, h1]
  have s2 : stat disk (y :: z) = false := by simp [stat, h2]
  have exl : ∀ m p, m p = none → exists? { disk := disk, memo := m, made := fun _ => false } p = (stat disk p, { disk := disk, memo := upd m p (some (stat disk p)), made := fun _ => false }) := by
    intro m p hm; simp [exists?, hm]
  have exs : ∀ m (a : Path → Bool) p b, m p = some b → exists? { disk := disk, memo := m, made := a } p = (b, { disk := disk, memo := m, made := a }) := by
    intro m a p b hm; simp [exists?, hm]
  have cz : ∀ m, m z = none → climb { disk := disk, memo := m, made := fun _ => false } z = (.ok [], { disk := disk, memo := upd m z (some true), made := fun _ => false }) := by
    intro m hm
    cases z <;> simp [climb, exl _ _ hm, h3]
  have cyz : ∀ m, m z = none → m (y :: z) = none → climb { disk := disk, memo := m, made := fun _ => false } (y :: z) = (.ok [y :: z], { disk := disk, memo := upd (upd m (y :: z) (some false)) z (some true), made := fun _ => false }) := by
    intro m k1 k2
    rw [climb, exl _ _ k2, s2]
    simp only [Bool.false_eq_true, if_false]
    rw [cz _ (by simp [upd, n6, k1])]
  have ccyz : ∀ m, m z = none → m (y :: z) = none → m (c :: y :: z) = none →
      climb { disk := disk, memo := m, made := fun _ => false } (c :: y :: z) = (.ok [c :: y :: z, y :: z], { disk := disk, memo := upd (upd (upd m (c :: y :: z) (some false)) (y :: z) (some false)) z (some true), made := fun _ => false }) := by
    intro m k1 k2 k3
    rw [climb, exl _ _ k3, s1]
    simp only [Bool.false_eq_true, if_false]
    rw [cyz _ (by simp [upd, n5, k1]) (by simp [upd, k2])]
  have fp : ∀ m, m z = none → m (y :: z) = none → m (c :: y :: z) = none → (create true { disk := disk, memo := m, made := fun _ => false } (c :: y :: z)).1 = .error .os := by
    intro m k1 k2 k3
    rw [create, ccyz m k1 k2 k3]
    simp only [List.reverse_cons, List.reverse_nil, List.nil_append, List.cons_append, buildDirs]
    rw [buildDir]
    simp only [Bool.not_true, Bool.or_false, Bool.false_eq_true, if_false]
    rw [exs _ _ (y :: z) false (by simp [upd, n6.symm])]
    simp only [mkdir, h2, Bool.false_eq_true, if_false, ne_eq, reduceCtorEq, not_false_eq_true, if_true]
    rw [buildDir]
    have hmk : upd (fun _ => false) (y :: z) true (c :: y :: z) = false := by simp [upd]
    simp only [hmk, Bool.not_true, Bool.or_false, Bool.false_eq_true, if_false]
    rw [exs _ _ (c :: y :: z) false (by simp [upd, n5.symm])]
    simp [mkdir, h1, h2]
  simp only [taskPrepare, checkAll, Task.nodes, List.flatMap_cons, List.flatMap_nil, List.append_nil, hs, prepareAll, filePrepare, hd, hi, hu, exl (fun _ => none) (x :: c :: y :: z) rfl, s0, isLink, h0, List.tail_cons]
  have := fp (upd (fun _ => none) (x :: c :: y :: z) (some false)) (by simp [upd, n4]) (by simp [upd, n3]) (by simp [upd])
  simp only [reduceCtorEq, decide_false, Bool.or_self, Bool.false_eq_true, if_false]
  rcases hc : create true { disk := disk, memo := upd (fun _ => none) (x :: c :: y :: z) (some false), made := fun _ => false } (c :: y :: z) with ⟨e | u, s'⟩ <;> rw [hc] at this
  · exact this
  · cases this

/-- The hypotheses are met: `/l/d/x`, with `/l` a link that leads nowhere. -/
theorem C116_link_above_sample : (taskPrepare { derived := fun _ => true, precious := fun _ => false, linked := fun _ => false, inRepo := fun _ => false, upToDate := fun _ => false, depends := fun _ => [], implicit := fun _ => [], sides := fun _ => [] }
    true { disk := fun p => if p = [] then some .dir else if p = ["l"] then some .dangling else none, memo := fun _ => none, made := fun _ => false } { targets := [["x", "d", "l"]], sources := [] }).1 = .error .os :=
  C116_link_above _ _ "x" "d" "l" [] rfl rfl rfl rfl rfl rfl (by decide) (by decide) (by decide) (by decide)

/-- **Counterexample.** With the link where the directory itself should be, the task goes on, and its command is started without a directory. -/
theorem C116_link_for_directory : (taskPrepare { derived := fun _ => true, precious := fun _ => false, linked := fun _ => false, inRepo := fun _ => false, upToDate := fun _ => false, depends := fun _ => [], implicit := fun _ => [], sides := fun _ => [] }
    true { disk := fun p => if p = [] then some .dir else if p = ["l"] then some .dangling else none, memo := fun _ => none, made := fun _ => false } { targets := [["x", "l"]], sources := [] }).1 = .ok () := by decide +kernel

end Verif.Prep
