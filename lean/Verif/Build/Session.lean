import Verif.Build.NullBuild
import Verif.TM.Only

/-!
# Interactive mode: C74

`scons --interactive` reads the SConscript files once and then builds whatever it is told to, again and again, in one process
(`SCons/Script/Interactive.py`).  Between two `build` commands the nodes keep what the first one left in them, except for the nodes that
`do_build` (`:151-262`) finds again and clears.  Here a session is a sequence of runs of `Verif.Build.Compose`, each of which starts from the memory
the one before has left, and it is compared with a sequence of separate runs of `scons`, each of which starts from an empty memory.

Modelled: `node.state`, `node.ref_count`, `node.waiting_parents`, `node.waiting_s_e`, `node.implicit`, `node.ninfo.csig`, the signature database, the walk over
`children()` and what it resets, `alter_targets()`.  Not modelled: `--clean`, `-n`, `-q` given to a command; `rfile` (no variant directories without duplication); the memory of
directories and search paths (`Dir.entries`, `on_disk_entries`, the memo of `FindFile`), which nothing clears.
-/

set_option linter.unusedSectionVars false
set_option linter.unusedSimpArgs false
set_option linter.unusedVariables false

namespace Verif.Build

open Verif.Sig

variable {V B K A : Type} [DecidableEq V] [DecidableEq K] [Fintype V]

/-- The process at the prompt: files, signature database and content signatures (`S`), and what the nodes remember of the commands so far. -/
structure Prompt (V B K A : Type) where
  S : St V B K A
  state : V → TM.NState
  ref : V → Int
  wp : V → Finset V
  wse : V → Finset V
  memo : V → Option (Leaf V A)

/-- A directory with files `fs` and signature database `db`, no run in progress and nothing in memory. -/
def St.rest (fs : Files V B) (db : V → BInfo V K) : St V B K A :=
  { fs := fs, db := db, disk := db, infos := fun _ => {}, done := fun _ => False, running := fun _ => none, busy := false }

/-- The process right after the SConscript files were read. -/
def Prompt.fresh (fs : Files V B) (db : V → BInfo V K) : Prompt V B K A :=
  { S := St.rest fs db, state := fun _ => .noState, ref := fun _ => 0, wp := fun _ => ∅, wse := fun _ => ∅, memo := fun _ => none }

/-- `_build_targets` (`Main.py:1229-1420`) makes a new Taskmaster for the nodes `orig`; the nodes are as they are. -/
def Prompt.start (orig : List V) (P : Prompt V B K A) : CSt V B K A :=
  ⟨{ TM.St.init orig with state := P.state, ref := P.ref, wp := P.wp, wse := P.wse }, { P.S with busy := true }, P.memo⟩

/-- The user changes a file (or a shell command typed at the prompt does). -/
def Prompt.edit (v : V) (b : Option B) (P : Prompt V B K A) : Prompt V B K A :=
  { P with S := { P.S with fs := fun x => if x = v then b else P.S.fs x } }

/-- `node.children(scan=True)` after the command (`Interactive.py:210-213`, `Node/__init__.py:1404-1419`). -/
def CSt.childrenOf (D : Desc V B A) (X : CSt V B K A) (n : V) : List V :=
  match X.leafOf D n with
  | none => []
  | some l => l.children

/-- `seen_nodes` (`Interactive.py:206-241`): what the `Walker` reaches from the nodes that were asked for and their `alter_targets()`. -/
def CSt.seenNodes (D : Desc V B A) (roots : List V) (X : CSt V B K A) : Finset V :=
  TM.upSet (fun n => (X.childrenOf D n).toFinset) roots.toFinset

/-- The end of `do_build` (`:243-248`): `node.clear(); node.set_state(no_state); node.implicit = None` for the nodes found.  `node.clear()`
(`Node/__init__.py:869-887`) makes a new `ninfo`; it does not touch `ref_count`, `waiting_parents` and `waiting_s_e`.  The signature database has been written (`Main.py:1402`). -/
def CSt.prompt (D : Desc V B A) (roots : List V) (X : CSt V B K A) : Prompt V B K A :=
  { S := { fs := X.S.fs, db := X.S.db, disk := X.S.db, running := X.S.running, busy := false
           infos := fun x => if x ∈ X.seenNodes D roots then {} else X.S.infos x
           done := fun x => X.S.done x ∧ x ∉ X.seenNodes D roots }
    state := fun x => if x ∈ X.seenNodes D roots then .noState else X.T.state x
    ref := X.T.ref
    wp := X.T.wp
    wse := X.T.wse
    memo := fun x => if x ∈ X.seenNodes D roots then none else X.memo x }

/-- The nodes `alter_targets()` names for the requested ones. -/
abbrev alts (alter : V → List V) (orig : List V) : List V := orig.flatMap alter

/-- Steps of a command: no `-i`, and `alter_targets()` answers what it answers. -/
def CmdStep (alter : V → List V) (orig : List V) (X : CSt V B K A) (l : TM.Lab V) (X' : CSt V B K A) : Prop :=
  NoIgnore X l X' ∧ AltIn (fun a => a ∈ alts alter orig) X l X'

/-- What the user does. -/
inductive Event (V B : Type)
  | edit (v : V) (b : Option B)
  | build (orig : List V)

/-- Sessions: from the prompt `P` by the events `es` to `P'`; every command satisfies `ok`. -/
inductive Session (M : Sem B K A) (D : Desc V B A) (C : TM.Cfg V) (alter : V → List V) (ok : List V → CSt V B K A → Prop) :
    List (Event V B) → Prompt V B K A → Prompt V B K A → Prop
  | nil (P) : Session M D C alter ok [] P P
  | edit {es P P'} (v : V) (b : Option B) : Session M D C alter ok es P P' → Session M D C alter ok (es ++ [.edit v b]) P (P'.edit v b)
  | build {es P P' X} (orig : List V) : Session M D C alter ok es P P' → CSteps M D C (CmdStep alter orig) (P'.start orig) X → ok orig X →
      Session M D C alter ok (es ++ [.build orig]) P (X.prompt D (orig ++ alts alter orig))

/-- Separate runs of `scons` in a directory, each from an empty memory, with the same events: files and signature database before and after. -/
inductive Separate (M : Sem B K A) (D : Desc V B A) (C : TM.Cfg V) (alter : V → List V) (ok : List V → CSt V B K A → Prop) (fs : Files V B) (db : V → BInfo V K) :
    List (Event V B) → Files V B → (V → BInfo V K) → Prop
  | nil : Separate M D C alter ok fs db [] fs db
  | edit {es fs' db'} (v : V) (b : Option B) : Separate M D C alter ok fs db es fs' db' →
      Separate M D C alter ok fs db (es ++ [.edit v b]) (fun x => if x = v then b else fs' x) db'
  | build {es fs' db' X} (orig : List V) : Separate M D C alter ok fs db es fs' db' →
      CSteps M D C (CmdStep alter orig) (CSt.init orig { (St.rest fs' db' : St V B K A) with busy := true }) X → ok orig X →
      Separate M D C alter ok fs db (es ++ [.build orig]) X.S.fs X.S.db

/-- The command was carried out: the walk is over, nothing failed or was interrupted, and `cleanup()` reports no cycle. -/
structure Succeeded (X : CSt V B K A) : Prop where
  over : X.T.over
  notStopped : X.T.stopped = false
  noFailure : X.T.failedTasks = ∅
  noCycle : ¬ TM.cleanupRaises X.T (fun _ => false)

/-- What the walk over the children finds is closed under what the command looked at: the dependencies *any* scan of the command reported, prerequisites among them, and the
other targets of the same action. -/
def Tracked (D : Desc V B A) (C : TM.Cfg V) (roots : List V) (X : CSt V B K A) : Prop :=
  ∀ n ∈ X.seenNodes D roots, (∀ c ∈ X.T.seen n, c ∈ X.seenNodes D roots) ∧ (∀ m ∈ C.targets n, m ∈ X.seenNodes D roots) ∧
    ∀ m ∈ C.prereqs n, m ∈ X.seenNodes D roots

/-- The walk finds exactly what is connected to the roots by children. -/
theorem mem_seenNodes {D : Desc V B A} {roots : List V} {X : CSt V B K A} {x : V} :
    x ∈ X.seenNodes D roots ↔ ∃ r ∈ roots, Relation.ReflTransGen (fun a b => b ∈ X.childrenOf D a) r x := by
  constructor
  · refine TM.upSet_ind _ _ (fun x => ∃ r ∈ roots, Relation.ReflTransGen (fun a b => b ∈ X.childrenOf D a) r x) ?_ ?_ x
    · intro x hx; exact ⟨x, by simpa using hx, .refl⟩
    · rintro c p ⟨r, hr, h⟩ hp
      exact ⟨r, hr, h.tail (by simpa using hp)⟩
  · rintro ⟨r, hr, h⟩
    induction h with
    | refl => exact TM.subset_upSet _ _ (by simpa using hr)
    | tail _ h1 ih => exact TM.upSet_closed _ _ _ ih _ (by simpa using h1)

/-! ## What a command touches -/

/-- Everything the command has touched lies in `W`; what is running belongs to an outstanding task. -/
structure Touched (C : TM.Cfg V) (W : V → Prop) (X : CSt V B K A) : Prop where
  within : TM.Within W X.T
  memo : ∀ x, X.memo x ≠ none → W x
  infos : ∀ x, X.S.infos x ≠ {} → W x
  done : ∀ x, X.S.done x → W x
  run : ∀ x, (X.S.running x).isSome → ∃ n ∈ X.T.active, x ∈ C.targets n

theorem effCheck_infos (M : Sem B K A) (S : St V B K A) (t : V) (l : Leaf V A) {x : V} (hx : x ∉ l.children) :
    (S.effCheck M t l).infos x = S.infos x := by
  simp only [St.effCheck, World.isUpToDate, World.changed]
  refine (loop_frame _ _ _ _ _ _ ?_).1 x hx
  simp
  omega

theorem checkAll_infos (M : Sem B K A) (lf : V → Leaf V A) (ts : List V) (S : St V B K A) {x : V} (hx : ∀ t ∈ ts, x ∉ (lf t).children) :
    (S.checkAll M lf ts).1.infos x = S.infos x := by
  induction ts generalizing S with
  | nil => rfl
  | cons t ts ih =>
    simp only [St.checkAll]
    rw [ih _ (fun t' ht' => hx t' (List.mem_cons_of_mem _ ht')), effCheck_infos _ _ _ _ (hx t (List.mem_cons_self))]

theorem startAll_infos (lf : V → Leaf V A) (ts : List V) (S : St V B K A) {x : V} (hx : x ∉ ts) : (S.startAll lf ts).infos x = S.infos x := by
  induction ts generalizing S with
  | nil => rfl
  | cons t ts ih =>
    simp only [List.mem_cons, not_or] at hx
    refine (ih (S.effStart t (lf t)) hx.2).trans ?_
    simp [St.effStart, hx.1]

theorem finishAll_infos (M : Sem B K A) (ex : V → Bool) (rs : V → Run V B A) (views : V → V → Option B) (ts : List V) (S : St V B K A) {x : V} (hx : x ∉ ts) :
    (S.finishAll M ex rs views ts).infos x = S.infos x := by
  induction ts generalizing S with
  | nil => rfl
  | cons t ts ih =>
    simp only [List.mem_cons, not_or] at hx
    by_cases he : ex t = true
    · have e : S.finishAll M ex rs views (t :: ts) = (S.effFinish M t (rs t) (views t)).finishAll M ex rs views ts := by simp [St.finishAll, he]
      rw [e, ih _ hx.2]; simp [St.effFinish, hx.1]
    · have e : S.finishAll M ex rs views (t :: ts) = (S.effFail t (some ((rs t).output M (views t)))).finishAll M ex rs views ts := by simp [St.finishAll, he]
      rw [e, ih _ hx.2]; simp [St.effFail, St.write]

theorem next_within {W : V → Prop} {S S1 : TM.St V} {alt : List V} {n : V} (h : TM.Within W S) (ha : ∀ a ∈ alt, W a)
    (hn : TM.nextCandidate S alt = some (S1, n)) : W n := by
  unfold TM.nextCandidate at hn
  split at hn
  · rename_i m rest hc
    simp only [Option.some.injEq, Prod.mk.injEq] at hn
    rw [← hn.2]; exact h.cands m (by rw [hc]; simp)
  · split at hn
    · cases hn
    · rename_i t ts ht
      simp only at hn
      split at hn
      · rename_i a r e
        simp only [Option.some.injEq, Prod.mk.injEq] at hn
        rw [← hn.2]
        have : a ∈ alt.reverse ++ [t] := by rw [e]; simp
        rcases List.mem_append.1 this with h1 | h1
        · exact ha a (by simpa using h1)
        · simp only [List.mem_singleton] at h1; rw [h1]; exact h.tops t (by rw [ht]; simp)
      · cases hn

theorem scanned_memo {D : Desc V B A} {C : TM.Cfg V} {X : CSt V B K A} {n x : V} {scan : TM.Scan V} (h : X.scanned D C n scan x ≠ none) :
    X.memo x ≠ none ∨ x ∈ C.targets n := by
  cases scan with
  | raised => exact Or.inl h
  | ok ks =>
    simp only [CSt.scanned] at h
    split at h
    · by_cases hx : x ∈ C.targets n
      · exact Or.inr hx
      · simp only [hx, if_false] at h; exact Or.inl h
    · exact Or.inl h

theorem Touched.step {M : Sem B K A} {D : Desc V B A} {C : TM.Cfg V} (hC : TM.Groups C (fun n => (D n).isSome)) {W : V → Prop} (hW : TM.Closed C W)
    {orig : List V} {alter : V → List V} (halt : ∀ a ∈ alts alter orig, W a) {X X' : CSt V B K A} {l : TM.Lab V} (h : Touched C W X)
    (hP : CmdStep alter orig X l X') (hs : CStep M D C X l X') (hseen : ∀ n, W n → ∀ c ∈ X'.T.seen n, W c) : Touched C W X' := by
  obtain ⟨hni, hal⟩ := hP
  have hni' : l.noIgnore := hni
  -- scans of nodes in `W` report nodes in `W`
  have hkids : ∀ {alt kids pushed fate post S1 n}, l = .consider alt (.ok kids) pushed fate post → TM.nextCandidate X.T alt = some (S1, n) →
      (X.T.state n).rank ≤ 1 → W n → ∀ c ∈ kids, W c := by
    intro alt kids pushed fate post S1 n e hnc hr hn c hc
    have hr' : (S1.state n).rank ≤ 1 := by rw [(TM.nextCandidate_fields hnc).1]; exact hr
    refine hseen n hn c ?_
    rcases TM.step_seen hs.tm with ⟨-, h2⟩ | ⟨alt', kids', pushed', fate', post', S3', n', e', hnc', h2⟩
    · exact absurd (h2 _ _ _ _ _ _ _ e hnc) (by omega)
    · rw [e] at e'
      injection e' with e1 e2
      injection e2 with e2
      subst e1 e2
      rw [hnc] at hnc'
      simp only [Option.some.injEq, Prod.mk.injEq] at hnc'
      obtain ⟨rfl, rfl⟩ := hnc'
      rw [h2, TM.updOn_apply, if_pos (hC.wf.self n)]
      simp [hc]
  have hin : l.inside W X.T := by
    cases l with
    | consider alt scan pushed fate post =>
      refine ⟨fun x hx => halt x (hal x hx), ?_⟩
      rintro S1 n kids hnc rfl hr hn
      exact hkids rfl hnc (by rw [(TM.nextCandidate_fields hnc).1] at hr; exact hr) hn
    | finish n res post => trivial
    | flush => trivial
    | interrupt => trivial
  have hwithin := h.within.step hW hin hs.tm
  have hnW : ∀ {alt scan pushed fate post S1 n}, l = .consider alt scan pushed fate post → TM.nextCandidate X.T alt = some (S1, n) → W n := by
    intro alt scan pushed fate post S1 n e hnc
    subst e
    exact next_within h.within (fun a ha => halt a (hal a ha)) hnc
  have hmemo : ∀ {n scan x}, W n → X.scanned D C n scan x ≠ none → W x := by
    intro n scan x hn hx
    rcases scanned_memo hx with h1 | h1
    · exact h.memo x h1
    · exact hW.tgt n hn x h1
  -- the dependencies of all targets of a returned node
  have hdeps : ∀ {alt scan pushed fate post n} {lf : V → Leaf V A}, l = .consider alt scan pushed fate post → X.scanOK D C n scan → TM.returned C X.T alt scan pushed = some n →
      X.leaves D (C.targets n) lf → ∀ t ∈ C.targets n, ∀ c ∈ (lf t).children, W c := by
    intro alt scan pushed fate post n lf e hok hr hl t ht c hc
    obtain ⟨-, hrank, S1, hnc⟩ := returned_facts hr
    rcases hok with rfl | rfl
    · exfalso
      unfold TM.returned at hr
      rw [if_neg (by rw [(returned_facts hr).1]; simp), hnc] at hr
      simp only at hr
      unfold TM.considerNode at hr
      rw [if_neg (by rw [(TM.nextCandidate_fields hnc).1]; omega)] at hr
      simp at hr
    · exact hkids e hnc hrank (hnW e hnc) c (X.mem_kidsOf ht (hl t ht) hc)
  have hcheck : ∀ {n} {lf : V → Leaf V A}, (∀ t ∈ C.targets n, ∀ c ∈ (lf t).children, W c) → ∀ x, (X.S.checkAll M lf (C.targets n)).1.infos x ≠ {} → W x := by
    intro n lf hd x hx
    by_cases hxm : ∃ t ∈ C.targets n, x ∈ (lf t).children
    · obtain ⟨t, ht, hc⟩ := hxm; exact hd t ht x hc
    · rw [checkAll_infos _ _ _ _ (fun t ht hc => hxm ⟨t, ht, hc⟩)] at hx
      exact h.infos x hx
  cases hs with
  | @walk T' T1 alt scan pushed fate post n hstep hnc hok hret =>
    obtain ⟨-, S1, n', hnc', hcons⟩ := hC.consider hni' hstep
    have hact : T'.active = X.T.active := by
      cases hcons with
      | skip _ _ hf => exact hf.active
      | raised _ _ _ _ ha _ => exact ha
      | failed _ _ _ hr _ _ => rw [hret] at hr; cases hr
      | current hr => rw [hret] at hr; cases hr
      | start hr => rw [hret] at hr; cases hr
    exact ⟨hwithin, fun x => hmemo (hnW rfl hnc), h.infos, h.done, fun x hx => by rw [hact]; exact h.run x hx⟩
  | @source T' alt scan pushed post n hstep hok hret hD =>
    obtain ⟨-, -, S1, hnc⟩ := returned_facts hret
    obtain ⟨-, S1', n', hnc', hcons⟩ := hC.consider hni' hstep
    have hact : T'.active = X.T.active := by
      cases hcons with
      | skip _ hr _ => rw [hret] at hr; cases hr
      | failed _ _ hf _ _ _ => cases hf
      | current _ ha _ _ _ => exact ha
    refine ⟨hwithin, fun x => hmemo (hnW rfl hnc), h.infos, ?_, fun x hx => by rw [hact]; exact h.run x hx⟩
    rintro x (rfl | hx)
    · exact hnW rfl hnc
    · exact h.done x hx
  | @current T' alt scan pushed post n lf hstep hok hret hl hu =>
    obtain ⟨-, -, S1, hnc⟩ := returned_facts hret
    obtain ⟨-, S1', n', hnc', hcons⟩ := hC.consider hni' hstep
    have hact : T'.active = X.T.active := by
      cases hcons with
      | skip _ hr _ => rw [hret] at hr; cases hr
      | failed _ _ hf _ _ _ => cases hf
      | current _ ha _ _ _ => exact ha
    obtain ⟨-, c2, -, c4, c5, -, -⟩ := currentAll_fields M lf (C.targets n) (X.S.checkAll M lf (C.targets n)).1
    obtain ⟨-, -, -, k4, k5, -⟩ := checkAll_fields M lf (C.targets n) X.S
    refine ⟨hwithin, fun x => hmemo (hnW rfl hnc), ?_, ?_, ?_⟩
    · intro x hx
      simp only [c2] at hx
      exact hcheck (hdeps rfl hok hret hl) x hx
    · intro x hx
      rcases (c4 x).1 hx with h1 | h1
      · exact hW.tgt n (hnW rfl hnc) x h1
      · rw [k4] at h1; exact h.done x h1
    · intro x hx
      simp only [c5, k5] at hx
      rw [hact]; exact h.run x hx
  | @start T' alt scan pushed post n lf hstep hok hret hl hu =>
    obtain ⟨-, -, S1, hnc⟩ := returned_facts hret
    obtain ⟨-, S1', n', hnc', hcons⟩ := hC.consider hni' hstep
    have hnn : n' = n := by rw [hnc] at hnc'; simp only [Option.some.injEq, Prod.mk.injEq] at hnc'; exact hnc'.2.symm
    have hact : T'.active = n :: X.T.active := by
      cases hcons with
      | skip _ hr _ => rw [hret] at hr; cases hr
      | failed _ _ hf _ _ _ => cases hf
      | start _ ha _ _ _ => rw [ha, hnn]
    obtain ⟨-, -, -, c4, c5, -⟩ := startAll_fields lf (C.targets n) (X.S.checkAll M lf (C.targets n)).1
    obtain ⟨-, -, -, k4, k5, -⟩ := checkAll_fields M lf (C.targets n) X.S
    refine ⟨hwithin, fun x => hmemo (hnW rfl hnc), ?_, ?_, ?_⟩
    · intro x hx
      by_cases hxt : x ∈ C.targets n
      · exact hW.tgt n (hnW rfl hnc) x hxt
      · simp only [startAll_infos lf _ _ hxt] at hx
        exact hcheck (hdeps rfl hok hret hl) x hx
    · intro x hx
      simp only [c4, k4] at hx
      exact h.done x hx
    · intro x hx
      rw [hact]
      rcases (c5 x).1 hx with h1 | h1
      · exact ⟨n, by simp, h1⟩
      · rw [k5] at h1
        obtain ⟨m, hm, hxm⟩ := h.run x h1
        exact ⟨m, by simp [hm], hxm⟩
  | @early T' alt scan pushed fate m post n hstep hok hf hret =>
    obtain ⟨-, -, S1, hnc⟩ := returned_facts hret
    obtain ⟨-, S1', n', hnc', hcons⟩ := hC.consider hni' hstep
    have hact : T'.active = X.T.active := by
      cases hcons with
      | skip _ hr _ => rw [hret] at hr; cases hr
      | raised _ hr => rw [hret] at hr; cases hr
      | failed _ _ _ _ ha _ => exact ha
      | current => cases hf
      | start => cases hf
    exact ⟨hwithin, fun x => hmemo (hnW rfl hnc), h.infos, h.done, fun x hx => by rw [hact]; exact h.run x hx⟩
  | @removed T' alt scan pushed m post n lf gone hstep hok hret hl hu hg =>
    obtain ⟨-, -, S1, hnc⟩ := returned_facts hret
    obtain ⟨-, S1', n', hnc', hcons⟩ := hC.consider hni' hstep
    have hact : T'.active = X.T.active := by
      cases hcons with
      | skip _ hr _ => rw [hret] at hr; cases hr
      | failed _ _ _ _ ha _ => exact ha
    obtain ⟨-, -, -, c4, c5, -⟩ := startAll_fields lf gone (X.S.checkAll M lf (C.targets n)).1
    obtain ⟨-, -, -, k4, k5, -⟩ := checkAll_fields M lf (C.targets n) X.S
    obtain ⟨-, -, -, f4, f5, -, f7⟩ := failAll_fields (fun _ => none) gone ((X.S.checkAll M lf (C.targets n)).1.startAll lf gone)
    refine ⟨hwithin, fun x => hmemo (hnW rfl hnc), ?_, ?_, ?_⟩
    · intro x hx
      simp only [f7] at hx
      by_cases hxt : x ∈ C.targets n
      · exact hW.tgt n (hnW rfl hnc) x hxt
      · rw [startAll_infos lf _ _ (fun e => hxt (hg.subset e))] at hx
        exact hcheck (hdeps rfl hok hret hl) x hx
    · intro x hx
      simp only [f4, c4, k4] at hx
      exact h.done x hx
    · intro x hx
      obtain ⟨h1, h2⟩ := (f5 x).1 hx
      rcases (c5 x).1 h2 with h3 | h3
      · exact absurd h3 h1
      · rw [k5] at h3; rw [hact]; exact h.run x h3
  | @finish T' n post rs views hstep hrun =>
    obtain ⟨hna, hact, -⟩ := hC.finish_ok hstep
    have hn : W n := h.within.active n hna
    obtain ⟨-, -, f3, f4, -⟩ := finishAll_fields M (fun t => X.T.state t = .executing) rs views (C.targets n) X.S
    refine ⟨hwithin, ?_, ?_, ?_, ?_⟩
    · intro x hx
      simp only at hx
      split at hx
      · exact absurd rfl hx
      · exact h.memo x hx
    · intro x hx
      by_cases hxt : x ∈ C.targets n
      · exact hW.tgt n hn x hxt
      · simp only [finishAll_infos M _ rs views _ _ hxt] at hx
        exact h.infos x hx
    · intro x hx
      rcases (f3 x).1 hx with h1 | h1
      · exact hW.tgt n hn x h1.1
      · exact h.done x h1
    · intro x hx
      obtain ⟨h1, h2⟩ := (f4 x).1 hx
      obtain ⟨m, hm, hxm⟩ := h.run x h2
      refine ⟨m, ?_, hxm⟩
      simp only [hact]
      exact (List.mem_erase_of_ne (by rintro rfl; exact h1 hxm)).2 hm
  | @fail T' n m post left hstep =>
    have hmi : m ≠ .ignore := by rintro rfl; exact hni'
    obtain ⟨hna, hact, -⟩ := hC.finish_fail hmi hstep
    obtain ⟨-, -, -, f4, f5, -, f7⟩ := failAll_fields left (C.targets n) X.S
    refine ⟨hwithin, h.memo, ?_, ?_, ?_⟩
    · intro x hx; simp only [f7] at hx; exact h.infos x hx
    · intro x hx; simp only [f4] at hx; exact h.done x hx
    · intro x hx
      obtain ⟨h1, h2⟩ := (f5 x).1 hx
      obtain ⟨m', hm, hxm⟩ := h.run x h2
      refine ⟨m', ?_, hxm⟩
      simp only [hact]
      exact (List.mem_erase_of_ne (by rintro rfl; exact h1 hxm)).2 hm
  | @flush T' hstep =>
    have hact : T'.active = X.T.active := by
      simp only [TM.step] at hstep
      split at hstep
      case isFalse => cases hstep
      injection hstep with hstep; rw [← hstep]; rfl
    exact ⟨hwithin, h.memo, h.infos, h.done, fun x hx => by rw [hact]; exact h.run x hx⟩
  | @interrupt T' hstep =>
    have hact : T'.active = X.T.active := by
      simp only [TM.step, Option.some.injEq] at hstep; rw [← hstep]
    exact ⟨hwithin, h.memo, h.infos, h.done, fun x hx => by rw [hact]; exact h.run x hx⟩

theorem CSteps.tmReach {M : Sem B K A} {D : Desc V B A} {C : TM.Cfg V} {P} {X X' : CSt V B K A} (hP : ∀ X l X', P X l X' → l.noIgnore) (h : CSteps M D C P X X') :
    TM.Steps C (fun _ l => l.noIgnore) X.T X'.T := by
  induction h with
  | refl => exact .refl _
  | tail l _ hp hs ih => exact .tail l ih (hP _ _ _ hp) hs.tm
  | scribble t b _ _ ih => exact ih

/-- Everything a command has touched lies in every set that contains the requested nodes and is closed under what was looked at. -/
theorem CSteps.touched {M : Sem B K A} {D : Desc V B A} {C : TM.Cfg V} (hC : TM.Groups C (fun n => (D n).isSome)) {orig : List V} {alter : V → List V}
    {S : St V B K A} (h0 : (∀ x, S.infos x = {}) ∧ (∀ x, ¬ S.done x) ∧ ∀ x, S.running x = none)
    {X : CSt V B K A} (h : CSteps M D C (CmdStep alter orig) (CSt.init orig S) X) {W : V → Prop} (hW : TM.Closed C W) (ho : ∀ x ∈ orig, W x)
    (halt : ∀ a ∈ alts alter orig, W a) (hseen : ∀ n, W n → ∀ c ∈ X.T.seen n, W c) : Touched C W X := by
  generalize hX0 : CSt.init orig S = X0 at h
  induction h with
  | refl =>
    subst hX0
    refine ⟨⟨?_, ?_, ?_, ?_, ?_, ?_, ?_, ?_⟩, ?_, ?_, ?_, ?_⟩
    · intro x hx; simp [CSt.init, TM.St.init] at hx
    · intro x hx; exact ho x hx
    · intro x hx; simp [CSt.init, TM.St.init] at hx
    · intro c x hx; simp [CSt.init, TM.St.init] at hx
    · intro c x hx; simp [CSt.init, TM.St.init] at hx
    · intro x hx; simp [CSt.init, TM.St.init] at hx
    · intro x hx; simp [CSt.init, TM.St.init] at hx
    · intro x hx; simp [CSt.init, TM.St.init] at hx
    · intro x hx; simp [CSt.init] at hx
    · intro x hx; exact absurd (h0.1 x) hx
    · intro x hx; exact absurd hx (h0.2.1 x)
    · intro x hx; simp [CSt.init, h0.2.2 x] at hx
  | @tail X1 X2 l h1 hP hs ih =>
    have hi : TM.Inv C orig X1.T := by
      have := CSteps.tmReach (fun _ _ _ (h : CmdStep alter orig _ _ _) => h.1) h1
      rw [← hX0] at this
      exact TM.Reach.inv (hC.project orig) (fun _ l _ => hC.noSELab l) this
    have hsm : ∀ x, X1.T.seen x ⊆ X2.T.seen x := TM.seen_mono (fun n m hm => hi.seenPeer n m hm) hs.tm
    exact (ih (fun n hn c hc => hseen n hn c (hsm n hc))).step hC hW halt hP hs hseen
  | scribble t b _ hr ih =>
    obtain ⟨i1, i2, i3, i4, i5⟩ := ih hseen
    exact ⟨i1, i2, i3, i4, fun x hx => i5 x (by simpa [St.write] using hx)⟩

/-! ## What is left when a command has succeeded -/

/-- After a walk that is over, without failures and without a reported cycle, no node waits for anything. -/
theorem nothing_waits {C : TM.Cfg V} {tgt : V → Prop} (hC : TM.Groups C tgt) {orig : List V} {S : TM.St V}
    (h : TM.Reach C (fun _ l => l.noIgnore) orig S) (hover : S.over) (hns : S.stopped = false) (hok : S.failedTasks = ∅)
    (hcl : ¬ TM.cleanupRaises S (fun _ => false)) : (∀ c, S.wp c = ∅) ∧ (∀ p, S.ref p = 0) ∧ ∀ s, S.wse s = ∅ := by
  obtain ⟨hi, hB⟩ := TM.Reach.binv (hC.project orig) (TM.Steps.mono (fun _ l _ => hC.noSELab l) h)
  have hb : ∀ x, ¬ TM.HitByFailure S x := by rintro x ⟨f, hf, _⟩; rw [hok] at hf; simp at hf
  have hpend : ∀ c, S.state c = .pending → c ∉ S.pend := by
    intro c hc hcp; exact hcl ⟨c, hcp, Or.inr (by rw [hc]; simp)⟩
  have hup : ∀ k x, S.clock - S.born x ≤ k → S.state x = .pending → False := by
    intro k
    induction k with
    | zero =>
      intro x hk hx
      obtain ⟨c, h1, h2, h3, h4⟩ := TM.pending_waits hi hover hns hx (hb x)
      have h5 := (hB.b2 c x h1 h3).resolve_left (hpend c h3)
      have h6 := hB.b1 c
      omega
    | succ k ih =>
      intro x hk hx
      obtain ⟨c, h1, h2, h3, h4⟩ := TM.pending_waits hi hover hns hx (hb x)
      have h5 := (hB.b2 c x h1 h3).resolve_left (hpend c h3)
      have h6 := hB.b1 c
      exact ih c (by omega) h3
  have hwp : ∀ c, S.wp c = ∅ := by
    intro c
    by_contra hne
    obtain ⟨x, hx⟩ := Finset.nonempty_iff_ne_empty.2 hne
    cases hst : S.state c with
    | noState =>
      rcases hi.fresh hns c x hx hst with h2 | h2
      · rw [hover.1] at h2; simp at h2
      · exact h2.elim
    | pending => exact hup _ c (le_refl _) hst
    | executing =>
      rcases hi.exec c (hC.notSE c) hst with ⟨n, h2, _⟩ | h2
      · rw [hover.2.2] at h2; simp at h2
      · exact h2.elim
    | upToDate => rcases hi.done c (by rw [hst]; trivial) with h2 | h2
                  · exact hne h2
                  · exact h2.elim
    | executed => rcases hi.done c (by rw [hst]; trivial) with h2 | h2
                  · exact hne h2
                  · exact h2.elim
    | failed => exact hb c (hi.failed c hst)
  refine ⟨hwp, fun p => ?_, fun s => ?_⟩
  · rw [hi.ref p]; simp [TM.cnt, hwp]
  · by_contra hne
    obtain ⟨x, hx⟩ := Finset.nonempty_iff_ne_empty.2 hne
    exact hC.notSE s (hi.wseSE s x hx)

/-- **C74 (one command).**  Start from an empty memory; a command that was carried out, and whose walk over the children finds everything the command looked at, leaves an
empty memory. -/
theorem C74_command_leaves_nothing {M : Sem B K A} {D : Desc V B A} {C : TM.Cfg V} (hC : TM.Groups C (fun n => (D n).isSome)) {alter : V → List V} {orig : List V}
    {fs : Files V B} {db : V → BInfo V K} {X : CSt V B K A} (h : CSteps M D C (CmdStep alter orig) ((Prompt.fresh fs db).start orig) X) (hs : Succeeded X)
    (ht : Tracked D C (orig ++ alts alter orig) X) : X.prompt D (orig ++ alts alter orig) = Prompt.fresh X.S.fs X.S.db := by
  have h' : CSteps M D C (CmdStep alter orig) (CSt.init orig { (St.rest fs db : St V B K A) with busy := true }) X := h
  have hroot : ∀ x ∈ orig ++ alts alter orig, x ∈ X.seenNodes D (orig ++ alts alter orig) := fun x hx => TM.subset_upSet _ _ (by simpa using hx)
  have hk : Touched C (fun x => x ∈ X.seenNodes D (orig ++ alts alter orig)) X :=
    h'.touched hC ⟨fun _ => rfl, fun _ h => h, fun _ => rfl⟩
      ⟨fun n hn => (ht n hn).2.1, fun n hn m hm => (ht n hn).2.1 m (hC.wf.act n m hm), fun n hn => (ht n hn).2.2, fun n _ m hm => by rw [hC.noSE] at hm; simp at hm⟩
      (fun x hx => hroot x (List.mem_append_left _ hx)) (fun x hx => hroot x (List.mem_append_right _ hx)) (fun n hn => (ht n hn).1)
  have hw := nothing_waits (orig := orig) hC (CSteps.tmReach (fun _ _ _ (h : CmdStep alter orig _ _ _) => h.1) h') hs.over hs.notStopped hs.noFailure hs.noCycle
  have hrun : ∀ x, X.S.running x = none := by
    intro x
    cases hx : X.S.running x with
    | none => rfl
    | some r =>
      obtain ⟨n, hn, -⟩ := hk.run x (by rw [hx]; rfl)
      rw [hs.over.2.2] at hn; simp at hn
  have e1 : (fun x => if x ∈ X.seenNodes D (orig ++ alts alter orig) then ({} : NInfo K) else X.S.infos x) = fun _ => {} := by
    funext x
    split
    · rfl
    · rename_i hx; by_contra hne; exact hx (hk.infos x hne)
  have e2 : (fun x => X.S.done x ∧ x ∉ X.seenNodes D (orig ++ alts alter orig)) = fun _ => False := by
    funext x; exact eq_false fun hx => hx.2 (hk.done x hx.1)
  have e3 : (fun x => if x ∈ X.seenNodes D (orig ++ alts alter orig) then TM.NState.noState else X.T.state x) = fun _ => .noState := by
    funext x
    split
    · rfl
    · rename_i hx; by_contra hne; exact hx (hk.within.state x hne)
  have e4 : (fun x => if x ∈ X.seenNodes D (orig ++ alts alter orig) then none else X.memo x) = fun _ => none := by
    funext x
    split
    · rfl
    · rename_i hx; by_contra hne; exact hx (hk.memo x hne)
  have e5 : X.S.running = fun _ => none := funext hrun
  have e6 : X.T.ref = fun _ => 0 := funext hw.2.1
  have e7 : X.T.wp = fun _ => ∅ := funext hw.1
  have e8 : X.T.wse = fun _ => ∅ := funext hw.2.2
  unfold CSt.prompt Prompt.fresh St.rest
  rw [e1, e2, e3, e4, e5, e6, e7, e8]

/-- What C74 asks of the commands of a session. -/
def Proper (D : Desc V B A) (C : TM.Cfg V) (alter : V → List V) (orig : List V) (X : CSt V B K A) : Prop :=
  Succeeded X ∧ Tracked D C (orig ++ alts alter orig) X

/-- **C74.**  A session in which every command was carried out, and after each command the walk over the children found everything the command had looked at, does what
separate runs of `scons` would have done: with the same edits and the same commands, the files and signature databases it can end with are exactly those the separate runs
can end with, and nothing is left in memory. -/
theorem C74_session_equals_separate_runs {M : Sem B K A} {D : Desc V B A} {C : TM.Cfg V} (hC : TM.Groups C (fun n => (D n).isSome)) {alter : V → List V}
    {fs : Files V B} {db : V → BInfo V K} {es : List (Event V B)} {P : Prompt V B K A} :
    Session M D C alter (Proper D C alter) es (Prompt.fresh fs db) P ↔
      ∃ fs' db', P = Prompt.fresh fs' db' ∧ Separate M D C alter (Proper D C alter) fs db es fs' db' := by
  constructor
  · intro h
    generalize hP0 : (Prompt.fresh fs db : Prompt V B K A) = P0 at h
    induction h with
    | nil P => exact ⟨fs, db, hP0.symm, .nil⟩
    | edit v b _ ih =>
      obtain ⟨fs', db', rfl, h2⟩ := ih hP0
      exact ⟨_, db', rfl, .edit v b h2⟩
    | build orig _ hrun hok ih =>
      obtain ⟨fs', db', rfl, h2⟩ := ih hP0
      exact ⟨_, _, C74_command_leaves_nothing hC hrun hok.1 hok.2, .build orig h2 hrun hok⟩
  · rintro ⟨fs', db', rfl, h⟩
    induction h with
    | nil => exact .nil _
    | edit v b _ ih => exact .edit v b ih
    | build orig _ hrun hok ih =>
      have := Session.build (M := M) (D := D) (C := C) (alter := alter) (ok := Proper D C alter) orig ih hrun hok
      rwa [C74_command_leaves_nothing hC hrun hok.1 hok.2] at this

/-! ## Projects for which this always holds -/

/-- The scanners look at source files only: no dependency is found by reading a file that is itself built. -/
def ScansSources (D : Desc V B A) : Prop :=
  ∀ n sc, D n = some sc → ∀ fs fs' : Files V B, (∀ v, D v = none → fs v = fs' v) → sc.result fs = sc.result fs'

/-- What is running has a builder, sources keep their content, and everything known about dependencies is what the files `fs0` say. -/
structure Steady (D : Desc V B A) (C : TM.Cfg V) (fs0 : Files V B) (X : CSt V B K A) : Prop where
  run : ∀ x, (X.S.running x).isSome → (D x).isSome
  src : ∀ v, D v = none → X.S.fs v = fs0 v
  memo : ∀ n l sc, D n = some sc → X.memo n = some l → l = sc.result fs0
  seen : ∀ n, ∀ c ∈ X.T.seen n, ∃ t ∈ C.targets n, (∃ sc, D t = some sc ∧ c ∈ (sc.result fs0).children) ∨ c ∈ C.prereqs t
  act : ∀ n ∈ X.T.active, (D n).isSome

theorem Steady.leaf {D : Desc V B A} {C : TM.Cfg V} (hsc : ScansSources D) {fs0 : Files V B} {X : CSt V B K A} (h : Steady D C fs0 X) {n : V} {sc : Scan V B A} (hn : D n = some sc) :
    X.leafOf D n = some (sc.result fs0) := by
  unfold CSt.leafOf
  rw [hn]
  simp only [Option.map_some]
  cases hm : X.memo n with
  | none => simp only [Option.getD_none]; rw [hsc n sc hn X.S.fs fs0 h.src]
  | some l => simp only [Option.getD_some]; rw [h.memo n l sc hn hm]

theorem Steady.kids {D : Desc V B A} {C : TM.Cfg V} (hsc : ScansSources D) {fs0 : Files V B} {X : CSt V B K A} (h : Steady D C fs0 X) {n c : V} (hc : c ∈ X.kidsOf D C n) :
    ∃ t ∈ C.targets n, ∃ sc, D t = some sc ∧ c ∈ (sc.result fs0).children := by
  unfold CSt.kidsOf at hc
  rw [List.mem_eraseDups, List.mem_flatMap] at hc
  obtain ⟨t, ht, hc⟩ := hc
  cases hsc' : D t with
  | none => simp [CSt.leafOf, hsc'] at hc
  | some sc =>
    rw [h.leaf hsc hsc'] at hc
    exact ⟨t, ht, sc, hsc', hc⟩

theorem Steady.step {M : Sem B K A} {D : Desc V B A} {C : TM.Cfg V} (hC : TM.Groups C (fun n => (D n).isSome)) (hsc : ScansSources D) {fs0 : Files V B}
    {X X' : CSt V B K A} {l : TM.Lab V} (h : Steady D C fs0 X) (hni : l.noIgnore) (hs : CStep M D C X l X') : Steady D C fs0 X' := by
  have hsrcT : ∀ {n v : V}, (D n).isSome → v ∈ C.targets n → D v ≠ none := by
    intro n v hn hv e
    have := hC.all n hn v hv
    rw [e] at this; cases this
  have hseen : (∀ alt scan pushed fate post S1 n, l = .consider alt scan pushed fate post → TM.nextCandidate X.T alt = some (S1, n) → X.scanOK D C n scan) →
      ∀ n, ∀ c ∈ X'.T.seen n, ∃ t ∈ C.targets n, (∃ sc, D t = some sc ∧ c ∈ (sc.result fs0).children) ∨ c ∈ C.prereqs t := by
    intro hok n c hc
    rcases TM.step_seen hs.tm with ⟨h1, -⟩ | ⟨alt, kids, pushed, fate, post, S1, m, e, hnc, h2⟩
    · rw [h1] at hc; exact h.seen n c hc
    · rw [h2, TM.updOn_apply] at hc
      split at hc
      · rename_i hnm
        have hpeer : C.targets n = C.targets m := hC.wf.peers m n hnm
        rw [Finset.mem_union] at hc
        rcases hc with hc | hc
        · obtain ⟨t, ht, h3⟩ := h.seen m c hc
          exact ⟨t, by rw [hpeer]; exact ht, h3⟩
        · rw [List.mem_toFinset, List.mem_append] at hc
          rcases hc with hc | hc
          · exact ⟨m, by rw [hpeer]; exact hC.wf.self m, Or.inr hc⟩
          · rcases hok _ _ _ _ _ _ _ e hnc with hr | hr
            · cases hr
            · injection hr with hr
              rw [hr] at hc
              obtain ⟨t, ht, sc, h3, h4⟩ := h.kids hsc hc
              exact ⟨t, by rw [hpeer]; exact ht, Or.inl ⟨sc, h3, h4⟩⟩
      · exact h.seen n c hc
  have hscan : ∀ {n scan}, ∀ x l sc, D x = some sc → X.scanned D C n scan x = some l → l = sc.result fs0 := by
    intro n scan x l sc hx hm
    cases scan with
    | raised => exact h.memo x l sc hx hm
    | ok ks =>
      simp only [CSt.scanned] at hm
      split at hm
      · simp only at hm
        split at hm
        · rw [h.leaf hsc hx] at hm; injection hm with hm; exact hm.symm
        · exact h.memo x l sc hx hm
      · exact h.memo x l sc hx hm
  have hone : ∀ {alt scan pushed fate post n S1}, l = .consider alt scan pushed fate post → TM.nextCandidate X.T alt = some (S1, n) → X.scanOK D C n scan →
      ∀ alt' scan' pushed' fate' post' S1' n', l = .consider alt' scan' pushed' fate' post' → TM.nextCandidate X.T alt' = some (S1', n') → X.scanOK D C n' scan' := by
    intro alt scan pushed fate post n S1 e hnc hok alt' scan' pushed' fate' post' S1' n' e' hnc'
    rw [e] at e'
    injection e' with e1 e2
    subst e1 e2
    rw [hnc] at hnc'
    simp only [Option.some.injEq, Prod.mk.injEq] at hnc'
    rw [← hnc'.2]; exact hok
  cases hs with
  | @walk T' T1 alt scan pushed fate post n hstep hnc hok hret =>
    obtain ⟨-, S1, n', hnc', hcons⟩ := hC.consider hni hstep
    have hact : T'.active = X.T.active := by
      cases hcons with
      | skip _ _ hf => exact hf.active
      | raised _ _ _ _ ha _ => exact ha
      | failed _ _ _ hr _ _ => rw [hret] at hr; cases hr
      | current hr => rw [hret] at hr; cases hr
      | start hr => rw [hret] at hr; cases hr
    exact ⟨h.run, h.src, hscan, hseen (hone rfl hnc hok), fun n hn => h.act n (by rw [hact] at hn; exact hn)⟩
  | @source T' alt scan pushed post n hstep hok hret hD =>
    obtain ⟨-, -, S1, hnc⟩ := returned_facts hret
    obtain ⟨-, S1', n', hnc', hcons⟩ := hC.consider hni hstep
    have hact : T'.active = X.T.active := by
      cases hcons with
      | skip _ hr _ => rw [hret] at hr; cases hr
      | failed _ _ hf _ _ _ => cases hf
      | current _ ha _ _ _ => exact ha
    exact ⟨h.run, h.src, hscan, hseen (hone rfl hnc hok), fun n hn => h.act n (by rw [hact] at hn; exact hn)⟩
  | @current T' alt scan pushed post n lf hstep hok hret hl hu =>
    obtain ⟨-, -, S1, hnc⟩ := returned_facts hret
    obtain ⟨-, S1', n', hnc', hcons⟩ := hC.consider hni hstep
    have hact : T'.active = X.T.active := by
      cases hcons with
      | skip _ hr _ => rw [hret] at hr; cases hr
      | failed _ _ hf _ _ _ => cases hf
      | current _ ha _ _ _ => exact ha
    obtain ⟨c1, c2, -, c4, c5, -, -⟩ := currentAll_fields M lf (C.targets n) (X.S.checkAll M lf (C.targets n)).1
    obtain ⟨k1, -, -, k4, k5, -⟩ := checkAll_fields M lf (C.targets n) X.S
    refine ⟨fun x hx => h.run x ?_, fun v hv => ?_, hscan, hseen (hone rfl hnc hok), fun n hn => h.act n (by rw [hact] at hn; exact hn)⟩
    · simp only [c5, k5] at hx; exact hx
    · simp only [c1, k1]; exact h.src v hv
  | @start T' alt scan pushed post n lf hstep hok hret hl hu =>
    obtain ⟨-, -, S1, hnc⟩ := returned_facts hret
    obtain ⟨-, S1', n', hnc', hcons⟩ := hC.consider hni hstep
    have hnn : n' = n := by rw [hnc] at hnc'; simp only [Option.some.injEq, Prod.mk.injEq] at hnc'; exact hnc'.2.symm
    have hact : T'.active = n :: X.T.active := by
      cases hcons with
      | skip _ hr _ => rw [hret] at hr; cases hr
      | failed _ _ hf _ _ _ => cases hf
      | start _ ha _ _ _ => rw [ha, hnn]
    have hDt : ∀ t ∈ C.targets n, (D t).isSome := by
      intro t ht
      have := hl t ht
      unfold CSt.leafOf at this
      cases hD : D t with
      | none => rw [hD] at this; cases this
      | some sc => rfl
    obtain ⟨c1, -, -, c4, c5, -⟩ := startAll_fields lf (C.targets n) (X.S.checkAll M lf (C.targets n)).1
    obtain ⟨k1, -, -, k4, k5, -⟩ := checkAll_fields M lf (C.targets n) X.S
    refine ⟨fun x hx => ?_, fun v hv => ?_, hscan, hseen (hone rfl hnc hok), fun m hm => ?_⟩
    · rcases (c5 x).1 hx with h1 | h1
      · exact hDt x h1
      · rw [k5] at h1; exact h.run x h1
    · simp only [c1, k1]
      rw [if_neg (fun e => hsrcT (hDt n (hC.wf.self n)) e hv)]
      exact h.src v hv
    · rw [hact] at hm
      rcases List.mem_cons.1 hm with rfl | hm
      · exact hDt m (hC.wf.self m)
      · exact h.act m hm
  | @early T' alt scan pushed fate m post n hstep hok hf hret =>
    obtain ⟨-, -, S1, hnc⟩ := returned_facts hret
    obtain ⟨-, S1', n', hnc', hcons⟩ := hC.consider hni hstep
    have hact : T'.active = X.T.active := by
      cases hcons with
      | skip _ hr _ => rw [hret] at hr; cases hr
      | raised _ hr => rw [hret] at hr; cases hr
      | failed _ _ _ _ ha _ => exact ha
      | current => cases hf
      | start => cases hf
    exact ⟨h.run, h.src, hscan, hseen (hone rfl hnc hok), fun n hn => h.act n (by rw [hact] at hn; exact hn)⟩
  | @removed T' alt scan pushed m post n lf gone hstep hok hret hl hu hg =>
    obtain ⟨-, -, S1, hnc⟩ := returned_facts hret
    obtain ⟨-, S1', n', hnc', hcons⟩ := hC.consider hni hstep
    have hact : T'.active = X.T.active := by
      cases hcons with
      | skip _ hr _ => rw [hret] at hr; cases hr
      | failed _ _ _ _ ha _ => exact ha
    have hDt : ∀ t ∈ C.targets n, (D t).isSome := by
      intro t ht
      have := hl t ht
      unfold CSt.leafOf at this
      cases hD : D t with
      | none => rw [hD] at this; cases this
      | some sc => rfl
    obtain ⟨c1, -, -, c4, c5, -⟩ := startAll_fields lf gone (X.S.checkAll M lf (C.targets n)).1
    obtain ⟨k1, -, -, k4, k5, -⟩ := checkAll_fields M lf (C.targets n) X.S
    obtain ⟨f1, -, -, f4, f5, -, f7⟩ := failAll_fields (fun _ => none) gone ((X.S.checkAll M lf (C.targets n)).1.startAll lf gone)
    refine ⟨fun x hx => ?_, fun v hv => ?_, hscan, hseen (hone rfl hnc hok), fun n hn => h.act n (by rw [hact] at hn; exact hn)⟩
    · obtain ⟨h1, h2⟩ := (f5 x).1 hx
      rcases (c5 x).1 h2 with h3 | h3
      · exact absurd h3 h1
      · rw [k5] at h3; exact h.run x h3
    · have hvg : v ∉ gone := fun e => hsrcT (hDt n (hC.wf.self n)) (hg.subset e) hv
      simp only [f1, c1, k1, if_neg hvg]
      exact h.src v hv
  | @finish T' n post rs views hstep hrun =>
    obtain ⟨hna, hact, -⟩ := hC.finish_ok hstep
    obtain ⟨f1, -, f3, f4, -⟩ := finishAll_fields M (fun t => X.T.state t = .executing) rs views (C.targets n) X.S
    refine ⟨fun x hx => h.run x ((f4 x).1 hx).2, fun v hv => ?_, ?_, hseen (by intro _ _ _ _ _ _ _ e; cases e), fun m hm => h.act m ?_⟩
    · simp only [f1]
      rw [if_neg (fun e => hsrcT (h.act n hna) e hv)]
      exact h.src v hv
    · intro x l sc hx hm
      simp only at hm
      split at hm
      · cases hm
      · exact h.memo x l sc hx hm
    · simp only [hact] at hm; exact List.mem_of_mem_erase hm
  | @fail T' n m post left hstep =>
    have hmi : m ≠ .ignore := by rintro rfl; exact hni
    obtain ⟨hna, hact, -⟩ := hC.finish_fail hmi hstep
    obtain ⟨f1, -, -, f4, f5, -, f7⟩ := failAll_fields left (C.targets n) X.S
    refine ⟨fun x hx => h.run x ((f5 x).1 hx).2, fun v hv => ?_, h.memo, hseen (by intro _ _ _ _ _ _ _ e; cases e), fun m hm => h.act m ?_⟩
    · simp only [f1]
      rw [if_neg (fun e => hsrcT (h.act n hna) e hv)]
      exact h.src v hv
    · simp only [hact] at hm; exact List.mem_of_mem_erase hm
  | @flush T' hstep =>
    have hact : T'.active = X.T.active := by
      simp only [TM.step] at hstep
      split at hstep
      case isFalse => cases hstep
      injection hstep with hstep; rw [← hstep]; rfl
    exact ⟨h.run, h.src, h.memo, hseen (by intro _ _ _ _ _ _ _ e; cases e), fun n hn => h.act n (by rw [hact] at hn; exact hn)⟩
  | @interrupt T' hstep =>
    have hact : T'.active = X.T.active := by
      simp only [TM.step, Option.some.injEq] at hstep; rw [← hstep]
    exact ⟨h.run, h.src, h.memo, hseen (by intro _ _ _ _ _ _ _ e; cases e), fun n hn => h.act n (by rw [hact] at hn; exact hn)⟩

theorem CSteps.steady {M : Sem B K A} {D : Desc V B A} {C : TM.Cfg V} (hC : TM.Groups C (fun n => (D n).isSome)) (hsc : ScansSources D) {orig : List V} {alter : V → List V}
    {S : St V B K A} (h0 : ∀ x, S.running x = none) {X : CSt V B K A} (h : CSteps M D C (CmdStep alter orig) (CSt.init orig S) X) : Steady D C S.fs X := by
  generalize hX0 : CSt.init orig S = X0 at h
  induction h with
  | refl =>
    subst hX0
    refine ⟨?_, fun _ _ => rfl, ?_, ?_, ?_⟩
    · intro x hx; simp [CSt.init, h0 x] at hx
    · intro n l sc _ hm; simp [CSt.init] at hm
    · intro n c hc; simp [CSt.init, TM.St.init] at hc
    · intro n hn; simp [CSt.init, TM.St.init] at hn
  | tail l _ hP hs ih => exact ih.step hC hsc hP.1 hs
  | @scribble X1 t b _ hr ih =>
    refine ⟨fun x hx => ih.run x (by simpa [St.write] using hx), fun v hv => ?_, ih.memo, ih.seen, ih.act⟩
    have hvt : v ≠ t := by
      rintro rfl
      have := ih.run v hr
      rw [hv] at this; cases this
    simp only [St.write, if_neg hvt]
    exact ih.src v hv

/-- The condition of C74 on a project: no `Requires()`, every action makes one file, and no scanner reads a file that is built.  Then whatever a command looks at is found again. -/
theorem tracked_of_plain {M : Sem B K A} {D : Desc V B A} {C : TM.Cfg V} (hC : TM.Groups C (fun n => (D n).isSome)) (hsc : ScansSources D)
    (hone : ∀ n, C.targets n = [n]) (hpre : ∀ n, C.prereqs n = []) {alter : V → List V} {orig : List V}
    {fs : Files V B} {db : V → BInfo V K} {X : CSt V B K A}
    (h : CSteps M D C (CmdStep alter orig) (CSt.init orig { (St.rest fs db : St V B K A) with busy := true }) X) :
    Tracked D C (orig ++ alts alter orig) X := by
  have hst := h.steady hC hsc (fun _ => rfl)
  intro n hn
  refine ⟨fun c hc => ?_, fun m hm => ?_, fun m hm => ?_⟩
  · obtain ⟨t, ht, h1⟩ := hst.seen n c hc
    rw [hone] at ht; simp only [List.mem_singleton] at ht; subst ht
    rcases h1 with ⟨sc, h1, h2⟩ | h1
    · refine TM.upSet_closed _ _ t hn c ?_
      simp only [CSt.childrenOf, hst.leaf hsc h1, List.mem_toFinset]
      exact h2
    · rw [hpre] at h1; simp at h1
  · rw [hone] at hm; simp only [List.mem_singleton] at hm; subst hm; exact hn
  · rw [hpre] at hm; simp at hm

/-- **C74 (plain projects).**  In a project without `Requires()`, in which every action makes one file and no scanner reads a file that is built, *every* session all of whose
commands are carried out does what separate runs of `scons` would have done. -/
theorem C74_plain_project {M : Sem B K A} {D : Desc V B A} {C : TM.Cfg V} (hC : TM.Groups C (fun n => (D n).isSome)) (hsc : ScansSources D)
    (hone : ∀ n, C.targets n = [n]) (hpre : ∀ n, C.prereqs n = []) {alter : V → List V}
    {fs : Files V B} {db : V → BInfo V K} {es : List (Event V B)} {P : Prompt V B K A} :
    Session M D C alter (fun _ X => Succeeded X) es (Prompt.fresh fs db) P ↔
      ∃ fs' db', P = Prompt.fresh fs' db' ∧ Separate M D C alter (fun _ X => Succeeded X) fs db es fs' db' := by
  constructor
  · intro h
    generalize hP0 : (Prompt.fresh fs db : Prompt V B K A) = P0 at h
    induction h with
    | nil P => exact ⟨fs, db, hP0.symm, .nil⟩
    | edit v b _ ih =>
      obtain ⟨fs', db', rfl, h2⟩ := ih hP0
      exact ⟨_, db', rfl, .edit v b h2⟩
    | build orig _ hrun hok ih =>
      obtain ⟨fs', db', rfl, h2⟩ := ih hP0
      exact ⟨_, _, C74_command_leaves_nothing hC hrun hok (tracked_of_plain hC hsc hone hpre hrun), .build orig h2 hrun hok⟩
  · rintro ⟨fs', db', rfl, h⟩
    induction h with
    | nil => exact .nil _
    | edit v b _ ih => exact .edit v b ih
    | build orig _ hrun hok ih =>
      have := Session.build (M := M) (D := D) (C := C) (alter := alter) (ok := fun _ X => Succeeded X) orig ih hrun hok
      rwa [C74_command_leaves_nothing hC hrun hok (tracked_of_plain hC hsc hone hpre hrun)] at this

end Verif.Build
