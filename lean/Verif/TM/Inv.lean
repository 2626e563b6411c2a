import Verif.TM.Basic

/-! The main inductive invariant of the walk (side effect nodes isolated, any failure mode, any scan results). -/

set_option linter.unusedSectionVars false
set_option linter.unusedSimpArgs false
set_option linter.unusedVariables false

namespace Verif.TM
variable {V : Type} [DecidableEq V] [Fintype V]

/-- A node created by `env.SideEffect()` . -/
def Cfg.isSE (C : Cfg V) (s : V) : Prop := ∃ t, s ∈ C.sideEffects t

/-- Executors are shared consistently: every node belongs to its executor's target list, co-targets have the same
list, and the action's targets are among them (`SCons/Builder.py:575-600` sets one executor on all targets). -/
structure Cfg.WF (C : Cfg V) : Prop where
  self : ∀ n, n ∈ C.targets n
  peers : ∀ n m, m ∈ C.targets n → C.targets m = C.targets n
  act : ∀ n, ∀ m ∈ C.actTargets n, m ∈ C.targets n
  nodup : ∀ n, (C.targets n).Nodup

/-- Side-effect files are not themselves built by a builder together with ordinary targets nor prerequisites. -/
structure Cfg.SEIso (C : Cfg V) : Prop where
  tgt : ∀ n, ¬ C.isSE n → ∀ m ∈ C.targets n, ¬ C.isSE m
  pre : ∀ n, ∀ c ∈ C.prereqs n, ¬ C.isSE c

/-- The label mentions no side-effect node (they are neither requested nor depended upon). -/
def Lab.noSE (C : Cfg V) : Lab V → Prop
  | .consider alt scan _ _ _ => (∀ x ∈ alt, ¬ C.isSE x) ∧ (∀ kids, scan = .ok kids → ∀ x ∈ kids, ¬ C.isSE x)
  | _ => True

/-- `x` is, or depends (through dependencies reported by scans) on, a target whose task failed. -/
def Bad (S : St V) (x : V) : Prop := ∃ f ∈ S.failedTasks, Relation.ReflTransGen (fun a b => b ∈ S.seen a) x f

/-- waits for a busy side effect -/
def SEwait (C : Cfg V) (S : St V) (E : V → Prop) (x : V) : Prop :=
  ∃ s, x ∈ S.wse s ∧ (S.state s = .executing ∨ ∃ t, E t ∧ s ∈ C.sideEffects t)

/-- the ghost list of started targets: no side effects, closed under co-targets, no duplicates, contains the targets of
all outstanding tasks -/
structure StartedRest (C : Cfg V) (started active : List V) : Prop where
  nse : ∀ x ∈ started, ¬ C.isSE x
  act : ∀ n ∈ active, ∀ x ∈ C.targets n, x ∈ started
  peer : ∀ x ∈ started, ∀ m ∈ C.targets x, m ∈ started
  nodup : started.Nodup
  actNodup : active.Nodup
  actPeer : ∀ k ∈ active, ∀ n ∈ active, n ∈ C.targets k → n = k

/-- The invariant; `E` = targets of the task being processed right now, `Q` = the candidate just popped. -/
structure InvE (C : Cfg V) (orig : List V) (S : St V) (E Q : V → Prop) : Prop where
  ref : ∀ p, S.ref p = cnt S.wp p
  origSE : ∀ x ∈ orig, ¬ C.isSE x
  seWp : ∀ s, C.isSE s → S.wp s = ∅
  seWp' : ∀ c x, x ∈ S.wp c → ¬ C.isSE x
  seCands : ∀ x ∈ S.cands, ¬ C.isSE x
  seTops : ∀ x ∈ S.tops, ¬ C.isSE x
  seWse : ∀ s x, x ∈ S.wse s → ¬ C.isSE x
  wseSE : ∀ s x, x ∈ S.wse s → C.isSE s
  seCur : ∀ x ∈ S.curTop, ¬ C.isSE x
  seAct : ∀ x ∈ S.active, ¬ C.isSE x
  seSt : ∀ s, C.isSE s → S.state s = .noState ∨ S.state s = .executing
  exec : ∀ x, ¬ C.isSE x → S.state x = .executing → (∃ n ∈ S.active, x ∈ C.targets n) ∨ E x
  execSE : ∀ s, C.isSE s → S.state s = .executing →
    (∃ n ∈ S.active, s ∈ C.ses (C.targets n)) ∨ S.stopped = true ∨ ∃ x, E x ∧ s ∈ C.sideEffects x
  done : ∀ c, (S.state c).done → S.wp c = ∅ ∨ E c
  pending : S.stopped = false → ∀ x, S.state x = .pending →
    x ∈ S.cands ∨ (∃ c, x ∈ S.wp c) ∨ SEwait C S E x ∨ Bad S x ∨ E x ∨ Q x
  fresh : S.stopped = false → ∀ c x, x ∈ S.wp c → S.state c = .noState → c ∈ S.cands ∨ Q c
  top : S.stopped = false → ∀ x ∈ orig, x ∈ S.tops ∨ x ∈ S.cands ∨ S.state x ≠ .noState ∨ Q x
  failed : ∀ x, S.state x = .failed → Bad S x
  seen : ∀ c x, x ∈ S.wp c → c ∈ S.seen x
  seenPeer : ∀ n m, m ∈ C.targets n → S.seen m = S.seen n
  seenSE : ∀ x c, c ∈ S.seen x → ¬ C.isSE c
  startedRest : StartedRest C S.started S.active
  started : ∀ x ∈ S.started, 1 < (S.state x).rank

theorem InvE.mono {C : Cfg V} {orig : List V} {S : St V} {E E' Q : V → Prop} (h : InvE C orig S E Q)
    (hE : ∀ x, E x → E' x) : InvE C orig S E' Q :=
  { h with
    exec := fun x h1 h2 => (h.exec x h1 h2).imp_right (hE x)
    execSE := fun s h1 h2 => (h.execSE s h1 h2).imp_right (Or.imp_right fun ⟨x, hx, hs⟩ => ⟨x, hE x hx, hs⟩)
    done := fun c h1 => (h.done c h1).imp_right (hE c)
    pending := fun h0 x h1 => by
      rcases h.pending h0 x h1 with h | h | ⟨s, h1, h2⟩ | h | h | h
      · exact Or.inl h
      · exact Or.inr (Or.inl h)
      · refine Or.inr (Or.inr (Or.inl ⟨s, h1, h2.imp_right fun ⟨t, ht, hs⟩ => ⟨t, hE t ht, hs⟩⟩))
      · grind
      · have := hE x h; grind
      · grind }

theorem Bad.seen_step {S : St V} {x c : V} (h : c ∈ S.seen x) (hb : Bad S c) : Bad S x := by
  obtain ⟨f, hf, hr⟩ := hb
  exact ⟨f, hf, Relation.ReflTransGen.head h hr⟩

theorem Bad.mono {S S' : St V} (hf : S.failedTasks ⊆ S'.failedTasks) (hs : ∀ x, S.seen x ⊆ S'.seen x) {x : V}
    (h : Bad S x) : Bad S' x := by
  obtain ⟨f, h1, h2⟩ := h
  exact ⟨f, hf h1, Relation.ReflTransGen.mono (fun a b hab => hs a hab) _ _ h2⟩

theorem Bad.of_failedTask {S : St V} {x : V} (h : x ∈ S.failedTasks) : Bad S x := ⟨x, h, .refl⟩

/-! ### postprocess -/

theorem ses_mem {C : Cfg V} {ts : List V} {s : V} : s ∈ C.ses ts ↔ ∃ t ∈ ts, s ∈ C.sideEffects t := by
  simp [Cfg.ses]

theorem isSE_of_ses {C : Cfg V} {ts : List V} {s : V} (h : s ∈ C.ses ts) : C.isSE s := by
  obtain ⟨t, _, h⟩ := ses_mem.1 h; exact ⟨t, h⟩

theorem InvE.postprocess {C : Cfg V} {orig : List V} {S S' : St V} {E : V → Prop} {ts post : List V}
    (h : InvE C orig S E (fun _ => False)) (hts : ∀ x ∈ ts, ¬ C.isSE x)
    (hex : ∀ x ∈ ts, E x → S.state x ≠ .executing)
    (hpd : S.stopped = false → ∀ x ∈ ts, E x → S.state x = .pending → Bad S x)
    (hp : postprocess C S ts post = some S') :
    InvE C orig S' (fun x => E x ∧ x ∉ ts) (fun _ => False) := by
  unfold TM.postprocess at hp
  simp only at hp
  split at hp
  case isFalse => cases hp
  case isTrue hpost =>
  injection hp with hp
  generalize hR : (ts.toFinset ∪ (C.ses ts).toFinset.filter
    (fun s => updOn S.state (fun s => s ∈ (C.ses ts).toFinset ∧ S.state s = NState.executing) .noState s = .noState)) = R at *
  have hRse : ∀ x ∈ R, x ∈ ts ∨ C.isSE x := by
    intro x hx; rw [← hR] at hx
    simp only [Finset.mem_union, List.mem_toFinset, Finset.mem_filter] at hx
    rcases hx with hx | hx
    · exact Or.inl hx
    · exact Or.inr (isSE_of_ses hx.1)
  have htsR : ∀ x ∈ ts, x ∈ R := by intro x hx; rw [← hR]; simp [hx]
  have hst : ∀ x, ¬ C.isSE x → S'.state x = S.state x := by
    intro x hx; rw [← hp]; simp only [updOn_apply]
    rw [if_neg]; rintro ⟨h1, _⟩; exact hx (isSE_of_ses (List.mem_toFinset.1 h1))
  have hstE : ∀ x, S'.state x = .executing → S.state x = .executing ∧ x ∉ C.ses ts := by
    intro x hx; rw [← hp] at hx; simp only [updOn_apply] at hx
    split at hx
    · cases hx
    · rename_i h1; exact ⟨hx, fun h2 => h1 ⟨List.mem_toFinset.2 h2, hx⟩⟩
  have hwp : ∀ c, S'.wp c = if c ∈ R then ∅ else S.wp c := by intro c; rw [← hp]; rfl
  have hwse : S'.wse = S.wse := by rw [← hp]
  have hcands : S'.cands = post.reverse ++ S.cands := by rw [← hp]
  have href : ∀ p, S'.ref p = cnt S'.wp p := by
    intro p; rw [← hp]; simp only; rw [cnt_clear, h.ref]
  have hseen : S'.seen = S.seen := by rw [← hp]
  have hfail : S'.failedTasks = S.failedTasks := by rw [← hp]
  have htops : S'.tops = S.tops := by rw [← hp]
  have hcur : S'.curTop = S.curTop := by rw [← hp]
  have hact : S'.active = S.active := by rw [← hp]
  have hstop : S'.stopped = S.stopped := by rw [← hp]
  have hstd : S'.started = S.started := by rw [← hp]
  have hbad : ∀ x, Bad S' x ↔ Bad S x := by intro x; unfold Bad; rw [hseen, hfail]
  have hpostmem : ∀ p, p ∈ post ↔ ((∃ s ∈ C.ses ts, p ∈ S.wse s) ∧ S.ref p = 0) ∨
      ((∃ c ∈ R, p ∈ S.wp c) ∧ S'.ref p = 0) := by
    intro p
    rw [← List.mem_toFinset, hpost, ← hp]
    simp only [Finset.mem_union, Finset.mem_filter, Finset.mem_biUnion, List.mem_toFinset]
  have hpm : ∀ p ∈ post, ¬ C.isSE p := by
    intro p hp'
    rcases (hpostmem p).1 hp' with ⟨⟨s, _, hs⟩, _⟩ | ⟨⟨c, _, hc⟩, _⟩
    · exact h.seWse _ _ hs
    · exact h.seWp' _ _ hc
  have hw : ∀ x, (∃ c, x ∈ S.wp c) → x ∈ S'.cands ∨ ∃ c, x ∈ S'.wp c := by
    rintro x ⟨c, hc⟩
    by_cases hcR : c ∈ R
    · by_cases h0 : S'.ref x = 0
      · left; rw [hcands]
        simp only [List.mem_append, List.mem_reverse]
        exact Or.inl ((hpostmem x).2 (Or.inr ⟨⟨c, hcR, hc⟩, h0⟩))
      · right; exact cnt_ne_zero (by rw [← href]; exact h0)
    · right; exact ⟨c, by rw [hwp, if_neg hcR]; exact hc⟩
  refine ⟨href, h.origSE, ?_, ?_, ?_, ?_, ?_, ?_, ?_, ?_, ?_, ?_, ?_, ?_, ?_, ?_, ?_, ?_, ?_, ?_, ?_, ?_, ?_⟩
  · intro s hs; rw [hwp]; split
    · rfl
    · exact h.seWp s hs
  · intro c x hx; rw [hwp] at hx; split at hx
    · simp at hx
    · exact h.seWp' c x hx
  · intro x hx; rw [hcands] at hx
    simp only [List.mem_append, List.mem_reverse] at hx
    exact hx.elim (hpm x) (h.seCands x)
  · rw [htops]; exact h.seTops
  · rw [hwse]; exact h.seWse
  · rw [hwse]; exact h.wseSE
  · rw [hcur]; exact h.seCur
  · rw [hact]; exact h.seAct
  · intro s hs; rw [← hp]; simp only [updOn_apply]; split
    · exact Or.inl rfl
    · exact h.seSt s hs
  · intro x hx hx2
    rw [hst x hx] at hx2
    rw [hact]
    rcases h.exec x hx hx2 with h1 | h1
    · exact Or.inl h1
    · exact Or.inr ⟨h1, fun h3 => hex x h3 h1 hx2⟩
  · intro s hs hs2
    rw [hact, hstop]
    obtain ⟨h1, h2⟩ := hstE s hs2
    rcases h.execSE s hs h1 with h3 | h3 | ⟨x, hx, hsx⟩
    · exact Or.inl h3
    · exact Or.inr (Or.inl h3)
    · exact Or.inr (Or.inr ⟨x, ⟨hx, fun h4 => h2 (ses_mem.2 ⟨x, h4, hsx⟩)⟩, hsx⟩)
  · intro c hc
    by_cases hcR : c ∈ R
    · left; rw [hwp, if_pos hcR]
    · have hse : ¬ C.isSE c := by
        intro hs
        rw [← hp] at hc; simp only [updOn_apply] at hc
        split at hc
        · exact hc
        · rcases h.seSt c hs with h1 | h1 <;> rw [h1] at hc <;> exact hc
      rw [hst c hse] at hc
      rcases h.done c hc with h1 | h1
      · left; rw [hwp, if_neg hcR]; exact h1
      · right; exact ⟨h1, fun h2 => hcR (htsR c h2)⟩
  · intro hstop' x hx
    have hstop0 : S.stopped = false := by rw [← hstop]; exact hstop'
    have hse : ¬ C.isSE x := by
      intro hs
      rw [← hp] at hx; simp only [updOn_apply] at hx
      split at hx
      · cases hx
      · rcases h.seSt x hs with h1 | h1 <;> rw [h1] at hx <;> cases hx
    rw [hst x hse] at hx
    rcases h.pending hstop0 x hx with h1 | h1 | ⟨s, h1, h2⟩ | h1 | h1 | h1
    · left; rw [hcands]; simp [h1]
    · rcases hw x h1 with h2 | h2
      · exact Or.inl h2
      · exact Or.inr (Or.inl h2)
    · by_cases hs : s ∈ C.ses ts
      · by_cases h0 : S.ref x = 0
        · left; rw [hcands]
          simp only [List.mem_append, List.mem_reverse]
          exact Or.inl ((hpostmem x).2 (Or.inl ⟨⟨s, hs, h1⟩, h0⟩))
        · rw [h.ref] at h0
          rcases hw x (cnt_ne_zero h0) with h2 | h2
          · exact Or.inl h2
          · exact Or.inr (Or.inl h2)
      · right; right; left
        refine ⟨s, by rw [hwse]; exact h1, ?_⟩
        rcases h2 with h2 | ⟨t, ht, hst⟩
        · left; rw [← hp]; simp only [updOn_apply]
          rw [if_neg (fun hh => hs (List.mem_toFinset.1 hh.1))]; exact h2
        · right; exact ⟨t, ⟨ht, fun h4 => hs (ses_mem.2 ⟨t, h4, hst⟩)⟩, hst⟩
    · right; right; right; left; exact (hbad x).2 h1
    · by_cases h2 : x ∈ ts
      · right; right; right; left; exact (hbad x).2 (hpd hstop0 x h2 h1 hx)
      · right; right; right; right; left; exact ⟨h1, h2⟩
    · exact h1.elim
  · intro hstop' c x hx hc
    have hstop0 : S.stopped = false := by rw [← hstop]; exact hstop'
    rw [hwp] at hx; split at hx
    · simp at hx
    · have hse : ¬ C.isSE c := fun hs => by rw [h.seWp c hs] at hx; simp at hx
      rw [hst c hse] at hc
      rcases h.fresh hstop0 c x hx hc with h1 | h1
      · left; rw [hcands]; simp [h1]
      · exact h1.elim
  · intro hstop' x hx
    have hstop0 : S.stopped = false := by rw [← hstop]; exact hstop'
    rw [htops]
    rcases h.top hstop0 x hx with h1 | h1 | h1 | h1
    · exact Or.inl h1
    · right; left; rw [hcands]; simp [h1]
    · right; right; left; rw [hst x (h.origSE x hx)]; exact h1
    · exact h1.elim
  · intro x hx
    have hse : ¬ C.isSE x := by
      intro hs
      rw [← hp] at hx; simp only [updOn_apply] at hx
      split at hx
      · cases hx
      · rcases h.seSt x hs with h1 | h1 <;> rw [h1] at hx <;> cases hx
    rw [hst x hse] at hx
    exact (hbad x).2 (h.failed x hx)
  · intro c x hx; rw [hwp] at hx; split at hx
    · simp at hx
    · rw [hseen]; exact h.seen c x hx
  · rw [hseen]; exact h.seenPeer
  · rw [hseen]; exact h.seenSE
  · rw [hact, hstd]; exact h.startedRest
  · intro x hx; rw [hstd] at hx; rw [hst x (h.startedRest.nse x hx)]; exact h.started x hx

/-! ### executed -/

theorem executed_state_nse {C : Cfg V} {S : St V} {ts : List V} {x : V} (hx : ¬ C.isSE x) :
    (executed C S ts).state x = if x ∈ ts ∧ S.state x = .executing then .executed else S.state x := by
  simp only [executed, List.mem_filter, decide_eq_true_eq]
  split
  · rfl
  · rw [if_neg]; intro h; exact hx (isSE_of_ses h)

theorem executed_state_se {C : Cfg V} {S : St V} {ts : List V} (hts : ∀ x ∈ ts, ¬ C.isSE x) {x : V}
    (hx : C.isSE x) : (executed C S ts).state x = .noState ∨ (executed C S ts).state x = S.state x := by
  simp only [executed, List.mem_filter, decide_eq_true_eq]
  rw [if_neg (fun h => hts x h.1 hx)]
  split <;> simp

/-- Hypothesis package: `S'` differs from `S` only in `state`. -/
structure OnlyState (S S' : St V) : Prop where
  ref : S'.ref = S.ref
  wp : S'.wp = S.wp
  wse : S'.wse = S.wse
  cands : S'.cands = S.cands
  tops : S'.tops = S.tops
  curTop : S'.curTop = S.curTop
  pend : S'.pend = S.pend
  stopped : S'.stopped = S.stopped
  active : S'.active = S.active
  started : S'.started = S.started
  failedTasks : S'.failedTasks = S.failedTasks
  seen : S'.seen = S.seen
  born : S'.born = S.born
  clock : S'.clock = S.clock

theorem executed_only (C : Cfg V) (S : St V) (ts : List V) : OnlyState S (executed C S ts) := by
  constructor <;> rfl

theorem OnlyState.bad {S S' : St V} (h : OnlyState S S') (x : V) : Bad S' x ↔ Bad S x := by
  unfold Bad; rw [h.seen, h.failedTasks]

theorem InvE.executed {C : Cfg V} {orig : List V} {S : St V} {ts : List V} {Q : V → Prop}
    (h : InvE C orig S (· ∈ ts) Q) (hts : ∀ x ∈ ts, ¬ C.isSE x) :
    InvE C orig (executed C S ts) (· ∈ ts) Q := by
  have o := executed_only C S ts
  have hs : ∀ x, ¬ C.isSE x → (TM.executed C S ts).state x
      = if x ∈ ts ∧ S.state x = .executing then .executed else S.state x := fun x hx => executed_state_nse hx
  have hse : ∀ x, C.isSE x → (TM.executed C S ts).state x = .noState ∨ (TM.executed C S ts).state x = S.state x :=
    fun x hx => executed_state_se hts hx
  have hsew : ∀ s, S.state s = .executing → (TM.executed C S ts).state s = .executing ∨ ∃ t, t ∈ ts ∧ (s = t ∨ s ∈ C.sideEffects t) := by
    intro s hs'
    simp only [TM.executed, List.mem_filter, decide_eq_true_eq]
    split
    · rename_i h1; exact Or.inr ⟨s, h1.1, Or.inl rfl⟩
    · split
      · rename_i h1
        obtain ⟨t, ht, hst⟩ := ses_mem.1 h1
        exact Or.inr ⟨t, List.mem_of_mem_filter ht, Or.inr hst⟩
      · exact Or.inl hs'
  generalize TM.executed C S ts = S' at *
  refine ⟨?_, h.origSE, ?_, ?_, ?_, ?_, ?_, ?_, ?_, ?_, ?_, ?_, ?_, ?_, ?_, ?_, ?_, ?_, ?_, ?_, ?_, ?_, ?_⟩
  · rw [o.ref, o.wp]; exact h.ref
  · rw [o.wp]; exact h.seWp
  · rw [o.wp]; exact h.seWp'
  · rw [o.cands]; exact h.seCands
  · rw [o.tops]; exact h.seTops
  · rw [o.wse]; exact h.seWse
  · rw [o.wse]; exact h.wseSE
  · rw [o.curTop]; exact h.seCur
  · rw [o.active]; exact h.seAct
  · intro s hs'
    rcases hse s hs' with h1 | h1
    · exact Or.inl h1
    · rw [h1]; exact h.seSt s hs'
  · intro x hx hx2; rw [hs x hx] at hx2; rw [o.active]
    split at hx2
    · cases hx2
    · exact h.exec x hx hx2
  · intro s hs' h2; rw [o.active, o.stopped]
    rcases hse s hs' with h1 | h1
    · rw [h1] at h2; cases h2
    · rw [h1] at h2; exact h.execSE s hs' h2
  · intro c hc; rw [o.wp]
    by_cases hc' : C.isSE c
    · left; exact h.seWp c hc'
    · rw [hs c hc'] at hc
      split at hc
      · rename_i h1; exact Or.inr h1.1
      · exact h.done c hc
  · intro h0 x hx
    rw [o.stopped] at h0
    rw [o.cands, o.wp, o.bad x]
    have hx' : S.state x = .pending := by
      by_cases hc' : C.isSE x
      · rcases hse x hc' with h1 | h1
        · rw [h1] at hx; cases hx
        · rw [← h1]; exact hx
      · rw [hs x hc'] at hx; split at hx
        · cases hx
        · exact hx
    rcases h.pending h0 x hx' with h1 | h1 | ⟨s, h1, h2⟩ | h1 | h1 | h1
    · exact Or.inl h1
    · exact Or.inr (Or.inl h1)
    · right; right; left
      refine ⟨s, by rw [o.wse]; exact h1, ?_⟩
      rcases h2 with h2 | h2
      · rcases hsew s h2 with h3 | ⟨t, ht, rfl | h3⟩
        · exact Or.inl h3
        · exact absurd (h.wseSE _ _ h1) (hts _ ht)
        · exact Or.inr ⟨t, ht, h3⟩
      · exact Or.inr h2
    · grind
    · grind
    · grind
  · intro h0 c x hx hc
    rw [o.stopped] at h0; rw [o.wp] at hx; rw [o.cands]
    have hse' : ¬ C.isSE c := fun hs => by rw [h.seWp c hs] at hx; simp at hx
    rw [hs c hse'] at hc; split at hc
    · cases hc
    · exact h.fresh h0 c x hx hc
  · intro h0 x hx
    rw [o.stopped] at h0; rw [o.cands, o.tops, hs x (h.origSE x hx)]
    have := h.top h0 x hx
    split
    · right; right; left; simp
    · exact this
  · intro x hx
    rw [o.bad]
    apply h.failed
    by_cases hc' : C.isSE x
    · rcases hse x hc' with h1 | h1
      · rw [h1] at hx; cases hx
      · rw [← h1]; exact hx
    · rw [hs x hc'] at hx; split at hx
      · cases hx
      · exact hx
  · rw [o.wp, o.seen]; exact h.seen
  · rw [o.seen]; exact h.seenPeer
  · rw [o.seen]; exact h.seenSE
  · rw [o.active, o.started]; exact h.startedRest
  · intro x hx; rw [o.started] at hx; rw [hs x (h.startedRest.nse x hx)]; split
    · simp [NState.rank]
    · exact h.started x hx

end Verif.TM
