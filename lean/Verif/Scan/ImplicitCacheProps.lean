import Verif.Scan.ImplicitCache
import Verif.Scan.Props
import Mathlib.Data.List.Basic

/-!
# `--implicit-cache` (C80): proofs

With the cache the runs of a history take the same decisions, write the same files and leave the same records as without it, as long
as a file with the same content includes the same files.
-/

set_option linter.unusedSectionVars false
set_option linter.unusedSimpArgs false
set_option linter.unusedVariables false

namespace Verif.ImplicitCache

open Verif.Sig Verif.Scan

variable {V S B K : Type} [DecidableEq V] [DecidableEq K]

/-! ## The recursive scan looks at nothing but what it finds -/

theorem iter_deps (E : Env V S) (f : V → Option S) (s : State V) : ∀ x ∈ s.deps, x ∈ (iter E f s).deps := by
  intro x hx
  unfold iter
  split
  · exact hx
  · split
    · exact hx
    · dsimp only
      split
      · exact hx
      · exact List.mem_append_left _ hx

theorem loop_zero (E : Env V S) (f : V → Option S) (s : State V) : loop E f 0 s = if s.nodes.isEmpty then some s.deps else none := by
  rw [loop.eq_def]

theorem loop_succ (E : Env V S) (f : V → Option S) (n : Nat) (s : State V) :
    loop E f (n + 1) s = if s.nodes.isEmpty then some s.deps else loop E f n (iter E f s) := by
  rw [loop.eq_def]

theorem loop_deps (E : Env V S) (f : V → Option S) : ∀ n s d, loop E f n s = some d → ∀ x ∈ s.deps, x ∈ d := by
  intro n
  induction n with
  | zero =>
    intro s d h x hx
    rw [loop_zero] at h
    split at h
    · cases h; exact hx
    · cases h
  | succ n ih =>
    intro s d h x hx
    rw [loop_succ] at h
    split at h
    · cases h; exact hx
    · exact ih _ _ h x (iter_deps E f s x hx)

theorem iter_nodes (E : Env V S) (f : V → Option S) (hr : ∀ sc l, ∀ x ∈ E.recurse sc l, x ∈ l) (s : State V) :
    ∀ x ∈ (iter E f s).nodes, x ∈ s.nodes ∨ x ∈ (iter E f s).deps := by
  intro x hx
  unfold iter at hx ⊢
  split at hx
  · exact .inl hx
  · rename_i v rest e
    split at hx
    · exact .inl (e ▸ List.mem_cons_of_mem _ hx)
    · dsimp only at hx ⊢
      split at hx
      · exact .inl (e ▸ List.mem_cons_of_mem _ hx)
      · rename_i hne
        rw [if_neg hne]
        rcases List.mem_append.1 hx with hx | hx
        · exact .inl (e ▸ List.mem_cons_of_mem _ hx)
        · exact .inr (List.mem_append_right _ (hr _ _ x hx))

theorem loop_same {E E' : Env V S} {f : V → Option S} (hrec : E'.recurse = E.recurse) (hr : ∀ sc l, ∀ x ∈ E.recurse sc l, x ∈ l) :
    ∀ n s d, loop E f n s = some d → (∀ v sc, v ∈ s.nodes ∨ v ∈ d → E'.found v sc = E.found v sc) → loop E' f n s = some d := by
  intro n
  induction n with
  | zero =>
    intro s d h hs
    rw [loop_zero] at h ⊢
    exact h
  | succ n ih =>
    intro s d h hs
    rw [loop_succ] at h ⊢
    split at h
    · rename_i hc; rw [if_pos hc]; exact h
    · rename_i hc
      rw [if_neg hc]
      have hi : iter E' f s = iter E f s := by
        unfold iter
        split
        · rfl
        · rename_i v rest e
          split
          · rfl
          · rename_i sc _
            rw [hs v sc (.inl (e ▸ List.mem_cons_self)), hrec]
      rw [hi]
      refine ih _ _ h fun v sc hv => ?_
      rcases hv with hv | hv
      · rcases iter_nodes E f hr s v hv with hv | hv
        · exact hs v sc (.inl hv)
        · exact hs v sc (.inr (loop_deps E f n _ d h v hv))
      · exact hs v sc (.inr hv)

theorem implicit_same {E E' : Env V S} (hsel : E'.sel = E.sel) (henv : E'.envSc = E.envSc) (hrec : E'.recurse = E.recurse)
    (hr : ∀ sc l, ∀ x ∈ E.recurse sc l, x ∈ l) {init : Option S} {start : V} {n : Nat} {d : List V}
    (h : getImplicitDeps E init start n = some d) (hs : ∀ v sc, v = start ∨ v ∈ d → E'.found v sc = E.found v sc) :
    getImplicitDeps E' init start n = some d := by
  unfold getImplicitDeps at h ⊢
  have : scannerOf E' init start = scannerOf E init start := by
    funext x
    simp only [scannerOf, getScanner, hsel, henv]
  rw [this]
  refine loop_same hrec hr n _ d h fun v sc hv => hs v sc ?_
  simpa using hv

theorem mapM_same {α β : Type} {f g : α → Option β} {l : List α} {r : List β} (h : l.mapM f = some r)
    (hs : ∀ a ∈ l, ∀ b ∈ r, f a = some b → g a = some b) : l.mapM g = some r := by
  induction l generalizing r with
  | nil => simpa using h
  | cons a l ih =>
    simp only [List.mapM_cons, Option.bind_eq_bind, Option.bind_eq_some_iff, Option.pure_def] at h
    obtain ⟨b, hb, bs, hbs, e⟩ := h
    cases e
    simp only [List.mapM_cons, hs a List.mem_cons_self b List.mem_cons_self hb,
      ih hbs (fun a ha b hb h => hs a (List.mem_cons_of_mem _ ha) b (List.mem_cons_of_mem _ hb) h)]
    rfl

/-! ## Lists of implicit dependencies -/

theorem addChild_self (coll deps : List V) (h : ∀ x ∈ deps, x ∈ coll) : addChild coll deps = coll := by
  unfold addChild
  induction deps with
  | nil => rfl
  | cons d ds ih =>
    simp only [List.foldl_cons, h d List.mem_cons_self, if_true]
    exact ih fun x hx => h x (List.mem_cons_of_mem _ hx)

theorem addChild_twice (coll deps : List V) : addChild (addChild coll deps) deps = addChild coll deps :=
  addChild_self _ _ fun x hx => (addChild_mem coll deps x).2 (.inr hx)

theorem addChild_nodup_eq (coll deps : List V) (h : (coll ++ deps).Nodup) : addChild coll deps = coll ++ deps := by
  unfold addChild
  induction deps generalizing coll with
  | nil => simp
  | cons d ds ih =>
    have hd : d ∉ coll := fun hd => by
      rw [List.nodup_append] at h
      exact h.2.2 d hd d List.mem_cons_self rfl
    simp only [List.foldl_cons, hd, if_false]
    rw [ih (coll ++ [d]) (by simpa using h)]
    simp

theorem addTo_implicit (N : Nodes V) (deps : List V) (t x : V) :
    (addTo N deps t).implicit x = if x = t then some (addChild ((N.implicit t).getD []) deps) else N.implicit x := by
  simp [addTo, upd]

theorem addTo_memo (N : Nodes V) (deps : List V) (t x : V) :
    (addTo N deps t).memo x = none ∨
      (addTo N deps t).memo x = N.memo x ∧ (x = t → (N.implicit t).isSome ∧ addChild ((N.implicit t).getD []) deps = (N.implicit t).getD []) := by
  unfold addTo
  dsimp only
  split
  · by_cases e : x = t
    · exact .inl (by simp [upd, e])
    · exact .inr ⟨by simp [upd, e], fun h => absurd h e⟩
  · rename_i h
    simp only [Bool.or_eq_true, decide_eq_true_eq, not_or, Option.isNone_iff_eq_none, ne_eq, not_not] at h
    exact .inr ⟨rfl, fun _ => ⟨Option.isSome_iff_ne_none.2 h.1, h.2⟩⟩

theorem addAll_implicit (N : Nodes V) (deps : List V) (ts : List V) (x : V) :
    (addAll N deps ts).implicit x = if x ∈ ts then some (addChild ((N.implicit x).getD []) deps) else N.implicit x := by
  induction ts generalizing N with
  | nil => simp [addAll]
  | cons t ts ih =>
    have h := ih (addTo N deps t)
    have h2 : addAll N deps (t :: ts) = addAll (addTo N deps t) deps ts := rfl
    rw [h2, h, addTo_implicit]
    by_cases e : x = t
    · subst e
      simp only [if_true, Option.getD_some, addChild_twice, List.mem_cons, true_or, ite_self]
    · simp [e]

theorem addAll_memo (N : Nodes V) (deps : List V) (ts : List V) (x : V) :
    (addAll N deps ts).memo x = none ∨
      (addAll N deps ts).memo x = N.memo x ∧ (x ∈ ts → (N.implicit x).isSome ∧ addChild ((N.implicit x).getD []) deps = (N.implicit x).getD []) := by
  induction ts generalizing N with
  | nil => exact .inr ⟨rfl, nofun⟩
  | cons t ts ih =>
    have h2 : addAll N deps (t :: ts) = addAll (addTo N deps t) deps ts := rfl
    rw [h2]
    rcases ih (addTo N deps t) with h | ⟨h, hx⟩
    · exact .inl h
    · rcases addTo_memo N deps t x with h1 | ⟨h1, hx1⟩
      · exact .inl (h.trans h1)
      · refine .inr ⟨h.trans h1, fun hm => ?_⟩
        by_cases e : x = t
        · subst e; exact hx1 rfl
        · rcases List.mem_cons.1 hm with hm | hm
          · exact absurd hm e
          · have := hx hm
            rw [addTo_implicit, if_neg e] at this
            exact this

/-- The list that a scan of everything gives. -/
def freshList (c : Cfg V S B K) (fs : Files V B) (n : Nat) : Option (List V) :=
  match (if c.sources.isEmpty then some [] else execScan (c.env fs) c.srcScanner c.own [] c.sources n) with
  | none => none
  | some l =>
    match c.tgtScanner with
    | none => some l
    | some sc => execScan (c.env fs) (some sc) c.own l c.targets n

theorem executorScan_eq (E : Env V S) (init : Option S) (own ts nodeList : List V) (n : Nat) (N : Nodes V) :
    executorScan E init own ts nodeList n N =
      (nodeList.mapM fun v => getImplicitDeps E init v n).map fun ls => addAll N (ls.flatten ++ own) ts := by
  unfold executorScan
  cases nodeList.mapM fun v => getImplicitDeps E init v n <;> rfl

theorem execScan_eq (E : Env V S) (init : Option S) (own coll nodeList : List V) (n : Nat) :
    execScan E init own coll nodeList n =
      (nodeList.mapM fun v => getImplicitDeps E init v n).map fun ls => addChild coll (ls.flatten ++ own) := by
  unfold execScan
  cases nodeList.mapM fun v => getImplicitDeps E init v n <;> rfl

/-- What the fresh scan leaves in the nodes. -/
structure Left (c : Cfg V S B K) (N N' : Nodes V) (L : List V) : Prop where
  implicit : ∀ t ∈ c.targets, (N'.implicit t).getD [] = L
  isSome : ∀ t, (N.implicit t).isSome → (N'.implicit t).isSome
  memo : ∀ t ∈ c.targets, N'.memo t = none ∨ N'.memo t = N.memo t ∧ L = []

theorem nil_of_addChild {l : List V} {deps : List V} (h : addChild [] deps = []) : deps = [] := by
  cases deps with
  | nil => rfl
  | cons d ds =>
    have := (addChild_mem [] (d :: ds) d).2 (.inr List.mem_cons_self)
    rw [h] at this
    cases this

theorem freshScan_spec (c : Cfg V S B K) (fs : Files V B) (n : Nat) (N : Nodes V)
    (h0 : ∀ t ∈ c.targets, (N.implicit t).getD [] = []) :
    (freshList c fs n = none → freshScan c fs n N = none) ∧
      ∀ L, freshList c fs n = some L → ∃ N', freshScan c fs n N = some N' ∧ Left c N N' L := by
  -- the sources
  have h1 : (∀ l, (if c.sources.isEmpty then some [] else execScan (c.env fs) c.srcScanner c.own [] c.sources n) = some l →
      ∃ N', scanSources c fs n N = some N' ∧ Left c N N' l) ∧
      ((if c.sources.isEmpty then some [] else execScan (c.env fs) c.srcScanner c.own [] c.sources n) = none → scanSources c fs n N = none) := by
    unfold scanSources
    split
    · refine ⟨fun l e => ?_, fun e => by cases e⟩
      cases e
      exact ⟨N, rfl, h0, fun t h => h, fun t ht => .inr ⟨rfl, rfl⟩⟩
    · rw [execScan_eq, executorScan_eq]
      refine ⟨fun l e => ?_, fun e => by simpa using e⟩
      simp only [Option.map_eq_some_iff] at e
      obtain ⟨ls, hls, e⟩ := e
      refine ⟨addAll N (ls.flatten ++ c.own) c.targets, by simp [hls], fun t ht => ?_, fun t ht => ?_, fun t ht => ?_⟩
      · rw [addAll_implicit, if_pos ht, h0 t ht]; exact e
      · rw [addAll_implicit]; split <;> simp [ht]
      · rcases addAll_memo N (ls.flatten ++ c.own) c.targets t with h | ⟨h, hx⟩
        · exact .inl h
        · have := (hx ht).2
          rw [h0 t ht] at this
          exact .inr ⟨h, e.symm.trans this⟩
  unfold freshList freshScan
  cases e : (if c.sources.isEmpty then some [] else execScan (c.env fs) c.srcScanner c.own [] c.sources n) with
  | none =>
    dsimp only
    rw [h1.2 e]
    exact ⟨fun _ => rfl, nofun⟩
  | some l =>
    obtain ⟨N1, e1, hl⟩ := h1.1 l e
    dsimp only
    rw [e1]
    dsimp only
    cases c.tgtScanner with
    | none =>
      refine ⟨nofun, fun L hL => ?_⟩
      cases hL
      exact ⟨N1, rfl, hl⟩
    | some sc =>
      dsimp only
      rw [execScan_eq, executorScan_eq]
      refine ⟨fun e => by simpa using e, fun L e => ?_⟩
      simp only [Option.map_eq_some_iff] at e
      obtain ⟨ls, hls, e⟩ := e
      refine ⟨addAll N1 (ls.flatten ++ c.own) c.targets, by simp [hls], fun t ht => ?_, fun t ht => ?_, fun t ht => ?_⟩
      · rw [addAll_implicit, if_pos ht, hl.implicit t ht]; exact e
      · have := hl.isSome t ht
        rw [addAll_implicit]; split <;> simp [this]
      · rcases addAll_memo N1 (ls.flatten ++ c.own) c.targets t with h | ⟨h, hx⟩
        · exact .inl h
        · have h2 := (hx ht).2
          rw [hl.implicit t ht] at h2
          rcases hl.memo t ht with h3 | ⟨h3, h4⟩
          · exact .inl (h.trans h3)
          · exact .inr ⟨h.trans h3, by rw [← e, h2, h4]⟩

/-! ## Stability -/

theorem freshList_nodup {c : Cfg V S B K} {fs : Files V B} {n : Nat} {L : List V} (h : freshList c fs n = some L) : L.Nodup := by
  have key : ∀ l, (if c.sources.isEmpty then some [] else execScan (c.env fs) c.srcScanner c.own [] c.sources n) = some l → l.Nodup := by
    intro l e
    split at e
    · cases e; exact List.nodup_nil
    · rw [execScan_eq] at e
      simp only [Option.map_eq_some_iff] at e
      obtain ⟨ls, -, e⟩ := e
      rw [← e]; exact addChild_nodup _ _ List.nodup_nil
  unfold freshList at h
  cases e : (if c.sources.isEmpty then some [] else execScan (c.env fs) c.srcScanner c.own [] c.sources n) with
  | none => rw [e] at h; cases h
  | some l =>
    rw [e] at h
    dsimp only at h
    cases hs : c.tgtScanner with
    | none => rw [hs] at h; cases h; exact key _ e
    | some sc =>
      rw [hs] at h
      dsimp only at h
      rw [execScan_eq] at h
      simp only [Option.map_eq_some_iff] at h
      obtain ⟨ls, -, h⟩ := h
      rw [← h]; exact addChild_nodup _ _ (key _ e)

theorem execScan_same {E E' : Env V S} (hsel : E'.sel = E.sel) (henv : E'.envSc = E.envSc) (hrec : E'.recurse = E.recurse)
    (hr : ∀ sc l, ∀ x ∈ E.recurse sc l, x ∈ l) {init : Option S} {own coll l L : List V} {n : Nat}
    (h : execScan E init own coll l n = some L) (hs : ∀ v sc, v ∈ l ∨ v ∈ L → E'.found v sc = E.found v sc) :
    execScan E' init own coll l n = some L := by
  rw [execScan_eq] at h ⊢
  simp only [Option.map_eq_some_iff] at h ⊢
  obtain ⟨ls, hls, e⟩ := h
  refine ⟨ls, mapM_same hls fun a ha d hd h => ?_, e⟩
  refine implicit_same hsel henv hrec hr h fun v sc hv => ?_
  rcases hv with rfl | hv
  · exact hs _ sc (.inl ha)
  · refine hs v sc (.inr ?_)
    rw [← e, addChild_mem]
    exact .inr (List.mem_append_left _ (List.mem_flatten.2 ⟨d, hd, hv⟩))

theorem freshList_same {M : Hash B K} {a b : Cfg V S B K × Files V B} (hst : Stable M a b) (ha : Sane a.1) {n : Nat} {L : List V}
    (h : freshList a.1 a.2 n = some L)
    (hs : ∀ v, v ∈ a.1.sources ∨ v ∈ L → (b.2 v).getD M.nofile = (a.2 v).getD M.nofile ∨ v ∈ a.1.targets ∨ (∃ t ∈ a.1.targets, v ∈ a.1.ignore t)) :
    freshList b.1 b.2 n = some L := by
  have hfound : ∀ v sc, v ∈ a.1.sources ∨ v ∈ a.1.targets ∨ v ∈ L → (b.1.env b.2).found v sc = (a.1.env a.2).found v sc := by
    intro v sc hv
    refine hst.found v sc ?_
    rcases hv with hv | hv | hv
    · exact hs v (.inl hv)
    · exact .inr (.inl hv)
    · exact hs v (.inr hv)
  have hr := ha.recurse a.2
  unfold freshList at h ⊢
  rw [hst.sources, hst.srcScanner, hst.own, hst.tgtScanner, hst.targets]
  cases e : (if a.1.sources.isEmpty then some [] else execScan (a.1.env a.2) a.1.srcScanner a.1.own [] a.1.sources n) with
  | none => rw [e] at h; cases h
  | some l =>
    rw [e] at h
    dsimp only at h
    have hl : ∀ x ∈ l, x ∈ L := by
      intro x hx
      cases hsc : a.1.tgtScanner with
      | none => rw [hsc] at h; cases h; exact hx
      | some sc =>
        rw [hsc] at h
        dsimp only at h
        rw [execScan_eq] at h
        simp only [Option.map_eq_some_iff] at h
        obtain ⟨ls, -, h⟩ := h
        rw [← h, addChild_mem]; exact .inl hx
    have e' : (if a.1.sources.isEmpty then some [] else execScan (b.1.env b.2) a.1.srcScanner a.1.own [] a.1.sources n) = some l := by
      split at e
      · rename_i hc; rw [if_pos hc]; exact e
      · rename_i hc
        rw [if_neg hc]
        refine execScan_same hst.sel hst.envSc hst.recurse hr e fun v sc hv => hfound v sc ?_
        rcases hv with hv | hv
        · exact .inl hv
        · exact .inr (.inr (hl v hv))
    rw [e']
    dsimp only
    cases hsc : a.1.tgtScanner with
    | none => rw [hsc] at h; exact h
    | some sc =>
      rw [hsc] at h
      dsimp only at h ⊢
      refine execScan_same hst.sel hst.envSc hst.recurse hr h fun v sc hv => hfound v sc ?_
      rcases hv with hv | hv
      · exact .inr (.inl hv)
      · exact .inr (.inr hv)

/-! ## Records -/

/-- The target with its implicit dependencies. -/
def full (c : Cfg V S B K) (L : List V) (t : V) : Target V K :=
  { sources := c.sources, depends := c.depends t, implicit := L, ignore := c.ignore t, hasBuilder := true, actsig := c.actsig }

def recOf (M : Hash B K) (c : Cfg V S B K) (fs : Files V B) (L : List V) (t : V) : BInfo V K :=
  (full c L t).binfo (fun v => (world (V := V) M ⟨fs, fun _ => none⟩).freshInfo v (some ((world (V := V) M ⟨fs, fun _ => none⟩).diskCsig v)))

/-- Every record of a target is that of an earlier run, or that of a file that had no builder. -/
def Honest (M : Hash B K) (n : Nat) (past : List (Cfg V S B K × Files V B)) (db : V → Option (BInfo V K)) : Prop :=
  ∀ t bi, db t = some bi → bi.bactsig = none ∧ bi.bimplicit = [] ∨
    ∃ a ∈ past, ∃ L, t ∈ a.1.targets ∧ freshList a.1 a.2 n = some L ∧ bi = recOf M a.1 a.2 L t

theorem infosOK (M : Hash B K) (s : St V B K) : InfosOK (world M s) (fun _ => {}) := by
  intro c k h; cases h

theorem driftOK (M : Hash B K) (s : St V B K) : DriftOK (world M s) := by
  intro c k h
  simp [World.driftCsig, world] at h

theorem seen_children (c : Cfg V S B K) (N : Nodes V) (t : V) : (seen c N t).children = children c N t := by
  simp [Target.children, seen]

theorem upToDate_iff (M : Hash B K) (c : Cfg V S B K) (s : St V B K) (N : Nodes V) (t : V) :
    upToDate M c s N t = true ↔
      (∃ b, s.fs t = some b) ∧ (children c N t).length = ((s.db t).getD {}).sigs.length ∧
        ((s.db t).getD {}).bactsig = some c.actsig ∧
        ∀ p ∈ (children c N t).zip ((s.db t).getD {}).sigs, Unchanged (world M s) .content t p.1 (some p.2) := by
  unfold upToDate
  rw [C18_up_to_date_iff (T := seen c N t) rfl (infosOK M s) (driftOK M s) (by simp)]
  rw [seen_children]
  rfl

/-- The answer depends only on the children. -/
theorem upToDate_congr (M : Hash B K) (c : Cfg V S B K) (s : St V B K) (N N' : Nodes V) (t : V) (h : children c N t = children c N' t) :
    upToDate M c s N t = upToDate M c s N' t := by
  rw [Bool.eq_iff_iff, upToDate_iff, upToDate_iff, h]


theorem filter_twice (l ign : List V) :
    (l.filter fun c => decide (c ∉ ign)).filter (fun c => decide (c ∉ ign)) = l.filter fun c => decide (c ∉ ign) := by
  rw [List.filter_filter]; simp

theorem full_children (c : Cfg V S B K) (L : List V) (t : V) :
    (full c L t).children = (c.sources ++ c.depends t ++ L).filter fun x => decide (x ∉ c.ignore t) := rfl

theorem recOf_eq (M : Hash B K) (c : Cfg V S B K) (fs : Files V B) (L : List V) (t : V) :
    recOf M c fs L t =
      let I := fun v => (world (V := V) M ⟨fs, fun _ => none⟩).freshInfo v (some ((world (V := V) M ⟨fs, fun _ => none⟩).diskCsig v))
      let src := dedup [] (c.sources.filter fun x => decide (x ∉ c.ignore t))
      { bsources := src
        bsourcesigs := src.map I
        bdepends := (c.depends t).filter fun x => decide (x ∉ c.ignore t)
        bdependsigs := (c.depends t).map I
        bimplicit := L.filter fun x => decide (x ∉ c.ignore t)
        bimplicitsigs := (L.filter fun x => decide (x ∉ c.ignore t)).map I
        bactsig := some c.actsig } := rfl

theorem full_children_filter (c : Cfg V S B K) (L : List V) (t : V) :
    (full c (L.filter fun x => decide (x ∉ c.ignore t)) t).children = (full c L t).children := by
  rw [full_children, full_children, List.filter_append, filter_twice, ← List.filter_append]

theorem recOf_filter (M : Hash B K) (c : Cfg V S B K) (fs : Files V B) (L : List V) (t : V) :
    recOf M c fs (L.filter fun x => decide (x ∉ c.ignore t)) t = recOf M c fs L t := by
  rw [recOf_eq, recOf_eq]
  dsimp only
  rw [filter_twice]

theorem record_eq (M : Hash B K) (c : Cfg V S B K) (s : St V B K) (N : Nodes V) (t : V) (L : List V) (h : (N.implicit t).getD [] = L) :
    record M c s N t = recOf M c s.fs L t := by
  subst h; rfl

theorem children_eq (c : Cfg V S B K) (N : Nodes V) (t : V) (L : List V) (h : (N.implicit t).getD [] = L) (hm : N.memo t = none) :
    children c N t = (full c L t).children := by
  subst h
  unfold children
  rw [hm]; rfl

/-- If the target is up to date with the cached list, the cached list is that of a fresh scan. -/
theorem cached_is_fresh {M : Hash B K} (hinj : ∀ x y : B, M.hash x = M.hash y → x = y) {n : Nat} {a : Cfg V S B K × Files V B}
    {c : Cfg V S B K} {s : St V B K} {N : Nodes V} {t : V} {L : List V}
    (hst : Stable M a (c, s.fs)) (ha : Sane a.1) (ht : t ∈ a.1.targets) (hL : freshList a.1 a.2 n = some L)
    (hdb : s.db t = some (recOf M a.1 a.2 L t)) (himp : (N.implicit t).getD [] = (recOf M a.1 a.2 L t).bimplicit) (hm : N.memo t = none)
    (hup : upToDate M c s N t = true) : freshList c s.fs n = some L := by
  have hc := children_eq c N t _ himp hm
  have hch : children c N t = (full a.1 L t).children := by
    have h1 : (recOf M a.1 a.2 L t).bimplicit = L.filter fun x => decide (x ∉ c.ignore t) := by
      have := hst.ignore
      dsimp only at this
      rw [this]
      rfl
    rw [hc, h1, full_children_filter]
    have e1 := hst.sources
    have e2 := hst.depends
    have e3 := hst.ignore
    dsimp only at e1 e2 e3
    rw [full_children, full_children, e1, e2, e3]
  have h17 := C17_up_to_date_means_nothing_changed (W1 := world (V := V) M ⟨a.2, fun _ => none⟩) (W2 := world M s) (T1 := full a.1 L t)
    (T2 := seen c N t) (target := t) (I := fun _ => {}) rfl rfl (by unfold RecordedBy; simp only [world, hdb, Option.getD_some]; rfl) rfl hinj
    (infosOK M s) (driftOK M s) hup
  have h3 := h17.2.2
  have hrec : (full a.1 L t).recorded = (full a.1 L t).children := recorded_eq_children ha.nodup (ha.depends t ht)
  rw [seen_children, hch, hrec] at h3
  have hsame : ∀ x ∈ (full a.1 L t).children, (s.fs x).getD M.nofile = (a.2 x).getD M.nofile := List.map_inj_left.1 h3
  refine freshList_same hst ha hL fun v hv => ?_
  by_cases hi : v ∈ a.1.ignore t
  · exact .inr (.inr ⟨t, ht, hi⟩)
  · refine .inl (hsame v ?_)
    rw [full_children, List.mem_filter]
    refine ⟨?_, decide_eq_true hi⟩
    simp only [List.mem_append]; tauto

/-! ## One run -/

theorem scanAll_done {M : Hash B K} {f : Flags} {c : Cfg V S B K} {s : St V B K} {n : Nat} (ts : List V) (N : Nodes V)
    (h : ∀ t ∈ ts, (N.implicit t).isSome) : scanAll M f c s n ts N = some N := by
  induction ts with
  | nil => rfl
  | cons t ts ih =>
    unfold scanAll
    have : scan M f c s n N t = some N := by
      unfold scan; rw [if_pos (h t List.mem_cons_self)]
    rw [this]
    exact ih fun x hx => h x (List.mem_cons_of_mem _ hx)

/-- What the scans leave, as far as the rest of the run is concerned. -/
structure Same (M : Hash B K) (c : Cfg V S B K) (s : St V B K) (L : List V) (N : Nodes V) : Prop where
  recs : ∀ t ∈ c.targets, record M c s N t = recOf M c s.fs L t
  current : allCurrent M c s N = c.targets.all fun t => upToDate M c s ⟨fun _ => some L, fun _ => none⟩ t

/-- The result of a run, from the fresh list. -/
def result (M : Hash B K) (c : Cfg V S B K) (s : St V B K) (L : List V) : St V B K × Bool :=
  let b := c.targets.all fun t => upToDate M c s ⟨fun _ => some L, fun _ => none⟩ t
  ({ fs := if b then s.fs else fun v => if v ∈ c.targets then some (c.make s.fs v) else s.fs v
     db := fun v => if v ∈ c.targets then some (recOf M c s.fs L v) else s.db v }, !b)

theorem run_same {M : Hash B K} {n : Nat} {f : Flags} {c : Cfg V S B K} {first : V} {s : St V B K} {L : List V} {N : Nodes V}
    (h : scanAll M f c s n (first :: c.targets) Nodes.new = some N) (hS : Same M c s L N) :
    run M n f c first s = some (result M c s L) := by
  unfold run result
  rw [h]
  dsimp only
  rw [hS.current]
  congr 2
  congr 1
  funext v
  split
  · rw [hS.recs v (by assumption)]
  · rfl

theorem same_of_fresh {M : Hash B K} {c : Cfg V S B K} {s : St V B K} {L : List V} {N : Nodes V}
    (h : ∀ t ∈ c.targets, (N.implicit t).getD [] = L) (hm : ∀ t ∈ c.targets, N.memo t = none) : Same M c s L N where
  recs t ht := record_eq M c s N t L (h t ht)
  current := by
    unfold allCurrent
    rw [Bool.eq_iff_iff, List.all_eq_true, List.all_eq_true]
    refine forall_congr' fun t => forall_congr' fun ht => ?_
    rw [upToDate_congr M c s N ⟨fun _ => some L, fun _ => none⟩ t]
    rw [children_eq c N t L (h t ht) (hm t ht), children_eq c _ t L rfl rfl]

theorem scanAll_cons_done {M : Hash B K} {f : Flags} {c : Cfg V S B K} {s : St V B K} {n : Nat} {first : V} {N N' : Nodes V}
    (h : scan M f c s n N first = some N') (hd : ∀ t ∈ c.targets, (N'.implicit t).isSome) :
    scanAll M f c s n (first :: c.targets) N = some N' := by
  conv_lhs => unfold scanAll
  rw [h]
  exact scanAll_done _ _ hd

theorem scanAll_cons_none {M : Hash B K} {f : Flags} {c : Cfg V S B K} {s : St V B K} {n : Nat} {first : V} {N : Nodes V}
    (h : scan M f c s n N first = none) : scanAll M f c s n (first :: c.targets) N = none := by
  conv_lhs => unfold scanAll
  rw [h]

/-- The nodes after the first lines of `Node.scan`. -/
def start (t : V) : Nodes V := ⟨upd (fun _ => none) t (some []), upd (fun _ => none) t none⟩

theorem start_implicit (t x : V) : ((start t).implicit x).getD [] = [] := by
  unfold start upd
  dsimp only
  split <;> rfl

theorem start_memo (t x : V) : (start t).memo x = none := by
  simp [start, upd]

theorem freshScan_done {c : Cfg V S B K} {N N' : Nodes V} {fs : Files V B} {n : Nat} (h : freshScan c fs n N = some N')
    (hs : (∀ t ∈ c.targets, (N.implicit t).isSome) ∨ c.sources ≠ [] ∨ c.tgtScanner ≠ none) : ∀ t ∈ c.targets, (N'.implicit t).isSome := by
  have mono : ∀ (E : Env V S) init l (A A' : Nodes V), executorScan E init c.own c.targets l n A = some A' →
      (∀ t ∈ c.targets, (A'.implicit t).isSome) := by
    intro E init l A A' e t ht
    rw [executorScan_eq] at e
    simp only [Option.map_eq_some_iff] at e
    obtain ⟨ls, -, e⟩ := e
    rw [← e, addAll_implicit, if_pos ht]; rfl
  unfold freshScan at h
  split at h
  · cases h
  · rename_i N1 e1
    split at h
    · rename_i hn
      cases h
      unfold scanSources at e1
      split at e1
      · rename_i hempty
        cases e1
        rcases hs with hs | hs | hs
        · exact hs
        · exact absurd (List.isEmpty_iff.1 hempty) hs
        · exact absurd hn hs
      · exact mono _ _ _ _ _ e1
    · exact mono _ _ _ _ _ h

theorem dropAll_implicit (N : Nodes V) (ts : List V) (x : V) : (dropAll N ts).implicit x = if x ∈ ts then some [] else N.implicit x := by
  have : ∀ (ts : List V) (f : V → Option (List V)), ts.foldl (fun f t => upd f t (some [])) f x = if x ∈ ts then some [] else f x := by
    intro ts
    induction ts with
    | nil => intro f; simp
    | cons t ts ih =>
      intro f
      rw [List.foldl_cons, ih]
      by_cases e : x = t <;> simp [upd, e]
  exact this ts N.implicit

theorem scan_new {M : Hash B K} {f : Flags} {c : Cfg V S B K} {s : St V B K} {n : Nat} {t : V} :
    scan M f c s n Nodes.new t =
      if f.cache && !f.depsChanged then
        match s.db t with
        | none => freshScan c s.fs n (start t)
        | some bi =>
          if f.depsUnchanged then some (addAll (start t) bi.bimplicit c.targets)
          else if upToDate M c s (addAll (start t) bi.bimplicit c.targets) t then some (ask c (addAll (start t) bi.bimplicit c.targets) t)
          else freshScan c s.fs n (dropAll (ask c (addAll (start t) bi.bimplicit c.targets) t) c.targets)
      else freshScan c s.fs n (start t) := by
  unfold scan
  rw [if_neg (by simp [Nodes.new])]
  rfl

/-- A fresh scan at the start of a run. -/
theorem fresh_start {M : Hash B K} {n : Nat} {f : Flags} {c : Cfg V S B K} {first : V} {s : St V B K}
    (hne : c.sources ≠ [] ∨ c.tgtScanner ≠ none) (h : scan M f c s n Nodes.new first = freshScan c s.fs n (start first)) :
    run M n f c first s = (freshList c s.fs n).map (result M c s) := by
  obtain ⟨h1, h2⟩ := freshScan_spec c s.fs n (start first) (fun t _ => start_implicit first t)
  cases hL : freshList c s.fs n with
  | none =>
    unfold run
    rw [scanAll_cons_none (h.trans (h1 hL))]; rfl
  | some L =>
    obtain ⟨N', e, hl⟩ := h2 L hL
    refine run_same (N := N') (scanAll_cons_done (h.trans e) (freshScan_done e (.inr hne))) (same_of_fresh hl.implicit fun t ht => ?_)
    rcases hl.memo t ht with h | ⟨h, -⟩
    · exact h
    · exact h.trans (start_memo first t)

theorem recOf_nodup {M : Hash B K} {a : Cfg V S B K × Files V B} {n : Nat} {L : List V} (hL : freshList a.1 a.2 n = some L) (t : V) :
    (recOf M a.1 a.2 L t).bimplicit.Nodup := by
  rw [recOf_eq]
  exact (freshList_nodup hL).filter _

/-- A run with a cached list. -/
theorem cached_run {M : Hash B K} (hinj : ∀ x y : B, M.hash x = M.hash y → x = y) {n : Nat} {f : Flags} {c : Cfg V S B K}
    {first : V} {s : St V B K} {past : List (Cfg V S B K × Files V B)} {bi : BInfo V K}
    (hne : c.sources ≠ [] ∨ c.tgtScanner ≠ none) (hc : Sane c) (hfirst : first ∈ c.targets)
    (hH : Honest M n past s.db) (hst : ∀ a ∈ past, Stable M a (c, s.fs)) (hsane : ∀ a ∈ past, Sane a.1)
    (hdb : s.db first = some bi)
    (h : scan M f c s n Nodes.new first =
      if upToDate M c s (addAll (start first) bi.bimplicit c.targets) first then some (ask c (addAll (start first) bi.bimplicit c.targets) first)
      else freshScan c s.fs n (dropAll (ask c (addAll (start first) bi.bimplicit c.targets) first) c.targets)) :
    run M n f c first s = (freshList c s.fs n).map (result M c s) := by
  have hnd : bi.bimplicit.Nodup := by
    rcases hH first bi hdb with ⟨-, h0⟩ | ⟨a, -, L, -, hL, rfl⟩
    · rw [h0]; exact List.nodup_nil
    · exact recOf_nodup hL first
  generalize hN1 : addAll (start first) bi.bimplicit c.targets = N1 at h
  have himp : ∀ t ∈ c.targets, N1.implicit t = some bi.bimplicit := by
    intro t ht
    rw [← hN1, addAll_implicit, if_pos ht, start_implicit, addChild_nodup_eq _ _ (by simpa using hnd)]; rfl
  have hmemo : ∀ t, N1.memo t = none := by
    intro t
    rcases addAll_memo (start first) bi.bimplicit c.targets t with h | ⟨h, -⟩
    · rw [← hN1]; exact h
    · rw [← hN1, h]; exact start_memo first t
  by_cases hup : upToDate M c s N1 first = true
  · rw [if_pos hup] at h
    rcases hH first bi hdb with ⟨h0, -⟩ | ⟨a, ha, L, hta, hL, hbi⟩
    · have := ((upToDate_iff M c s N1 first).1 hup).2.2.1
      rw [hdb, Option.getD_some, h0] at this
      cases this
    · have hLc : freshList c s.fs n = some L := by
        refine cached_is_fresh hinj (hst a ha) (hsane a ha) hta hL (hbi ▸ hdb) ?_ (hmemo first) hup
        rw [himp first hfirst, hbi]; rfl
      rw [hLc]
      have hf : ∀ t ∈ c.targets, bi.bimplicit = L.filter fun x => decide (x ∉ c.ignore t) := by
        intro t ht
        have e := (hst a ha).ignore
        dsimp only at e
        rw [hc.ignore t ht first hfirst, hbi, e, recOf_eq]
      refine run_same (N := ask c N1 first) (scanAll_cons_done h fun t ht => ?_) ⟨fun t ht => ?_, ?_⟩
      · rw [show (ask c N1 first).implicit t = N1.implicit t from rfl, himp t ht]; rfl
      · rw [record_eq M c s (ask c N1 first) t bi.bimplicit (by
          rw [show (ask c N1 first).implicit t = N1.implicit t from rfl, himp t ht]; rfl), hf t ht, recOf_filter]
      · unfold allCurrent
        rw [Bool.eq_iff_iff, List.all_eq_true, List.all_eq_true]
        refine forall_congr' fun t => forall_congr' fun ht => ?_
        rw [upToDate_congr M c s (ask c N1 first) ⟨fun _ => some L, fun _ => none⟩ t]
        have e1 : children c (ask c N1 first) t = children c N1 t := by
          unfold ask
          by_cases e : t = first
          · subst e; simp [children, upd]
          · simp only [children, upd, e, if_false]; rfl
        rw [e1, children_eq c N1 t bi.bimplicit (by rw [himp t ht]; rfl) (hmemo t), children_eq c _ t L rfl rfl, hf t ht, full_children_filter]
  · rw [if_neg hup] at h
    obtain ⟨h1, h2⟩ := freshScan_spec c s.fs n (dropAll (ask c N1 first) c.targets)
      (fun t ht => by rw [dropAll_implicit, if_pos ht]; rfl)
    cases hL : freshList c s.fs n with
    | none =>
      unfold run
      rw [scanAll_cons_none (h.trans (h1 hL))]; rfl
    | some L =>
      obtain ⟨N', e, hl⟩ := h2 L hL
      have hdone := freshScan_done e (.inr hne)
      -- the target asked is out of date in the fresh view too, or its children are the fresh ones
      have hkey : N'.memo first = none ∨ upToDate M c s N' first = false ∧ upToDate M c s ⟨fun _ => some L, fun _ => none⟩ first = false := by
        rcases hl.memo first hfirst with h3 | ⟨h3, h4⟩
        · exact .inl h3
        · right
          have hchN : children c N' first = children c N1 first := by
            have : (dropAll (ask c N1 first) c.targets).memo first = some (children c N1 first) := by
              simp [dropAll, ask, upd]
            rw [children, h3, this]; rfl
          refine ⟨?_, ?_⟩
          · rw [upToDate_congr M c s N' N1 first hchN]; simpa using hup
          · subst h4
            rw [Bool.eq_false_iff]
            intro hu
            have hu' := (upToDate_iff _ _ _ _ _).1 hu
            rw [hdb, Option.getD_some, children_eq c _ first [] rfl rfl] at hu'
            rcases hH first bi hdb with ⟨h0, -⟩ | ⟨a, ha, L, hta, hL', hbi⟩
            · rw [h0] at hu'; cases hu'.2.2.1
            · have hsig : bi.sigs.length = (full a.1 L first).children.length := by
                rw [hbi, recOf, binfo_sigs, List.length_map, recorded_eq_children (hsane a ha).nodup ((hsane a ha).depends first hta)]
              have e1 := (hst a ha).sources
              have e2 := (hst a ha).depends
              have e3 := (hst a ha).ignore
              dsimp only at e1 e2 e3
              have hlen := hu'.2.1
              rw [hsig, full_children, full_children, ← e1, ← e2, ← e3, List.append_nil, List.filter_append _ L, List.length_append] at hlen
              have hnil : bi.bimplicit = [] := by
                rw [hbi, recOf_eq, ← e3]
                dsimp only
                exact List.length_eq_zero_iff.1 (by omega)
              refine hup ?_
              rw [upToDate_congr M c s N1 ⟨fun _ => some [], fun _ => none⟩ first]
              · exact hu
              · rw [children_eq c N1 first [] (by rw [himp first hfirst, hnil]; rfl) (hmemo first), children_eq c _ first [] rfl rfl]
      refine run_same (N := N') (scanAll_cons_done (h.trans e) hdone) ⟨fun t ht => record_eq M c s N' t L (hl.implicit t ht), ?_⟩
      have hother : ∀ t ∈ c.targets, N'.memo t = none → upToDate M c s N' t = upToDate M c s ⟨fun _ => some L, fun _ => none⟩ t := by
        intro t ht hm
        refine upToDate_congr M c s _ _ t ?_
        rw [children_eq c N' t L (hl.implicit t ht) hm, children_eq c _ t L rfl rfl]
      unfold allCurrent
      rcases hkey with hk | ⟨hk1, hk2⟩
      · rw [Bool.eq_iff_iff, List.all_eq_true, List.all_eq_true]
        refine forall_congr' fun t => forall_congr' fun ht => ?_
        rw [hother t ht]
        by_cases e : t = first
        · subst e; exact hk
        · rcases hl.memo t ht with h3 | ⟨h3, -⟩
          · exact h3
          · rw [h3]
            simp only [dropAll, ask, upd, e, if_false]
            exact hmemo t
      · have f1 : c.targets.all (upToDate M c s N') = false := by
          rw [List.all_eq_false]; exact ⟨first, hfirst, by simp [hk1]⟩
        have f2 : (c.targets.all fun t => upToDate M c s ⟨fun _ => some L, fun _ => none⟩ t) = false := by
          rw [List.all_eq_false]; exact ⟨first, hfirst, by simp [hk2]⟩
        rw [f1, f2]

/-! A command without sources and without a scanner for targets: nothing is scanned. -/

theorem freshList_nothing {c : Cfg V S B K} {fs : Files V B} {n : Nat} (h1 : c.sources = []) (h2 : c.tgtScanner = none) :
    freshList c fs n = some [] := by
  unfold freshList
  rw [h1, h2]; rfl

theorem freshScan_nothing {c : Cfg V S B K} {fs : Files V B} {n : Nat} {N : Nodes V} (h1 : c.sources = []) (h2 : c.tgtScanner = none) :
    freshScan c fs n N = some N := by
  unfold freshScan scanSources
  rw [h1, h2]; rfl

/-- Nothing has been found. -/
def Nothing (c : Cfg V S B K) (N : Nodes V) : Prop :=
  ∀ t, (N.implicit t).getD [] = [] ∧ (N.memo t = none ∨ N.memo t = some (full c [] t).children)

theorem nothing_children {c : Cfg V S B K} {N : Nodes V} (h : Nothing c N) (t : V) : children c N t = (full c [] t).children := by
  rcases (h t).2 with hm | hm
  · exact children_eq c N t [] (h t).1 hm
  · rw [children, hm]; rfl

theorem nothing_ask {c : Cfg V S B K} {N : Nodes V} (h : Nothing c N) (t : V) : Nothing c (ask c N t) := by
  intro x
  refine ⟨(h x).1, ?_⟩
  unfold ask upd
  dsimp only
  split
  · rename_i e; subst e; exact .inr (by rw [nothing_children h])
  · exact (h x).2

theorem nothing_addAll {c : Cfg V S B K} {N : Nodes V} (h : Nothing c N) (ts : List V) : Nothing c (addAll N [] ts) := by
  intro x
  refine ⟨?_, ?_⟩
  · rw [addAll_implicit]
    split
    · rw [(h x).1]; rfl
    · exact (h x).1
  · rcases addAll_memo N [] ts x with hm | ⟨hm, -⟩
    · exact .inl hm
    · rw [hm]; exact (h x).2

theorem nothing_dropAll {c : Cfg V S B K} {N : Nodes V} (h : Nothing c N) (ts : List V) : Nothing c (dropAll N ts) := by
  intro x
  refine ⟨?_, (h x).2⟩
  rw [dropAll_implicit]
  split
  · rfl
  · exact (h x).1

theorem scan_nothing {M : Hash B K} {n : Nat} {f : Flags} {c : Cfg V S B K} {s : St V B K} (h1 : c.sources = []) (h2 : c.tgtScanner = none)
    (hbi : ∀ t bi, s.db t = some bi → bi.bimplicit = []) {N : Nodes V} (h : Nothing c N) (t : V) :
    ∃ N', scan M f c s n N t = some N' ∧ Nothing c N' := by
  unfold scan
  split
  · exact ⟨N, rfl, h⟩
  · have h0 : Nothing c (⟨upd N.implicit t (some []), upd N.memo t none⟩ : Nodes V) := by
      intro x
      unfold upd
      dsimp only
      split
      · exact ⟨rfl, .inl rfl⟩
      · exact h x
    dsimp only
    split
    · split
      · exact ⟨_, freshScan_nothing h1 h2, h0⟩
      · rename_i bi hdb
        rw [hbi t bi hdb]
        have := nothing_addAll h0 c.targets
        split
        · exact ⟨_, rfl, this⟩
        · split
          · exact ⟨_, rfl, nothing_ask this t⟩
          · exact ⟨_, freshScan_nothing h1 h2, nothing_dropAll (nothing_ask this t) _⟩
    · exact ⟨_, freshScan_nothing h1 h2, h0⟩

theorem scanAll_nothing {M : Hash B K} {n : Nat} {f : Flags} {c : Cfg V S B K} {s : St V B K} (h1 : c.sources = []) (h2 : c.tgtScanner = none)
    (hbi : ∀ t bi, s.db t = some bi → bi.bimplicit = []) (ts : List V) {N : Nodes V} (h : Nothing c N) :
    ∃ N', scanAll M f c s n ts N = some N' ∧ Nothing c N' := by
  induction ts generalizing N with
  | nil => exact ⟨N, rfl, h⟩
  | cons t ts ih =>
    obtain ⟨N', e, h'⟩ := scan_nothing (M := M) (n := n) (f := f) h1 h2 hbi h t
    conv => enter [1, N']; lhs; unfold scanAll
    rw [e]
    exact ih h'

theorem run_nothing {M : Hash B K} {n : Nat} {f : Flags} {c : Cfg V S B K} {s : St V B K} (h1 : c.sources = []) (h2 : c.tgtScanner = none)
    (hbi : ∀ t bi, s.db t = some bi → bi.bimplicit = []) (first : V) : run M n f c first s = (freshList c s.fs n).map (result M c s) := by
  obtain ⟨N, e, h⟩ := scanAll_nothing (M := M) (n := n) (f := f) h1 h2 hbi (first :: c.targets) (N := Nodes.new)
    (fun t => ⟨rfl, .inl rfl⟩)
  rw [freshList_nothing h1 h2]
  refine run_same e ⟨fun t ht => record_eq M c s N t [] (h t).1, ?_⟩
  unfold allCurrent
  rw [Bool.eq_iff_iff, List.all_eq_true, List.all_eq_true]
  refine forall_congr' fun t => forall_congr' fun ht => ?_
  rw [upToDate_congr M c s N ⟨fun _ => some [], fun _ => none⟩ t]
  rw [nothing_children h, children_eq c _ t [] rfl rfl]

/-- A run with or without the cache. -/
theorem run_eq {M : Hash B K} (hinj : ∀ x y : B, M.hash x = M.hash y → x = y) {n : Nat} {f : Flags} {c : Cfg V S B K}
    {first : V} {s : St V B K} {past : List (Cfg V S B K × Files V B)} (hf : f.depsUnchanged = false) (hc : Sane c) (hfirst : first ∈ c.targets)
    (hH : Honest M n past s.db) (hst : ∀ a ∈ past, Stable M a (c, s.fs)) (hsane : ∀ a ∈ past, Sane a.1) :
    run M n f c first s = (freshList c s.fs n).map (result M c s) := by
  by_cases hne : c.sources ≠ [] ∨ c.tgtScanner ≠ none
  · by_cases hfl : (f.cache && !f.depsChanged) = true
    · cases hdb : s.db first with
      | none => exact fresh_start hne (by rw [scan_new, if_pos hfl, hdb])
      | some bi => exact cached_run hinj hne hc hfirst hH hst hsane hdb (by rw [scan_new, if_pos hfl, hdb]; dsimp only; rw [hf]; rfl)
    · exact fresh_start hne (by rw [scan_new, if_neg hfl])
  · simp only [not_or, ne_eq, not_not] at hne
    refine run_nothing hne.1 hne.2 (fun t bi hdb => ?_) first
    rcases hH t bi hdb with ⟨-, h⟩ | ⟨a, ha, L, -, hL, rfl⟩
    · exact h
    · have e1 := (hst a ha).sources
      have e2 := (hst a ha).tgtScanner
      dsimp only at e1 e2
      rw [freshList_nothing (by rw [← e1, hne.1]) (by rw [← e2, hne.2])] at hL
      cases hL
      rw [recOf_eq]; rfl

theorem honest_result {M : Hash B K} {n : Nat} {c : Cfg V S B K} {s : St V B K} {past : List (Cfg V S B K × Files V B)} {L : List V}
    (hH : Honest M n past s.db) (hL : freshList c s.fs n = some L) : Honest M n (past ++ [(c, s.fs)]) (result M c s L).1.db := by
  intro t bi h
  unfold result at h
  dsimp only at h
  split at h
  · rename_i ht
    cases h
    exact .inr ⟨(c, s.fs), by simp, L, ht, hL, rfl⟩
  · rcases hH t bi h with h | ⟨a, ha, r⟩
    · exact .inl h
    · exact .inr ⟨a, List.mem_append_left _ ha, r⟩

/-! ## Histories -/

theorem history_eq {M : Hash B K} (hinj : ∀ x y : B, M.hash x = M.hash y → x = y) (n : Nat) (hs : List (Session V S B K)) :
    ∀ (s : St V B K) (past : List (Cfg V S B K × Files V B)),
      (∀ h ∈ hs, h.flags.depsUnchanged = false ∧ Sane h.cfg ∧ h.first ∈ h.cfg.targets) → Honest M n past s.db → (∀ a ∈ past, Sane a.1) →
      (past ++ met M n (hs.map Session.without) s).Pairwise (Stable M) →
      history M n hs s = history M n (hs.map Session.without) s := by
  induction hs with
  | nil => intro s past _ _ _ _; rfl
  | cons h hs ih =>
    intro s past hok hH hsane hst
    obtain ⟨h1, h2, h3⟩ := hok h List.mem_cons_self
    have hmet : met M n ((h :: hs).map Session.without) s = (h.cfg, h.edit s.fs) ::
        match run M n Flags.plain h.cfg h.first { s with fs := h.edit s.fs } with
        | none => []
        | some (s', _) => met M n (hs.map Session.without) s' := rfl
    rw [hmet] at hst
    have hpast : ∀ a ∈ past, Stable M a (h.cfg, h.edit s.fs) := fun a ha =>
      (List.pairwise_append.1 hst).2.2 a ha _ List.mem_cons_self
    have r1 := run_eq hinj (f := h.flags) (n := n) (s := { s with fs := h.edit s.fs }) h1 h2 h3 hH hpast hsane
    have r2 := run_eq hinj (f := Flags.plain) (n := n) (s := { s with fs := h.edit s.fs }) rfl h2 h3 hH hpast hsane
    rw [r2] at hst
    have e1 : history M n (h :: hs) s = match run M n h.flags h.cfg h.first { s with fs := h.edit s.fs } with
      | none => none
      | some (s', b) =>
        match history M n hs s' with
        | none => none
        | some (s'', bs) => some (s'', b :: bs) := rfl
    have e2 : history M n ((h :: hs).map Session.without) s = match run M n Flags.plain h.cfg h.first { s with fs := h.edit s.fs } with
      | none => none
      | some (s', b) =>
        match history M n (hs.map Session.without) s' with
        | none => none
        | some (s'', bs) => some (s'', b :: bs) := rfl
    rw [e1, e2, r1, r2]
    cases hL : freshList h.cfg (h.edit s.fs) n with
    | none => rfl
    | some L =>
      rw [hL] at hst
      have := ih (result M h.cfg { s with fs := h.edit s.fs } L).1 (past ++ [(h.cfg, h.edit s.fs)])
        (fun x hx => hok x (List.mem_cons_of_mem _ hx)) (honest_result (s := { s with fs := h.edit s.fs }) hH hL)
        (by
          intro a ha
          rcases List.mem_append.1 ha with ha | ha
          · exact hsane a ha
          · rw [List.mem_singleton.1 ha]; exact h2)
        (by simpa using hst)
      simp only [Option.map_some]
      rw [this]

/-- **C80** `--implicit-cache` changes nothing: with whichever of the runs of a history using the cached lists, or forcing a new scan, all runs take the same
decisions and leave the same files and the same records as without the option.  `s.db` at the start: no target has been built
yet. -/
theorem C80_implicit_cache_partial {M : Hash B K} (hinj : ∀ x y : B, M.hash x = M.hash y → x = y) (n : Nat) (hs : List (Session V S B K)) (s : St V B K)
    (hok : ∀ h ∈ hs, h.flags.depsUnchanged = false ∧ Sane h.cfg ∧ h.first ∈ h.cfg.targets)
    (hnew : ∀ t, s.db t = none) (hst : (met M n (hs.map Session.without) s).Pairwise (Stable M)) :
    history M n hs s = history M n (hs.map Session.without) s :=
  history_eq hinj n hs s [] hok (fun t bi h => by rw [hnew] at h; cases h) (by simp) (by simpa using hst)

/-- **C80** `--implicit-deps-changed`: the run is that without the options, in every state. -/
theorem C80_deps_changed (M : Hash B K) (n : Nat) (f : Flags) (hf : f.depsChanged = true) (c : Cfg V S B K) (first : V) (s : St V B K) :
    run M n f c first s = run M n Flags.plain c first s := by
  have h1 : ∀ N t, scan M f c s n N t = scan M Flags.plain c s n N t := by
    intro N t
    unfold scan
    simp [hf, Flags.plain]
  have h2 : ∀ ts N, scanAll M f c s n ts N = scanAll M Flags.plain c s n ts N := by
    intro ts
    induction ts with
    | nil => intro N; rfl
    | cons t ts ih =>
      intro N
      unfold scanAll
      rw [h1]
      split
      · rfl
      · exact ih _
  unfold run
  rw [h2]

/-- **C80** `--implicit-deps-unchanged`: no file is scanned for a target that has a record, what the scanners would find has no influence. -/
theorem C80_deps_unchanged (M : Hash B K) (n n' : Nat) (f : Flags) (hf : f.cache = true ∧ f.depsChanged = false ∧ f.depsUnchanged = true)
    (c : Cfg V S B K) (env' : Files V B → Env V S) (own' : List V) (first : V) (hfirst : first ∈ c.targets) (s : St V B K) (hdb : (s.db first).isSome) :
    run M n' f { c with env := env', own := own' } first s = run M n f c first s := by
  obtain ⟨bi, hbi⟩ := Option.isSome_iff_exists.1 hdb
  have h1 : ∀ (c : Cfg V S B K) n, first ∈ c.targets →
      scanAll M f c s n (first :: c.targets) Nodes.new = some (addAll (start first) bi.bimplicit c.targets) := by
    intro c n hc
    refine scanAll_cons_done (by rw [scan_new, hbi]; simp [hf]) fun t ht => ?_
    rw [addAll_implicit, if_pos ht]; rfl
  unfold run
  rw [h1 c n hfirst, h1 { c with env := env', own := own' } n' hfirst]
  rfl

end Verif.ImplicitCache
