import Verif.TM.Basic
import Mathlib.Data.Prod.Lex
import Mathlib.Order.WellFounded

/-! `find_cycle` and the literal work-list loop of `will_not_build`. -/

set_option linter.unusedSectionVars false
set_option linter.unusedSimpArgs false
set_option linter.unusedVariables false

namespace Verif.TM
variable {V : Type} [DecidableEq V]

/-! ## find_cycle -/

mutual
/-- `find_cycle(stack, visited)`, `SCons/Taskmaster/__init__.py:590-602`.  `stack` has its last element first, `root` is
`stack[0]`; `parents v` lists `v.waiting_parents` in the order the Python set is iterated (any order).  The Python
recursion has no counter; `fuel` bounds its depth and `findCycle_iff` shows that one more than the number of
nodes is always enough, i.e. the counter never changes the result.  Returns the cycle found (if any) and the final `visited`. -/
def findCycle (parents : V → List V) (root : V) : Nat → List V → Finset V → Option (List V) × Finset V
  | 0, _, vis => (none, vis)
  | _ + 1, [], vis => (none, vis)
  | k + 1, top :: rest, vis =>
    if top ∈ vis then (none, vis)
    else findCycleLoop parents root k (top :: rest) (parents top) (insert top vis)
/-- The `for n in stack[-1].waiting_parents` loop. -/
def findCycleLoop (parents : V → List V) (root : V) (k : Nat) (stack : List V) : List V → Finset V → Option (List V) × Finset V
  | [], vis => (none, vis)
  | n :: ns, vis =>
    if root = n then (some (n :: stack), vis)
    else
      match findCycle parents root k (n :: stack) vis with
      | (some st, vis') => (some st, vis')
      | (none, vis') => findCycleLoop parents root k stack ns vis'
end

/-- consecutive elements (list reversed: later first) are linked by `parents` -/
def Linked (parents : V → List V) : List V → Prop
  | [] => True
  | [_] => True
  | b :: a :: r => b ∈ parents a ∧ Linked parents (a :: r)

mutual
theorem findCycle_sound (parents : V → List V) (root : V) : ∀ (k : Nat) (stack : List V) (vis : Finset V) (st : List V),
    Linked parents stack → (findCycle parents root k stack vis).1 = some st →
    ∃ pre, st = root :: (pre ++ stack) ∧ Linked parents st
  | 0, stack, vis, st, _, h => by simp [findCycle] at h
  | _ + 1, [], vis, st, _, h => by simp [findCycle] at h
  | k + 1, top :: rest, vis, st, hl, h => by
    rw [findCycle] at h
    split at h
    · simp at h
    · exact findCycleLoop_sound parents root k top rest (parents top) _ st hl (fun _ h => h) h
theorem findCycleLoop_sound (parents : V → List V) (root : V) : ∀ (k : Nat) (top : V) (rest ns : List V) (vis : Finset V)
    (st : List V), Linked parents (top :: rest) → (∀ n ∈ ns, n ∈ parents top) →
    (findCycleLoop parents root k (top :: rest) ns vis).1 = some st →
    ∃ pre, st = root :: (pre ++ top :: rest) ∧ Linked parents st
  | k, top, rest, [], vis, st, _, _, h => by simp [findCycleLoop] at h
  | k, top, rest, n :: ns, vis, st, hl, hns, h => by
    have hl' : Linked parents (n :: top :: rest) := ⟨hns n (by simp), hl⟩
    rw [findCycleLoop] at h
    split at h
    · rename_i hr
      simp only [Option.some.injEq] at h
      subst hr
      exact ⟨[], by simp [← h], h ▸ hl'⟩
    · split at h
      · rename_i st' vis' heq
        simp only [Option.some.injEq] at h
        subst h
        obtain ⟨pre, h1, h2⟩ := findCycle_sound parents root k (n :: top :: rest) vis st' hl' (by rw [heq])
        exact ⟨pre ++ [n], by simp [h1], h2⟩
      · rename_i vis' heq
        exact findCycleLoop_sound parents root k top rest ns vis' st hl (fun m hm => hns m (by simp [hm])) h
end

section
variable [Fintype V]

/-- what a search that found nothing has established -/
structure Swept (parents : V → List V) (root : V) (vis vis' : Finset V) : Prop where
  sub : vis ⊆ vis'
  closed : ∀ v ∈ vis', v ∉ vis → ∀ p ∈ parents v, p ∈ vis' ∧ p ≠ root

mutual
theorem findCycle_none (parents : V → List V) (root : V) : ∀ (k : Nat) (top : V) (rest : List V) (vis vis' : Finset V),
    (Finset.univ \ vis).card < k → findCycle parents root k (top :: rest) vis = (none, vis') →
    Swept parents root vis vis' ∧ top ∈ vis'
  | 0, _, _, _, _, hk, _ => by omega
  | k + 1, top, rest, vis, vis', hk, h => by
    rw [findCycle] at h
    split at h
    · rename_i ht
      simp only [Prod.mk.injEq, true_and] at h; subst h
      exact ⟨⟨Finset.Subset.refl _, fun v h1 h2 => absurd h1 h2⟩, ht⟩
    · rename_i ht
      have hc : (Finset.univ \ insert top vis).card < k := by
        have : (Finset.univ \ insert top vis) = (Finset.univ \ vis).erase top := by
          ext x; simp only [Finset.mem_sdiff, Finset.mem_univ, Finset.mem_insert, Finset.mem_erase, true_and]; tauto
        rw [this, Finset.card_erase_of_mem (by simp [ht])]
        have : 0 < (Finset.univ \ vis).card := Finset.card_pos.2 ⟨top, by simp [ht]⟩
        omega
      obtain ⟨h1, h2⟩ := findCycleLoop_none parents root k (top :: rest) (parents top) _ _ hc h
      have htv : top ∈ vis' := h1.sub (Finset.mem_insert_self _ _)
      refine ⟨⟨(Finset.subset_insert _ _).trans h1.sub, ?_⟩, htv⟩
      intro v hv hnv p hp
      by_cases hvt : v = top
      · subst hvt; exact h2 p hp
      · exact h1.closed v hv (by simp [hvt, hnv]) p hp
theorem findCycleLoop_none (parents : V → List V) (root : V) : ∀ (k : Nat) (stack ns : List V) (vis vis' : Finset V),
    (Finset.univ \ vis).card < k → findCycleLoop parents root k stack ns vis = (none, vis') →
    Swept parents root vis vis' ∧ ∀ n ∈ ns, n ∈ vis' ∧ n ≠ root
  | k, stack, [], vis, vis', hk, h => by
    simp only [findCycleLoop, Prod.mk.injEq, true_and] at h; subst h
    exact ⟨⟨Finset.Subset.refl _, fun v h1 h2 => absurd h1 h2⟩, by simp⟩
  | k, stack, n :: ns, vis, vis', hk, h => by
    rw [findCycleLoop] at h
    split at h
    · simp at h
    · rename_i hr
      split at h
      · simp at h
      · rename_i vis1 heq
        obtain ⟨h1, h2⟩ := findCycle_none parents root k n stack vis vis1 hk heq
        have hk' : (Finset.univ \ vis1).card < k :=
          lt_of_le_of_lt (Finset.card_le_card (Finset.sdiff_subset_sdiff (Finset.Subset.refl _) h1.sub)) hk
        obtain ⟨h3, h4⟩ := findCycleLoop_none parents root k stack ns vis1 vis' hk' h
        refine ⟨⟨h1.sub.trans h3.sub, ?_⟩, ?_⟩
        · intro v hv hnv p hp
          by_cases hv1 : v ∈ vis1
          · have := h1.closed v hv1 hnv p hp
            exact ⟨h3.sub this.1, this.2⟩
          · exact h3.closed v hv hv1 p hp
        · intro m hm
          rcases List.mem_cons.1 hm with rfl | hm
          · exact ⟨h3.sub h2, fun e => hr e.symm⟩
          · exact h4 m hm
end

/-- `find_cycle([n], set())` as called by `cleanup` (`:1107`). -/
def findCycleFrom (parents : V → List V) (n : V) : Option (List V) :=
  (findCycle parents n (Fintype.card V + 1) [n] ∅).1

theorem Linked.trans {parents : V → List V} : ∀ {pre : List V} {a b : V}, Linked parents (b :: (pre ++ [a])) →
    Relation.TransGen (fun x y => y ∈ parents x) a b
  | [], a, b, h => .single h.1
  | c :: pre, a, b, h => Relation.TransGen.tail (Linked.trans (pre := pre) h.2) h.1

/-- **find_cycle is sound and complete**: it returns a cycle iff the node waits, through any number of others, for
itself; and what it returns really is a closed chain through the node. -/
theorem findCycle_iff (parents : V → List V) (n : V) :
    (findCycleFrom parents n).isSome ↔ Relation.TransGen (fun x y => y ∈ parents x) n n := by
  constructor
  · intro h
    obtain ⟨st, hst⟩ := Option.isSome_iff_exists.1 h
    obtain ⟨pre, h1, h2⟩ := findCycle_sound parents n _ [n] ∅ st trivial hst
    rw [h1] at h2
    exact Linked.trans h2
  · intro h
    by_contra hn
    have hnone : (findCycleFrom parents n) = none := by simpa using hn
    obtain ⟨h1, h2⟩ := findCycle_none parents n (Fintype.card V + 1) n [] ∅ (findCycle parents n (Fintype.card V + 1) [n] ∅).2
      (by simp [Finset.card_univ]) (Prod.ext hnone rfl)
    generalize (findCycle parents n (Fintype.card V + 1) [n] ∅).2 = vis' at *
    have key : ∀ x, Relation.TransGen (fun x y => y ∈ parents x) n x → x ∈ vis' ∧ x ≠ n := by
      intro x hx
      induction hx with
      | single h3 => exact h1.closed n h2 (by simp) _ h3
      | tail _ h3 ih => exact h1.closed _ ih.1 (by simp) _ h3
    exact (key n h).2 rfl

/-- The cycle printed in the error message is a real one: it starts and ends with `n` and each element waits for
(is a waiting parent of) its predecessor. -/
theorem findCycle_chain (parents : V → List V) (n : V) (st : List V) (h : findCycleFrom parents n = some st) :
    ∃ mid, st = n :: (mid ++ [n]) ∧ Linked parents st := by
  obtain ⟨pre, h1, h2⟩ := findCycle_sound parents n _ [n] ∅ st trivial h
  exact ⟨pre, h1, h2⟩

/-! ## The loop of `will_not_build` -/

/-- One iteration: `node = to_visit.pop()` …, `:1069-1084`. -/
def wnbPop (mark : Bool) (tv : Finset V) (S : St V) (node : V) : Finset V × St V :=
  (tv.erase node ∪ S.wp node,
   { S with
     state := if mark then upd S.state node .failed else S.state
     wp := upd S.wp node ∅
     ref := fun p => if p ∈ S.wp node then S.ref p - 1 else S.ref p
     pend := S.pend \ S.wp node })

/-- The loop as a relation: any element may be popped. -/
inductive WnbLoop (mark : Bool) : Finset V → St V → St V → Prop
  | done (S : St V) : WnbLoop mark ∅ S S
  | pop {tv : Finset V} {S S' : St V} (node : V) (h : node ∈ tv)
      (rest : WnbLoop mark (wnbPop mark tv S node).1 (wnbPop mark tv S node).2 S') : WnbLoop mark tv S S'

/-- The whole function: `to_visit = set(nodes); pending_children -= to_visit; loop`. -/
def Wnb (mark : Bool) (nodes : Finset V) (S S' : St V) : Prop :=
  WnbLoop mark nodes { S with pend := S.pend \ nodes } S'

/-- loop invariant, `D` = nodes popped so far -/
structure WnbInv (mark : Bool) (nodes : Finset V) (S0 : St V) (D tv : Finset V) (S : St V) : Prop where
  start : nodes ⊆ D ∪ tv
  closed : ∀ d ∈ D, S0.wp d ⊆ D ∪ tv
  sub : D ∪ tv ⊆ upSet S0.wp nodes
  eq : S = { S0 with
    state := if mark then updOn S0.state (· ∈ D) .failed else S0.state
    wp := updOn S0.wp (· ∈ D) ∅
    ref := fun p => S0.ref p - ((D.filter (fun c => p ∈ S0.wp c)).card : Int)
    pend := S0.pend \ (nodes ∪ D.biUnion S0.wp) }

theorem WnbInv.pop {mark : Bool} {nodes D tv : Finset V} {S0 S : St V} (h : WnbInv mark nodes S0 D tv S) {node : V}
    (hn : node ∈ tv) : WnbInv mark nodes S0 (insert node D) (wnbPop mark tv S node).1 (wnbPop mark tv S node).2 := by
  have hwp : ∀ x, S.wp x = if x ∈ D then ∅ else S0.wp x := by intro x; rw [h.eq]; rfl
  have hmem : ∀ x, x ∈ D ∪ tv → x ∈ insert node D ∪ (wnbPop mark tv S node).1 := by
    intro x hx
    simp only [wnbPop, Finset.mem_union, Finset.mem_insert, Finset.mem_erase] at hx ⊢
    by_cases hxn : x = node
    · exact Or.inl (Or.inl hxn)
    · rcases hx with hx | hx
      · exact Or.inl (Or.inr hx)
      · exact Or.inr (Or.inl ⟨hxn, hx⟩)
  constructor
  · exact fun x hx => hmem x (h.start hx)
  · intro d hd x hx
    rcases Finset.mem_insert.1 hd with rfl | hd
    · by_cases hdD : d ∈ D
      · exact hmem x (h.closed d hdD hx)
      · simp only [wnbPop, Finset.mem_union]
        right; right; rw [hwp, if_neg hdD]; exact hx
    · exact hmem x (h.closed d hd hx)
  · intro x hx
    simp only [wnbPop, Finset.mem_union, Finset.mem_insert, Finset.mem_erase] at hx
    rcases hx with (rfl | hx) | (hx | hx)
    · exact h.sub (Finset.mem_union.2 (Or.inr hn))
    · exact h.sub (Finset.mem_union.2 (Or.inl hx))
    · exact h.sub (Finset.mem_union.2 (Or.inr hx.2))
    · rw [hwp] at hx; split at hx
      · simp at hx
      · exact upSet_closed S0.wp nodes node (h.sub (Finset.mem_union.2 (Or.inr hn))) x hx
  · have hstate : (if mark then upd S.state node .failed else S.state)
        = if mark then updOn S0.state (· ∈ insert node D) .failed else S0.state := by
      rw [h.eq]
      cases mark
      · rfl
      · simp only [if_true]; funext x
        simp only [upd_apply, updOn_apply, Finset.mem_insert]
        by_cases hx : x = node <;> simp [hx]
    have hwp' : upd S.wp node ∅ = updOn S0.wp (· ∈ insert node D) ∅ := by
      funext x
      simp only [upd_apply, updOn_apply, Finset.mem_insert, hwp]
      by_cases hx : x = node <;> simp [hx]
    have href : (fun p => if p ∈ S.wp node then S.ref p - 1 else S.ref p)
        = fun p => S0.ref p - (((insert node D).filter (fun c => p ∈ S0.wp c)).card : Int) := by
      funext p
      have hr : S.ref p = S0.ref p - ((D.filter (fun c => p ∈ S0.wp c)).card : Int) := by rw [h.eq]
      rw [hwp]
      by_cases hnD : node ∈ D
      · rw [if_pos hnD, Finset.insert_eq_of_mem hnD]; simp [hr]
      · rw [if_neg hnD, Finset.filter_insert]
        split
        · rw [Finset.card_insert_of_notMem (by simp [hnD]), hr]; push_cast; omega
        · exact hr
    have hpend : S.pend \ S.wp node = S0.pend \ (nodes ∪ (insert node D).biUnion S0.wp) := by
      have : S.pend = S0.pend \ (nodes ∪ D.biUnion S0.wp) := by rw [h.eq]
      rw [this, hwp]
      ext x
      simp only [Finset.mem_sdiff, Finset.mem_union, Finset.mem_biUnion, Finset.mem_insert]
      by_cases hnD : node ∈ D
      · simp only [if_pos hnD, Finset.notMem_empty, not_false_eq_true, and_true]
        constructor
        · rintro ⟨h1, h2⟩
          refine ⟨h1, fun h3 => h2 ?_⟩
          rcases h3 with h3 | ⟨a, ha | ha, h4⟩
          · exact Or.inl h3
          · exact Or.inr ⟨a, ha ▸ hnD, h4⟩
          · exact Or.inr ⟨a, ha, h4⟩
        · rintro ⟨h1, h2⟩
          refine ⟨h1, fun h3 => h2 ?_⟩
          rcases h3 with h3 | ⟨a, ha, h4⟩
          · exact Or.inl h3
          · exact Or.inr ⟨a, Or.inr ha, h4⟩
      · simp only [if_neg hnD]
        constructor
        · rintro ⟨⟨h1, h2⟩, h5⟩
          refine ⟨h1, fun h3 => ?_⟩
          rcases h3 with h3 | ⟨a, ha | ha, h4⟩
          · exact h2 (Or.inl h3)
          · exact h5 (ha ▸ h4)
          · exact h2 (Or.inr ⟨a, ha, h4⟩)
        · rintro ⟨h1, h2⟩
          refine ⟨⟨h1, fun h3 => h2 ?_⟩, fun h3 => h2 (Or.inr ⟨node, Or.inl rfl, h3⟩)⟩
          rcases h3 with h3 | ⟨a, ha, h4⟩
          · exact Or.inl h3
          · exact Or.inr ⟨a, Or.inr ha, h4⟩
    have e : (wnbPop mark tv S node).2 = { S0 with
        state := if mark then upd S.state node .failed else S.state
        wp := upd S.wp node ∅
        ref := fun p => if p ∈ S.wp node then S.ref p - 1 else S.ref p
        pend := S.pend \ S.wp node } := by
      unfold wnbPop
      simp only
      rw [h.eq]
    rw [e, hstate, hwp', href, hpend]

theorem WnbInv.final {mark : Bool} {nodes D : Finset V} {S0 S : St V} (h : WnbInv mark nodes S0 D ∅ S) :
    S = willNotBuild S0 nodes mark := by
  have hD : D = upSet S0.wp nodes := by
    apply Finset.Subset.antisymm
    · simpa using h.sub
    · intro x hx
      refine upSet_ind S0.wp nodes (· ∈ D) ?_ ?_ x hx
      · intro y hy; simpa using h.start hy
      · intro c p hc hp; simpa using h.closed c hc hp
  have hpend : nodes ∪ D.biUnion S0.wp = D := by
    ext x
    simp only [Finset.mem_union, Finset.mem_biUnion]
    constructor
    · rintro (h1 | ⟨a, ha, h1⟩)
      · simpa using h.start h1
      · simpa using h.closed a ha h1
    · intro hx
      have := upSet_ind S0.wp nodes (fun x => x ∈ D ∧ (x ∈ nodes ∨ ∃ a ∈ D, x ∈ S0.wp a))
        (fun y hy => ⟨by simpa using h.start hy, Or.inl hy⟩)
        (fun c p hc hp => ⟨by simpa using h.closed c hc.1 hp, Or.inr ⟨c, hc.1, hp⟩⟩) x (hD ▸ hx)
      exact this.2
  rw [h.eq, hpend]
  unfold willNotBuild
  subst hD
  rfl

/-- **`will_not_build` does not depend on the order in which the set is popped**: whenever the loop ends, its result
is the closed form used by the model. -/
theorem wnb_loop_eq {mark : Bool} {nodes : Finset V} {S S' : St V} (h : Wnb mark nodes S S') :
    S' = willNotBuild S nodes mark := by
  have aux : ∀ {tv : Finset V} {T T' : St V}, WnbLoop mark tv T T' → ∀ D, WnbInv mark nodes S D tv T →
      T' = willNotBuild S nodes mark := by
    intro tv T T' hl
    induction hl with
    | done T => intro D hD; exact hD.final
    | pop node hn _ ih => intro D hD; exact ih _ (hD.pop hn)
  refine aux h ∅ ⟨by simp, by simp, by simpa using subset_upSet S.wp nodes, ?_⟩
  cases mark <;> simp <;> (repeat' constructor) <;> funext x <;> simp [updOn]

/-- One iteration, as a relation between loop states. -/
def WnbStep (mark : Bool) (a b : Finset V × St V) : Prop := ∃ node ∈ a.1, b = wnbPop mark a.1 a.2 node

/-- **The loop terminates** for every graph, also a cyclic one, and every order of popping. -/
theorem wnb_terminates (mark : Bool) : WellFounded (fun b a : Finset V × St V => WnbStep mark a b) := by
  let μ : Finset V × St V → Nat ×ₗ Nat := fun a =>
    toLex ((Finset.univ.filter (fun c => a.2.wp c ≠ ∅)).card, a.1.card)
  refine Subrelation.wf (r := InvImage (· < ·) μ) ?_ (InvImage.wf μ wellFounded_lt)
  rintro b a ⟨node, hn, rfl⟩
  show μ _ < μ a
  simp only [μ, Prod.Lex.lt_iff, ofLex_toLex]
  by_cases hw : a.2.wp node = ∅
  · right
    constructor
    · congr 2; ext c; simp only [wnbPop, upd_apply]
      by_cases hc : c = node
      · simp [hc, hw]
      · simp [hc]
    · simp only [wnbPop, hw, Finset.union_empty]
      exact Finset.card_erase_lt_of_mem hn
  · left
    apply Finset.card_lt_card
    refine Finset.ssubset_iff_subset_ne.2 ⟨?_, ?_⟩
    · intro c hc
      have hc' := (Finset.mem_filter.1 hc).2
      refine Finset.mem_filter.2 ⟨Finset.mem_univ _, ?_⟩
      simp only [wnbPop, upd_apply] at hc'
      split at hc'
      · exact absurd rfl hc'
      · exact hc'
    · intro he
      have : node ∈ Finset.univ.filter (fun c => a.2.wp c ≠ ∅) := Finset.mem_filter.2 ⟨Finset.mem_univ _, hw⟩
      rw [← he] at this
      exact (Finset.mem_filter.1 this).2 (by simp [wnbPop])

/-- … hence it always reaches a result (namely `willNotBuild`). -/
theorem wnb_total (mark : Bool) (nodes : Finset V) (S : St V) : ∃ S', Wnb mark nodes S S' := by
  have : ∀ a : Finset V × St V, ∃ S', WnbLoop mark a.1 a.2 S' := by
    intro a
    refine (wnb_terminates mark).induction (C := fun a => ∃ S', WnbLoop mark a.1 a.2 S') a ?_
    intro a ih
    rcases Finset.eq_empty_or_nonempty a.1 with h | ⟨node, hn⟩
    · exact ⟨a.2, by rw [h]; exact .done _⟩
    · obtain ⟨S', hS'⟩ := ih (wnbPop mark a.1 a.2 node) ⟨node, hn, rfl⟩
      exact ⟨S', .pop node hn hS'⟩
  exact this (nodes, _)

end
end Verif.TM
