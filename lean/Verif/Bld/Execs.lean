import Verif.Bld.Props
import Verif.TM.Inv

/-!
# C60: which action writes which file

The executors Builder calls leave behind, and the groups of targets the Taskmaster gets from them.
-/

set_option linter.unusedSectionVars false

namespace Verif.Bld

variable {V E L C K : Type} [DecidableEq V] [DecidableEq E] [DecidableEq C] [DecidableEq K]

/-- Two calls that have a target in common have the same targets and the same batch key; no batches for builders that accumulate sources.
The code checks the first only for builders that accumulate sources. -/
def Blocks (O : Objs V E L C) (cs : List (Call V E L K)) : Prop :=
  (∀ c ∈ cs, ∀ c' ∈ cs, ∀ t ∈ c.tlist, t ∈ c'.tlist → c.tlist = c'.tlist ∧ c.key = c'.key) ∧ ∀ c ∈ cs, O.multi c.bld = true → c.key = none

theorem Blocks.left {O : Objs V E L C} {cs : List (Call V E L K)} {c : Call V E L K} (h : Blocks O (cs ++ [c])) : Blocks O cs :=
  ⟨fun a ha b hb => h.1 a (by simp [ha]) b (by simp [hb]), fun a ha => h.2 a (by simp [ha])⟩

/-- The target lists of an executor. -/
def Exec.blocks (x : Exec V) : List (List V) := x.map (·.1)

theorem Exec.mem_targets {x : Exec V} {t : V} : t ∈ x.targets ↔ ∃ b ∈ x.blocks, t ∈ b := by
  simp [Exec.targets, Exec.blocks, List.mem_flatMap]

theorem Exec.addSources_blocks (x : Exec V) (s : List V) : (x.addSources s).blocks = x.blocks := by
  cases x <;> rfl

theorem Exec.addSources_targets (x : Exec V) (s : List V) : (x.addSources s).targets = x.targets := by
  cases x <;> rfl

/-- What `findExec` does. -/
inductive Found (O : Objs V E L C) (S : St V E L K) (c : Call V E L K) : St V E L K → Nat → Prop
  | reuse {h i} : O.multi c.bld = true → c.tlist.head? = some h → (S.node h).exec = some i →
      Found O S c { S with exec := fun j => if j = i then (S.exec i).addSources c.slist else S.exec j } i
  | batch {k i} : c.key = some k → S.batch k = some i → Found O S c { S with exec := fun j => if j = i then S.exec i ++ [(c.tlist, c.slist)] else S.exec j } i
  | fresh : (∀ k, c.key = some k → S.batch k = none) →
      (O.multi c.bld = true → ∀ h, c.tlist.head? = some h → (S.node h).exec = none) →
      Found O S c { S with exec := fun j => if j = S.next then [(c.tlist, c.slist)] else S.exec j, next := S.next + 1,
                           batch := fun k => if c.key = some k then some S.next else S.batch k } S.next

theorem findExec_found (O : Objs V E L C) (S : St V E L K) (c : Call V E L K) : Found O S c (findExec O S c).1 (findExec O S c).2 := by
  unfold findExec
  split
  · rename_i i hi
    split at hi
    · rename_i hm
      cases hh : c.tlist.head? with
      | none => rw [hh] at hi; cases hi
      | some h => rw [hh] at hi; exact .reuse hm hh hi
    · cases hi
  · rename_i hi
    split
    · rename_i i hk
      cases hkey : c.key with
      | none => rw [hkey] at hk; cases hk
      | some k => rw [hkey] at hk; exact .batch hkey hk
    · rename_i hk
      refine .fresh ?_ ?_
      · intro k hkk; rw [hkk] at hk; exact hk
      · intro hm h hh; rw [if_pos hm, hh] at hi; exact hi

/-- What is true of the executors. -/
structure ExInv (S : St V E L K) (cs : List (Call V E L K)) : Prop where
  fresh : ∀ j, S.next ≤ j → S.exec j = []
  lt : ∀ u j, (S.node u).exec = some j → j < S.next
  blt : ∀ k j, S.batch k = some j → j < S.next
  mine : ∀ u j, (S.node u).exec = some j → ∃ c ∈ cs, u ∈ c.tlist ∧ c.tlist ∈ (S.exec j).blocks
  owner : ∀ j, j < S.next → ∃ κ : Option K, (∀ k, S.batch k = some j ↔ κ = some k) ∧ (∀ b ∈ (S.exec j).blocks, ∃ c ∈ cs, c.tlist = b ∧ c.key = κ) ∧
    (κ = none → ∃ b, (S.exec j).blocks = [b])
  used : ∀ u j, (S.node u).exec = some j → ∀ t ∈ (S.exec j).targets, (S.node t).exec = some j
  bused : ∀ k j, S.batch k = some j → ∀ t ∈ (S.exec j).targets, (S.node t).exec = some j

theorem ExInv.mono {S : St V E L K} {cs : List (Call V E L K)} (h : ExInv S cs) (c : Call V E L K) :
    (∀ u j, (S.node u).exec = some j → ∃ c' ∈ cs ++ [c], u ∈ c'.tlist ∧ c'.tlist ∈ (S.exec j).blocks) ∧
    ∀ j, j < S.next → ∃ κ : Option K, (∀ k, S.batch k = some j ↔ κ = some k) ∧ (∀ b ∈ (S.exec j).blocks, ∃ c' ∈ cs ++ [c], c'.tlist = b ∧ c'.key = κ) ∧
      (κ = none → ∃ b, (S.exec j).blocks = [b]) := by
  refine ⟨fun u j hj => ?_, fun j hj => ?_⟩
  · obtain ⟨c', h1, h2⟩ := h.mine u j hj
    exact ⟨c', by simp [h1], h2⟩
  · obtain ⟨κ, h1, h2, h3⟩ := h.owner j hj
    refine ⟨κ, h1, fun b hb => ?_, h3⟩
    obtain ⟨c', h4, h5⟩ := h2 b hb
    exact ⟨c', by simp [h4], h5⟩

theorem ExInv.call {O : Objs V E L C} {S S' : St V E L K} {cs : List (Call V E L K)} {c : Call V E L K} (h : ExInv S cs) (hB : Blocks O (cs ++ [c]))
    (hc : call O S c = some S') : ExInv S' (cs ++ [c]) := by
  have hS := (call_some hc).2.2
  have hF := findExec_found O S c
  generalize findExec O S c = r at hS hF
  obtain ⟨S1, i⟩ := r
  dsimp only at hF hS
  obtain ⟨m1, m2⟩ := h.mono c
  -- a block of an executor that has a target in common with `c`
  have hcommon : ∀ j, j < S.next → ∀ t ∈ (S.exec j).targets, t ∈ c.tlist → c.tlist ∈ (S.exec j).blocks ∧
      ((∃ k, c.key = some k ∧ S.batch k = some j) ∨ (c.key = none ∧ ∀ b ∈ (S.exec j).blocks, b = c.tlist)) := by
    intro j hj t ht htc
    obtain ⟨b, hb, htb⟩ := Exec.mem_targets.1 ht
    obtain ⟨κ, k1, k2, k3⟩ := h.owner j hj
    obtain ⟨c', c1, c2, c3⟩ := k2 b hb
    have := hB.1 c' (by simp [c1]) c (by simp) t (c2 ▸ htb) htc
    rw [c2, c3] at this
    refine ⟨this.1 ▸ hb, ?_⟩
    cases hk : c.key with
    | some k => exact Or.inl ⟨k, rfl, (k1 k).2 (this.2.trans hk)⟩
    | none =>
      refine Or.inr ⟨rfl, fun b' hb' => ?_⟩
      obtain ⟨b0, e0⟩ := k3 (this.2.trans hk)
      rw [e0, List.mem_singleton] at hb hb'
      rw [hb', ← hb, this.1]
  have hmine : ∀ u j, (S.node u).exec = some j → (∀ b ∈ (S.exec j).blocks, b = c.tlist) → u ∈ c.tlist := by
    intro u j hu hb
    obtain ⟨c', -, h1, h2⟩ := h.mine u j hu
    rw [← hb _ h2]; exact h1
  cases hF with
  | @reuse hd i hm hh hi =>
    have hkey : c.key = none := hB.2 c (by simp) hm
    have hdc : hd ∈ c.tlist := by
      cases hl : c.tlist with
      | nil => rw [hl] at hh; cases hh
      | cons a l => rw [hl] at hh; simp only [List.head?_cons, Option.some.injEq] at hh; simp [hh]
    have hilt := h.lt hd i hi
    have hex : ∀ j, (S'.exec j).blocks = (S.exec j).blocks := by
      intro j; rw [hS]; simp only; split
      · rename_i e; rw [e, Exec.addSources_blocks]
      · rfl
    have ht : ∀ j t, t ∈ (S'.exec j).targets ↔ t ∈ (S.exec j).targets := by
      intro j t; rw [Exec.mem_targets, Exec.mem_targets, hex]
    have hn : ∀ x, (S'.node x).exec = if x ∈ c.tlist then some i else (S.node x).exec := by
      intro x; rw [hS]; simp only; split <;> rfl
    have hnext : S'.next = S.next := by rw [hS]
    have hbatch : S'.batch = S.batch := by rw [hS]
    have hci : c.tlist ∈ (S.exec i).blocks := by
      obtain ⟨c', c1, c2, c3⟩ := h.mine hd i hi
      have := hB.1 c' (by simp [c1]) c (by simp) hd c2 hdc
      rw [← this.1]; exact c3
    refine ⟨?_, ?_, ?_, ?_, ?_, ?_, ?_⟩
    · intro j hj
      have : S.exec j = [] := h.fresh j (hnext ▸ hj)
      rw [hS]; simp only; split
      · rename_i e; subst e; rw [this]; rfl
      · exact this
    · intro u j hu
      rw [hn] at hu; rw [hnext]
      split at hu
      · cases hu; exact hilt
      · exact h.lt u j hu
    · intro k j hk; rw [hbatch] at hk; rw [hnext]; exact h.blt k j hk
    · intro u j hu
      rw [hn] at hu; rw [hex]
      split at hu
      · rename_i hu'; cases hu; exact ⟨c, by simp, hu', hci⟩
      · exact m1 u j hu
    · intro j hj; rw [hnext] at hj; rw [hbatch, hex]; exact m2 j hj
    · intro u j hu t htt
      rw [ht] at htt
      rw [hn] at hu
      split at hu
      · cases hu
        have := h.used hd i hi t htt
        rw [hn]; split
        · rfl
        · exact this
      · rename_i hu'
        have := h.used u j hu t htt
        rw [hn]; split
        · rename_i htc
          obtain ⟨-, ⟨k, hk, -⟩ | ⟨-, hb⟩⟩ := hcommon j (h.lt u j hu) t htt htc
          · rw [hkey] at hk; cases hk
          · exact absurd (hmine u j hu hb) hu'
        · exact this
    · intro k j hk t htt
      rw [ht] at htt
      rw [hbatch] at hk
      have := h.bused k j hk t htt
      rw [hn]; split
      · rename_i htc
        obtain ⟨κ, k1, -, -⟩ := h.owner j (h.blt k j hk)
        obtain ⟨hcb, ⟨k', hk', -⟩ | ⟨-, -⟩⟩ := hcommon j (h.blt k j hk) t htt htc
        · rw [hkey] at hk'; cases hk'
        · obtain ⟨κ', q1, q2, -⟩ := h.owner j (h.blt k j hk)
          have e := (q1 k).1 hk
          obtain ⟨c', c1, c2, c3⟩ := q2 _ hcb
          have := (hB.1 c' (by simp [c1]) c (by simp) t (c2 ▸ htc) htc).2
          rw [c3, e, hkey] at this; cases this
      · exact this
  | @batch k i hk hi =>
    have hilt := h.blt k i hi
    have hex : ∀ j, (S'.exec j).blocks = if j = i then (S.exec i).blocks ++ [c.tlist] else (S.exec j).blocks := by
      intro j; rw [hS]; simp only; split
      · simp [Exec.blocks]
      · rfl
    have ht : ∀ j t, t ∈ (S'.exec j).targets ↔ t ∈ (S.exec j).targets ∨ (j = i ∧ t ∈ c.tlist) := by
      intro j t; rw [Exec.mem_targets, Exec.mem_targets, hex]
      split
      · rename_i e; subst e
        simp only [List.mem_append, List.mem_singleton, true_and]
        constructor
        · rintro ⟨b, hb | rfl, hh⟩
          · exact Or.inl ⟨b, hb, hh⟩
          · exact Or.inr hh
        · rintro (⟨b, hb, hh⟩ | hh)
          · exact ⟨b, Or.inl hb, hh⟩
          · exact ⟨_, Or.inr rfl, hh⟩
      · rename_i e; simp [e]
    have hn : ∀ x, (S'.node x).exec = if x ∈ c.tlist then some i else (S.node x).exec := by
      intro x; rw [hS]; simp only; split <;> rfl
    have hnext : S'.next = S.next := by rw [hS]
    have hbatch : S'.batch = S.batch := by rw [hS]
    refine ⟨?_, ?_, ?_, ?_, ?_, ?_, ?_⟩
    · intro j hj
      rw [hnext] at hj
      have : S.exec j = [] := h.fresh j hj
      rw [hS]; simp only; rw [if_neg (by omega)]; exact this
    · intro u j hu
      rw [hn] at hu; rw [hnext]
      split at hu
      · cases hu; exact hilt
      · exact h.lt u j hu
    · intro k j hk; rw [hbatch] at hk; rw [hnext]; exact h.blt k j hk
    · intro u j hu
      rw [hn] at hu; rw [hex]
      split at hu
      · rename_i hu'; cases hu; exact ⟨c, by simp, hu', by simp⟩
      · obtain ⟨c', c1, c2, c3⟩ := m1 u j hu
        refine ⟨c', c1, c2, ?_⟩
        split
        · rename_i e; subst e; simp [c3]
        · exact c3
    · intro j hj; rw [hnext] at hj; rw [hbatch, hex]
      obtain ⟨κ, k1, k2, k3⟩ := m2 j hj
      split
      · rename_i e; subst e
        have hκ := (k1 k).1 hi
        refine ⟨κ, k1, ?_, fun e => by rw [hκ] at e; cases e⟩
        intro b hb
        simp only [List.mem_append, List.mem_singleton] at hb
        rcases hb with hb | rfl
        · exact k2 b hb
        · exact ⟨c, by simp, rfl, hk.trans hκ.symm⟩
      · exact ⟨κ, k1, k2, k3⟩
    · intro u j hu t htt
      rw [ht] at htt
      rw [hn] at hu
      rw [hn]
      split at hu
      · cases hu
        rcases htt with htt | ⟨-, htt⟩
        · have := h.bused k i hi t htt
          split
          · rfl
          · exact this
        · rw [if_pos htt]
      · rename_i hu'
        split
        · rename_i htc
          rcases htt with htt | ⟨e, -⟩
          · obtain ⟨-, ⟨k', hk', hj'⟩ | ⟨hk', -⟩⟩ := hcommon j (h.lt u j hu) t htt htc
            · rw [hk] at hk'; cases hk'
              rw [hi] at hj'; exact hj'
            · rw [hk] at hk'; cases hk'
          · rw [e]
        · rename_i htc
          rcases htt with htt | ⟨-, h'⟩
          · exact h.used u j hu t htt
          · exact absurd h' htc
    · intro k' j hk' t htt
      rw [ht] at htt
      rw [hbatch] at hk'
      rw [hn]
      split
      · rename_i htc
        rcases htt with htt | ⟨e, -⟩
        · obtain ⟨-, ⟨k2, hk2, hj2⟩ | ⟨hk2, -⟩⟩ := hcommon j (h.blt k' j hk') t htt htc
          · rw [hk] at hk2; cases hk2
            rw [hi] at hj2; exact hj2
          · rw [hk] at hk2; cases hk2
        · rw [e]
      · rename_i htc
        rcases htt with htt | ⟨-, h'⟩
        · exact h.bused k' j hk' t htt
        · exact absurd h' htc
  | fresh hk hm =>
    have hex : ∀ j, (S'.exec j).blocks = if j = S.next then [c.tlist] else (S.exec j).blocks := by
      intro j; rw [hS]; simp only; split
      · simp [Exec.blocks]
      · rfl
    have ht : ∀ j t, t ∈ (S'.exec j).targets ↔ if j = S.next then t ∈ c.tlist else t ∈ (S.exec j).targets := by
      intro j t; rw [Exec.mem_targets, hex]
      split
      · simp
      · rw [Exec.mem_targets]
    have hn : ∀ x, (S'.node x).exec = if x ∈ c.tlist then some S.next else (S.node x).exec := by
      intro x; rw [hS]; simp only; split <;> rfl
    have hnext : S'.next = S.next + 1 := by rw [hS]
    have hbatch : ∀ k, S'.batch k = if c.key = some k then some S.next else S.batch k := by intro k; rw [hS]
    refine ⟨?_, ?_, ?_, ?_, ?_, ?_, ?_⟩
    · intro j hj
      rw [hnext] at hj
      have : S.exec j = [] := h.fresh j (by omega)
      rw [hS]; simp only; rw [if_neg (by omega)]; exact this
    · intro u j hu
      rw [hn] at hu; rw [hnext]
      split at hu
      · cases hu; omega
      · have := h.lt u j hu; omega
    · intro k j hk'; rw [hbatch] at hk'; rw [hnext]
      split at hk'
      · cases hk'; omega
      · have := h.blt k j hk'; omega
    · intro u j hu
      rw [hn] at hu; rw [hex]
      split at hu
      · rename_i hu'; cases hu; exact ⟨c, by simp, hu', by simp⟩
      · have := h.lt u j hu
        obtain ⟨c', c1, c2, c3⟩ := m1 u j hu
        refine ⟨c', c1, c2, ?_⟩
        rw [if_neg (by omega)]; exact c3
    · intro j hj; rw [hnext] at hj; rw [hex]
      split
      · rename_i e; subst e
        refine ⟨c.key, ?_, ?_, ?_⟩
        · intro k
          rw [hbatch]
          split
          · rename_i e; simp [e]
          · rename_i e
            constructor
            · intro hb; have := h.blt k _ hb; omega
            · intro e'; exact absurd e' e
        · intro b hb
          simp only [List.mem_singleton] at hb
          exact ⟨c, by simp, hb.symm, rfl⟩
        · intro _; exact ⟨_, rfl⟩
      · rename_i e
        obtain ⟨κ, k1, k2, k3⟩ := m2 j (by omega)
        refine ⟨κ, ?_, k2, k3⟩
        intro k
        rw [hbatch]
        split
        · rename_i e'
          have hno := hk k e'
          constructor
          · intro hb; simp only [Option.some.injEq] at hb; omega
          · intro hb; have := (k1 k).2 hb; rw [hno] at this; cases this
        · exact k1 k
    · intro u j hu t htt
      rw [ht] at htt
      rw [hn] at hu
      rw [hn]
      split at hu
      · cases hu
        rw [if_pos rfl] at htt
        rw [if_pos htt]
      · rename_i hu'
        have hjlt := h.lt u j hu
        rw [if_neg (by omega)] at htt
        split
        · rename_i htc
          obtain ⟨-, ⟨k', hk', hj'⟩ | ⟨-, hb⟩⟩ := hcommon j hjlt t htt htc
          · rw [hk k' hk'] at hj'; cases hj'
          · exact absurd (hmine u j hu hb) hu'
        · exact h.used u j hu t htt
    · intro k j hk' t htt
      rw [ht] at htt
      rw [hbatch] at hk'
      rw [hn]
      split at hk'
      · cases hk'
        rw [if_pos rfl] at htt
        rw [if_pos htt]
      · rename_i hne
        have hjlt := h.blt k j hk'
        rw [if_neg (by omega)] at htt
        split
        · rename_i htc
          obtain ⟨hcb, ⟨k2, hk2, hj2⟩ | ⟨hk2, -⟩⟩ := hcommon j hjlt t htt htc
          · rw [hk k2 hk2] at hj2; cases hj2
          · obtain ⟨κ', q1, q2, -⟩ := h.owner j hjlt
            have e := (q1 k).1 hk'
            obtain ⟨c', c1, c2, c3⟩ := q2 _ hcb
            have := (hB.1 c' (by simp [c1]) c (by simp) t (c2 ▸ htc) htc).2
            rw [c3, e, hk2] at this; cases this
        · exact h.bused k j hk' t htt

theorem ExInv.read {O : Objs V E L C} {p : List (Stmt V E L K)} {S : St V E L K} (h : Read O p S) (hB : Blocks O (calls p)) : ExInv S (calls p) := by
  revert hB
  refine Read.induct (P := fun p S => Blocks O (calls p) → ExInv S (calls p)) ?_ ?_ ?_ p S h
  · intro _
    refine ⟨fun _ _ => rfl, ?_, ?_, ?_, ?_, ?_, ?_⟩
    · intro u j h; cases h
    · intro u j h; cases h
    · intro u j h; cases h
    · intro j h; exact absurd h (Nat.not_lt_zero j)
    · intro u j h; cases h
    · intro u j h; cases h
  · intro p S c S' _ ih hc hB
    rw [calls_call] at hB ⊢
    exact (ih hB.left).call hB hc
  · intro p S s ts S' _ ih hs hB
    rw [calls_side] at hB ⊢
    obtain ⟨-, e1, e2, e3, hn⟩ := side_node hs
    have ih := ih hB
    have hx : ∀ x, (S'.node x).exec = (S.node x).exec := by
      intro x; rw [hn]; split
      · rename_i e; rw [e]
      · rfl
    exact ⟨by rw [e1, e2]; exact ih.fresh, by intro u j; rw [hx, e2]; exact ih.lt u j, by rw [e2, e3]; exact ih.blt,
      by intro u j; rw [hx, e1]; exact ih.mine u j, by rw [e1, e2, e3]; exact ih.owner,
      by intro u j hu t; rw [hx] at hu ⊢; rw [e1]; exact ih.used u j hu t, by intro k j hk t; rw [hx]; rw [e3] at hk; rw [e1]; exact ih.bused k j hk t⟩

/-- The executor of a target named only in calls without a batch key. -/
theorem ExInv.single {O : Objs V E L C} {S : St V E L K} {cs : List (Call V E L K)} (h : ExInv S cs) (hB : Blocks O cs) {t : V} {i : Nat} (hi : (S.node t).exec = some i)
    {c : Call V E L K} (hc : c ∈ cs) (ht : t ∈ c.tlist) (hk : c.key = none) : (S.exec i).blocks = [c.tlist] ∧ ∀ k, S.batch k ≠ some i := by
  obtain ⟨d, d1, d2, d3⟩ := h.mine t i hi
  obtain ⟨κ, k1, k2, k3⟩ := h.owner i (h.lt t i hi)
  obtain ⟨e, e1, e2, e3⟩ := k2 _ d3
  have hde := hB.1 d d1 c hc t d2 ht
  have hec := hB.1 e e1 c hc t (by rw [e2]; exact d2) ht
  have hκ : κ = none := by rw [← e3, hec.2, hk]
  obtain ⟨b, hb⟩ := k3 hκ
  rw [hb, List.mem_singleton] at d3
  rw [hb, ← d3, hde.1]
  refine ⟨rfl, fun k hbk => ?_⟩
  have := (k1 k).1 hbk
  rw [hκ] at this; cases this

/-- **C60, accumulating builders: overlapping target lists are rejected.**  If all calls are of explicit builders that accumulate sources, no assumption about overlaps is
needed: two accepted calls with a common target have the same target list. -/
theorem C60_accumulating_blocks {O : Objs V E L C} {p : List (Stmt V E L K)} {S : St V E L K} (h : Read O p S)
    (hall : ∀ c ∈ calls p, O.multi c.bld = true ∧ O.explicit c.bld = true ∧ c.key = none) : Blocks O (calls p) := by
  revert hall
  refine Read.induct (P := fun p _ => (∀ c ∈ calls p, O.multi c.bld = true ∧ O.explicit c.bld = true ∧ c.key = none) → Blocks O (calls p)) ?_ ?_ ?_ p S h
  · intro _; exact ⟨by simp, by simp⟩
  · intro p S c S' hr ih hcall hall
    rw [calls_call] at hall ⊢
    have hB := ih (fun c hc => hall c (by simp [hc]))
    have hI := ExInv.read hr hB
    have key : ∀ a ∈ calls p, ∀ t ∈ a.tlist, t ∈ c.tlist → a.tlist = c.tlist := by
      intro a ha t hta htc
      rcases exists_last (calls p) t with ⟨d, hd⟩ | hno
      · obtain ⟨b1, b2, b3, b4⟩ := (attrs t p S hr).2.2.2 d hd
        rw [(hall d (by simp [hd.mem.1])).2.1] at b3
        have hb := (call_some hcall).1 t htc
        have hm := (hall c (by simp)).1
        simp only [bad, b1, b2, b3, hm, if_true, Bool.or_eq_false_iff, Bool.true_and, Option.any_some, Bool.not_eq_false', decide_eq_false_iff_not, ne_eq, not_not] at hb
        obtain ⟨i, hi⟩ := Option.ne_none_iff_exists'.1 b4
        obtain ⟨hs, -⟩ := hI.single hB hi ha hta (hall a (by simp [ha])).2.2
        have ht := hb.2.2.2
        rw [← ht]
        simp only [St.execOf, hi]
        unfold Exec.targets
        rw [List.flatMap_def]
        rw [show List.map (·.1) (S.exec i) = (S.exec i).blocks from rfl, hs]
        simp
      · exact absurd hta (hno a ha)
    refine ⟨?_, fun a ha _ => (hall a ha).2.2⟩
    intro a ha b hb t hta htb
    refine ⟨?_, by rw [(hall a ha).2.2, (hall b hb).2.2]⟩
    rcases List.mem_append.1 ha with ha' | ha'
    · rcases List.mem_append.1 hb with hb' | hb'
      · exact (hB.1 a ha' b hb' t hta htb).1
      · rw [List.mem_singleton] at hb'; rw [hb'] at htb ⊢; exact key a ha' t hta htb
    · rw [List.mem_singleton] at ha'; rw [ha'] at hta ⊢
      rcases List.mem_append.1 hb with hb' | hb'
      · exact (key b hb' t htb hta).symm
      · rw [List.mem_singleton] at hb'; rw [hb']
  · intro p S s ts S' _ ih _ hall
    rw [calls_side] at hall ⊢
    exact ih hall

/-- **C60, accumulating builders accumulate** (`Tar`, `Zip`, `Alias`, …): the sources the action gets are those of all the calls. -/
theorem C60_sources_accumulate_partial {O : Objs V E L C} {p : List (Stmt V E L K)} {S : St V E L K} (h : Read O p S) (hB : Blocks O (calls p)) {t : V}
    (hm : ∀ c ∈ calls p, t ∈ c.tlist → O.multi c.bld = true) (s : V) :
    s ∈ (S.execOf t).sources ↔ ∃ c ∈ calls p, t ∈ c.tlist ∧ s ∈ c.slist := by
  revert hB hm
  refine Read.induct (P := fun p S => Blocks O (calls p) → (∀ c ∈ calls p, t ∈ c.tlist → O.multi c.bld = true) →
    (s ∈ (S.execOf t).sources ↔ ∃ c ∈ calls p, t ∈ c.tlist ∧ s ∈ c.slist)) ?_ ?_ ?_ p S h
  · intro _ _; simp [St.execOf, Exec.sources]
  · intro p S c S' hr ih hcall hB hm
    rw [calls_call] at hB hm ⊢
    have hB0 := hB.left
    have ih := ih hB0 (fun c hc => hm c (by simp [hc]))
    have hI := ExInv.read hr hB0
    have hS := (call_some hcall).2.2
    have hF := findExec_found O S c
    generalize findExec O S c = r at hS hF
    obtain ⟨S1, i⟩ := r
    dsimp only at hF hS
    have hsplit : (∃ c' ∈ calls p ++ [c], t ∈ c'.tlist ∧ s ∈ c'.slist) ↔ (∃ c' ∈ calls p, t ∈ c'.tlist ∧ s ∈ c'.slist) ∨ (t ∈ c.tlist ∧ s ∈ c.slist) := by
      simp [or_and_right, exists_or]
    rw [hsplit]
    by_cases htc : t ∈ c.tlist
    · have hmc := hm c (by simp) htc
      have hkey := hB.2 c (by simp) hmc
      have hex' : (S'.node t).exec = some i := by rw [hS]; simp [htc, setNode]
      have hhead : ∃ hd, c.tlist.head? = some hd ∧ hd ∈ c.tlist := by
        cases hl : c.tlist with
        | nil => rw [hl] at htc; cases htc
        | cons a l => exact ⟨a, rfl, by simp⟩
      obtain ⟨hd, hh1, hh2⟩ := hhead
      rcases exists_last (calls p) t with ⟨d, hd'⟩ | hno
      · have hdt := (hB.1 d (by simp [hd'.mem.1]) c (by simp) t hd'.mem.2 htc).1
        obtain ⟨j, hj⟩ := Option.ne_none_iff_exists'.1 ((attrs t p S hr).2.2.2 d hd').2.2.2
        have hdk : d.key = none := hB.2 d (by simp [hd'.mem.1]) (hm d (by simp [hd'.mem.1]) hd'.mem.2)
        obtain ⟨hs, -⟩ := hI.single hB0 hj hd'.mem.1 hd'.mem.2 hdk
        have hhd : (S.node hd).exec = some j := hI.used t j hj hd (Exec.mem_targets.2 ⟨d.tlist, by rw [hs]; simp, by rw [hdt]; exact hh2⟩)
        cases hF with
        | @reuse hd2 i hm2 hh hi =>
          rw [hh1] at hh; cases hh
          rw [hhd] at hi; cases hi
          have hx : (S'.execOf t) = (S.exec i).addSources c.slist := by simp only [St.execOf, hex']; rw [hS]; simp
          have hx0 : S.execOf t = S.exec i := by simp [St.execOf, hj]
          rw [hx, ← ih, hx0]
          generalize hxe : S.exec i = x at hs
          match x, hs with
          | [b], hs =>
            simp only [Exec.addSources, Exec.sources, List.flatMap_cons, List.flatMap_nil, List.append_nil, List.mem_append, List.mem_filter, decide_eq_true_eq, htc, true_and]
            constructor
            · rintro (h | h)
              · exact Or.inl h
              · exact Or.inr h.1
            · rintro (h | h)
              · exact Or.inl h
              · by_cases hb : s ∈ b.2
                · exact Or.inl hb
                · exact Or.inr ⟨h, hb⟩
          | [], hs => simp [Exec.blocks] at hs
          | _ :: _ :: _, hs => simp [Exec.blocks] at hs
        | batch hk => rw [hkey] at hk; cases hk
        | fresh hk hf => rw [hf hmc hd hh1] at hhd; cases hhd
      · have hhd : (S.node hd).exec = none := by
          rcases exists_last (calls p) hd with ⟨d, hd'⟩ | hno'
          · have := (hB.1 d (by simp [hd'.mem.1]) c (by simp) hd hd'.mem.2 hh2).1
            exact absurd (this ▸ htc) (hno d hd'.mem.1)
          · exact ((attrs hd p S hr).2.2.1 hno').1.2.2.1
        have hnone : ¬ ∃ c' ∈ calls p, t ∈ c'.tlist ∧ s ∈ c'.slist := by rintro ⟨c', h1, h2, -⟩; exact hno c' h1 h2
        cases hF with
        | @reuse hd2 i hm2 hh hi =>
          rw [hh1] at hh; cases hh
          rw [hhd] at hi; cases hi
        | batch hk => rw [hkey] at hk; cases hk
        | fresh hk hf =>
          have hx : S'.execOf t = [(c.tlist, c.slist)] := by simp only [St.execOf, hex']; rw [hS]; simp
          rw [hx]
          simp [Exec.sources, hnone, htc]
    · have hex' : (S'.node t).exec = (S.node t).exec := by rw [hS]; simp only [if_neg htc]
      have hsame : S'.execOf t = S.execOf t := by
        unfold St.execOf
        rw [hex']
        cases ht : (S.node t).exec with
        | none => rfl
        | some j =>
          simp only
          have hjlt := hI.lt t j ht
          obtain ⟨d, d1, d2, d3⟩ := hI.mine t j ht
          have hdk : d.key = none := hB.2 d (by simp [d1]) (hm d (by simp [d1]) d2)
          obtain ⟨hs, hnb⟩ := hI.single hB0 ht d1 d2 hdk
          cases hF with
          | @reuse hd2 i hm2 hh hi =>
            rw [hS]; simp only
            rw [if_neg]
            rintro rfl
            have hh2 : hd2 ∈ c.tlist := by
              cases hl : c.tlist with
              | nil => rw [hl] at hh; cases hh
              | cons a l => rw [hl] at hh; simp only [List.head?_cons, Option.some.injEq] at hh; simp [hh]
            obtain ⟨e, e1, e2, e3⟩ := hI.mine hd2 j hi
            have h1 := (hB.1 e (by simp [e1]) c (by simp) hd2 e2 hh2).1
            rw [hs, List.mem_singleton] at e3
            exact htc (by rw [← h1, e3]; exact d2)
          | @batch k i hk hi =>
            rw [hS]; simp only
            rw [if_neg]
            rintro rfl
            exact hnb k hi
          | fresh hk hf =>
            rw [hS]; simp only
            rw [if_neg (by omega)]
      rw [hsame, ih]
      simp [htc]
  · intro p S s' ts S' _ ih hs hB hm
    rw [calls_side] at hB hm ⊢
    obtain ⟨-, e1, e2, e3, hn⟩ := side_node hs
    have hx : (S'.node t).exec = (S.node t).exec := by
      rw [hn]; split
      · rename_i e; rw [e]
      · rfl
    have : S'.execOf t = S.execOf t := by unfold St.execOf; rw [hx, e1]
    rw [this]; exact ih hB hm

/-- **C60, one action writes a file.**  Partial: target lists do not overlap (nor change their batch): the code checks this only for builders that accumulate sources
(`C60_counterexample_overlapping_targets`).  Then two executors in use never have a target in common. -/
theorem C60_one_executor_per_file_partial {O : Objs V E L C} {p : List (Stmt V E L K)} {S : St V E L K} (h : Read O p S) (hB : Blocks O (calls p)) {u u' t : V}
    {i j : Nat} (hu : (S.node u).exec = some i) (hu' : (S.node u').exec = some j) (ht : t ∈ (S.exec i).targets) (ht' : t ∈ (S.exec j).targets) : i = j := by
  have hI := ExInv.read h hB
  have h1 := hI.used u i hu t ht
  have h2 := hI.used u' j hu' t ht'
  rw [h1] at h2; cases h2; rfl

/-- What the Taskmaster gets: the targets of a node's executor; for a node that has none, the `Null` executor's (`Executor.py:582-656`). -/
def St.group (S : St V E L K) (t : V) : List V := match (S.node t).exec with | some i => (S.exec i).targets | none => [t]

/-- **C60, the groups of targets the Taskmaster works with are well formed** — the assumption about executors that the theorems about the Taskmaster (C01 …) make.
Partial as above. -/
theorem C60_groups_partial {O : Objs V E L C} {p : List (Stmt V E L K)} {S : St V E L K} (h : Read O p S) (hB : Blocks O (calls p)) (n : V) :
    n ∈ S.group n ∧ ∀ m ∈ S.group n, S.group m = S.group n := by
  have hI := ExInv.read h hB
  unfold St.group
  cases hn : (S.node n).exec with
  | none =>
    refine ⟨by simp, fun m hm => ?_⟩
    simp only [List.mem_singleton] at hm
    subst hm
    simp [hn]
  | some i =>
    refine ⟨?_, fun m hm => ?_⟩
    · obtain ⟨c, -, h1, h2⟩ := hI.mine n i hn
      exact Exec.mem_targets.2 ⟨_, h2, h1⟩
    · simp only at hm
      simp [hI.used n i hn m hm]

/-- **C60, all calls are carried out**: the executor of a target has the targets of every call that named it (same provisos). -/
theorem C60_targets_stay_together_partial {O : Objs V E L C} {p : List (Stmt V E L K)} {S : St V E L K} (h : Read O p S) (hB : Blocks O (calls p))
    {c : Call V E L K} (hc : c ∈ calls p) {t : V} (ht : t ∈ c.tlist) : ∀ m ∈ c.tlist, S.group m = S.group t ∧ m ∈ S.group t := by
  intro m hm
  have hI := ExInv.read h hB
  have hex : (S.node t).exec ≠ none := by
    rcases exists_last (calls p) t with ⟨d, hd⟩ | hno
    · exact ((attrs t p S h).2.2.2 d hd).2.2.2
    · exact absurd ht (hno c hc)
  obtain ⟨i, hi⟩ := Option.ne_none_iff_exists'.1 hex
  obtain ⟨c', c1, c2, c3⟩ := hI.mine t i hi
  have e := (hB.1 c' c1 c hc t c2 ht).1
  have hmi : m ∈ (S.exec i).targets := Exec.mem_targets.2 ⟨_, c3, by rw [e]; exact hm⟩
  have := hI.used t i hi m hmi
  unfold St.group
  simp [hi, this, hmi]

/-! ## Counterexamples -/

/-- Environments: 0 a construction environment, 1 a different one.  Builders: 0, 1 two `Command`s with different actions, 2 one with the action of 0, 3 accumulating,
4 with batches.  The contents of an action: the number of the command and of the environment variable it uses. -/
def exO : Objs Nat Nat Nat (Nat × Nat) where
  contents := fun b _ _ e => (if b = 2 then 0 else b, e)
  multi := fun b => b == 3
  single := fun _ => false
  explicit := fun _ => true
  eqv := fun a b => a == b
  similar := fun _ _ => false

/-- **Finding.**  `env.Command('t', 's', 'cmd0'); env.Command('t', 's', 'cmd1')` raises no error: the first action is dropped silently. -/
theorem C60_counterexample_same_environment : ∃ S : St Nat Nat Nat Nat,
    Read exO [.call ⟨0, 0, [1], [2], none⟩, .call ⟨1, 0, [1], [2], none⟩] S ∧ (S.node 1).builder = some 1 ∧
    exO.contents 0 [1] [2] 0 ≠ exO.contents 1 [1] [2] 0 := ⟨_, rfl, rfl, by decide⟩

/-- … while from another environment this is an error. -/
theorem C60_different_environment_is_an_error :
    St.run exO ({} : St Nat Nat Nat Nat) [.call ⟨0, 0, [1], [2], none⟩, .call ⟨1, 1, [1], [2], none⟩] = none := rfl

/-- **Finding.**  `env.Command(['a', 'b'], 's', c0); env.Command('a', 's', c1)` raises no error and leaves two actions in use that both write `a`: the executor of `b`
still has both targets. -/
theorem C60_counterexample_overlapping_targets : ∃ S : St Nat Nat Nat Nat,
    Read exO [.call ⟨0, 0, [1, 2], [9], none⟩, .call ⟨1, 0, [1], [9], none⟩] S ∧
    (S.node 1).exec = some 1 ∧ (S.node 2).exec = some 0 ∧ 1 ∈ (S.exec 0).targets ∧ 1 ∈ (S.exec 1).targets ∧ S.group 2 = [1, 2] ∧ S.group 1 = [1] :=
  ⟨_, rfl, rfl, rfl, by decide, by decide, rfl, rfl⟩

/-- **Finding.**  The same call twice is an error if its source list has a repetition: the node's list has none. -/
theorem C60_counterexample_repeated_source : (St.run exO ({} : St Nat Nat Nat Nat) [.call ⟨0, 0, [1], [2, 2], none⟩]).isSome = true ∧
    St.run exO ({} : St Nat Nat Nat Nat) [.call ⟨0, 0, [1], [2, 2], none⟩, .call ⟨0, 0, [1], [2, 2], none⟩] = none := ⟨rfl, rfl⟩

/-- **Finding.**  With a batch builder, the same call twice (one object file in two programs) enters its targets and sources twice in the batch. -/
theorem C60_counterexample_batch_twice : ∃ S : St Nat Nat Nat Nat,
    Read exO [.call ⟨4, 0, [1], [2], some 7⟩, .call ⟨4, 0, [3], [4], some 7⟩, .call ⟨4, 0, [1], [2], some 7⟩] S ∧ S.group 1 = [1, 3, 1] ∧
    (S.execOf 1).sources = [2, 4, 2] := ⟨_, rfl, rfl, rfl⟩

/-! ## The hypotheses are satisfiable -/

/-- A program with two targets of one command, a batch of two, an archive in two calls, a side effect, and one call repeated. -/
def exP : List (Stmt Nat Nat Nat Nat) :=
  [.call ⟨0, 0, [1, 2], [9], none⟩, .call ⟨4, 0, [3], [8], some 7⟩, .side 20 [1], .call ⟨3, 0, [5], [1], none⟩, .call ⟨4, 0, [4], [7], some 7⟩,
    .call ⟨3, 0, [5], [2, 1], none⟩, .call ⟨2, 0, [1, 2], [9], none⟩]

theorem exP_blocks : Blocks exO (calls exP) := by
  constructor <;> decide

theorem exP_reads : ∃ S, Read exO exP S := ⟨_, rfl⟩

example : ∃ S, Read exO exP S ∧ S.group 1 = [1, 2] ∧ S.group 3 = [3, 4] ∧ S.group 4 = [3, 4] ∧ (S.execOf 5).sources = [1, 2] ∧ (S.node 1).builder = some 2 :=
  ⟨_, rfl, rfl, rfl, rfl, rfl, rfl⟩

/-- Two environments with the same action (the action does not use what differs). -/
example : ∃ S : St Nat Nat Nat Nat, Read { exO with contents := fun b _ _ _ => (b, 0) } [.call ⟨0, 0, [1], [2], none⟩, .call ⟨0, 1, [1], [2], none⟩] S := ⟨_, rfl⟩

end Verif.Bld
