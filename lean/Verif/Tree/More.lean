import Verif.Tree.Props

/-!
# C112: proofs, second part
-/

namespace Verif.Tree
variable {ν : Type} (kids : ν → List ν) (str : ν → Str)

/-! ## What is in the tree -/

mutual
theorem root_mem : ∀ (t : T ν), ∃ s bs, (t.root, s, bs) ∈ t.all
  | .node n s ts => ⟨s, ts.map T.root, by simp [T.all, T.root]⟩
theorem below_mem : ∀ (t : T ν) (n : ν) (s : Bool) (bs : List ν), (n, s, bs) ∈ t.all → ∀ b ∈ bs, ∃ s' bs', (b, s', bs') ∈ t.all
  | .node k s0 ts, n, s, bs, h, b, hb => by
    rw [T.all, List.mem_cons] at h
    rcases h with h | h
    · simp only [Prod.mk.injEq] at h
      obtain ⟨-, -, rfl⟩ := h
      obtain ⟨s', bs', hm⟩ := root_mems ts b hb
      exact ⟨s', bs', by rw [T.all]; exact List.mem_cons_of_mem _ hm⟩
    · obtain ⟨s', bs', hm⟩ := below_mems ts n s bs h b hb
      exact ⟨s', bs', by rw [T.all]; exact List.mem_cons_of_mem _ hm⟩
theorem root_mems : ∀ (ts : List (T ν)) (b : ν), b ∈ ts.map T.root → ∃ s bs, (b, s, bs) ∈ T.alls ts
  | [], b, h => by simp at h
  | t :: ts, b, h => by
    rw [List.map_cons, List.mem_cons] at h
    rcases h with rfl | h
    · obtain ⟨s, bs, hm⟩ := root_mem t
      exact ⟨s, bs, by rw [T.alls]; exact List.mem_append_left _ hm⟩
    · obtain ⟨s, bs, hm⟩ := root_mems ts b h
      exact ⟨s, bs, by rw [T.alls]; exact List.mem_append_right _ hm⟩
theorem below_mems : ∀ (ts : List (T ν)) (n : ν) (s : Bool) (bs : List ν), (n, s, bs) ∈ T.alls ts → ∀ b ∈ bs, ∃ s' bs', (b, s', bs') ∈ T.alls ts
  | [], n, s, bs, h, b, hb => by simp [T.alls] at h
  | t :: ts, n, s, bs, h, b, hb => by
    rw [T.alls, List.mem_append] at h
    rcases h with h | h
    · obtain ⟨s', bs', hm⟩ := below_mem t n s bs h b hb
      exact ⟨s', bs', by rw [T.alls]; exact List.mem_append_left _ hm⟩
    · obtain ⟨s', bs', hm⟩ := below_mems ts n s bs h b hb
      exact ⟨s', bs', by rw [T.alls]; exact List.mem_append_right _ hm⟩
end

theorem Reach.trans {kids : ν → List ν} {a b c : ν} (h : Reach kids a b) (h' : Reach kids b c) : Reach kids a c := by
  induction h with
  | refl => exact h'
  | step hb _ ih => exact .step hb (ih h')

mutual
/-- In a true tree everything is reached from the root. -/
theorem reach_all : ∀ (t : T ν), (∀ n s bs, (n, s, bs) ∈ t.all → if s then bs = [] else bs = kids n) → ∀ n s bs, (n, s, bs) ∈ t.all → Reach kids t.root n
  | .node k s0 ts, ht, n, s, bs, h => by
    rw [T.all, List.mem_cons] at h
    rcases h with h | h
    · simp only [Prod.mk.injEq] at h
      obtain ⟨rfl, -, -⟩ := h
      exact .refl _
    · obtain ⟨r, hr, hR⟩ := reach_alls ts (fun n s bs hm => ht n s bs (by rw [T.all]; exact List.mem_cons_of_mem _ hm)) n s bs h
      have h0 := ht k s0 (ts.map T.root) (by simp [T.all])
      cases s0 with
      | true =>
        simp only [↓reduceIte] at h0
        rw [h0] at hr; simp at hr
      | false =>
        simp only [Bool.false_eq_true, ↓reduceIte] at h0
        exact .step (h0 ▸ hr) hR
theorem reach_alls : ∀ (ts : List (T ν)), (∀ n s bs, (n, s, bs) ∈ T.alls ts → if s then bs = [] else bs = kids n) → ∀ n s bs, (n, s, bs) ∈ T.alls ts → ∃ r ∈ ts.map T.root, Reach kids r n
  | [], ht, n, s, bs, h => by simp [T.alls] at h
  | t :: ts, ht, n, s, bs, h => by
    rw [T.alls, List.mem_append] at h
    rcases h with h | h
    · exact ⟨t.root, by simp, reach_all t (fun n s bs hm => ht n s bs (by rw [T.alls]; exact List.mem_append_left _ hm)) n s bs h⟩
    · obtain ⟨r, hr, hR⟩ := reach_alls ts (fun n s bs hm => ht n s bs (by rw [T.alls]; exact List.mem_append_right _ hm)) n s bs h
      exact ⟨r, by simp only [List.map_cons, List.mem_cons]; exact .inr hr, hR⟩
end

/-- A true tree in which every name in brackets stands without brackets elsewhere shows everything that is reached. -/
theorem complete {t : T ν} (ht : True' kids t) (hs : ∀ m bs, (m, true, bs) ∈ t.all → ∃ m' bs', (m', false, bs') ∈ t.all ∧ str m' = str m)
    (hr : ∃ bs, (t.root, false, bs) ∈ t.all) (hi : ∀ a b, Reach kids t.root a → Reach kids t.root b → str a = str b → a = b) (x : ν) (hx : Reach kids t.root x) :
    (x, false, kids x) ∈ t.all := by
  have key : ∀ a b, Reach kids a b → (∃ bs, (a, false, bs) ∈ t.all) → ∃ bs, (b, false, bs) ∈ t.all := by
    intro a b hab
    induction hab with
    | refl => exact id
    | @step a b c hb _ ih =>
      rintro ⟨bs, hm⟩
      have h1 := ht _ _ _ hm
      simp only [Bool.false_eq_true, ↓reduceIte] at h1
      subst h1
      obtain ⟨s', bs', hm'⟩ := below_mem t _ _ _ hm b hb
      cases s' with
      | false => exact ih ⟨bs', hm'⟩
      | true =>
        obtain ⟨m', bs'', h2, h3⟩ := hs _ _ hm'
        have e : m' = b := hi _ _ (reach_all kids t ht _ _ _ h2) (reach_all kids t ht _ _ _ hm') h3
        subst e
        exact ih ⟨bs'', h2⟩
  obtain ⟨bs, hm⟩ := key _ _ hx hr
  have h1 := ht _ _ _ hm
  simp only [Bool.false_eq_true, ↓reduceIte] at h1
  subst h1
  exact hm

/-! ## Brackets -/

/-- The nodes with children that are shown with them. -/
def opened (kids : ν → List ν) (l : List (ν × Bool × List ν)) : List ν := (l.filter fun p => !p.2.1 && !(kids p.1).isEmpty).map (·.1)

theorem opened_append (a b : List (ν × Bool × List ν)) : opened kids (a ++ b) = opened kids a ++ opened kids b := by simp [opened]

theorem mem_opened {l : List (ν × Bool × List ν)} {n : ν} : n ∈ opened kids l ↔ kids n ≠ [] ∧ ∃ bs, (n, false, bs) ∈ l := by
  simp only [opened, List.mem_map, List.mem_filter, Bool.and_eq_true, Bool.not_eq_true', List.isEmpty_eq_false_iff]
  constructor
  · rintro ⟨⟨m, s, bs⟩, ⟨h1, h2, h3⟩, rfl⟩
    simp only at h2 h3
    subst h2
    exact ⟨h3, bs, h1⟩
  · rintro ⟨h1, bs, h2⟩
    exact ⟨(n, false, bs), ⟨h2, rfl, h1⟩, rfl⟩

/-- What pruning adds. -/
structure Pruned (kids : ν → List ν) (str : ν → Str) (v : List Str) (l : List (ν × Bool × List ν)) : Prop where
  once : ((opened kids l).map str).Nodup
  fresh : ∀ n ∈ opened kids l, str n ∉ v

theorem pruned_loop (g : ν → List Str → Option (T ν × List Str)) (h : ∀ n v t v', g n v = some (t, v') → Call kids str n v t v' ∧ Pruned kids str v t.all) (cs : List ν) (v : List Str)
    (ts : List (T ν)) (v' : List Str) (hg : growLoop g cs v = some (ts, v')) : Pruned kids str v (T.alls ts) := by
  induction cs generalizing v ts v' with
  | nil =>
    simp only [growLoop, Option.some.injEq, Prod.mk.injEq] at hg
    obtain ⟨rfl, rfl⟩ := hg
    exact ⟨by simp [T.alls, opened], by simp [T.alls, opened]⟩
  | cons c cs ih =>
    obtain ⟨t, v1, ts', h1, h2, rfl⟩ := (growLoop_cons g c cs v ts v').1 hg
    obtain ⟨C, P⟩ := h _ _ _ _ h1
    have Q := ih _ _ _ h2
    refine ⟨?_, ?_⟩
    · rw [T.alls, opened_append, List.map_append, List.nodup_append]
      refine ⟨P.once, Q.once, ?_⟩
      intro a ha b hb e
      obtain ⟨n, hn, rfl⟩ := List.mem_map.1 ha
      obtain ⟨m, hm, rfl⟩ := List.mem_map.1 hb
      obtain ⟨-, bs, hn'⟩ := (mem_opened kids).1 hn
      exact Q.fresh m hm (e ▸ (C.seen _).2 (.inr ⟨n, bs, hn', rfl⟩))
    · intro n hn
      rw [T.alls, opened_append, List.mem_append] at hn
      rcases hn with hn | hn
      · exact P.fresh n hn
      · intro hv; exact Q.fresh n hn ((C.seen _).2 (.inl hv))

theorem growPrint_pruned (f : Nat) (n : ν) (v : List Str) (t : T ν) (v' : List Str) (h : growPrint kids str true f n v = some (t, v')) : Pruned kids str v t.all := by
  induction f generalizing n v t v' with
  | zero => simp [growPrint] at h
  | succ f ih =>
    rw [growPrint] at h
    split at h
    · simp only [Option.some.injEq, Prod.mk.injEq] at h
      obtain ⟨rfl, rfl⟩ := h
      exact ⟨by simp [T.all, T.alls, opened], by simp [T.all, T.alls, opened]⟩
    · rename_i hc
      rcases hr : growLoop (growPrint kids str true f) (kids n) (str n :: v) with _ | ⟨ts, v2⟩ <;> rw [hr] at h
      · simp at h
      · simp only [Option.some.injEq, Prod.mk.injEq] at h
        obtain ⟨rfl, rfl⟩ := h
        have Q := pruned_loop kids str _ (fun n v t v' hg => ⟨growPrint_call kids str true f n v t v' hg, ih n v t v' hg⟩) _ _ _ _ hr
        have hn : kids n ≠ [] → str n ∉ v := by
          intro hk hv
          simp [hv, hk] at hc
        rw [T.all]
        by_cases hk : kids n = []
        · have e : opened kids ((n, false, ts.map T.root) :: T.alls ts) = opened kids (T.alls ts) := by simp [opened, hk]
          exact ⟨by rw [e]; exact Q.once, by rw [e]; intro m hm hv; exact Q.fresh m hm (List.mem_cons_of_mem _ hv)⟩
        · have e : opened kids ((n, false, ts.map T.root) :: T.alls ts) = n :: opened kids (T.alls ts) := by simp [opened, hk]
          refine ⟨?_, ?_⟩
          · rw [e, List.map_cons, List.nodup_cons]
            refine ⟨?_, Q.once⟩
            intro hm
            obtain ⟨m, hm, em⟩ := List.mem_map.1 hm
            exact Q.fresh m hm (by rw [em]; exact List.mem_cons_self)
          · rw [e]
            intro m hm
            rcases List.mem_cons.1 hm with rfl | hm
            · exact hn hk
            · intro hv; exact Q.fresh m hm (List.mem_cons_of_mem _ hv)

/-- Brackets are used with pruning only, and only for nodes that have children. -/
theorem growPrint_stops (prune : Bool) (f : Nat) (n : ν) (v : List Str) (t : T ν) (v' : List Str) (h : growPrint kids str prune f n v = some (t, v')) (m : ν) (bs : List ν)
    (hm : (m, true, bs) ∈ t.all) : prune = true ∧ kids m ≠ [] := by
  induction f generalizing n v t v' with
  | zero => simp [growPrint] at h
  | succ f ih =>
    rw [growPrint] at h
    split at h
    · rename_i hc
      simp only [Option.some.injEq, Prod.mk.injEq] at h
      obtain ⟨rfl, rfl⟩ := h
      simp only [T.all, T.alls, List.mem_cons, Prod.mk.injEq, List.not_mem_nil, or_false] at hm
      obtain ⟨rfl, -⟩ := hm
      simp only [Bool.and_eq_true, Bool.not_eq_true', List.isEmpty_eq_false_iff] at hc
      exact ⟨hc.1.1, hc.2⟩
    · rcases hr : growLoop (growPrint kids str prune f) (kids n) (str n :: v) with _ | ⟨ts, v2⟩ <;> rw [hr] at h
      · simp at h
      · simp only [Option.some.injEq, Prod.mk.injEq] at h
        obtain ⟨rfl, rfl⟩ := h
        simp only [T.all, List.mem_cons, Prod.mk.injEq, Bool.true_eq_false, false_and, and_false, false_or] at hm
        clear * - ih hr hm
        generalize kids n = cs at hr
        generalize str n :: v = w at hr
        induction cs generalizing w ts v2 with
        | nil =>
          simp only [growLoop, Option.some.injEq, Prod.mk.injEq] at hr
          obtain ⟨rfl, rfl⟩ := hr
          simp [T.alls] at hm
        | cons c cs ih2 =>
          obtain ⟨t, v1, ts', h1, h2, rfl⟩ := (growLoop_cons _ c cs w ts v2).1 hr
          rw [T.alls, List.mem_append] at hm
          rcases hm with hm | hm
          · exact ih _ _ _ _ h1 hm
          · exact ih2 _ _ hm _ h2

end Verif.Tree
