import Verif.Env.Clone

/-!
# C52: a clone is independent of the original
-/

namespace Verif.Env.Clone

/-- Only new objects were added. -/
structure Grow (h h' : Heap) : Prop where
  next : h.next ≤ h'.next
  obj : ∀ l, l < h.next → h'.obj l = h.obj l

theorem Grow.refl (h : Heap) : Grow h h := ⟨Nat.le_refl _, fun _ _ => rfl⟩
theorem Grow.trans {a b c : Heap} (h1 : Grow a b) (h2 : Grow b c) : Grow a c :=
  ⟨Nat.le_trans h1.next h2.next, fun l hl => (h2.obj l (Nat.lt_of_lt_of_le hl h1.next)).trans (h1.obj l hl)⟩
theorem Grow.alloc (h : Heap) (o : Obj) : Grow h (h.alloc o) :=
  ⟨Nat.le_succ _, fun l hl => by simp only [Heap.alloc]; rw [if_neg (by omega)]⟩

theorem Val.Valid.mono {h h' : Heap} {v : Val} (hv : v.Valid h) (hg : Grow h h') : v.Valid h' := by
  cases v with
  | atom a => trivial
  | ref l => exact Nat.lt_of_lt_of_le hv hg.next

theorem WF.alloc {h : Heap} (hw : WF h) {o : Obj} (ho : ∀ v ∈ o.children, v.Valid h) : WF (h.alloc o) := by
  intro l hl v hv
  simp only [Heap.alloc] at hl hv
  by_cases e : l = h.next
  · rw [if_pos e] at hv; exact (ho v hv).mono (Grow.alloc h o)
  · rw [if_neg e] at hv; exact (hw l (by omega) v hv).mono (Grow.alloc h o)

/-- Reaching does not change when objects are added. -/
theorem Reach.shrink {h h' : Heap} (hg : Grow h h') (hw : WF h) {v : Val} (hv : v.Valid h) {l : Nat} (hr : Reach h' v l) : Reach h v l := by
  induction hr with
  | @here l hc => rw [hg.obj l hv] at hc; exact .here hc
  | @step l v l' hm _ ih =>
    rw [hg.obj l hv] at hm
    exact .step hm (ih (hw l hv v hm))

theorem Reach.lt {h : Heap} (hw : WF h) {v : Val} (hv : v.Valid h) {l : Nat} (hr : Reach h v l) : l < h.next := by
  induction hr with
  | here _ => exact hv
  | @step l v l' hm _ ih => exact ih (hw l hv v hm)

/-- What a copier guarantees. -/
def Good (f : Heap → Val → Option (Heap × Val)) : Prop :=
  ∀ h v h' v', WF h → v.Valid h → f h v = some (h', v') →
    Grow h h' ∧ WF h' ∧ v'.Valid h' ∧ (∀ l, Reach h' v' l → h.next ≤ l) ∧ (∀ d, Equal d h v h' v')

/-- Equality of contents depends only on the objects that were there. -/
theorem Equal.agree {h h' k k' : Heap} (hL : ∀ l, l < h.next → k.obj l = h.obj l) (hR : ∀ l, l < h'.next → k'.obj l = h'.obj l) (hw : WF h) (hw' : WF h') :
    ∀ d {v v' : Val}, v.Valid h → v'.Valid h' → (Equal d h v h' v' ↔ Equal d k v k' v') := by
  intro d
  induction d with
  | zero => intros; simp [Equal]
  | succ d ih =>
    intro v v' hv hv'
    cases v with
    | atom a => cases v' <;> simp [Equal]
    | ref l => cases v' with
      | atom b => simp [Equal]
      | ref l' =>
        simp only [Equal, hL l hv, hR l' hv']
        have hcl := hw l hv
        have hcl' := hw' l' hv'
        cases ho : h.obj l with
        | other c fs => simp
        | seq s xs =>
          cases ho' : h'.obj l' with
          | other c fs => simp
          | map s' kvs => simp
          | seq s' ys =>
            simp only [ho, ho', Obj.children] at hcl hcl' ⊢
            refine and_congr_right fun _ => ?_
            clear ho ho'
            induction xs generalizing ys with
            | nil => cases ys <;> simp
            | cons x xs ihx =>
              cases ys with
              | nil => simp
              | cons y ys =>
                simp only [List.forall₂_cons]
                rw [ih (hcl x List.mem_cons_self) (hcl' y List.mem_cons_self),
                  ihx ys (fun v hv => hcl v (List.mem_cons_of_mem _ hv)) (fun v hv => hcl' v (List.mem_cons_of_mem _ hv))]
        | map s kvs =>
          cases ho' : h'.obj l' with
          | other c fs => simp
          | seq s' ys => simp
          | map s' kws =>
            simp only [ho, ho', Obj.children] at hcl hcl' ⊢
            refine and_congr_right fun _ => ?_
            clear ho ho'
            induction kvs generalizing kws with
            | nil => cases kws <;> simp
            | cons x xs ihx =>
              cases kws with
              | nil => simp
              | cons y ys =>
                simp only [List.map_cons] at hcl hcl'
                simp only [List.forall₂_cons]
                rw [ih (hcl _ List.mem_cons_self) (hcl' _ List.mem_cons_self),
                  ihx ys (fun v hv => hcl v (List.mem_cons_of_mem _ hv)) (fun v hv => hcl' v (List.mem_cons_of_mem _ hv))]

theorem equalList_agree {h h' k k' : Heap} (hL : ∀ l, l < h.next → k.obj l = h.obj l) (hR : ∀ l, l < h'.next → k'.obj l = h'.obj l) (hw : WF h) (hw' : WF h')
    (d : Nat) {xs ys : List Val} (hx : ∀ v ∈ xs, v.Valid h) (hy : ∀ v ∈ ys, v.Valid h') :
    (List.Forall₂ (fun v w => Equal d h v h' w) xs ys ↔ List.Forall₂ (fun v w => Equal d k v k' w) xs ys) := by
  induction xs generalizing ys with
  | nil => cases ys <;> simp
  | cons x xs ihx =>
    cases ys with
    | nil => simp
    | cons y ys =>
      simp only [List.forall₂_cons]
      rw [Equal.agree hL hR hw hw' d (hx x List.mem_cons_self) (hy y List.mem_cons_self),
        ihx (fun v hv => hx v (List.mem_cons_of_mem _ hv)) (fun v hv => hy v (List.mem_cons_of_mem _ hv))]

theorem copyList_good {f : Heap → Val → Option (Heap × Val)} (hf : Good f) :
    ∀ (xs : List Val) h h' ys, WF h → (∀ v ∈ xs, v.Valid h) → copyList f h xs = some (h', ys) →
      Grow h h' ∧ WF h' ∧ (∀ v ∈ ys, v.Valid h') ∧ (∀ y ∈ ys, ∀ l, Reach h' y l → h.next ≤ l) ∧
      (∀ d, List.Forall₂ (fun v w => Equal d h v h' w) xs ys) := by
  intro xs
  induction xs with
  | nil =>
    intro h h' ys hw _ hc
    simp only [copyList, Option.some.injEq, Prod.mk.injEq] at hc
    obtain ⟨rfl, rfl⟩ := hc
    exact ⟨.refl _, hw, by simp, by simp, fun _ => .nil⟩
  | cons x xs ih =>
    intro h h' ys hw hv hc
    simp only [copyList] at hc
    split at hc
    · cases hc
    · rename_i h1 y hx
      split at hc
      · cases hc
      · rename_i h2 ys' hxs
        simp only [Option.some.injEq, Prod.mk.injEq] at hc
        obtain ⟨rfl, rfl⟩ := hc
        obtain ⟨g1, w1, v1, r1, e1⟩ := hf h x h1 y hw (hv x List.mem_cons_self) hx
        have hv1 : ∀ v ∈ xs, v.Valid h1 := fun v hm => (hv v (List.mem_cons_of_mem _ hm)).mono g1
        obtain ⟨g2, w2, v2, r2, e2⟩ := ih h1 h2 ys' w1 hv1 hxs
        refine ⟨g1.trans g2, w2, ?_, ?_, ?_⟩
        · intro v hm
          rcases List.mem_cons.1 hm with rfl | hm
          · exact v1.mono g2
          · exact v2 v hm
        · intro z hm l hr
          rcases List.mem_cons.1 hm with rfl | hm
          · exact r1 l (hr.shrink g2 w1 v1)
          · exact Nat.le_trans g1.next (r2 z hm l hr)
        · intro d
          refine .cons ((Equal.agree (fun _ _ => rfl) g2.obj hw w1 d (hv x List.mem_cons_self) v1).1 (e1 d)) ?_
          exact (equalList_agree (fun l hl => g1.obj l hl) (fun _ _ => rfl) hw w2 d (fun v hm => hv v (List.mem_cons_of_mem _ hm)) v2).2 (e2 d)

theorem forall₂_zip {kvs : List (Nat × Val)} {ys : List Val} {d : Nat} {h h' : Heap}
    (he : List.Forall₂ (fun v w => Equal d h v h' w) (kvs.map Prod.snd) ys) :
    List.Forall₂ (fun p q => p.1 = q.1 ∧ Equal d h p.2 h' q.2) kvs ((kvs.map Prod.fst).zip ys) := by
  induction kvs generalizing ys with
  | nil => simp only [List.map_nil, List.forall₂_nil_left_iff] at he; subst he; exact .nil
  | cons p kvs ih =>
    cases ys with
    | nil => simp at he
    | cons y ys =>
      simp only [List.map_cons, List.forall₂_cons, List.zip_cons_cons] at he ⊢
      exact ⟨⟨trivial, he.1⟩, ih he.2⟩

theorem zip_children {kvs : List (Nat × Val)} {ys : List Val} {v : Val} (h : v ∈ (((kvs.map Prod.fst).zip ys).map Prod.snd)) : v ∈ ys := by
  obtain ⟨p, hp, rfl⟩ := List.mem_map.1 h
  obtain ⟨a, b⟩ := p
  exact (List.of_mem_zip hp).2

theorem copy_good (n : Nat) : Good (copy n) := by
  induction n with
  | zero => intro h v h' v' _ _ hc; simp [copy] at hc
  | succ n ih =>
    intro h v h' v' hw hv hc
    cases v with
    | atom a =>
      simp only [copy, Option.some.injEq, Prod.mk.injEq] at hc
      obtain ⟨rfl, rfl⟩ := hc
      refine ⟨.refl _, hw, trivial, ?_, ?_⟩
      · intro l hr; cases hr
      · intro d; cases d with
        | zero => trivial
        | succ d => rfl
    | ref l =>
      simp only [copy] at hc
      have hcl := hw l hv
      -- a container was copied
      have cont : ∀ (xs ys : List Val) (h1 : Heap) (o : Obj), (h.obj l).children = xs → copyList (copy n) h xs = some (h1, ys) →
          (∀ v ∈ o.children, v ∈ ys) → h' = h1.alloc o → v' = .ref h1.next →
          (∀ d, List.Forall₂ (fun v w => Equal d h v h1 w) xs ys → Equal (d + 1) h (.ref l) (h1.alloc o) (.ref h1.next)) →
          Grow h h' ∧ WF h' ∧ v'.Valid h' ∧ (∀ l, Reach h' v' l → h.next ≤ l) ∧ (∀ d, Equal d h (.ref l) h' v') := by
        intro xs ys h1 o hxs hcl1 hch e1 e2 heq
        subst e1 e2
        obtain ⟨g1, w1, v1, r1, q1⟩ := copyList_good ih xs h h1 ys hw (hxs ▸ hcl) hcl1
        refine ⟨g1.trans (Grow.alloc _ _), w1.alloc (fun v hv => v1 v (hch v hv)), Nat.lt_succ_self _, ?_, ?_⟩
        · intro l' hr
          cases hr with
          | here _ => exact g1.next
          | step hm hr' =>
            rename_i v0
            simp only [Heap.alloc, if_true] at hm
            exact r1 v0 (hch v0 hm) l' (hr'.shrink (Grow.alloc _ _) w1 (v1 v0 (hch v0 hm)))
        · intro d
          cases d with
          | zero => trivial
          | succ d => exact heq d (q1 d)
      cases ho : h.obj l with
      | other c fs =>
        simp only [ho, Option.some.injEq, Prod.mk.injEq] at hc
        obtain ⟨rfl, rfl⟩ := hc
        refine ⟨.refl _, hw, hv, ?_, ?_⟩
        · intro l' hr
          cases hr with
          | here hcn => simp [ho, Obj.container] at hcn
          | step hm _ => simp [ho, Obj.children] at hm
        · intro d; cases d with
          | zero => trivial
          | succ d => simp [Equal, ho]
      | seq k xs =>
        simp only [ho] at hc
        split at hc
        · cases hc
        · rename_i h1 ys hl1
          simp only [Option.some.injEq, Prod.mk.injEq] at hc
          have hvx : ∀ v ∈ xs, v.Valid h := by rw [ho] at hcl; exact hcl
          obtain ⟨g1, w1, v1, _, _⟩ := copyList_good ih xs h h1 ys hw hvx hl1
          refine cont xs ys h1 (.seq k ys) (by simp [ho, Obj.children]) hl1 (fun v hv => hv) hc.1.symm hc.2.symm ?_
          intro d hd
          simp only [Equal, ho, Heap.alloc, if_true, true_and]
          exact (equalList_agree (fun _ _ => rfl) (Grow.alloc h1 (.seq k ys)).obj hw w1 d hvx v1).1 hd
      | map k kvs =>
        simp only [ho] at hc
        split at hc
        · cases hc
        · rename_i h1 ys hl1
          simp only [Option.some.injEq, Prod.mk.injEq] at hc
          have hvx : ∀ v ∈ kvs.map Prod.snd, v.Valid h := by rw [ho] at hcl; exact hcl
          obtain ⟨g1, w1, v1, _, _⟩ := copyList_good ih _ h h1 ys hw hvx hl1
          refine cont _ ys h1 (.map k ((kvs.map Prod.fst).zip ys)) (by simp [ho, Obj.children]) hl1 (fun v hv => zip_children hv) hc.1.symm hc.2.symm ?_
          intro d hd
          simp only [Equal, ho, Heap.alloc, if_true, true_and]
          exact forall₂_zip ((equalList_agree (fun _ _ => rfl) (Grow.alloc h1 (.map k ((kvs.map Prod.fst).zip ys))).obj hw w1 d hvx v1).1 hd)

/-- **C52, the copy.**  A copy has the same contents as the original, to any depth; the objects that existed are unchanged; and every container found from the copy by going through containers is a new object, so
the copy has no list, dict, tuple, UserList, UserDict or deque in common with anything that existed before. -/
theorem C52_copy_is_equal_and_new {n : Nat} {h h' : Heap} {v v' : Val} (hw : WF h) (hv : v.Valid h) (hc : copy n h v = some (h', v')) :
    (∀ d, Equal d h v h' v') ∧ (∀ l, l < h.next → h'.obj l = h.obj l) ∧ (∀ l, Reach h' v' l → h.next ≤ l ∧ l < h'.next) := by
  obtain ⟨g, w, vv, r, e⟩ := copy_good n h v h' v' hw hv hc
  exact ⟨e, g.obj, fun l hr => ⟨r l hr, hr.lt w vv⟩⟩

/-! ## Programs -/

/-- Objects in `P` are out of reach of the program. -/
structure Safe (h0 : Heap) (P : Nat → Prop) (s : Heap × Set Val) : Prop where
  next : h0.next ≤ s.1.next
  keep : ∀ l, P l → s.1.obj l = h0.obj l
  apart : ∀ v ∈ s.2, ∀ l, Reach s.1 v l → ¬ P l

theorem reach_change {h : Heap} {l0 : Nat} {o : Obj} {P : Nat → Prop} {v : Val} {l : Nat}
    (hr : Reach { h with obj := fun l' => if l' = l0 then o else h.obj l' } v l)
    (hl0 : ¬ P l0) (ho : ∀ w ∈ o.children, ∀ l, Reach h w l → ¬ P l)
    (hv : ∀ l, Reach h v l → ¬ P l) : ¬ P l := by
  induction hr with
  | @here l hc =>
    by_cases e : l = l0
    · rw [e]; exact hl0
    · simp only [e, if_false] at hc; exact hv l (.here hc)
  | @step l v l' hm _ ih =>
    by_cases e : l = l0
    · simp only [e, if_true] at hm; exact ih (ho v hm)
    · simp only [e, if_false] at hm
      exact ih (fun l'' hr => hv l'' (.step hm hr))

theorem Safe.act {h0 : Heap} {P : Nat → Prop} (hP : ∀ l, P l → l < h0.next) {s t : Heap × Set Val} (hs : Safe h0 P s) (ha : Act s t) : Safe h0 P t := by
  cases ha with
  | @look h held l v hl hm =>
    refine ⟨hs.next, hs.keep, ?_⟩
    intro w hw l' hr
    rcases hw with hw | hw
    · exact hs.apart w hw l' hr
    · cases (show w = _ from hw)
      exact hs.apart _ hl l' (.step hm hr)
  | @make h held o hc hch =>
    have hnew : ¬ P h.next := fun hp => by have := hP _ hp; have := hs.next; simp only at this; omega
    refine ⟨Nat.le_trans hs.next (Nat.le_succ _), ?_, ?_⟩
    · intro l hp
      have h1 := hs.keep l hp
      simp only [Heap.alloc] at h1 ⊢
      rw [if_neg (fun e : l = h.next => hnew (e ▸ hp))]; exact h1
    · -- adding an object is like changing the unused one
      intro w hw l hr
      have hr' : Reach { h with obj := fun l' => if l' = h.next then o else h.obj l' } w l := by
        clear hw
        induction hr with
        | here hc => exact .here hc
        | step hm _ ih => exact .step hm ih
      have hch' : ∀ v ∈ o.children, ∀ l, Reach h v l → ¬ P l := by
        intro v hv l'' hr''
        rcases hch v hv with hin | ⟨a, rfl⟩
        · exact hs.apart v hin l'' hr''
        · cases hr''
      rcases hw with hw | hw
      · exact reach_change hr' hnew hch' (hs.apart w hw)
      · cases (show w = _ from hw)
        cases hr' with
        | here _ => exact hnew
        | step hm hr2 =>
          simp only [if_true] at hm
          exact reach_change hr2 hnew hch' (hch' _ hm)
  | @change h held l o hl hc hoc hch =>
    have hnl : ¬ P l := hs.apart _ hl l (.here hc)
    refine ⟨hs.next, ?_, ?_⟩
    · intro l' hp
      simp only
      rw [if_neg (fun e : l' = l => hnl (e ▸ hp))]; exact hs.keep l' hp
    · intro w hw l' hr
      refine reach_change hr hnl ?_ (hs.apart w hw)
      intro v hv l'' hr''
      rcases hch v hv with hin | hin | ⟨a, rfl⟩
      · exact hs.apart v hin l'' hr''
      · exact hs.apart _ hl l'' (.step hin hr'')
      · cases hr''

theorem Safe.acts {h0 : Heap} {P : Nat → Prop} (hP : ∀ l, P l → l < h0.next) {s t : Heap × Set Val} (hs : Safe h0 P s) (ha : Acts s t) : Safe h0 P t := by
  induction ha with
  | refl => exact hs
  | tail _ h1 ih => exact ih.act hP h1

/-- **C52, the original is safe from the clone.**  Whatever a program that has only the clone does with it, by looking into and changing containers, no object that existed before the clone was made is changed.  In particular
everything seen through the original environment stays as it was. -/
theorem C52_clone_cannot_change_original {n : Nat} {h h1 h2 : Heap} {v v' : Val} {held : Set Val} (hw : WF h) (hv : v.Valid h) (hc : copy n h v = some (h1, v'))
    (hrun : Acts (h1, {v'}) (h2, held)) : ∀ l, l < h.next → h2.obj l = h.obj l := by
  obtain ⟨g, w, vv, r, _⟩ := copy_good n h v h1 v' hw hv hc
  have hs : Safe h1 (fun l => l < h.next) (h1, {v'}) := by
    refine ⟨Nat.le_refl _, fun _ _ => rfl, ?_⟩
    intro x hx l hr
    cases (show x = v' from hx)
    have := r l hr
    omega
  have := (hs.acts (fun l hl => Nat.lt_of_lt_of_le hl g.next) hrun).keep
  intro l hl
  exact (this l hl).trans (g.obj l hl)

/-- **C52, the clone is safe from the original.**  Whatever a program that has only the original does with it after the clone was made, by looking into and changing containers, none of the clone's containers is changed, and the clone still has the contents
the original had when it was cloned. -/
theorem C52_original_cannot_change_clone {n : Nat} {h h1 h2 : Heap} {v v' : Val} {held : Set Val} (hw : WF h) (hv : v.Valid h) (hc : copy n h v = some (h1, v'))
    (hrun : Acts (h1, {v}) (h2, held)) : (∀ l, Reach h1 v' l → h2.obj l = h1.obj l) := by
  obtain ⟨g, w, vv, r, _⟩ := copy_good n h v h1 v' hw hv hc
  have hs : Safe h1 (fun l => h.next ≤ l ∧ l < h1.next) (h1, {v}) := by
    refine ⟨Nat.le_refl _, fun _ _ => rfl, ?_⟩
    intro x hx l hr
    cases (show x = v from hx)
    have := (hr.shrink g hw hv).lt hw hv
    omega
  have := (hs.acts (fun l hl => hl.2) hrun).keep
  intro l hl
  exact this l ⟨r l hl, hl.lt w vv⟩

/-! ## Counterexamples and concrete cases -/

/-- The heap of an environment dict (object 2) with `FLAGS` (0) a list (object 0) and `EXTRA` (1) an instance of a user class, or a set (object 1). -/
def demo : Heap := ⟨3, fun l => if l = 0 then .seq .list [.atom 10, .atom 11] else if l = 1 then .other 7 [.atom 12] else if l = 2 then .map .dict [(0, .ref 0), (1, .ref 1)] else .other 0 []⟩

/-- **Counterexample.**  The docstring says there are "no references to any mutable objects in the original environment"; an object of another kind (a set, say) is shared: it is the same object in the clone. -/
theorem C52_counterexample_other_objects_are_shared :
    ∃ h' k kvs, copy 5 demo (.ref 2) = some (h', .ref 4) ∧ h'.obj 4 = .map k kvs ∧ (1, Val.ref 1) ∈ kvs ∧ (h'.obj 1).container = false := by
  exact ⟨_, .dict, [(0, .ref 3), (1, .ref 1)], rfl, by decide, by decide, by decide⟩

/-- The theorems apply to this environment and a program that appends to the clone's list. -/
theorem C52_nonvacuous : WF demo ∧ (Val.ref 2).Valid demo ∧
    ∃ h1 h2 held, copy 5 demo (.ref 2) = some (h1, .ref 4) ∧ Acts (h1, {.ref 4}) (h2, held) ∧
      h2.obj 3 = .seq .list [.atom 10, .atom 11, .atom 99] ∧ h2.obj 0 = .seq .list [.atom 10, .atom 11] := by
  refine ⟨?_, (show 2 < 3 by decide), ?_⟩
  · intro l hl v hv
    have : l = 0 ∨ l = 1 ∨ l = 2 := by simp only [demo] at hl; omega
    rcases this with rfl | rfl | rfl
    · simp [demo, Obj.children] at hv; rcases hv with rfl | rfl <;> trivial
    · simp [demo, Obj.children] at hv
    · simp [demo, Obj.children] at hv; rcases hv with rfl | rfl <;> (show _ < 3; decide)
  · have hrun : ∃ h1, copy 5 demo (.ref 2) = some (h1, .ref 4) ∧ (h1.obj 3 = .seq .list [.atom 10, .atom 11]) ∧ h1.obj 4 = .map .dict [(0, .ref 3), (1, .ref 1)] ∧
        h1.obj 0 = .seq .list [.atom 10, .atom 11] := ⟨_, rfl, by decide, by decide, by decide⟩
    obtain ⟨h1, e1, e2, e3, e4⟩ := hrun
    refine ⟨h1, { h1 with obj := fun l' => if l' = 3 then .seq .list [.atom 10, .atom 11, .atom 99] else h1.obj l' }, {.ref 4} ∪ {.ref 3}, e1, ?_, rfl, by simp [e4]⟩
    refine Acts.tail (Acts.tail (Acts.refl _) (Act.look (l := 4) (v := .ref 3) rfl (by simp [e3, Obj.children])))
      (Act.change (l := 3) (o := .seq .list [.atom 10, .atom 11, .atom 99]) (.inr rfl) (by simp [e2, Obj.container]) rfl ?_)
    intro v hv
    simp [Obj.children] at hv
    rcases hv with rfl | rfl | rfl <;> exact .inr (.inr ⟨_, rfl⟩)

end Verif.Env.Clone
