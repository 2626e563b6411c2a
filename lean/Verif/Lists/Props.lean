import Verif.Lists.Spec
import Mathlib.Data.List.Induction
import Mathlib.Order.Basic
import Mathlib.Order.Lattice
import Mathlib.Data.List.Nodup
import Mathlib.Data.List.InsertIdx

/-!
# Lists (C118): proofs
-/

namespace Verif.Lists

variable {α : Type} [DecidableEq α]

/-! ## Each thing once -/

theorem fromkeys_snoc (l : List α) (x : α) : fromkeys (l ++ [x]) = if x ∈ fromkeys l then fromkeys l else fromkeys l ++ [x] := by
  rw [fromkeys, List.foldl_append]; rfl

theorem fromkeys_once (l : List α) : Once l (fromkeys l) := by
  induction l using List.reverseRecOn with
  | nil => exact ⟨by simp [fromkeys], by simp [fromkeys]⟩
  | append_singleton l x ih =>
    rw [fromkeys_snoc]
    obtain ⟨h1, h2⟩ := ih
    have h2' : (fromkeys l).Pairwise fun a b => (l ++ [x]).idxOf a < (l ++ [x]).idxOf b := by
      refine h2.imp_of_mem ?_
      intro a b ha hb hab
      rwa [List.idxOf_append_of_mem ((h1 a).1 ha), List.idxOf_append_of_mem ((h1 b).1 hb)]
    by_cases hx : x ∈ fromkeys l
    · rw [if_pos hx]
      refine ⟨fun y => ?_, h2'⟩
      rw [h1]; simp only [List.mem_append, List.mem_singleton]
      exact ⟨Or.inl, fun h => h.elim id fun h => h ▸ (h1 x).1 hx⟩
    · rw [if_neg hx]
      refine ⟨fun y => by simp [h1], List.pairwise_append.2 ⟨h2', by simp, ?_⟩⟩
      intro a ha b hb
      simp at hb; subst hb
      have hb' : b ∉ l := fun h => hx ((h1 b).2 h)
      rw [List.idxOf_append_of_mem ((h1 a).1 ha), List.idxOf_append_of_notMem hb']
      exact lt_of_lt_of_le (List.idxOf_lt_length_iff.2 ((h1 a).1 ha)) (by simp)

theorem Once.nodup {l m : List α} (h : Once l m) : m.Nodup := h.2.imp fun hab => by rintro rfl; exact absurd hab (lt_irrefl _)

theorem Once.unique {l m m' : List α} (h : Once l m) (h' : Once l m') : m = m' := by
  have hp : m.Perm m' := (List.perm_ext_iff_of_nodup h.nodup h'.nodup).2 fun x => by rw [h.1, h'.1]
  exact hp.eq_of_pairwise (fun a b _ _ hab hba => absurd (lt_trans hab hba) (lt_irrefl _)) h.2 h'.2

theorem once_iff (l m : List α) : Once l m ↔ fromkeys l = m :=
  ⟨fun h => (fromkeys_once l).unique h, fun h => h ▸ fromkeys_once l⟩

theorem fromkeys_nodup (l : List α) : (fromkeys l).Nodup := (fromkeys_once l).nodup

theorem fromkeys_self (l : List α) (h : l.Nodup) : fromkeys l = l := by
  induction l using List.reverseRecOn with
  | nil => rfl
  | append_singleton l x ih =>
    have h' := List.nodup_append.1 h
    rw [fromkeys_snoc, ih h'.1, if_neg]
    intro hx
    exact h'.2.2 x hx x (by simp) rfl

theorem fromkeys_append (l xs : List α) : fromkeys (fromkeys l ++ xs) = fromkeys (l ++ xs) := by
  have h := fromkeys_self _ (fromkeys_nodup l)
  have e : ∀ l : List α, fromkeys (l ++ xs) = xs.foldl (fun d x => if x ∈ d then d else d ++ [x]) (fromkeys l) := by
    intro l; simp [fromkeys]
  rw [e, e, h]

theorem fromkeys_absorb (l xs : List α) (h : ∀ x ∈ xs, x ∈ l) : fromkeys (l ++ xs) = fromkeys l := by
  induction xs using List.reverseRecOn with
  | nil => simp
  | append_singleton xs x ih =>
    rw [← List.append_assoc, fromkeys_snoc, ih fun y hy => h y (by simp [hy]), if_pos]
    exact ((fromkeys_once l).1 x).2 (h x (by simp))

theorem fromkeys_replicate (l : List α) (n : Nat) (hn : n ≠ 0) : fromkeys (List.replicate n l).flatten = fromkeys l := by
  cases n with
  | zero => exact absurd rfl hn
  | succ n =>
    rw [List.replicate_succ, List.flatten_cons]
    refine fromkeys_absorb l _ ?_
    intro x hx
    obtain ⟨y, hy, hxy⟩ := List.mem_flatten.1 hx
    rw [List.eq_of_mem_replicate hy] at hxy
    exact hxy

/-! ## Positions -/

theorem pyIdx_some (m : List α) (i : Int) (k : Nat) : pyIdx m.length i = some k ↔ Pos m i k := by
  unfold pyIdx Pos
  dsimp only
  split <;> split <;> simp <;> omega

theorem pyIdx_none (m : List α) (i : Int) (h : pyIdx m.length i = none) (k : Nat) : ¬ Pos m i k := by
  rw [← pyIdx_some, h]; simp

theorem split_at (m : List α) (k : Nat) (h : k < m.length) : m = m.take k ++ m[k] :: m.drop (k + 1) := by
  rw [List.getElem_cons_drop, List.take_append_drop]

theorem insertIdx_take_drop (m : List α) (k : Nat) (x : α) (h : k ≤ m.length) : m.insertIdx k x = m.take k ++ x :: m.drop k := by
  induction m generalizing k with
  | nil => cases k <;> simp at h ⊢
  | cons a m ih =>
    cases k with
    | zero => simp
    | succ k => simp [ih k (by simpa using h)]

/-! ## `UniqueList` -/

structure I (s : UL α) (m : List α) (b : Bool) : Prop where
  nodup : m.Nodup
  eq : s.uniq = true → s.data = m
  keys : fromkeys s.data = m
  looked : b = true → s.uniq = true

theorem I.make {s : UL α} {m : List α} {b : Bool} (h : I s m b) : s.make = ⟨m, true⟩ := by
  rcases s with ⟨d, u⟩
  unfold UL.make
  cases u
  · simp; exact h.keys
  · simp; exact h.eq rfl

theorem I.mem {s : UL α} {m : List α} {b : Bool} (h : I s m b) (x : α) : x ∈ s.data ↔ x ∈ m := by
  rw [← h.keys]; exact ((fromkeys_once s.data).1 x).symm

theorem I.clean {m : List α} (h : m.Nodup) (b : Bool) : I ⟨m, true⟩ m b := ⟨h, fun _ => rfl, fromkeys_self m h, fun _ => rfl⟩

theorem I.dirty (l m : List α) (h : fromkeys l = m) : I ⟨l, false⟩ m false := ⟨h ▸ fromkeys_nodup l, by simp, h, by simp⟩

theorem step_ok (le : α → α → Bool) (ht : ∀ a b, (le a b || le b a) = true) (htr : ∀ a b c, le a b = true → le b c = true → le a c = true) (s : UL α) (m : List α) (b : Bool) (h : I s m b) (o : Op α) (hr : o.raw = true → b = true) :
    ∃ m', Step le m o m' (s.step le o).2 ∧ I (s.step le o).1 m' (o.looked b) := by
  have hm := h.make
  have raw : o.raw = true → s = ⟨m, true⟩ := by
    intro ho
    have hu := h.looked (hr ho)
    have := h.eq hu
    cases s; simp_all
  have grow : ∀ xs : List α, Once (m ++ xs) (fromkeys (m ++ xs)) ∧ I ⟨s.data ++ xs, false⟩ (fromkeys (m ++ xs)) false := by
    intro xs
    exact ⟨fromkeys_once _, I.dirty _ _ (by rw [← h.keys, fromkeys_append])⟩
  cases o with
  | append x => exact ⟨_, .append x _ (grow [x]).1, (grow [x]).2⟩
  | extend xs => exact ⟨_, .extend xs _ (grow xs).1, (grow xs).2⟩
  | iadd xs => exact ⟨_, .iadd xs _ (grow xs).1, (grow xs).2⟩
  | imul n =>
    cases n with
    | zero => exact ⟨_, .imul0, I.dirty _ _ (by simp [fromkeys])⟩
    | succ n => exact ⟨_, .imul _ (by omega), I.dirty _ _ (by rw [fromkeys_replicate _ _ (by omega), h.keys])⟩
  | reverse => exact ⟨_, .reverse, by rw [UL.step, hm]; exact I.clean (List.nodup_reverse.2 h.nodup) _⟩
  | sort =>
    refine ⟨m.mergeSort le, .sort _ (List.mergeSort_perm m le) (List.pairwise_mergeSort htr ht m), ?_⟩
    rw [UL.step, hm]; exact I.clean ((List.mergeSort_perm m le).nodup_iff.2 h.nodup) _
  | clear =>
    refine ⟨_, .clear, ?_⟩
    rw [UL.step]
    exact ⟨by simp, fun _ => rfl, rfl, fun hb => h.looked hb⟩
  | len => rw [UL.step, hm]; exact ⟨_, .len, I.clean h.nodup _⟩
  | get i =>
    rw [UL.step, hm]
    refine ⟨m, ?_, I.clean h.nodup _⟩
    dsimp only
    rcases hp : pyIdx m.length i with _ | k
    · exact .getErr i (pyIdx_none m i hp)
    · have hk := (pyIdx_some m i k).1 hp
      dsimp only
      rw [List.getElem?_eq_getElem hk.1]
      exact .get i k _ hk (List.getElem?_eq_getElem hk.1)
  | contains x => rw [UL.step]; exact ⟨m, .contains x _ (by simpa using h.mem x), h⟩
  | count x =>
    rw [UL.step, hm]
    refine ⟨m, .count x _ (List.nodup_iff_count_le_one.1 h.nodup x) ?_, I.clean h.nodup _⟩
    have := List.nodup_iff_count_le_one.1 h.nodup x
    have h2 : x ∈ m ↔ 0 < m.count x := List.count_pos_iff.symm
    rw [h2]; dsimp only; omega
  | index x =>
    rw [UL.step, hm]
    refine ⟨m, ?_, I.clean h.nodup _⟩
    dsimp only
    by_cases hx : x ∈ m
    · rw [if_pos hx]; exact .index x _ (List.getElem?_idxOf hx)
    · rw [if_neg hx]; exact .indexErr x hx
  | list => rw [UL.step, hm]; exact ⟨_, .list, I.clean h.nodup _⟩
  | eq xs => rw [UL.step, hm]; exact ⟨_, .eq xs _ (by simp), I.clean h.nodup _⟩
  | insert i x =>
    rw [raw rfl, UL.step]
    dsimp only
    have hk : pyIns m.length i ≤ m.length := by unfold pyIns; dsimp only; split <;> split <;> (try split) <;> omega
    refine ⟨fromkeys (m.insertIdx (pyIns m.length i) x), ?_, I.dirty _ _ rfl⟩
    refine .insert i x (m.take (pyIns m.length i)) (m.drop (pyIns m.length i)) _ (by simp) ?_ ?_ ?_
    · intro hi
      rw [List.length_take, min_eq_left hk]
      unfold pyIns; dsimp only; split <;> split <;> (try split) <;> omega
    · intro hi
      rw [List.length_take, min_eq_left hk]
      unfold pyIns; dsimp only; split <;> split <;> (try split) <;> omega
    · rw [once_iff]
      congr 1
      exact (insertIdx_take_drop m _ x hk).symm
  | set i x =>
    rw [raw rfl, UL.step]
    dsimp only
    rcases hp : pyIdx m.length i with _ | k
    · exact ⟨m, .setErr i x (pyIdx_none m i hp), ⟨h.nodup, fun _ => rfl, fromkeys_self m h.nodup, by simp⟩⟩
    · have hk := (pyIdx_some m i k).1 hp
      refine ⟨fromkeys (m.set k x), ?_, I.dirty _ _ rfl⟩
      refine .set i x (m.take k) (m[k]'hk.1) (m.drop (k + 1)) _ (split_at m k hk.1) (by rw [List.length_take, min_eq_left (le_of_lt hk.1)]; exact hk) ?_
      rw [once_iff, List.set_eq_take_append_cons_drop, if_pos hk.1]
  | del i =>
    rw [raw rfl, UL.step]
    dsimp only
    rcases hp : pyIdx m.length i with _ | k
    · exact ⟨m, .delErr i (pyIdx_none m i hp), I.clean h.nodup _⟩
    · have hk := (pyIdx_some m i k).1 hp
      refine ⟨m.eraseIdx k, ?_, I.clean (h.nodup.sublist (List.eraseIdx_sublist m k)) _⟩
      rw [List.eraseIdx_eq_take_drop_succ]
      exact .del i (m.take k) (m[k]'hk.1) (m.drop (k + 1)) (split_at m k hk.1) (by rw [List.length_take, min_eq_left (le_of_lt hk.1)]; exact hk)
  | pop i =>
    rw [raw rfl, UL.step]
    dsimp only
    rcases hp : pyIdx m.length i with _ | k
    · exact ⟨m, .popErr i (pyIdx_none m i hp), I.clean h.nodup _⟩
    · have hk := (pyIdx_some m i k).1 hp
      refine ⟨m.eraseIdx k, ?_, I.clean (h.nodup.sublist (List.eraseIdx_sublist m k)) _⟩
      rw [List.eraseIdx_eq_take_drop_succ]
      dsimp only
      rw [List.getElem?_eq_getElem hk.1]
      exact .pop i (m.take k) (m[k]'hk.1) (m.drop (k + 1)) (split_at m k hk.1) (by rw [List.length_take, min_eq_left (le_of_lt hk.1)]; exact hk)
  | remove x =>
    rw [raw rfl, UL.step]
    dsimp only
    by_cases hx : x ∈ m
    · rw [if_pos hx]
      refine ⟨m.erase x, ?_, I.clean (h.nodup.sublist List.erase_sublist) _⟩
      obtain ⟨pre, post, hp, he, hq⟩ := List.exists_erase_eq hx
      rw [hq]
      exact .remove x pre post he
    · rw [if_neg hx]; exact ⟨m, .removeErr x hx, I.clean h.nodup _⟩
  | copy =>
    rw [raw rfl, UL.step]
    exact ⟨m, by simpa [UL.new, UL.make] using Step.copy, I.clean h.nodup _⟩

theorem run_ok (le : α → α → Bool) (ht : ∀ a b, (le a b || le b a) = true) (htr : ∀ a b c, le a b = true → le b c = true → le a c = true) (os : List (Op α)) :
    ∀ (s : UL α) (m : List α) (b : Bool), I s m b → Careful b os → ∃ m', Steps le m os m' (s.run le os).2 ∧ (s.run le os).1.make.data = m' := by
  induction os with
  | nil => intro s m b h _; exact ⟨m, .nil m, by rw [UL.run, h.make]⟩
  | cons o os ih =>
    intro s m b h hc
    obtain ⟨m', h1, h2⟩ := step_ok le ht htr s m b h o hc.1
    obtain ⟨m'', h3, h4⟩ := ih _ m' _ h2 hc.2
    exact ⟨m'', .cons m o m' _ os m'' _ h1 h3, h4⟩

/-- **C118.** A `UniqueList` behaves, through all calls in all orders, as a list that has each thing once, if it was made from a list without repetitions, and if after something was added it is looked at before it is changed at a position
or copied. -/
theorem C118_unique_list (le : α → α → Bool) (ht : ∀ a b, (le a b || le b a) = true) (htr : ∀ a b c, le a b = true → le b c = true → le a c = true) (l : List α) (hl : l.Nodup) (os : List (Op α)) (hc : Careful true os) :
    ∃ m, Steps le l os m ((UL.new l).run le os).2 := by
  obtain ⟨m, h, _⟩ := run_ok le ht htr os (UL.new l) l true (I.clean hl true) hc
  exact ⟨m, h⟩

omit [DecidableEq α] in
theorem perm_sorted_eq (le : α → α → Bool) (hanti : ∀ a b, le a b = true → le b a = true → a = b) {a b : List α} (h : a.Perm b) (ha : a.Pairwise fun x y => le x y = true) (hb : b.Pairwise fun x y => le x y = true) : a = b :=
  h.eq_of_pairwise (fun x y _ _ => hanti x y) ha hb

/-- The specification leaves no choice: with an order that is total the results are determined. -/
theorem C118_determined (le : α → α → Bool) (hanti : ∀ a b, le a b = true → le b a = true → a = b) (m : List α) (hm : m.Nodup) (o : Op α) (m1 m2 : List α) (r1 r2 : Out α) (h1 : Step le m o m1 r1) (h2 : Step le m o m2 r2) :
    m1 = m2 ∧ r1 = r2 := by
  have pos : ∀ {i : Int} {k k' : Nat}, Pos m i k → Pos m i k' → k = k' := by
    intro i k k' h h'; unfold Pos at h h'; omega
  have cut : ∀ {pre pre' post post' : List α} {y y' : α}, m = pre ++ y :: post → m = pre' ++ y' :: post' → pre.length = pre'.length → pre = pre' ∧ y = y' ∧ post = post' := by
    intro pre pre' post post' y y' e e' hl
    have := List.append_inj (e.symm.trans e') hl
    simpa using this
  cases h1 with
  | append x m' h => cases h2 with | append _ _ h' => exact ⟨h.unique h', rfl⟩
  | extend x m' h => cases h2 with | extend _ _ h' => exact ⟨h.unique h', rfl⟩
  | iadd x m' h => cases h2 with | iadd _ _ h' => exact ⟨h.unique h', rfl⟩
  | imul n h => cases h2 with
    | imul => exact ⟨rfl, rfl⟩
    | imul0 => exact absurd rfl h
  | imul0 => cases h2 with
    | imul _ h => exact absurd rfl h
    | imul0 => exact ⟨rfl, rfl⟩
  | reverse => cases h2; exact ⟨rfl, rfl⟩
  | sort _ hp hs => cases h2 with | sort _ hp' hs' => exact ⟨perm_sorted_eq le hanti (hp.trans hp'.symm) hs hs', rfl⟩
  | clear => cases h2; exact ⟨rfl, rfl⟩
  | len => cases h2; exact ⟨rfl, rfl⟩
  | get i k x hp hx => cases h2 with
    | get _ k' x' hp' hx' => cases pos hp hp'; rw [hx] at hx'; injection hx' with e; exact ⟨rfl, by rw [e]⟩
    | getErr _ h => exact absurd hp (h k)
  | getErr _ h => cases h2 with
    | get _ k' x' hp' hx' => exact absurd hp' (h k')
    | getErr => exact ⟨rfl, rfl⟩
  | contains x b h => cases h2 with | contains _ b' h' => exact ⟨rfl, by rw [Bool.eq_iff_iff.2 (h.trans h'.symm)]⟩
  | count x n hn h => cases h2 with
    | count _ n' hn' h' =>
      have : n = 1 ↔ n' = 1 := h.trans h'.symm
      have e : n = n' := by omega
      exact ⟨rfl, by rw [e]⟩
  | index x k h => cases h2 with
    | index _ k' h' =>
      refine ⟨rfl, ?_⟩
      have hk := (List.getElem?_eq_some_iff.1 h).1
      have := (List.getElem?_inj hk hm).1 (h.trans h'.symm)
      rw [this]
    | indexErr _ h' => exact absurd (List.mem_of_getElem? h) h'
  | indexErr _ h => cases h2 with
    | index _ k' h' => exact absurd (List.mem_of_getElem? h') h
    | indexErr => exact ⟨rfl, rfl⟩
  | list => cases h2; exact ⟨rfl, rfl⟩
  | eq xs b h => cases h2 with | eq _ b' h' => exact ⟨rfl, by rw [Bool.eq_iff_iff.2 (h.trans h'.symm)]⟩
  | insert i x pre post m' e h0 h1 ho => cases h2 with
    | insert _ _ pre' post' _ e' h0' h1' ho' =>
      have hl : pre.length = pre'.length := by
        by_cases hi : 0 ≤ i
        · have := h0 hi; have := h0' hi; omega
        · have := h1 (by omega); have := h1' (by omega); omega
      obtain ⟨rfl, rfl⟩ := List.append_inj (e.symm.trans e') hl
      exact ⟨ho.unique ho', rfl⟩
  | set i x pre y post m' e hp ho => cases h2 with
    | set _ _ pre' y' post' _ e' hp' ho' =>
      obtain ⟨rfl, rfl, rfl⟩ := cut e e' (pos hp hp')
      exact ⟨ho.unique ho', rfl⟩
    | setErr _ _ h => exact absurd hp (h _)
  | setErr _ _ h => cases h2 with
    | set _ _ pre' y' post' _ e' hp' ho' => exact absurd hp' (h _)
    | setErr => exact ⟨rfl, rfl⟩
  | del i pre y post e hp => cases h2 with
    | del _ pre' y' post' e' hp' =>
      obtain ⟨rfl, rfl, rfl⟩ := cut e e' (pos hp hp')
      exact ⟨rfl, rfl⟩
    | delErr _ h => exact absurd hp (h _)
  | delErr _ h => cases h2 with
    | del _ pre' y' post' e' hp' => exact absurd hp' (h _)
    | delErr => exact ⟨rfl, rfl⟩
  | pop i pre y post e hp => cases h2 with
    | pop _ pre' y' post' e' hp' =>
      obtain ⟨rfl, rfl, rfl⟩ := cut e e' (pos hp hp')
      exact ⟨rfl, rfl⟩
    | popErr _ h => exact absurd hp (h _)
  | popErr _ h => cases h2 with
    | pop _ pre' y' post' e' hp' => exact absurd hp' (h _)
    | popErr => exact ⟨rfl, rfl⟩
  | remove x pre post e => cases h2 with
    | remove _ pre' post' e' =>
      have k1 : m[pre.length]? = some x := by rw [e]; simp
      have k2 : m[pre'.length]? = some x := by rw [e']; simp
      have hk := (List.getElem?_eq_some_iff.1 k1).1
      obtain ⟨rfl, _, rfl⟩ := cut e e' ((List.getElem?_inj hk hm).1 (k1.trans k2.symm))
      exact ⟨rfl, rfl⟩
    | removeErr _ h => exact absurd (by rw [e]; simp) h
  | removeErr _ h => cases h2 with
    | remove _ pre' post' e' => exact absurd (by rw [e']; simp) h
    | removeErr => exact ⟨rfl, rfl⟩
  | copy => cases h2; exact ⟨rfl, rfl⟩

end Verif.Lists
