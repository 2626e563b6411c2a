import Verif.Lists.Props

/-!
# Lists (C118): `unique`, `flatten`, what goes wrong, cases
-/

namespace Verif.Lists

variable {α : Type} [DecidableEq α]

/-! ## `unique` -/

theorem brute_eq (u l : List α) : brute u l = l.foldl (fun d x => if x ∈ d then d else d ++ [x]) u := by
  induction l generalizing u with
  | nil => rfl
  | cons x l ih => rw [brute, ih]; rfl

theorem weed_mem (x : α) (l : List α) (y : α) : y ∈ x :: weed x l ↔ y ∈ x :: l := by
  induction l generalizing x with
  | nil => simp [weed]
  | cons a l ih =>
    rw [weed]
    by_cases h : a ≠ x
    · rw [if_pos h]
      have := ih a
      simp only [List.mem_cons] at this ⊢
      rw [this]
    · rw [if_neg h]
      have ha : a = x := by simpa using h
      subst ha
      have := ih a
      simp only [List.mem_cons] at this ⊢
      rw [this]; simp

theorem weed_pairwise (r : α → α → Prop) (hanti : ∀ a b, r a b → r b a → a = b) (x : α) (l : List α) (h : (x :: l).Pairwise r) : (x :: weed x l).Nodup := by
  induction l generalizing x with
  | nil => simp [weed]
  | cons a l ih =>
    rw [weed]
    have h' := List.pairwise_cons.1 h
    by_cases hax : a ≠ x
    · rw [if_pos hax, List.nodup_cons]
      refine ⟨?_, ih a h'.2⟩
      rw [weed_mem]
      intro hx
      rcases List.mem_cons.1 hx with e | hx
      · exact hax e.symm
      · refine hax (hanti a x ((List.pairwise_cons.1 h'.2).1 x hx) (h'.1 a (by simp)))
    · rw [if_neg hax]
      refine ih x (List.pairwise_cons.2 ⟨fun b hb => h'.1 b (by simp [hb]), (List.pairwise_cons.1 h'.2).2⟩)

/-- **C118.** `unique` gives the elements of what it is given, once each: if they can be hashed, in their order; if not, and they cannot be sorted, in their order; and if they can be sorted by a total order, in that order. -/
theorem C118_unique (le : α → α → Prop) (hanti : ∀ a b, le a b → le b a → a = b) (hashable : Bool) (srt : Option (List α)) (seq : List α) (hs : ∀ t, srt = some t → t.Perm seq ∧ t.Pairwise le) :
    (unique hashable srt seq).Nodup ∧ (∀ x, x ∈ unique hashable srt seq ↔ x ∈ seq) ∧ (hashable = true ∨ srt = none → Once seq (unique hashable srt seq)) ∧ (∀ t, hashable = false → srt = some t → (unique hashable srt seq).Pairwise le) := by
  by_cases hn : seq = []
  · subst hn
    simp only [unique, if_true]
    exact ⟨by simp, by simp, fun _ => ⟨by simp, by simp⟩, fun _ _ _ => by simp⟩
  · unfold unique
    rw [if_neg hn]
    cases hashable with
    | true =>
      simp only [if_true]
      exact ⟨fromkeys_nodup seq, (fromkeys_once seq).1, fun _ => fromkeys_once seq, by simp⟩
    | false =>
      simp only [Bool.false_eq_true, if_false]
      rcases srt with _ | t
      · have e : brute [] seq = fromkeys seq := brute_eq [] seq
        simp only [e]
        exact ⟨fromkeys_nodup seq, (fromkeys_once seq).1, fun _ => fromkeys_once seq, by simp⟩
      · obtain ⟨hp, hw⟩ := hs t rfl
        rcases t with _ | ⟨x, t⟩
        · exact absurd hp.symm.eq_nil hn
        · simp only
          refine ⟨weed_pairwise le hanti x t hw, fun y => by rw [weed_mem, hp.mem_iff], by simp, fun _ _ _ => ?_⟩
          refine hw.sublist ?_
          have key : ∀ (t : List α) (x : α), (weed x t).Sublist t := by
            intro t
            induction t with
            | nil => intro x; simp [weed]
            | cons a t ih =>
              intro x; rw [weed]; split
              · exact (ih a).cons_cons a
              · exact (ih x).cons a
          exact (key t x).cons_cons x

/-- `a < b` of two sets of two things: a proper subset. -/
def properSubset (a b : Bool × Bool) : Prop := a ≠ b ∧ (a.1 = true → b.1 = true) ∧ (a.2 = true → b.2 = true)

instance (a b : Bool × Bool) : Decidable (properSubset a b) := inferInstanceAs (Decidable (_ ∧ _))

/-- **Counterexample.** Sets cannot be hashed, and `sorted` takes them, but their order is not total: of three sets, the first and the last equal and the second another, none smaller than another, `sorted` leaves them as they are and the equal ones are both kept. -/
theorem C118_unique_sets : ∃ seq : List (Bool × Bool), seq.Pairwise (fun a b => ¬ properSubset b a) ∧ ¬ (unique false (some seq) seq).Nodup :=
  ⟨[(true, false), (false, true), (true, false)], by decide, by decide⟩

/-! ## `UniqueList`: what goes wrong -/

/-- **Counterexample.** A `UniqueList` made from a list with a repetition keeps it, as long as nothing is added. -/
theorem C118_init_keeps (l : List α) : ((UL.new l).run (fun _ _ => true) [.list, .len]).2 = [.list l, .nat l.length] := by
  simp [UL.run, UL.step, UL.new, UL.make]

/-- **Counterexample.** After something was added twice, `remove` leaves one of the two. -/
theorem C118_remove_leaves (x : α) : ((UL.new ([] : List α)).run (fun _ _ => true) [.append x, .append x, .remove x, .contains x, .len]).2 = [.unit, .unit, .unit, .bool true, .nat 1] := by
  simp [UL.run, UL.step, UL.new, UL.make, fromkeys]

/-- **Counterexample.** A copy of a list that was not looked at has repetitions, and `len` of the original decides on the copy. -/
theorem C118_copy_keeps (x : α) : ((UL.new ([] : List α)).run (fun _ _ => true) [.append x, .append x, .copy, .len, .copy]).2 = [.unit, .unit, .list [x, x], .nat 1, .list [x]] := by
  simp [UL.run, UL.step, UL.new, UL.make, fromkeys]

/-- **Counterexample.** Positions are those of the list with repetitions: the last thing is deleted, but it is the repetition that goes; looking at the list before makes it another result. -/
theorem C118_del_wrong (x y : α) (h : x ≠ y) :
    ((UL.new ([] : List α)).run (fun _ _ => true) [.extend [x, y, x], .del 1, .list]).2 = [.unit, .unit, .list [x]] ∧
      ((UL.new ([] : List α)).run (fun _ _ => true) [.extend [x, y, x], .del (-1), .list]).2 = [.unit, .unit, .list [x, y]] ∧
      ((UL.new ([] : List α)).run (fun _ _ => true) [.extend [x, y, x], .len, .del (-1), .list]).2 = [.unit, .nat 2, .unit, .list [x]] := by
  have h' : y ≠ x := Ne.symm h
  refine ⟨?_, ?_, ?_⟩ <;> simp [UL.run, UL.step, UL.new, UL.make, fromkeys, pyIdx, h, h']

/-- **Counterexample.** Of two lists with the same elements `a == b` is true and `b == a` is not. -/
theorem C118_eq_not_symmetric (x : α) : (UL.mk [x, x] false).eq ⟨[x], true⟩ = true ∧ (UL.mk [x] true).eq ⟨[x, x], false⟩ = false := by
  constructor <;> simp [UL.eq, UL.make, fromkeys]

/-! ## `flatten` -/

mutual
/-- The leaves of an object with their places. -/
def walk : Obj → List (List Nat × Obj)
  | .str s => [([], .str s)]
  | .other n => [([], .other n)]
  | .seq xs => walks 0 xs
def walks (i : Nat) : List Obj → List (List Nat × Obj)
  | [] => []
  | x :: xs => (walk x).map (fun q => (i :: q.1, q.2)) ++ walks (i + 1) xs
end

mutual
theorem walk_snd : ∀ o, (walk o).map (·.2) = flatItem o
  | .str s => by simp [walk, flatItem]
  | .other n => by simp [walk, flatItem]
  | .seq xs => by rw [walk, flatItem]; exact walks_snd 0 xs
theorem walks_snd : ∀ (i : Nat) (xs : List Obj), (walks i xs).map (·.2) = doFlatten xs
  | _, [] => by simp [walks, doFlatten]
  | i, x :: xs => by
    rw [walks, doFlatten, List.map_append, walks_snd (i + 1) xs, ← walk_snd x]
    simp [List.map_map, Function.comp_def]
end

mutual
theorem walk_at : ∀ o p y, (p, y) ∈ walk o ↔ At o p y
  | .str s, p, y => by
    simp only [walk, List.mem_singleton, Prod.mk.injEq]
    constructor
    · rintro ⟨rfl, rfl⟩; exact .str s
    · intro h; cases h; exact ⟨rfl, rfl⟩
  | .other n, p, y => by
    simp only [walk, List.mem_singleton, Prod.mk.injEq]
    constructor
    · rintro ⟨rfl, rfl⟩; exact .other n
    · intro h; cases h; exact ⟨rfl, rfl⟩
  | .seq xs, p, y => by
    rw [walk, walks_at 0 xs p y]
    constructor
    · rintro ⟨k, x, q, rfl, hx, h⟩; rw [Nat.zero_add]; exact .seq xs k x q y hx h
    · intro h
      cases h with
      | seq _ k x q _ hx h => exact ⟨k, x, q, by rw [Nat.zero_add], hx, h⟩
theorem walks_at : ∀ (i : Nat) (xs : List Obj) p y, (p, y) ∈ walks i xs ↔ ∃ k x q, p = (i + k) :: q ∧ xs[k]? = some x ∧ At x q y
  | i, [], p, y => by simp [walks]
  | i, x :: xs, p, y => by
    rw [walks, List.mem_append, walks_at (i + 1) xs p y, List.mem_map]
    constructor
    · rintro (⟨⟨q, y'⟩, hq, e⟩ | ⟨k, x', q, rfl, hx, h⟩)
      · simp only [Prod.mk.injEq] at e
        obtain ⟨rfl, rfl⟩ := e
        exact ⟨0, x, q, rfl, rfl, (walk_at x q y').1 hq⟩
      · exact ⟨k + 1, x', q, by rw [Nat.add_assoc, Nat.add_comm 1 k], by simpa using hx, h⟩
    · rintro ⟨k, x', q, rfl, hx, h⟩
      cases k with
      | zero =>
        simp at hx; subst hx
        exact .inl ⟨(q, y), (walk_at x q y).2 h, rfl⟩
      | succ k => exact .inr ⟨k, x', q, by rw [Nat.add_assoc, Nat.add_comm 1 k], by simpa using hx, h⟩
end

mutual
theorem walk_sorted : ∀ o, (walk o).Pairwise fun a b => Before a.1 b.1
  | .str s => by simp [walk]
  | .other n => by simp [walk]
  | .seq xs => by rw [walk]; exact walks_sorted 0 xs
theorem walks_sorted : ∀ (i : Nat) (xs : List Obj), (walks i xs).Pairwise fun a b => Before a.1 b.1
  | _, [] => by simp [walks]
  | i, x :: xs => by
    rw [walks, List.pairwise_append]
    refine ⟨?_, walks_sorted (i + 1) xs, ?_⟩
    · rw [List.pairwise_map]
      exact (walk_sorted x).imp fun h => .deeper i _ _ h
    · intro a ha b hb
      obtain ⟨q, _, rfl⟩ := List.mem_map.1 ha
      obtain ⟨p, y⟩ := b
      obtain ⟨k, x', q', rfl, _⟩ := (walks_at (i + 1) xs p y).1 hb
      exact .here i _ _ _ (by omega)
end

/-- **C118.** `Flatten` gives all that is not a sequence, from all depths, none left out or taken twice, in the order of the places. -/
theorem C118_flatten (o : Obj) : ∃ w : List (List Nat × Obj), flatten o = w.map (·.2) ∧ (∀ p y, (p, y) ∈ w ↔ At o p y) ∧ w.Pairwise fun a b => Before a.1 b.1 := by
  refine ⟨walk o, ?_, walk_at o, walk_sorted o⟩
  rw [walk_snd]
  cases o <;> rfl

theorem doFlatten_leaves (l : List Obj) (h : ∀ x ∈ l, ∀ xs, x ≠ .seq xs) : doFlatten l = l := by
  induction l with
  | nil => rfl
  | cons x l ih =>
    rw [doFlatten, ih fun y hy => h y (by simp [hy])]
    cases x with
    | str s => rfl
    | other n => rfl
    | seq xs => exact absurd rfl (h (.seq xs) (by simp) xs)

/-- No sequence is left in the result, and flattening it again changes nothing. -/
theorem C118_flatten_twice (o : Obj) : (∀ x ∈ flatten o, ∀ xs, x ≠ .seq xs) ∧ flatten (.seq (flatten o)) = flatten o := by
  have h : ∀ x ∈ flatten o, ∀ xs, x ≠ .seq xs := by
    obtain ⟨w, h1, h2, _⟩ := C118_flatten o
    intro x hx xs e
    rw [h1] at hx
    obtain ⟨⟨p, y⟩, hq, rfl⟩ := List.mem_map.1 hx
    have := (h2 p y).1 hq
    clear h1 h2 hq
    dsimp only at e
    induction this with
    | str => cases e
    | other => cases e
    | seq _ _ _ _ _ _ _ ih => exact ih (by simpa using hx) e
  exact ⟨h, doFlatten_leaves _ h⟩

/-! ## Cases -/

example : Careful true [Op.append 3, .extend [1, 3, 2], .contains 1, .len, .del 0, .pop (-1), .insert 0 5, .list, .copy, .remove 5, .sort, .imul 2, .list] := by simp [Careful, Op.raw, Op.looked]
example : ((UL.new [7, 8]).run (fun a b => decide (a ≤ b)) [Op.append 8, .extend [1, 8, 2], .contains 1, .len, .del 0, .pop (-1), .insert 0 1, .list, .copy, .remove 8, .sort, .imul 2, .list]).2
    = [.unit, .unit, .bool true, .nat 4, .unit, .elem 2, .unit, .list [1, 8], .list [1, 8], .unit, .unit, .unit, .list [1]] := by decide +kernel
example : unique false (some [1, 1, 2, 3, 3]) [3, 1, 2, 3, 1] = [1, 2, 3] ∧ unique true none [3, 1, 2, 3, 1] = [3, 1, 2] ∧ unique false none [3, 1, 2, 3, 1] = [3, 1, 2] := by decide
example : flatten (.seq [.str "a", .seq [.other 1, .seq [], .seq [.str "b c"]], .other 2]) = [.str "a", .other 1, .str "b c", .other 2] := by simp [flatten, doFlatten, flatItem]

end Verif.Lists
