import Verif.Env.Append

/-!
# C50: what Append, Prepend and their Unique versions do to a variable
-/

set_option linter.unusedSectionVars false
set_option linter.unusedSimpArgs false

namespace Verif.Env.Append
variable (split : String → List String)

/-! ## Specification: the elements a value stands for -/

def Val.listy : Val → Bool
  | .list _ | .clvar _ => true
  | _ => false

def Val.isClvar : Val → Bool
  | .clvar _ => true
  | _ => false

def Val.isDict : Val → Bool
  | .dict _ => true
  | _ => false

/-- The elements a value contributes to a list.  `words` says whether strings are split into words (when a `CLVar` takes part).
Empty strings, None and empty dicts contribute nothing. -/
def parts (words : Bool) : Val → List Item
  | .sc .none => []
  | .sc (.str s) => if words then (split s).map (fun w => .sc (.str w)) else if s = "" then [] else [.sc (.str s)]
  | .sc (.obj n) => [.sc (.obj n)]
  | .list xs | .clvar xs => xs
  | .dict d => if words then [.dict d] else if d = [] then [] else [.dict d]

/-- **C50, Append.**  When the old or the new value is a list, the new value of the variable is a list with all the old elements followed by all the new ones, nothing lost, nothing reordered;
it is a `CLVar` exactly if one of the two was (and then strings are split into words). -/
theorem C50_append_order (old new : Val) (hl : old.listy || new.listy) (hd : old.isDict = false) :
    ∃ r, append split (some old) new = some r ∧
      r.items? = some (parts split (old.isClvar || new.isClvar) old ++ parts split (old.isClvar || new.isClvar) new) ∧
      r.isClvar = (old.isClvar || new.isClvar) := by
  cases old with
  | dict d => simp [Val.isDict] at hd
  | clvar xs =>
    refine ⟨_, rfl, ?_, rfl⟩
    cases new with
    | sc x => cases x <;> rfl
    | _ => rfl
  | list xs =>
    cases new with
    | list ys => exact ⟨_, rfl, rfl, rfl⟩
    | clvar ys => exact ⟨_, rfl, rfl, rfl⟩
    | sc x =>
      cases x with
      | none => exact ⟨.list xs, by simp [append, add, Val.truthy], by simp [Val.items?, parts], rfl⟩
      | obj n => exact ⟨_, rfl, rfl, rfl⟩
      | str s =>
        by_cases h : s = ""
        · exact ⟨.list xs, by simp [append, add, Val.truthy, h], by simp [Val.items?, parts, h, Val.isClvar], rfl⟩
        · exact ⟨.list (xs ++ [.sc (.str s)]), by simp [append, add, Val.truthy, h, Val.asItem],
            by simp [Val.items?, parts, h, Val.isClvar], rfl⟩
    | dict d =>
      by_cases h : d = []
      · exact ⟨.list xs, by simp [append, add, Val.truthy, h], by simp [Val.items?, parts, h, Val.isClvar], rfl⟩
      · exact ⟨.list (xs ++ [.dict d]), by simp [append, add, Val.truthy, h, Val.asItem],
          by simp [Val.items?, parts, h, Val.isClvar], rfl⟩
  | sc x =>
    cases new with
    | sc y => simp [Val.listy] at hl
    | dict d => simp [Val.listy] at hl
    | clvar ys => refine ⟨_, rfl, ?_, rfl⟩; cases x <;> rfl
    | list ys =>
      cases x with
      | none => exact ⟨.list ys, by simp [append, add, Val.truthy], by simp [Val.items?, parts], rfl⟩
      | obj n => exact ⟨_, rfl, rfl, rfl⟩
      | str s =>
        by_cases h : s = ""
        · exact ⟨.list ys, by simp [append, add, Val.truthy, h], by simp [Val.items?, parts, h, Val.isClvar], rfl⟩
        · exact ⟨.list (.sc (.str s) :: ys), by simp [append, add, Val.truthy, h, Val.asItem],
            by simp [Val.items?, parts, h, Val.isClvar], rfl⟩

/-- **C50, Prepend.**  The mirror image: all the new elements followed by all the old ones. -/
theorem C50_prepend_order (old new : Val) (hl : old.listy || new.listy) (hd : old.isDict = false) :
    ∃ r, prepend split (some old) new = some r ∧
      r.items? = some (parts split (old.isClvar || new.isClvar) new ++ parts split (old.isClvar || new.isClvar) old) ∧
      r.isClvar = (old.isClvar || new.isClvar) := by
  cases old with
  | dict d => simp [Val.isDict] at hd
  | clvar xs =>
    cases new with
    | sc x => cases x <;> exact ⟨_, rfl, rfl, rfl⟩
    | _ => exact ⟨_, rfl, rfl, rfl⟩
  | list xs =>
    cases new with
    | list ys => exact ⟨_, rfl, rfl, rfl⟩
    | clvar ys => exact ⟨_, rfl, rfl, rfl⟩
    | sc x =>
      cases x with
      | none => exact ⟨.list xs, by simp [prepend, add, Val.truthy], by simp [Val.items?, parts], rfl⟩
      | obj n => exact ⟨_, rfl, rfl, rfl⟩
      | str s =>
        by_cases h : s = ""
        · exact ⟨.list xs, by simp [prepend, add, Val.truthy, h], by simp [Val.items?, parts, h, Val.isClvar], rfl⟩
        · exact ⟨.list (.sc (.str s) :: xs), by simp [prepend, add, Val.truthy, h, Val.asItem],
            by simp [Val.items?, parts, h, Val.isClvar], rfl⟩
    | dict d =>
      by_cases h : d = []
      · exact ⟨.list xs, by simp [prepend, add, Val.truthy, h], by simp [Val.items?, parts, h, Val.isClvar], rfl⟩
      · exact ⟨.list (.dict d :: xs), by simp [prepend, add, Val.truthy, h, Val.asItem],
          by simp [Val.items?, parts, h, Val.isClvar], rfl⟩
  | sc x =>
    cases new with
    | sc y => simp [Val.listy] at hl
    | dict d => simp [Val.listy] at hl
    | clvar ys => cases x <;> exact ⟨_, rfl, rfl, rfl⟩
    | list ys =>
      cases x with
      | none => exact ⟨.list ys, by simp [prepend, add, Val.truthy], by simp [Val.items?, parts], rfl⟩
      | obj n => exact ⟨_, rfl, rfl, rfl⟩
      | str s =>
        by_cases h : s = ""
        · exact ⟨.list ys, by simp [prepend, add, Val.truthy, h], by simp [Val.items?, parts, h, Val.isClvar], rfl⟩
        · exact ⟨.list (ys ++ [.sc (.str s)]), by simp [prepend, add, Val.truthy, h, Val.asItem],
            by simp [Val.items?, parts, h, Val.isClvar], rfl⟩

/-- **C50, strings.**  Two strings are concatenated, with nothing in between. -/
theorem C50_strings (a b : String) :
    append split (some (.sc (.str a))) (.sc (.str b)) = some (.sc (.str (a ++ b))) ∧
    prepend split (some (.sc (.str a))) (.sc (.str b)) = some (.sc (.str (b ++ a))) := ⟨rfl, rfl⟩

/-- **C50, new variables.**  A variable that did not exist gets the value itself, from all four methods (duplicates removed by the Unique versions). -/
theorem C50_new_variable (v : Val) : append split none v = some v ∧ prepend split none v = some v := ⟨rfl, rfl⟩

theorem dget_dset (d : PyDict) (k v k' : Scalar) : dget (dset d k v) k' = if k' = k then some v else dget d k' := by
  unfold dset
  split
  · rename_i h
    rw [List.any_eq_true] at h
    induction d with
    | nil => simp at h
    | cons p d ih =>
      obtain ⟨a, b⟩ := p
      by_cases hak : a = k
      · subst hak
        by_cases hk : k' = a
        · subst hk; simp [dget]
        · have hk2 : a ≠ k' := fun e => hk e.symm
          simp only [dget, List.map_cons, if_true, List.find?_cons, hk2, decide_false, hk, if_false]
          clear ih h
          congr 1
          induction d with
          | nil => rfl
          | cons q d ih2 =>
            obtain ⟨c, e⟩ := q
            by_cases hc : c = a
            · subst hc; simp [hk2, ih2]
            · by_cases hc' : c = k'
              · simp [hc, hc']
                have : ¬ k' = a := hk
                simp [this]
              · simp [hc, hc', ih2]
      · have h' : ∃ x ∈ d, decide (x.1 = k) = true := by
          obtain ⟨x, hx, he⟩ := h
          rcases List.mem_cons.1 hx with rfl | hx
          · simp [hak] at he
          · exact ⟨x, hx, he⟩
        have := ih h'
        by_cases hk : a = k'
        · have : k' ≠ k := fun e => hak (hk.trans e)
          simp [dget, hak, hk, this]
        · simp only [dget] at this
          simp only [dget, List.map_cons, hak, if_false, List.find?_cons, hk, decide_false, this]
  · rename_i h
    have h' : ∀ p ∈ d, p.1 ≠ k := by
      intro p hp e; apply h; rw [List.any_eq_true]; exact ⟨p, hp, by simpa using e⟩
    simp only [dget, List.find?_append]
    by_cases hk : k' = k
    · subst hk
      have : d.find? (fun p => decide (p.1 = k')) = none := by
        rw [List.find?_eq_none]; intro p hp; simpa using h' p hp
      simp [this]
    · have hk2 : ¬ k = k' := fun e => hk e.symm
      simp [hk, hk2]

/-- The value a list of assignments gives `k`: the last one wins. -/
def lastFor (e : PyDict) (k : Scalar) : Option Scalar := (e.reverse.find? (fun p => p.1 = k)).map Prod.snd

theorem dget_dupdate (d e : PyDict) (k : Scalar) : dget (dupdate d e) k = (lastFor e k).or (dget d k) := by
  unfold dupdate lastFor
  induction e generalizing d with
  | nil => simp
  | cons p e ih =>
    obtain ⟨a, b⟩ := p
    rw [List.foldl_cons, ih, dget_dset, List.reverse_cons, List.find?_append]
    by_cases hk : k = a
    · subst hk; cases List.find? (fun p => decide (p.1 = k)) e.reverse <;> simp
    · have hk2 : ¬ a = k := fun e => hk e.symm
      cases List.find? (fun p => decide (p.1 = k)) e.reverse <;> simp [hk, hk2]

/-- **C50, dicts.**  Adding a dict to a dict, by any of the four methods, gives the keys of both; the new values win, other keys keep their old ones. -/
theorem C50_dicts (d e : PyDict) (de : Bool) :
    ∃ r : PyDict, append split (some (.dict d)) (.dict e) = some (.dict r) ∧ prepend split (some (.dict d)) (.dict e) = some (.dict r) ∧
      appendUnique split de (some (.dict d)) (.dict e) = some (.dict r) ∧ prependUnique split de (some (.dict d)) (.dict e) = some (.dict r) ∧
      ∀ k, dget r k = (lastFor e k).or (dget d k) := by
  refine ⟨dupdate d e, rfl, rfl, ?_, ?_, dget_dupdate d e⟩ <;> simp [appendUnique, prependUnique, Val.items?]

/-- **C50, when Append raises**: exactly when neither value is a list, the old one is neither a dict nor empty nor None, and they are not both strings; or a list with an unhashable
element is added to a dict. -/
theorem C50_append_raises_iff (old new : Val) :
    append split (some old) new = none ↔
      (old.listy = false ∧ new.listy = false ∧ old.isDict = false ∧ old.truthy = true ∧ ¬ ∃ a b, old = .sc (.str a) ∧ new = .sc (.str b)) ∨
      (∃ d xs, old = .dict d ∧ new.items? = some xs ∧ ∃ x ∈ xs, x.hashable = false) := by
  have hset : ∀ (xs : List Item) (d : PyDict), setAll d xs = none ↔ ∃ x ∈ xs, x.hashable = false := by
    intro xs
    induction xs with
    | nil => simp [setAll]
    | cons x xs ih =>
      intro d
      cases x with
      | sc k => simp [setAll, ih, Item.hashable]
      | dict e => simp [setAll, Item.hashable]
  cases old with
  | dict d =>
    cases new with
    | list xs => simp [append, intoDict, hset, Val.items?, Val.listy]
    | clvar xs => simp [append, intoDict, hset, Val.items?, Val.listy]
    | dict e => simp [append, intoDict, Val.items?, Val.isDict]
    | sc x =>
      cases x with
      | str s => by_cases h : s = "" <;> simp [append, intoDict, Val.items?, Val.isDict, h]
      | none => simp [append, intoDict, Val.items?, Val.isDict]
      | obj n => simp [append, intoDict, Val.items?, Val.isDict]
  | clvar xs => simp [append, add, Val.listy]
  | list xs =>
    cases new with
    | list ys => simp [append, add, Val.listy]
    | clvar ys => simp [append, add, Val.listy]
    | dict e => simp only [append, add, Val.listy]; split <;> simp
    | sc x => cases x <;> simp only [append, add, Val.listy] <;> split <;> simp
  | sc x =>
    cases new with
    | clvar ys => cases x <;> simp [append, add, Val.listy]
    | list ys => cases x <;> simp [append, add, Val.listy, Val.truthy]; split <;> simp
    | dict e => cases x <;> simp [append, add, Val.listy, Val.truthy, Val.isDict]
    | sc y => cases x <;> cases y <;> simp [append, add, Val.listy, Val.truthy, Val.isDict]

/-- **C50, when Prepend raises**: exactly when neither value is a list, the *new* one is neither empty nor None, the old one is not a dict, and they are not both strings; or a list with an unhashable
element is added to a dict.  (So `Prepend(X='a')` raises when `X` is None, although `Append(X='a')` does not.) -/
theorem C50_prepend_raises_iff (old new : Val) :
    prepend split (some old) new = none ↔
      (old.listy = false ∧ new.listy = false ∧ old.isDict = false ∧ new.truthy = true ∧ ¬ ∃ a b, old = .sc (.str a) ∧ new = .sc (.str b)) ∨
      (∃ d xs, old = .dict d ∧ new.items? = some xs ∧ ∃ x ∈ xs, x.hashable = false) := by
  have hset : ∀ (xs : List Item) (d : PyDict), setAll d xs = none ↔ ∃ x ∈ xs, x.hashable = false := by
    intro xs
    induction xs with
    | nil => simp [setAll]
    | cons x xs ih =>
      intro d
      cases x with
      | sc k => simp [setAll, ih, Item.hashable]
      | dict e => simp [setAll, Item.hashable]
  cases old with
  | dict d =>
    cases new with
    | list xs => simp [prepend, intoDict, hset, Val.items?, Val.listy]
    | clvar xs => simp [prepend, intoDict, hset, Val.items?, Val.listy]
    | dict e => simp [prepend, intoDict, Val.items?, Val.isDict]
    | sc x =>
      cases x with
      | str s => by_cases h : s = "" <;> simp [prepend, intoDict, Val.items?, Val.isDict, h]
      | none => simp [prepend, intoDict, Val.items?, Val.isDict]
      | obj n => simp [prepend, intoDict, Val.items?, Val.isDict]
  | clvar xs =>
    cases new with
    | sc y => cases y <;> simp [prepend, add, Val.listy]
    | _ => simp [prepend, add, Val.listy]
  | list xs =>
    cases new with
    | list ys => simp [prepend, add, Val.listy]
    | clvar ys => simp [prepend, add, Val.listy]
    | dict e => simp only [prepend, add, Val.listy]; split <;> simp
    | sc x => cases x <;> simp only [prepend, add, Val.listy] <;> split <;> simp
  | sc x =>
    cases new with
    | clvar ys => cases x <;> simp [prepend, add, Val.listy]
    | list ys => cases x <;> simp [prepend, add, Val.listy, Val.truthy]; split <;> simp
    | dict e => cases x <;> simp [prepend, add, Val.listy, Val.truthy, Val.isDict]
    | sc y => cases x <;> cases y <;> simp [prepend, add, Val.listy, Val.truthy, Val.isDict]

/-! ## The Unique versions -/

/-- First occurrences, in order. -/
def firsts (xs : List Item) : List Item := xs.eraseDups
/-- Last occurrences, in order. -/
def lasts (xs : List Item) : List Item := xs.reverse.eraseDups.reverse

/-- The elements of a value that is being added uniquely; a scalar counts as one element even when empty. -/
def values : Val → List Item
  | .list xs | .clvar xs => xs
  | v => [v.asItem]

theorem dedupFirst_eq (xs : List Item) (hx : ∀ x ∈ xs, x.hashable) : ∀ seen, dedupFirst seen xs = (xs.filter (· ∉ seen)).eraseDups := by
  induction xs with
  | nil => intro seen; rfl
  | cons x xs ih =>
    intro seen
    have hh := hx x List.mem_cons_self
    have ih' := ih (fun y hy => hx y (List.mem_cons_of_mem _ hy))
    by_cases hs : x ∈ seen
    · simp [dedupFirst, hh, hs, ih']
    · simp only [dedupFirst, hh, if_true, hs, if_false, ih', List.filter_cons, not_false_eq_true, decide_true, List.eraseDups_cons, List.filter_filter]
      congr 2
      apply List.filter_congr
      intro y _
      simp [List.mem_cons, not_or, beq_eq_decide]

theorem deleteDuplicates_false (xs : List Item) (hx : ∀ x ∈ xs, x.hashable) : deleteDuplicates xs false = firsts xs := by
  simp [deleteDuplicates, dedupFirst_eq xs hx, firsts]

theorem deleteDuplicates_true (xs : List Item) (hx : ∀ x ∈ xs, x.hashable) : deleteDuplicates xs true = lasts xs := by
  simp [deleteDuplicates, dedupFirst_eq xs.reverse (fun x h => hx x (List.mem_reverse.1 h)), lasts]

theorem eraseDups_mem (xs : List Item) (x : Item) : x ∈ xs.eraseDups ↔ x ∈ xs := List.mem_eraseDups

theorem firsts_mem (xs : List Item) (x : Item) : x ∈ firsts xs ↔ x ∈ xs := eraseDups_mem xs x
theorem lasts_mem (xs : List Item) (x : Item) : x ∈ lasts xs ↔ x ∈ xs := by simp [lasts]

theorem eraseDups_nodup (xs : List Item) : xs.eraseDups.Nodup := by
  induction h : xs.length using Nat.strongRecOn generalizing xs with
  | _ n ih =>
    cases xs with
    | nil => simp
    | cons x xs =>
      rw [List.eraseDups_cons, List.nodup_cons]
      refine ⟨by simp, ih _ ?_ _ rfl⟩
      subst h
      exact Nat.lt_succ_of_le (List.length_filter_le _ _)

theorem firsts_nodup (xs : List Item) : (firsts xs).Nodup := eraseDups_nodup xs
theorem lasts_nodup (xs : List Item) : (lasts xs).Nodup := List.nodup_reverse.2 (eraseDups_nodup _)

theorem firsts_single (x : Item) : firsts [x] = [x] := by simp [firsts, List.eraseDups_cons]
theorem lasts_single (x : Item) : lasts [x] = [x] := by simp [lasts, List.eraseDups_cons]

/-- The elements already in the variable, for the Unique versions: an empty string or None counts as not set. -/
def existing : Option Val → List Item
  | none => []
  | some (.sc .none) => []
  | some (.sc (.str s)) => if s = "" then [] else [.sc (.str s)]
  | some v => values v

/-- The variable and the added value are such that the result is a list: one of them is a list. -/
def Listed (old : Option Val) (new : Val) : Prop := new.listy = true ∨ ∃ v, old = some v ∧ v.listy = true

theorem appendUnique_items (de : Bool) (old : Option Val) (new : Val) (hl : Listed old new) (hh : ∀ x ∈ values new, x.hashable) :
    ∃ r, appendUnique split de old new = some r ∧ r.listy = true ∧
      values r = if de then (existing old).filter (· ∉ values new) ++ lasts (values new)
        else existing old ++ (firsts (values new)).filter (· ∉ existing old) := by
  have hdd : ∀ xs, (∀ x ∈ xs, x.hashable) → deleteDuplicates xs de = if de then lasts xs else firsts xs := by
    intro xs hx; cases de
    · simp [deleteDuplicates_false xs hx]
    · simp [deleteDuplicates_true xs hx]
  -- the added value is a list
  have hnew : ∀ ys, new.items? = some ys → values new = ys → ∃ r, appendUnique split de old new = some r ∧ r.listy = true ∧
      values r = if de then (existing old).filter (· ∉ ys) ++ lasts ys else existing old ++ (firsts ys).filter (· ∉ existing old) := by
    intro ys hys hv
    have hy : ∀ x ∈ ys, x.hashable := by rw [← hv]; exact hh
    simp only [appendUnique, hys, hdd ys hy]
    cases old with
    | none => cases de <;> simp [existing, values, Val.listy]
    | some v =>
      simp only
      split
      · rename_i he
        rcases he with rfl | rfl <;> cases de <;> simp [existing, values, Val.listy]
      · rename_i he
        push Not at he
        have hex : existing (some v) = values v := by
          cases v with
          | sc x =>
            cases x with
            | none => exact absurd rfl he.2
            | str s => have : s ≠ "" := fun e => he.1 (by rw [e]); simp [existing, this, values, Val.asItem]
            | obj n => rfl
          | _ => rfl
        rw [hex]
        cases v with
        | list xs => cases de <;> simp [values, Val.items?, Val.withItems, Val.listy, lasts_mem] <;>
            (first | done | rfl | (apply List.filter_congr; intro y _; simp) | skip)
        | clvar xs => cases de <;> simp [values, Val.items?, Val.withItems, Val.listy, lasts_mem] <;>
            (first | done | rfl | (apply List.filter_congr; intro y _; simp) | skip)
        | dict d => cases de <;> simp [values, Val.items?, Val.withItems, Val.listy, lasts_mem] <;>
            (first | done | rfl | (apply List.filter_congr; intro y _; simp) | skip)
        | sc x => cases de <;> simp [values, Val.items?, Val.withItems, Val.listy, lasts_mem] <;>
            (first | done | rfl | (apply List.filter_congr; intro y _; simp) | skip)
  cases new with
  | list ys => exact hnew ys rfl rfl
  | clvar ys => exact hnew ys rfl rfl
  | sc x =>
    rcases hl with h | ⟨v, rfl, hv⟩
    · simp [Val.listy] at h
    · cases v with
      | sc x => simp [Val.listy] at hv
      | dict d => simp [Val.listy] at hv
      | list xs =>
        by_cases hm : Item.sc x ∈ xs <;> cases de <;>
          simp [appendUnique, values, existing, Val.items?, Val.withItems, Val.listy, hm, Val.asItem, firsts_single, lasts_single] <;>
            (first | done | rfl | (apply List.filter_congr; intro y _; by_cases hy : y = Item.sc x <;> simp [hy]) | skip)
      | clvar xs =>
        by_cases hm : Item.sc x ∈ xs <;> cases de <;>
          simp [appendUnique, values, existing, Val.items?, Val.withItems, Val.listy, hm, Val.asItem, firsts_single, lasts_single] <;>
            (first | done | rfl | (apply List.filter_congr; intro y _; by_cases hy : y = Item.sc x <;> simp [hy]) | skip)
  | dict d =>
    exact absurd (hh (.dict d) (by simp [values, Val.asItem])) (by simp [Item.hashable])

theorem prependUnique_items (de : Bool) (old : Option Val) (new : Val) (hl : Listed old new) (hh : ∀ x ∈ values new, x.hashable) :
    ∃ r, prependUnique split de old new = some r ∧ r.listy = true ∧
      values r = if de then firsts (values new) ++ (existing old).filter (· ∉ values new)
        else (lasts (values new)).filter (· ∉ existing old) ++ existing old := by
  have hdd : ∀ xs, (∀ x ∈ xs, x.hashable) → deleteDuplicates xs (!de) = if de then firsts xs else lasts xs := by
    intro xs hx; cases de
    · simp [deleteDuplicates_true xs hx]
    · simp [deleteDuplicates_false xs hx]
  have hnew : ∀ ys, new.items? = some ys → values new = ys → ∃ r, prependUnique split de old new = some r ∧ r.listy = true ∧
      values r = if de then firsts ys ++ (existing old).filter (· ∉ ys) else (lasts ys).filter (· ∉ existing old) ++ existing old := by
    intro ys hys hv
    have hy : ∀ x ∈ ys, x.hashable := by rw [← hv]; exact hh
    simp only [prependUnique, hys, hdd ys hy]
    cases old with
    | none => cases de <;> simp [existing, values, Val.listy]
    | some v =>
      simp only
      split
      · rename_i he
        rcases he with rfl | rfl <;> cases de <;> simp [existing, values, Val.listy]
      · rename_i he
        push Not at he
        have hex : existing (some v) = values v := by
          cases v with
          | sc x =>
            cases x with
            | none => exact absurd rfl he.2
            | str s => have : s ≠ "" := fun e => he.1 (by rw [e]); simp [existing, this, values, Val.asItem]
            | obj n => rfl
          | _ => rfl
        rw [hex]
        cases v with
        | list xs => cases de <;> simp [values, Val.items?, Val.withItems, Val.listy, firsts_mem] <;>
            (first | done | rfl | (apply List.filter_congr; intro y _; simp) | skip)
        | clvar xs => cases de <;> simp [values, Val.items?, Val.withItems, Val.listy, firsts_mem] <;>
            (first | done | rfl | (apply List.filter_congr; intro y _; simp) | skip)
        | dict d => cases de <;> simp [values, Val.items?, Val.withItems, Val.listy, firsts_mem] <;>
            (first | done | rfl | (apply List.filter_congr; intro y _; simp) | skip)
        | sc x => cases de <;> simp [values, Val.items?, Val.withItems, Val.listy, firsts_mem] <;>
            (first | done | rfl | (apply List.filter_congr; intro y _; simp) | skip)
  cases new with
  | list ys => exact hnew ys rfl rfl
  | clvar ys => exact hnew ys rfl rfl
  | sc x =>
    rcases hl with h | ⟨v, rfl, hv⟩
    · simp [Val.listy] at h
    · cases v with
      | sc x => simp [Val.listy] at hv
      | dict d => simp [Val.listy] at hv
      | list xs =>
        by_cases hm : Item.sc x ∈ xs <;> cases de <;>
          simp [prependUnique, values, existing, Val.items?, Val.withItems, Val.listy, hm, Val.asItem, firsts_single, lasts_single] <;>
            (first | done | rfl | (apply List.filter_congr; intro y _; by_cases hy : y = Item.sc x <;> simp [hy]) | skip)
      | clvar xs =>
        by_cases hm : Item.sc x ∈ xs <;> cases de <;>
          simp [prependUnique, values, existing, Val.items?, Val.withItems, Val.listy, hm, Val.asItem, firsts_single, lasts_single] <;>
            (first | done | rfl | (apply List.filter_congr; intro y _; by_cases hy : y = Item.sc x <;> simp [hy]) | skip)
  | dict d =>
    exact absurd (hh (.dict d) (by simp [values, Val.asItem])) (by simp [Item.hashable])

/-- **C50, AppendUnique.**  When the variable or the added value is a list: the old elements stay, in order, and are followed by those of the new ones that were not there, each once, in the order of their
first occurrences. -/
theorem C50_appendUnique_order (old : Option Val) (new : Val) (hl : Listed old new) (hh : ∀ x ∈ values new, x.hashable) :
    ∃ r, appendUnique split false old new = some r ∧ r.listy = true ∧
      values r = existing old ++ (firsts (values new)).filter (· ∉ existing old) := by
  simpa using appendUnique_items split false old new hl hh

/-- **C50, AppendUnique with delete_existing.**  The old elements other than the new ones stay, in order, and are followed by all the new ones, each once, in the order of their last occurrences. -/
theorem C50_appendUnique_moves (old : Option Val) (new : Val) (hl : Listed old new) (hh : ∀ x ∈ values new, x.hashable) :
    ∃ r, appendUnique split true old new = some r ∧ r.listy = true ∧
      values r = (existing old).filter (· ∉ values new) ++ lasts (values new) := by
  simpa using appendUnique_items split true old new hl hh

/-- **C50, PrependUnique.** -/
theorem C50_prependUnique_order (old : Option Val) (new : Val) (hl : Listed old new) (hh : ∀ x ∈ values new, x.hashable) :
    ∃ r, prependUnique split false old new = some r ∧ r.listy = true ∧
      values r = (lasts (values new)).filter (· ∉ existing old) ++ existing old := by
  simpa using prependUnique_items split false old new hl hh

/-- **C50, PrependUnique with delete_existing.** -/
theorem C50_prependUnique_moves (old : Option Val) (new : Val) (hl : Listed old new) (hh : ∀ x ∈ values new, x.hashable) :
    ∃ r, prependUnique split true old new = some r ∧ r.listy = true ∧
      values r = firsts (values new) ++ (existing old).filter (· ∉ values new) := by
  simpa using prependUnique_items split true old new hl hh

theorem existing_listy (r : Val) (h : r.listy = true) : existing (some r) = values r := by
  cases r <;> simp_all [existing, Val.listy]

/-- **C50, nothing lost.**  After a Unique addition every old element and every added one is in the list. -/
theorem C50_unique_nothing_lost (de : Bool) (old : Option Val) (new : Val) (hl : Listed old new) (hh : ∀ x ∈ values new, x.hashable) (x : Item) :
    (∃ r, appendUnique split de old new = some r ∧ (x ∈ values r ↔ x ∈ existing old ∨ x ∈ values new)) ∧
    (∃ r, prependUnique split de old new = some r ∧ (x ∈ values r ↔ x ∈ existing old ∨ x ∈ values new)) := by
  obtain ⟨r, h1, _, h3⟩ := appendUnique_items split de old new hl hh
  obtain ⟨r', h1', _, h3'⟩ := prependUnique_items split de old new hl hh
  refine ⟨⟨r, h1, ?_⟩, r', h1', ?_⟩
  · rw [h3]; cases de <;> simp [firsts_mem, lasts_mem] <;> tauto
  · rw [h3']; cases de <;> simp [firsts_mem, lasts_mem] <;> tauto

/-- **C50, unique.**  With `delete_existing`, every added element is in the list exactly once; without, as often as it was before, or once if it was not there. -/
theorem C50_unique_count (de : Bool) (old : Option Val) (new : Val) (hl : Listed old new) (hh : ∀ x ∈ values new, x.hashable) (x : Item) (hx : x ∈ values new) :
    (∃ r, appendUnique split de old new = some r ∧
      (values r).count x = if de = true ∨ x ∉ existing old then 1 else (existing old).count x) ∧
    (∃ r, prependUnique split de old new = some r ∧
      (values r).count x = if de = true ∨ x ∉ existing old then 1 else (existing old).count x) := by
  obtain ⟨r, h1, _, h3⟩ := appendUnique_items split de old new hl hh
  obtain ⟨r', h1', _, h3'⟩ := prependUnique_items split de old new hl hh
  have c1 : ∀ {l : List Item}, l.Nodup → x ∈ l → l.count x = 1 := fun hn hm => List.count_eq_one_of_mem hn hm
  have f0 : ∀ l : List Item, (l.filter (· ∉ values new)).count x = 0 := by
    intro l; apply List.count_eq_zero_of_not_mem; simp [hx]
  have fl := c1 (lasts_nodup (values new)) ((lasts_mem _ _).2 hx)
  have ff := c1 (firsts_nodup (values new)) ((firsts_mem _ _).2 hx)
  refine ⟨⟨r, h1, ?_⟩, r', h1', ?_⟩
  · rw [h3]
    cases de
    · simp only [Bool.false_eq_true, if_false, false_or, List.count_append]
      by_cases hm : x ∈ existing old
      · have : ((firsts (values new)).filter (· ∉ existing old)).count x = 0 := by
          apply List.count_eq_zero_of_not_mem; simp [hm]
        rw [this, if_neg (by simpa using hm)]; omega
      · have : ((firsts (values new)).filter (· ∉ existing old)).count x = 1 :=
          c1 ((firsts_nodup _).filter _) (by simp [hm, firsts_mem, hx])
        rw [this, if_pos hm, List.count_eq_zero_of_not_mem hm]
    · rw [if_pos rfl, List.count_append, f0, fl]; simp
  · rw [h3']
    cases de
    · simp only [Bool.false_eq_true, if_false, false_or, List.count_append]
      by_cases hm : x ∈ existing old
      · have : ((lasts (values new)).filter (· ∉ existing old)).count x = 0 := by
          apply List.count_eq_zero_of_not_mem; simp [hm]
        rw [this, if_neg (by simpa using hm)]; omega
      · have : ((lasts (values new)).filter (· ∉ existing old)).count x = 1 :=
          c1 ((lasts_nodup _).filter _) (by simp [hm, lasts_mem, hx])
        rw [this, if_pos hm, List.count_eq_zero_of_not_mem hm]
    · rw [if_pos rfl, List.count_append, f0, ff]; simp

/-- **C50, idempotence.**  Doing the same Unique addition again changes no element and no position. -/
theorem C50_unique_idempotent (de : Bool) (old : Option Val) (new : Val) (hl : Listed old new) (hh : ∀ x ∈ values new, x.hashable) :
    (∃ r r', appendUnique split de old new = some r ∧ appendUnique split de (some r) new = some r' ∧ values r' = values r) ∧
    (∃ r r', prependUnique split de old new = some r ∧ prependUnique split de (some r) new = some r' ∧ values r' = values r) := by
  obtain ⟨r, h1, h2, h3⟩ := appendUnique_items split de old new hl hh
  obtain ⟨q, k1, k2, k3⟩ := prependUnique_items split de old new hl hh
  obtain ⟨r', h1', h2', h3'⟩ := appendUnique_items split de (some r) new (.inr ⟨r, rfl, h2⟩) hh
  obtain ⟨q', k1', k2', k3'⟩ := prependUnique_items split de (some q) new (.inr ⟨q, rfl, k2⟩) hh
  rw [existing_listy r h2] at h3'
  rw [existing_listy q k2] at k3'
  refine ⟨⟨r, r', h1, h1', ?_⟩, q, q', k1, k1', ?_⟩
  · rw [h3', h3]
    cases de
    · simp only [Bool.false_eq_true, if_false]
      have : ∀ l : List Item, (∀ x ∈ l, x ∈ values new) →
          l.filter (· ∉ existing old ++ (firsts (values new)).filter (· ∉ existing old)) = [] := by
        intro l hlx; rw [List.filter_eq_nil_iff]; intro x hx
        simp only [List.mem_append, List.mem_filter, firsts_mem, decide_eq_true_eq, not_or]
        have := hlx x hx; tauto
      rw [this _ (fun x hx => (firsts_mem _ _).1 hx), List.append_nil]
    · simp only [if_true, List.filter_append, List.filter_filter]
      have : (lasts (values new)).filter (· ∉ values new) = [] := by
        rw [List.filter_eq_nil_iff]; intro x hx; simp [(lasts_mem _ _).1 hx]
      rw [this]; simp
  · rw [k3', k3]
    cases de
    · simp only [Bool.false_eq_true, if_false]
      have : ∀ l : List Item, (∀ x ∈ l, x ∈ values new) →
          l.filter (· ∉ (lasts (values new)).filter (· ∉ existing old) ++ existing old) = [] := by
        intro l hlx; rw [List.filter_eq_nil_iff]; intro x hx
        simp only [List.mem_append, List.mem_filter, lasts_mem, decide_eq_true_eq, not_or]
        have := hlx x hx; tauto
      rw [this _ (fun x hx => (lasts_mem _ _).1 hx), List.nil_append]
    · simp only [if_true, List.filter_append, List.filter_filter]
      have : (firsts (values new)).filter (· ∉ values new) = [] := by
        rw [List.filter_eq_nil_iff]; intro x hx; simp [(firsts_mem _ _).1 hx]
      rw [this]; simp

/-! ## Whole calls -/

/-- **C50, frame.**  A call changes no variable it does not name, even when it raises half-way. -/
theorem C50_other_variables_unchanged {κ : Type} [DecidableEq κ] (f : Option Val → Val → Option Val) (env : κ → Option Val) (kw : List (κ × Val)) (k : κ)
    (h : ∀ v, (k, v) ∉ kw) : (callAll f env kw).1 k = env k := by
  induction kw generalizing env with
  | nil => rfl
  | cons p kw ih =>
    obtain ⟨k', v⟩ := p
    rw [callAll]
    split
    · rfl
    · rw [ih _ (fun v hv => h v (List.mem_cons_of_mem _ hv))]
      have : k ≠ k' := fun e => h v (by subst e; exact List.mem_cons_self)
      simp [this]

/-- **C50, each variable by itself.**  In a call that does not raise, every named variable gets what the method gives for it alone. -/
theorem C50_each_variable {κ : Type} [DecidableEq κ] (f : Option Val → Val → Option Val) (env : κ → Option Val) (kw : List (κ × Val))
    (hu : (kw.map Prod.fst).Nodup) (h : (callAll f env kw).2 = false) (k : κ) (v : Val) (hk : (k, v) ∈ kw) :
    (callAll f env kw).1 k = f (env k) v := by
  induction kw generalizing env with
  | nil => cases hk
  | cons p kw ih =>
    obtain ⟨k', v'⟩ := p
    rw [List.map_cons, List.nodup_cons] at hu
    rw [callAll] at h ⊢
    cases hf : f (env k') v' with
    | none => simp [hf] at h
    | some r =>
      simp only [hf] at h ⊢
      rcases List.mem_cons.1 hk with e | hk
      · simp only [Prod.mk.injEq] at e
        obtain ⟨rfl, rfl⟩ := e
        rw [C50_other_variables_unchanged]
        · simp [hf]
        · intro v hv; exact hu.1 (List.mem_map.2 ⟨_, hv, rfl⟩)
      · rw [ih _ hu.2 h hk]
        have : k ≠ k' := fun e => hu.1 (List.mem_map.2 ⟨_, hk, e⟩)
        simp [this]

/-! ## Counterexamples and concrete cases -/

/-- A stand-in for `str.split()` on the words used below. -/
def demoSplit (s : String) : List String := if s = "-O2 -Wall" then ["-O2", "-Wall"] else if s = "" then [] else [s]

def S (s : String) : Item := .sc (.str s)

/-- **Counterexample.**  The docstring says the result has no duplicates of the values passed, so that an existing list may have to be pruned: it is not pruned. -/
theorem C50_counterexample_existing_duplicates :
    appendUnique demoSplit false (some (.list [S "a", S "a"])) (.list [S "a"]) = some (.list [S "a", S "a"]) := by decide +kernel

/-- **Counterexample.**  On plain strings AppendUnique is neither unique nor idempotent, and with `delete_existing` it raises TypeError. -/
theorem C50_counterexample_strings :
    appendUnique demoSplit false (some (.sc (.str "a"))) (.sc (.str "a")) = some (.sc (.str "aa")) ∧
    ∀ s t : String, s ≠ "" → appendUnique demoSplit true (some (.sc (.str s))) (.sc (.str t)) = none := by
  refine ⟨by decide +kernel, ?_⟩
  intro s t h
  simp [appendUnique, Val.items?, h]

/-- **Counterexample.**  `AppendUnique(delete_existing=True)` turns a `CLVar` into a plain list, so that a string appended afterwards is no longer split into words. -/
theorem C50_counterexample_clvar_lost :
    append demoSplit (some (.clvar [S "-g"])) (.sc (.str "-O2 -Wall")) = some (.clvar [S "-g", S "-O2", S "-Wall"]) ∧
    appendUnique demoSplit true (some (.clvar [S "-g"])) (.sc (.str "-g")) = some (.list [S "-g"]) ∧
    append demoSplit (some (.list [S "-g"])) (.sc (.str "-O2 -Wall")) = some (.list [S "-g", S "-O2 -Wall"]) := by decide +kernel

/-- **Counterexample.**  `AppendUnique` of a string to a `CLVar` does not split the string, as `Append` does. -/
theorem C50_counterexample_unique_does_not_split :
    appendUnique demoSplit false (some (.clvar [S "-g"])) (.sc (.str "-O2 -Wall")) = some (.clvar [S "-g", S "-O2 -Wall"]) := by decide +kernel

/-- **Counterexample.**  `Prepend(X='a')` raises AttributeError when X is None; `Append(X='a')` sets it. -/
theorem C50_counterexample_prepend_to_none :
    prepend demoSplit (some (.sc .none)) (.sc (.str "a")) = none ∧ append demoSplit (some (.sc .none)) (.sc (.str "a")) = some (.sc (.str "a")) := by
  decide +kernel

/-- The theorems apply to concrete values. -/
theorem C50_nonvacuous :
    append demoSplit (some (.list [S "a"])) (.list [S "b", S "a"]) = some (.list [S "a", S "b", S "a"]) ∧
    prepend demoSplit (some (.sc (.str "a"))) (.list [S "b"]) = some (.list [S "b", S "a"]) ∧
    appendUnique demoSplit false (some (.list [S "a", S "b"])) (.list [S "c", S "b", S "d", S "c"]) = some (.list [S "a", S "b", S "c", S "d"]) ∧
    appendUnique demoSplit true (some (.list [S "a", S "b"])) (.list [S "c", S "b", S "d", S "c"]) = some (.list [S "a", S "b", S "d", S "c"]) ∧
    prependUnique demoSplit true (some (.clvar [S "a", S "b"])) (.list [S "c", S "b", S "d", S "c"]) = some (.list [S "c", S "b", S "d", S "a"]) ∧
    Listed (some (.list [S "a", S "b"])) (.list [S "c", S "b"]) := by
  refine ⟨by decide +kernel, by decide +kernel, by decide +kernel, by decide +kernel, by decide +kernel, .inl rfl⟩

end Verif.Env.Append
