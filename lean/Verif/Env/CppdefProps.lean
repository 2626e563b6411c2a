import Verif.Env.Cppdef

/-!
# C51: adding preprocessor macros
-/

set_option linter.unusedSectionVars false

namespace Verif.Env.Cppdef
variable (words : Str → List Str) (txt : Int → Str)

/-! ## Specification -/

/-- The macros a value stands for, one entry each. -/
def entriesOf : Val → List Entry
  | .str s => (words s).map Entry.str
  | .tuple [n] => [.seq true [n, .none]]
  | .tuple xs => [.seq true xs]
  | .list es | .deque es => es
  | .dict d => d.map (fun p => .seq true [p.1, p.2])

/-- Two entries define the same macro with the same value, as far as uniqueness is concerned. -/
def Same (a b : Entry) : Prop := conv a = conv b

instance (a b : Entry) : Decidable (Same a b) := inferInstanceAs (Decidable (conv a = conv b))

theorem Same.refl (a : Entry) : Same a a := rfl
theorem Same.symm {a b : Entry} (h : Same a b) : Same b a := Eq.symm h
theorem Same.trans {a b c : Entry} (h : Same a b) (h' : Same b c) : Same a c := Eq.trans h h'

/-- The flags of a list of entries. -/
def flagsE (es : List Entry) : Option (List Str) := (es.mapM (entryFlags txt)).map List.flatten

theorem flagsE_nil : flagsE txt [] = some [] := rfl

theorem flagsE_cons (e : Entry) (es : List Entry) : flagsE txt (e :: es) =
    (entryFlags txt e).bind fun f => (flagsE txt es).map fun g => f ++ g := by
  simp only [flagsE, List.mapM_cons]
  cases entryFlags txt e <;> cases List.mapM (entryFlags txt) es <;> simp

theorem flagsE_append (a b : List Entry) : flagsE txt (a ++ b) = (flagsE txt a).bind fun f => (flagsE txt b).map fun g => f ++ g := by
  induction a with
  | nil => cases h : flagsE txt b <;> simp [flagsE_nil, h]
  | cons e a ih =>
    rw [List.cons_append, flagsE_cons, ih, flagsE_cons]
    cases entryFlags txt e <;> cases flagsE txt a <;> cases flagsE txt b <;> simp

theorem flagsE_words (ws : List Str) : flagsE txt (ws.map Entry.str) = some ws := by
  induction ws with
  | nil => rfl
  | cons w ws ih => rw [List.map_cons, flagsE_cons, ih]; rfl

theorem flagsE_dict (d : List (Sc × Sc)) : flagsE txt (dictEntries d) = some (d.map fun p => macroText txt p.1 p.2) := by
  induction d with
  | nil => rfl
  | cons p d ih =>
    show flagsE txt (.seq true [p.1, p.2] :: dictEntries d) = _
    rw [flagsE_cons, ih]; rfl

theorem flagsE_single (e : Entry) : flagsE txt [e] = entryFlags txt e := by
  rw [flagsE_cons, flagsE_nil]; cases entryFlags txt e <;> simp

theorem entryFlags_norm (n : Sc) : entryFlags txt (.seq true [n, .none]) = entryFlags txt (.seq true [n]) := by
  simp [entryFlags, macroText]

/-- The entries of a value make its flags. -/
theorem flagsE_entriesOf (v : Val) : flagsE txt (entriesOf words v) = flags words txt v := by
  cases v with
  | str s => exact flagsE_words txt _
  | list es => rfl
  | deque es => rfl
  | dict d => exact flagsE_dict txt d
  | tuple xs =>
    cases xs with
    | nil => rfl
    | cons n xs =>
      cases xs with
      | nil => simp only [entriesOf, flagsE_single]; exact entryFlags_norm txt n
      | cons m xs => simp only [entriesOf, flagsE_single]; rfl

/-- The conversion to a deque keeps the flags. -/
theorem toDeque_flags {v : Val} {F : List Str} (h : flags words txt v = some F) :
    ∃ ds, toDeque words v = some ds ∧ flagsE txt ds = some F := by
  cases v with
  | deque es => exact ⟨es, rfl, h⟩
  | str s => refine ⟨_, rfl, ?_⟩; rw [flagsE_words]; exact h
  | dict d => refine ⟨_, rfl, ?_⟩; rw [flagsE_dict]; exact h
  | tuple xs =>
    match xs, h with
    | [], h => simp [flags, entryFlags] at h
    | [n], h => exact ⟨[.seq true [n]], rfl, by rw [flagsE_single]; exact h⟩
    | [n, m], h => exact ⟨[.seq true [n, m]], rfl, by rw [flagsE_single]; exact h⟩
    | _ :: _ :: _ :: _, h => simp [flags, entryFlags] at h
  | list es =>
    refine ⟨_, rfl, ?_⟩
    rw [← h]
    show _ = flagsE txt es
    clear h
    induction es with
    | nil => rfl
    | cons e es ih =>
      rw [List.flatMap_cons, flagsE_append, ih, flagsE_cons]
      cases e with
      | dict d => simp only [flagsE_dict]; rfl
      | str s => rw [flagsE_single]
      | seq t xs => rw [flagsE_single]

theorem foldl_addOne_plain (de : Bool) (es ds : List Entry) : es.foldl (addOne false false de) ds = ds ++ es := by
  induction es generalizing ds with
  | nil => simp
  | cons e es ih => rw [List.foldl_cons, ih]; simp [addOne, push]

theorem foldl_addOne_plain_pre (de : Bool) (es ds : List Entry) : es.foldl (addOne true false de) ds = es.reverse ++ ds := by
  induction es generalizing ds with
  | nil => simp
  | cons e es ih => rw [List.foldl_cons, ih]; simp [addOne, push]

theorem addList_plain (de : Bool) (es ds : List Entry) : addList false false de ds es = ds ++ es := by
  have : ∀ (es : List Entry) (st : List Entry × List Entry), es.foldl (listStep false de) st = (st.1, st.2 ++ es) := by
    intro es; induction es with
    | nil => simp
    | cons e es ih => intro st; rw [List.foldl_cons, ih]; simp [listStep]
  simp [addList, this]

theorem addList_plain_pre (de : Bool) (es ds : List Entry) : addList true false de ds es = es.reverse ++ ds := by
  have : ∀ (es : List Entry) (st : List Entry × List Entry), es.foldl (listStep false de) st = (st.1, st.2 ++ es) := by
    intro es; induction es with
    | nil => simp
    | cons e es ih => intro st; rw [List.foldl_cons, ih]; simp [listStep]
  simp [addList, this]

theorem addTo_plain (de : Bool) (ds : List Entry) (v : Val) (h : flags words txt v ≠ none) :
    addTo words false false de ds v = some (ds ++ entriesOf words v) ∧ addTo words true false de ds v = some ((entriesOf words v).reverse ++ ds) := by
  cases v with
  | dict d => exact ⟨by simp only [addTo, foldl_addOne_plain]; rfl, by simp only [addTo, foldl_addOne_plain_pre]; rfl⟩
  | str s => exact ⟨by simp only [addTo, foldl_addOne_plain]; rfl, by simp only [addTo, foldl_addOne_plain_pre]; rfl⟩
  | list es => exact ⟨by simp only [addTo, addList_plain]; rfl, by simp only [addTo, addList_plain_pre]; rfl⟩
  | deque es => exact ⟨by simp only [addTo, addList_plain]; rfl, by simp only [addTo, addList_plain_pre]; rfl⟩
  | tuple xs =>
    match xs, h with
    | [], h => exact absurd rfl h
    | [n], _ => exact ⟨by simp [addTo, addOne, push, entriesOf], by simp [addTo, addOne, push, entriesOf]⟩
    | [n, m], _ => exact ⟨by simp [addTo, addOne, push, entriesOf], by simp [addTo, addOne, push, entriesOf]⟩
    | _ :: _ :: _ :: _, h => exact absurd rfl h

/-- **C51, Append.**  Whatever forms the present CPPDEFINES and the added value have, as long as each is acceptable by itself, the flags on the command line afterwards are the
flags before followed by the flags of the added value. -/
theorem C51_append_flags (de : Bool) (cur v : Val) (F G : List Str) (hF : flags words txt cur = some F) (hG : flags words txt v = some G) :
    ∃ r, addCpp words false false de (some cur) v = some r ∧ flags words txt r = some (F ++ G) := by
  obtain ⟨ds, h1, h2⟩ := toDeque_flags words txt hF
  refine ⟨.deque (ds ++ entriesOf words v), ?_, ?_⟩
  · simp [addCpp, h1, (addTo_plain words txt de ds v (by simp [hG])).1]
  · show flagsE txt _ = _
    rw [flagsE_append, h2, flagsE_entriesOf, hG]; rfl

/-- **C51, new variable.**  All four methods on an environment without CPPDEFINES give the flags of the value. -/
theorem C51_new_variable (pre uniq de : Bool) (v : Val) (G : List Str) (hG : flags words txt v = some G) :
    ∃ r, addCpp words pre uniq de none v = some r ∧ flags words txt r = some G := by
  cases v with
  | str s => exact ⟨_, rfl, by show flagsE txt _ = _; rw [flagsE_words]; exact hG⟩
  | tuple xs => exact ⟨_, rfl, hG⟩
  | list es => exact ⟨_, rfl, hG⟩
  | deque es => exact ⟨_, rfl, hG⟩
  | dict d => exact ⟨_, rfl, hG⟩

theorem flagsE_reverse_single {es : List Entry} (h : es.length ≤ 1) : es.reverse = es := by
  match es, h with
  | [], _ => rfl
  | [_], _ => rfl

/-- Entries that each make flags make flags in any order, the same ones. -/
theorem flagsE_reverse {es : List Entry} {G : List Str} (h : flagsE txt es = some G) : ∃ G', flagsE txt es.reverse = some G' ∧ G'.Perm G := by
  induction es generalizing G with
  | nil =>
    rw [flagsE_nil] at h
    cases h
    exact ⟨[], rfl, List.Perm.refl _⟩
  | cons e es ih =>
    rw [flagsE_cons] at h
    cases h1 : entryFlags txt e with
    | none => simp [h1] at h
    | some f =>
      cases h2 : flagsE txt es with
      | none => simp [h1, h2] at h
      | some g =>
        obtain ⟨g', h3, h4⟩ := ih h2
        simp only [h1, h2, Option.bind_some, Option.map_some, Option.some.injEq] at h
        refine ⟨g' ++ f, ?_, ?_⟩
        · rw [List.reverse_cons, flagsE_append, h3, flagsE_single, h1]; rfl
        · rw [← h]; exact List.perm_append_comm.trans (List.Perm.append_left f h4)

/-- **C51, Prepend (partial).**  The flags afterwards are the flags of the added value followed by the flags before, with those of the added value in order if it is a single macro, and
in some order otherwise.
Missing: the order of the added macros; it is reversed by the code, see `C51_counterexample_prepend_reverses`. -/
theorem C51_prepend_flags_partial (de : Bool) (cur v : Val) (F G : List Str) (hF : flags words txt cur = some F) (hG : flags words txt v = some G) :
    ∃ r G', addCpp words true false de (some cur) v = some r ∧ flags words txt r = some (G' ++ F) ∧ G'.Perm G ∧
      ((entriesOf words v).length ≤ 1 → G' = G) := by
  obtain ⟨ds, h1, h2⟩ := toDeque_flags words txt hF
  have hE : flagsE txt (entriesOf words v) = some G := by rw [flagsE_entriesOf, hG]
  obtain ⟨G', h3, h4⟩ := flagsE_reverse txt hE
  refine ⟨.deque ((entriesOf words v).reverse ++ ds), G', ?_, ?_, h4, ?_⟩
  · simp [addCpp, h1, (addTo_plain words txt de ds v (by simp [hG])).2]
  · show flagsE txt _ = _
    rw [flagsE_append, h3, h2]; rfl
  · intro hlen
    rw [flagsE_reverse_single hlen, hE] at h3
    exact (Option.some.inj h3).symm

/-! ## Unique additions -/

/-- The items of a value the code looks at, all of them acceptable and none of them empty. -/
def Fine (v : Val) : Prop := flags words txt v ≠ none ∧ ∀ e ∈ entriesOf words v, e.truthy = true

theorem isIn_some {e m : Entry} {ds : List Entry} (h : isIn e ds = some m) : m ∈ ds ∧ Same e m := by
  unfold isIn at h
  split at h
  · rename_i hm; cases h; exact ⟨hm, .refl _⟩
  · have := List.find?_some h
    exact ⟨List.mem_of_find?_eq_some h, by simpa [Same] using this⟩

theorem isIn_none {e : Entry} {ds : List Entry} (h : isIn e ds = none) : ∀ d ∈ ds, ¬ Same e d := by
  unfold isIn at h
  split at h
  · cases h
  · rw [List.find?_eq_none] at h
    intro d hd hs
    exact h d hd (by simpa [Same] using hs)

/-- Whether two entries are empty is seen from their conversions. -/
theorem conv_truthy {a b : Entry} (h : Same a b) (ha : a.truthy = true) : b.truthy = true ∨ b = .str [] := by
  cases b with
  | str s => cases s with
    | nil => exact .inr rfl
    | cons c s => exact .inl rfl
  | seq t xs =>
    left
    cases xs with
    | cons x xs => rfl
    | nil =>
      cases a with
      | str s =>
        simp only [Same, conv] at h
        split at h
        · simp at h
        · rename_i hx
          have : s.splitOn '=' = [] := by simpa using h
          exact absurd this (by simp)
      | seq t2 ys =>
        simp only [Same, conv, Sum.inl.injEq] at h
        subst h; simp [Entry.truthy] at ha
      | dict d => simp [Same, conv] at h
  | dict d =>
    left
    cases d with
    | cons x xs => rfl
    | nil =>
      cases a with
      | str s => simp only [Same, conv] at h; split at h <;> simp at h
      | seq t2 ys => simp [Same, conv] at h
      | dict d2 => simp only [Same, conv, Sum.inr.injEq] at h; subst h; simp [Entry.truthy] at ha

theorem matchIn_some {e m : Entry} {ds : List Entry} (h : matchIn e ds = some m) : m ∈ ds ∧ Same e m := by
  unfold matchIn at h
  rw [Option.filter_eq_some_iff] at h
  exact isIn_some h.1

theorem matchIn_none {e : Entry} {ds : List Entry} (hds : Entry.str [] ∉ ds) (he : e.truthy = true) (h : matchIn e ds = none) :
    ∀ d ∈ ds, ¬ Same e d := by
  unfold matchIn at h
  cases hi : isIn e ds with
  | none => exact isIn_none hi
  | some m =>
    obtain ⟨h1, h2⟩ := isIn_some hi
    rcases conv_truthy h2 he with h3 | h3
    · rw [hi] at h; simp [Option.filter, h3] at h
    · subst h3; exact absurd h1 hds

/-- What a unique addition without `delete_existing` keeps and adds: `A` is the list of added entries. -/
structure UniqueAdd (ds items A : List Entry) : Prop where
  sub : A.Sublist items
  covered : ∀ e ∈ items, ∃ d ∈ ds ++ A, Same e d
  new : ∀ a ∈ A, ∀ d ∈ ds, ¬ Same a d

theorem foldl_addOne_unique (items ds : List Entry) (hds : Entry.str [] ∉ ds) (hi : ∀ e ∈ items, e.truthy = true) :
    ∃ A, items.foldl (addOne false true false) ds = ds ++ A ∧ UniqueAdd ds items A ∧ A.Pairwise (fun a b => ¬ Same a b) := by
  induction items generalizing ds with
  | nil => exact ⟨[], by simp, ⟨List.Sublist.refl _, by simp, by simp⟩, List.Pairwise.nil⟩
  | cons e items ih =>
    have he := hi e List.mem_cons_self
    have hi' : ∀ e ∈ items, e.truthy = true := fun x hx => hi x (List.mem_cons_of_mem _ hx)
    rw [List.foldl_cons]
    cases hm : matchIn e ds with
    | some m =>
      have hstep : addOne false true false ds e = ds := by simp [addOne, hm]
      rw [hstep]
      obtain ⟨A, h1, h2, h3⟩ := ih ds hds hi'
      obtain ⟨hmm, hms⟩ := matchIn_some hm
      refine ⟨A, h1, ⟨h2.sub.trans (List.sublist_cons_self _ _), ?_, h2.new⟩, h3⟩
      intro x hx
      rcases List.mem_cons.1 hx with rfl | hx
      · exact ⟨m, List.mem_append_left _ hmm, hms⟩
      · exact h2.covered x hx
    | none =>
      have hstep : addOne false true false ds e = ds ++ [e] := by simp [addOne, hm, push]
      rw [hstep]
      have hne : e ≠ .str [] := fun h => by subst h; simp [Entry.truthy] at he
      obtain ⟨A, h1, h2, h3⟩ := ih (ds ++ [e]) (by simp [hds, Ne.symm hne]) hi'
      have hno := matchIn_none hds he hm
      refine ⟨e :: A, by rw [h1]; simp, ⟨h2.sub.cons_cons e, ?_, ?_⟩, ?_⟩
      · intro x hx
        rcases List.mem_cons.1 hx with rfl | hx
        · exact ⟨x, by simp, .refl _⟩
        · obtain ⟨d, hd, hs⟩ := h2.covered x hx
          exact ⟨d, by simpa using hd, hs⟩
      · intro a ha d hd
        rcases List.mem_cons.1 ha with rfl | ha
        · exact hno d hd
        · exact h2.new a ha d (List.mem_append_left _ hd)
      · refine List.Pairwise.cons ?_ h3
        intro a ha hs
        exact h2.new a ha e (by simp) hs.symm

theorem foldl_listStep_unique (items ds tmp : List Entry) (hds : Entry.str [] ∉ ds) (hi : ∀ e ∈ items, e.truthy = true) :
    ∃ A, items.foldl (listStep true false) (ds, tmp) = (ds, tmp ++ A) ∧ UniqueAdd ds items A := by
  induction items generalizing tmp with
  | nil => exact ⟨[], by simp, List.Sublist.refl _, by simp, by simp⟩
  | cons e items ih =>
    have he := hi e List.mem_cons_self
    have hi' : ∀ e ∈ items, e.truthy = true := fun x hx => hi x (List.mem_cons_of_mem _ hx)
    rw [List.foldl_cons]
    cases hm : matchIn e ds with
    | some m =>
      have hstep : listStep true false (ds, tmp) e = (ds, tmp) := by simp [listStep, hm]
      rw [hstep]
      obtain ⟨A, h1, h2⟩ := ih tmp hi'
      obtain ⟨hmm, hms⟩ := matchIn_some hm
      refine ⟨A, h1, h2.sub.trans (List.sublist_cons_self _ _), ?_, h2.new⟩
      intro x hx
      rcases List.mem_cons.1 hx with rfl | hx
      · exact ⟨m, List.mem_append_left _ hmm, hms⟩
      · exact h2.covered x hx
    | none =>
      have hstep : listStep true false (ds, tmp) e = (ds, tmp ++ [e]) := by simp [listStep, hm]
      rw [hstep]
      obtain ⟨A, h1, h2⟩ := ih (tmp ++ [e]) hi'
      have hno := matchIn_none hds he hm
      refine ⟨e :: A, by rw [h1]; simp, h2.sub.cons_cons e, ?_, ?_⟩
      · intro x hx
        rcases List.mem_cons.1 hx with rfl | hx
        · exact ⟨x, by simp, .refl _⟩
        · obtain ⟨d, hd, hs⟩ := h2.covered x hx
          exact ⟨d, by rcases List.mem_append.1 hd with h | h <;> simp [h], hs⟩
      · intro a ha d hd
        rcases List.mem_cons.1 ha with rfl | ha
        · exact hno d hd
        · exact h2.new a ha d hd

/-- The value is a list. -/
def Val.listy : Val → Bool
  | .list _ | .deque _ => true
  | _ => false

theorem addTo_unique (ds : List Entry) (hds : Entry.str [] ∉ ds) (v : Val) (hv : Fine words txt v) :
    ∃ A, addTo words false true false ds v = some (ds ++ A) ∧ UniqueAdd ds (entriesOf words v) A ∧
      (v.listy = false → A.Pairwise (fun a b => ¬ Same a b)) := by
  obtain ⟨hf, ht⟩ := hv
  cases v with
  | dict d =>
    obtain ⟨A, h1, h2, h3⟩ := foldl_addOne_unique (dictEntries d) ds hds ht
    exact ⟨A, by simp [addTo, h1], h2, fun _ => h3⟩
  | str s =>
    obtain ⟨A, h1, h2, h3⟩ := foldl_addOne_unique _ ds hds ht
    exact ⟨A, by simpa [addTo, entriesOf] using h1, h2, fun _ => h3⟩
  | list es =>
    obtain ⟨A, h1, h2⟩ := foldl_listStep_unique es ds [] hds ht
    exact ⟨A, by simp [addTo, addList, h1], h2, by simp [Val.listy]⟩
  | deque es =>
    obtain ⟨A, h1, h2⟩ := foldl_listStep_unique es ds [] hds ht
    exact ⟨A, by simp [addTo, addList, h1], h2, by simp [Val.listy]⟩
  | tuple xs =>
    match xs, hf, ht with
    | [], hf, _ => exact absurd rfl hf
    | [n], _, ht =>
      obtain ⟨A, h1, h2, h3⟩ := foldl_addOne_unique [.seq true [n, .none]] ds hds ht
      exact ⟨A, by simpa [addTo] using h1, h2, fun _ => h3⟩
    | [n, m], _, ht =>
      obtain ⟨A, h1, h2, h3⟩ := foldl_addOne_unique [.seq true [n, m]] ds hds ht
      exact ⟨A, by simpa [addTo] using h1, h2, fun _ => h3⟩
    | _ :: _ :: _ :: _, hf, _ => exact absurd rfl hf

/-- **C51, AppendUnique.**  The entries present stay in place; after them come those of the new ones that define a macro not yet defined (with that value), in order; every macro of the added value
is defined afterwards.  (`ds` are the entries of the present value.) -/
theorem C51_appendUnique (ds : List Entry) (hds : Entry.str [] ∉ ds) (v : Val) (hv : Fine words txt v) :
    ∃ A, addCpp words false true false (some (.deque ds)) v = some (.deque (ds ++ A)) ∧ A.Sublist (entriesOf words v) ∧
      (∀ e ∈ entriesOf words v, ∃ d ∈ ds ++ A, Same e d) ∧ (∀ a ∈ A, ∀ d ∈ ds, ¬ Same a d) := by
  obtain ⟨A, h1, h2, _⟩ := addTo_unique words txt ds hds v hv
  exact ⟨A, by simp [addCpp, toDeque, h1], h2.sub, h2.covered, h2.new⟩

/-- **C51, no new duplicates (partial).**  If the present entries are pairwise different and the added value is not a list, or a list of pairwise different entries, then the entries afterwards are
pairwise different.
Missing: lists that contain a macro twice, see `C51_counterexample_list_duplicates`. -/
theorem C51_no_duplicates_partial (ds : List Entry) (hds : Entry.str [] ∉ ds) (hp : ds.Pairwise (fun a b => ¬ Same a b)) (v : Val) (hv : Fine words txt v)
    (hl : v.listy = true → (entriesOf words v).Pairwise (fun a b => ¬ Same a b)) :
    ∃ r, addCpp words false true false (some (.deque ds)) v = some (.deque r) ∧ r.Pairwise (fun a b => ¬ Same a b) := by
  obtain ⟨A, h1, h2, h3⟩ := addTo_unique words txt ds hds v hv
  refine ⟨ds ++ A, by simp [addCpp, toDeque, h1], ?_⟩
  rw [List.pairwise_append]
  refine ⟨hp, ?_, fun d hd a ha hs => h2.new a ha d hd hs.symm⟩
  cases hlv : v.listy with
  | false => exact h3 hlv
  | true => exact (hl hlv).sublist h2.sub

theorem isIn_ne_none {e d : Entry} {ds : List Entry} (hd : d ∈ ds) (hs : Same e d) : isIn e ds ≠ none :=
  fun h => isIn_none h d hd hs

theorem matchIn_ne_none {e d : Entry} {ds : List Entry} (hds : Entry.str [] ∉ ds) (he : e.truthy = true) (hd : d ∈ ds) (hs : Same e d) :
    matchIn e ds ≠ none := fun h => matchIn_none hds he h d hd hs

/-- **C51, idempotence.**  A second AppendUnique of the same value changes nothing. -/
theorem C51_idempotent (ds : List Entry) (hds : Entry.str [] ∉ ds) (v : Val) (hv : Fine words txt v) :
    ∃ r, addCpp words false true false (some (.deque ds)) v = some r ∧ addCpp words false true false (some r) v = some r := by
  obtain ⟨A, h1, h2, _⟩ := addTo_unique words txt ds hds v hv
  have hds2 : Entry.str [] ∉ ds ++ A := by
    intro h
    rcases List.mem_append.1 h with h | h
    · exact hds h
    · have := hv.2 _ (h2.sub.subset h); simp [Entry.truthy] at this
  obtain ⟨B, k1, k2, _⟩ := addTo_unique words txt (ds ++ A) hds2 v hv
  have hB : B = [] := by
    cases B with
    | nil => rfl
    | cons b B =>
      obtain ⟨d, hd, hs⟩ := h2.covered b (k2.sub.subset List.mem_cons_self)
      exact absurd hs (k2.new b List.mem_cons_self d hd)
  refine ⟨.deque (ds ++ A), by simp [addCpp, toDeque, h1], ?_⟩
  simp [addCpp, toDeque, k1, hB]

theorem erase_pairwise {ds : List Entry} (hp : ds.Pairwise (fun a b => ¬ Same a b)) {m e : Entry} (hm : m ∈ ds) (hs : Same e m) :
    ds.erase m = ds.filter (fun d => ¬ Same e d) := by
  induction ds with
  | nil => cases hm
  | cons d ds ih =>
    rw [List.pairwise_cons] at hp
    by_cases hd : d = m
    · subst hd
      rw [List.erase_cons_head, List.filter_cons_of_neg (by simpa using hs)]
      symm
      rw [List.filter_eq_self]
      intro x hx
      have := hp.1 x hx
      simp only [decide_eq_true_eq]
      exact fun h => this (hs.symm.trans h)
    · have hm' : m ∈ ds := by rcases List.mem_cons.1 hm with h | h; exacts [absurd h.symm hd, h]
      rw [List.erase_cons_tail (by simpa using hd), ih hp.2 hm']
      have : ¬ Same e d := fun h => hp.1 m hm' (h.symm.trans hs)
      rw [List.filter_cons_of_pos (by simpa using this)]

/-- **C51, AppendUnique with delete_existing (partial).**  If the present entries are pairwise different, and a list is added, then the entries afterwards are the present ones
without those that the added value defines, followed by the added value's.
Missing: with duplicates, only the first of the present entries is removed and lists may keep duplicates, see `C51_counterexample_delete_existing`. -/
theorem C51_delete_existing_partial (ds es : List Entry) (hds : Entry.str [] ∉ ds) (hp : ds.Pairwise (fun a b => ¬ Same a b))
    (hi : ∀ e ∈ es, e.truthy = true) :
    addCpp words false true true (some (.deque ds)) (.list es) = some (.deque (ds.filter (fun d => ∀ e ∈ es, ¬ Same e d) ++ es)) := by
  have key : ∀ (es ds tmp : List Entry), Entry.str [] ∉ ds → ds.Pairwise (fun a b => ¬ Same a b) → (∀ e ∈ es, e.truthy = true) →
      es.foldl (listStep true true) (ds, tmp) = (ds.filter (fun d => ∀ e ∈ es, ¬ Same e d), tmp ++ es) := by
    intro es
    induction es with
    | nil =>
      intro ds tmp _ _ _
      simp
    | cons e es ih =>
      intro ds tmp hds hp hi
      have he := hi e List.mem_cons_self
      have hi' : ∀ e ∈ es, e.truthy = true := fun x hx => hi x (List.mem_cons_of_mem _ hx)
      rw [List.foldl_cons]
      have hstep : listStep true true (ds, tmp) e = (ds.filter (fun d => ¬ Same e d), tmp ++ [e]) := by
        cases hm : matchIn e ds with
        | some m =>
          obtain ⟨h1, h2⟩ := matchIn_some hm
          simp only [listStep, hm, if_true]
          rw [erase_pairwise hp h1 h2]
        | none =>
          simp only [listStep, hm, if_true, Prod.mk.injEq, and_true]
          symm
          rw [List.filter_eq_self]
          intro d hd
          simpa using matchIn_none hds he hm d hd
      rw [hstep, ih _ _ (fun h => hds (List.mem_of_mem_filter h)) (hp.sublist List.filter_sublist) hi', List.filter_filter]
      simp only [Prod.mk.injEq]
      refine ⟨?_, by simp⟩
      apply List.filter_congr
      intro d _
      by_cases hsd : Same e d <;> simp [hsd]
  simp [addCpp, toDeque, addTo, addList, key es ds [] hds hp hi]

/-- **C51, same macro, same flag.**  Entries that are the same for the purpose of uniqueness give the same flag (so dropping one of them loses nothing). -/
theorem C51_same_entries_same_flags (a b : Entry) (h : Same a b) (ha : entryFlags txt a ≠ none) (hb : entryFlags txt b ≠ none) :
    entryFlags txt a = entryFlags txt b := by
  have strseq : ∀ (s : Str) (t : Bool) (xs : List Sc), Same (.str s) (.seq t xs) → entryFlags txt (.seq t xs) ≠ none →
      entryFlags txt (.str s) = entryFlags txt (.seq t xs) := by
    intro s t xs h hb
    have hj := List.intercalate_splitOn (xs := s) '='
    simp only [Same, conv] at h
    split at h
    · simp only [Sum.inl.injEq] at h; subst h; simp [entryFlags, macroText, Sc.text]
    · rename_i parts hne
      simp only [Sum.inl.injEq] at h
      subst h
      rcases hs : s.splitOn '=' with _ | ⟨p, _ | ⟨q, _ | ⟨r, tl⟩⟩⟩
      · simp at hs
      · exact absurd hs (hne p)
      · rw [hs] at hj
        simp only [List.map_cons, List.map_nil, entryFlags, macroText]
        simp [Sc.text, ← hj, List.intercalate]
      · rw [hs] at hb; simp [entryFlags] at hb
  cases a with
  | str s =>
    cases b with
    | str s' =>
      have hj := List.intercalate_splitOn (xs := s) '='
      have hj' := List.intercalate_splitOn (xs := s') '='
      simp only [Same, conv] at h
      split at h <;> split at h
      · have : s = s' := by simpa using h
        rw [this]
      · rename_i hs hs'
        simp only [Sum.inl.injEq] at h
        rcases hq : s'.splitOn '=' with _ | ⟨p, _ | ⟨q, tl⟩⟩ <;> rw [hq] at h <;> simp at h
      · rename_i hs hs'
        simp only [Sum.inl.injEq] at h
        rcases hq : s.splitOn '=' with _ | ⟨p, _ | ⟨q, tl⟩⟩ <;> rw [hq] at h <;> simp at h
      · simp only [Sum.inl.injEq] at h
        have hinj : Function.Injective Sc.str := fun a b e => by cases e; rfl
        have := List.map_injective_iff.2 hinj h
        rw [this] at hj
        rw [← hj, hj']
    | seq t xs => exact strseq s t xs h hb
    | dict d => simp only [Same, conv] at h; split at h <;> simp at h
  | seq t xs =>
    cases b with
    | str s' => exact (strseq s' t xs h.symm ha).symm
    | seq t' ys =>
      simp only [Same, conv, Sum.inl.injEq] at h
      subst h
      rcases xs with _ | ⟨p, _ | ⟨q, _ | ⟨r, tl⟩⟩⟩ <;> rfl
    | dict d => simp [Same, conv] at h
  | dict d =>
    cases b with
    | str s => simp only [Same, conv] at h; split at h <;> simp at h
    | seq t xs => simp [Same, conv] at h
    | dict d' => simp only [Same, conv, Sum.inr.injEq] at h; subst h; rfl

/-! ## Counterexamples and concrete cases -/

def S (s : String) : Entry := .str s.toList
def oneWord (s : Str) : List Str := [s]
def dec (n : Int) : Str := (toString n).toList

/-- **Counterexample.**  `Prepend(CPPDEFINES=['A', 'B'])` onto X gives `-DB -DA -DX`: the added macros are reversed. -/
theorem C51_counterexample_prepend_reverses :
    addCpp oneWord true false false (some (.list [S "X"])) (.list [S "A", S "B"]) = some (.deque [S "B", S "A", S "X"]) := by decide +kernel

/-- **Counterexample.**  `AppendUnique(CPPDEFINES=['A', 'A'])` adds A twice. -/
theorem C51_counterexample_list_duplicates :
    addCpp oneWord false true false (some (.list [S "X"])) (.list [S "A", S "A"]) = some (.deque [S "X", S "A", S "A"]) := by decide +kernel

/-- **Counterexample.**  With `delete_existing`, one of two existing definitions stays; a macro listed twice ends up twice. -/
theorem C51_counterexample_delete_existing :
    addCpp oneWord false true true (some (.list [S "A", S "A"])) (.list [S "A"]) = some (.deque [S "A", S "A"]) ∧
    addCpp oneWord false true true (some (.list [S "A"])) (.list [S "A", S "A"]) = some (.deque [S "A", S "A"]) := by decide +kernel

/-- **Counterexample.**  Entries that give the same flag but are not recognised as the same: a number and its text; a value with an equals sign; a one-element tuple in a list.  AppendUnique adds the flag again. -/
theorem C51_counterexample_same_flag_added_again :
    (addCpp oneWord false true false (some (.list [S "N=3"])) (.tuple [.str "N".toList, .int 3]) = some (.deque [S "N=3", .seq true [.str "N".toList, .int 3]]) ∧
      entryFlags dec (S "N=3") = entryFlags dec (.seq true [.str "N".toList, .int 3])) ∧
    (addCpp oneWord false true false (some (.list [S "F=a=b"])) (.tuple [.str "F".toList, .str "a=b".toList]) = some (.deque [S "F=a=b", .seq true [.str "F".toList, .str "a=b".toList]]) ∧
      entryFlags dec (S "F=a=b") = entryFlags dec (.seq true [.str "F".toList, .str "a=b".toList])) := by
  decide +kernel

/-- The theorems apply: a list with a tuple and a string, to which a list with an equivalent and two new entries is added. -/
theorem C51_nonvacuous :
    Fine oneWord dec (.list [S "A=1", .seq true [.str "B".toList, .none], S "C"]) ∧
    Entry.str [] ∉ [Entry.seq true [.str "A".toList, .str "1".toList], S "X"] ∧
    [Entry.seq true [.str "A".toList, .str "1".toList], S "X"].Pairwise (fun a b => ¬ Same a b) ∧
    addCpp oneWord false true false (some (.deque [.seq true [.str "A".toList, .str "1".toList], S "X"])) (.list [S "A=1", .seq true [.str "B".toList, .none], S "C"]) =
      some (.deque [.seq true [.str "A".toList, .str "1".toList], S "X", .seq true [.str "B".toList, .none], S "C"]) := by
  refine ⟨⟨by decide +kernel, by decide +kernel⟩, by decide +kernel, by decide +kernel, by decide +kernel⟩

end Verif.Env.Cppdef
