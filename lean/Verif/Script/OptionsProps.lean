import Verif.Script.Options

/-!
# C78: options — precedence and late declarations
-/

set_option linter.unusedSimpArgs false
set_option linter.unusedVariables false

namespace Verif.Options

/-! ## Specification -/

/-- The name of a long option as it is written, without its value. -/
def nameOf (a : Text) : Text := (splitEq a).1

/-- How an option is written in a list of arguments: for each occurrence in long form, the value attached with `=`, if any. -/
def given (o : Opt) (args : List Text) : List (Option Text) := args.filterMap fun a => if isLong a = true ∧ nameOf a ∈ o.longs then some (splitEq a).2 else none

/-- The option is always written with its value attached, if it needs one, and without a value if it takes none. -/
def Attached (o : Opt) (args : List Text) : Prop :=
  ∀ e ∈ given o args, (o.nargs = .zero ∧ e = none) ∨ (o.nargs = .many 1 ∧ e.isSome) ∨ ∃ c, o.nargs = .opt c

/-- The value of an option that stores, for one occurrence. -/
def valueOf (o : Opt) (e : Option Text) : Option Val :=
  match o.action with
  | .const x => some x
  | _ => match e, o.nargs with
    | some x, _ => o.conv x
    | none, .opt (some c) => o.conv c
    | none, _ => some .none

/-- Arguments that are long options or words: no `--`, no `-`, no short options. -/
def Plain (args : List Text) : Prop := ∀ a ∈ args, isLong a = true ∨ a.head? ≠ some '-'

/-- The option stores a value or a constant. -/
def Stores (o : Opt) : Prop := o.action = .store ∨ ∃ x, o.action = .const x

/-- The option may change what is under this name. -/
def Opt.touches (o : Opt) (d : Text) : Prop := o.dest = d ∨ o.action = .both d

/-- The last value given to `SetOption(name)`. -/
def lastSet (name : Text) : List Cmd → Option Val
  | [] => none
  | .set n x :: cs => (lastSet name cs).or (if n = name then some x else none)
  | .add _ :: cs => lastSet name cs

/-- The names with a special treatment in `SetOption`. -/
def special : List Text :=
  ["num_jobs", "max_drift", "stack_size", "duplicate", "diskcheck", "md5_chunksize", "hash_chunksize", "warn", "experimental", "no_progress", "implicit_deps_changed",
   "implicit_deps_unchanged", "implicit_cache"].map t

/-! ## What an option changes -/

theorem put_other {v : Values} {d d' : Text} {x : Val} (h : d ≠ d') : (v.put d x).cmd d' = v.cmd d' ∧ (v.put d x).settings d' = v.settings d' ∧ (v.put d x).defaults d' = v.defaults d' := by
  simp [Values.put, Function.update_of_ne (Ne.symm h)]

theorem mutate_other {v : Values} {d d' : Text} {f : Val → Val} (h : d ≠ d') :
    (v.mutate d f).cmd d' = v.cmd d' ∧ (v.mutate d f).settings d' = v.settings d' ∧ (v.mutate d f).defaults d' = v.defaults d' := by
  unfold Values.mutate
  split
  · simp [Function.update_of_ne (Ne.symm h)]
  · split
    · simp [Function.update_of_ne (Ne.symm h)]
    · split
      · simp [Function.update_of_ne (Ne.symm h)]
      · simp

theorem ensure_other {v : Values} {d d' : Text} {x : Val} (h : d ≠ d') :
    (v.ensure d x).cmd d' = v.cmd d' ∧ (v.ensure d x).settings d' = v.settings d' ∧ (v.ensure d x).defaults d' = v.defaults d' := by
  unfold Values.ensure
  split
  · exact put_other h
  · exact put_other h
  · simp

/-- Nothing is changed under a name the option does not touch. -/
def Same (d : Text) (v v' : Values) : Prop := v'.cmd d = v.cmd d ∧ v'.settings d = v.settings d ∧ v'.defaults d = v.defaults d

theorem Same.rfl {d : Text} {v : Values} : Same d v v := ⟨Eq.refl _, Eq.refl _, Eq.refl _⟩

theorem Same.trans {d : Text} {a b c : Values} (h1 : Same d a b) (h2 : Same d b c) : Same d a c :=
  ⟨h2.1.trans h1.1, h2.2.1.trans h1.2.1, h2.2.2.trans h1.2.2⟩

theorem act_other {o : Opt} {x : Val} {v : Values} {d : Text} (h : ¬ o.touches d) : Same d v (act o x v) := by
  unfold Opt.touches at h
  rw [not_or] at h
  unfold act
  split
  · exact put_other h.1
  · exact put_other h.1
  · rename_i other he
    have : other ≠ d := fun e => h.2 (by rw [he, e])
    exact Same.trans (put_other this) (put_other h.1)
  · exact Same.trans (ensure_other h.1) (mutate_other h.1)
  · exact put_other h.1
  · exact mutate_other h.1

theorem process_other {o : Opt} {xs : List Text} {v v' : Values} {d : Text} (h : ¬ o.touches d) (hp : process o xs v = some v') : Same d v v' := by
  unfold process at hp
  split at hp
  · cases hp; exact act_other h
  · rw [Option.map_eq_some_iff] at hp
    obtain ⟨y, -, rfl⟩ := hp; exact act_other h
  · rw [Option.map_eq_some_iff] at hp
    obtain ⟨y, -, rfl⟩ := hp; exact act_other h

theorem takeArgs_other {o : Opt} {n : Nat} {avail largs : List Text} {v : Values} {r : Values × List Text × List Text} {d : Text} (h : ¬ o.touches d)
    (hp : takeArgs o n avail v largs = some r) : Same d v r.1 := by
  unfold takeArgs at hp
  split at hp
  · cases hp
  · rw [Option.map_eq_some_iff] at hp
    obtain ⟨v', hv, rfl⟩ := hp
    exact process_other h hv

theorem takeArgs_left {o : Opt} {n : Nat} {avail largs : List Text} {v : Values} {r : Values × List Text × List Text} (hp : takeArgs o n avail v largs = some r) : r.2.1 = largs := by
  unfold takeArgs at hp
  split at hp
  · cases hp
  · rw [Option.map_eq_some_iff] at hp
    obtain ⟨v', hv, rfl⟩ := hp
    rfl

theorem findLong_mem {tbl : List Opt} {n : Text} {o : Opt} (h : findLong tbl n = some o) : o ∈ tbl ∧ n ∈ o.longs := by
  refine ⟨List.mem_of_find?_eq_some h, ?_⟩
  have := List.find?_some h
  simpa using this

theorem findShort_mem {tbl : List Opt} {c : Char} {o : Opt} (h : findShort tbl c = some o) : o ∈ tbl := List.mem_of_find?_eq_some h

theorem processLong_other {pr : Bool} {tbl : List Opt} {a : Text} {rest largs : List Text} {v : Values} {r : Values × List Text × List Text} {d : Text} (h : ∀ o ∈ tbl, ¬ o.touches d)
    (hp : processLong pr tbl a rest v largs = some r) : Same d v r.1 := by
  unfold processLong at hp
  dsimp only at hp
  cases hf : findLong tbl (splitEq a).1 with
  | none =>
    rw [hf] at hp; simp only at hp
    split at hp
    · cases hp; exact Same.rfl
    · cases hp
  | some o =>
    have hno := h o (findLong_mem hf).1
    rw [hf] at hp; simp only at hp
    split at hp
    · split at hp
      · cases hp
      · rw [Option.map_eq_some_iff] at hp
        obtain ⟨v', hv, rfl⟩ := hp
        exact process_other hno hv
    · split at hp
      · rw [Option.map_eq_some_iff] at hp
        obtain ⟨v', hv, rfl⟩ := hp
        exact process_other hno hv
      · split at hp
        · rw [Option.map_eq_some_iff] at hp
          obtain ⟨v', hv, rfl⟩ := hp
          exact process_other hno hv
        · cases hp; exact act_other hno
    · exact takeArgs_other hno hp

theorem processShort_other {pr : Bool} {tbl : List Opt} {a : Text} {d : Text} (h : ∀ o ∈ tbl, ¬ o.touches d) :
    ∀ {cs : List Char} {rest largs : List Text} {v : Values} {r : Values × List Text × List Text}, processShort pr tbl a cs rest v largs = some r → Same d v r.1 := by
  intro cs
  induction cs with
  | nil => intro rest largs v r hp; simp only [processShort] at hp; cases hp; exact Same.rfl
  | cons c cs ih =>
    intro rest largs v r hp
    simp only [processShort] at hp
    cases hf : findShort tbl c with
    | none =>
      rw [hf] at hp; simp only at hp
      split at hp
      · cases hp; exact Same.rfl
      · cases hp
    | some o =>
      have hno := h o (findShort_mem hf)
      rw [hf] at hp; simp only at hp
      split at hp
      · rw [Option.bind_eq_some_iff] at hp
        obtain ⟨v', hv, hp⟩ := hp
        exact (process_other hno hv).trans (ih hp)
      · cases hp
      · exact takeArgs_other hno hp

theorem parseLoop_other {pr : Bool} {tbl : List Opt} {d : Text} (h : ∀ o ∈ tbl, ¬ o.touches d) :
    ∀ {n : Nat} {args largs : List Text} {v : Values} {r : Values × List Text × List Text}, parseLoop pr tbl n args v largs = some r → Same d v r.1 := by
  intro n
  induction n with
  | zero => intro args largs v r hp; simp only [parseLoop] at hp; cases hp; exact Same.rfl
  | succ n ih =>
    intro args largs v r hp
    cases args with
    | nil => simp only [parseLoop] at hp; cases hp; exact Same.rfl
    | cons a rest =>
      simp only [parseLoop] at hp
      split at hp
      · cases hp; exact Same.rfl
      · split at hp
        · rw [Option.bind_eq_some_iff] at hp
          obtain ⟨q, hq, hp⟩ := hp
          exact (processLong_other h hq).trans (ih hp)
        · split at hp
          · rw [Option.bind_eq_some_iff] at hp
            obtain ⟨q, hq, hp⟩ := hp
            exact (processShort_other h hq).trans (ih hp)
          · exact ih hp

/-! ## What is left over -/

theorem processShort_left {pr : Bool} {tbl : List Opt} {a : Text} {P : Text → Prop} (ha : P a) :
    ∀ {cs : List Char} {rest largs : List Text} {v : Values} {r : Values × List Text × List Text}, (∀ b ∈ largs, P b) → processShort pr tbl a cs rest v largs = some r → ∀ b ∈ r.2.1, P b := by
  intro cs
  induction cs with
  | nil => intro rest largs v r hl hp; simp only [processShort] at hp; cases hp; exact hl
  | cons c cs ih =>
    intro rest largs v r hl hp
    simp only [processShort] at hp
    split at hp
    · split at hp
      · cases hp
        intro b hb
        simp only [List.mem_append, List.mem_singleton] at hb
        rcases hb with hb | rfl
        · exact hl b hb
        · exact ha
      · cases hp
    · split at hp
      · rw [Option.bind_eq_some_iff] at hp
        obtain ⟨v', hv, hp⟩ := hp
        exact ih hl hp
      · cases hp
      · rw [takeArgs_left hp]; exact hl

theorem processLong_left {pr : Bool} {tbl : List Opt} {a : Text} {rest largs : List Text} {v : Values} {r : Values × List Text × List Text} {P : Text → Prop}
    (ha : findLong tbl (nameOf a) = none → P a) (hl : ∀ b ∈ largs, P b) (hp : processLong pr tbl a rest v largs = some r) : ∀ b ∈ r.2.1, P b := by
  unfold processLong at hp
  dsimp only at hp
  cases hf : findLong tbl (splitEq a).1 with
  | none =>
    rw [hf] at hp; simp only at hp
    split at hp
    · cases hp
      intro b hb
      simp only [List.mem_append, List.mem_singleton] at hb
      rcases hb with hb | rfl
      · exact hl b hb
      · exact ha hf
    · cases hp
  | some o =>
    rw [hf] at hp; simp only at hp
    split at hp
    · split at hp
      · cases hp
      · rw [Option.map_eq_some_iff] at hp
        obtain ⟨v', hv, rfl⟩ := hp
        exact hl
    · split at hp
      · rw [Option.map_eq_some_iff] at hp
        obtain ⟨v', hv, rfl⟩ := hp
        exact hl
      · split at hp
        · rw [Option.map_eq_some_iff] at hp
          obtain ⟨v', hv, rfl⟩ := hp
          exact hl
        · cases hp; exact hl
    · rw [takeArgs_left hp]; exact hl

/-- Long options that are left over are unknown. -/
theorem parseLoop_left {pr : Bool} {tbl : List Opt} :
    ∀ {n : Nat} {args largs : List Text} {v : Values} {r : Values × List Text × List Text}, (∀ b ∈ largs, isLong b = true → findLong tbl (nameOf b) = none) →
      parseLoop pr tbl n args v largs = some r → ∀ b ∈ r.2.1, isLong b = true → findLong tbl (nameOf b) = none := by
  intro n
  induction n with
  | zero => intro args largs v r hl hp; simp only [parseLoop] at hp; cases hp; exact hl
  | succ n ih =>
    intro args largs v r hl hp
    cases args with
    | nil => simp only [parseLoop] at hp; cases hp; exact hl
    | cons a rest =>
      simp only [parseLoop] at hp
      split at hp
      · cases hp; exact hl
      · split at hp
        · rw [Option.bind_eq_some_iff] at hp
          obtain ⟨q, hq, hp⟩ := hp
          exact ih (processLong_left (P := fun b => isLong b = true → findLong tbl (nameOf b) = none) (fun h _ => h) hl hq) hp
        · rename_i hnl
          split at hp
          · rw [Option.bind_eq_some_iff] at hp
            obtain ⟨q, hq, hp⟩ := hp
            exact ih (processShort_left (P := fun b => isLong b = true → findLong tbl (nameOf b) = none) (fun h => absurd h hnl) hl hq) hp
          · refine ih ?_ hp
            intro b hb hlb
            simp only [List.mem_append, List.mem_singleton] at hb
            rcases hb with hb | rfl
            · exact hl b hb hlb
            · exact absurd hlb hnl

/-! ## Plain arguments -/

/-- One occurrence of an option. -/
def once (o : Opt) (e : Option Text) (v : Values) : Option Values :=
  match e, o.nargs with
  | some x, _ => process o [x] v
  | none, .opt (some c) => process o [c] v
  | none, _ => process o [] v

/-- What a plain argument does to the values. -/
def giveOne (tbl : List Opt) (v : Values) (a : Text) : Option Values :=
  if isLong a then match findLong tbl (nameOf a) with
    | some o => once o (splitEq a).2 v
    | none => some v
  else some v

theorem long_not_dd {a : Text} (h : isLong a = true) : a ≠ ['-', '-'] := by rintro rfl; simp [isLong] at h

theorem word_facts {a : Text} (h : a.head? ≠ some '-') : a ≠ ['-', '-'] ∧ a ≠ ['-'] ∧ isLong a = false ∧ isShort a = false := by
  cases a with
  | nil => simp [isLong, isShort]
  | cons c cs =>
    simp only [List.head?_cons, ne_eq, Option.some.injEq] at h
    refine ⟨by simp [h], by simp [h], ?_, ?_⟩
    · unfold isLong; split
      · rename_i heq; cases heq; exact absurd rfl h
      · rfl
    · unfold isShort; split
      · rename_i heq; cases heq; exact absurd rfl h
      · rfl

theorem long_head {a : Text} (h : isLong a = true) : a.head? = some '-' := by
  unfold isLong at h
  split at h
  · rfl
  · cases h

/-- Known options that are written with their values attached, words, and (if they are preserved) unknown options: all are taken one by one; words and unknown options are left. -/
theorem parseLoop_plain_tail {pr : Bool} {tbl : List Opt} {tail R : List Text}
    (htail : ∀ m v la, parseLoop pr tbl (m + 1) tail v la = some (v, la, R)) : ∀ {l : List Text} {n : Nat} {v : Values} {largs : List Text}, Plain l → l.length < n →
    (∀ o ∈ tbl, Attached o l) → (∀ a ∈ l, isLong a = true → (findLong tbl (nameOf a)).isSome = true ∨ pr = true) →
    parseLoop pr tbl n (l ++ tail) v largs =
      (l.foldlM (giveOne tbl) v).map fun v' => (v', largs ++ l.filter fun a => !(isLong a && (findLong tbl (nameOf a)).isSome), R) := by
  intro l
  induction l with
  | nil =>
    intro n v largs _ hn _ _
    cases n with
    | zero => simp at hn
    | succ n => simp [htail]
  | cons a l ih =>
    intro n v largs hpl hn hat hk
    cases n with
    | zero => simp at hn
    | succ n =>
      have hpl' : Plain l := fun b hb => hpl b (by simp [hb])
      have hn' : l.length < n := by simpa using hn
      have hat' : ∀ o ∈ tbl, Attached o l := by
        intro o ho e he
        refine hat o ho e ?_
        unfold given at he ⊢
        rw [List.filterMap_cons]
        split
        · exact he
        · exact List.mem_cons_of_mem _ he
      have hk' : ∀ b ∈ l, isLong b = true → (findLong tbl (nameOf b)).isSome = true ∨ pr = true := fun b hb => hk b (by simp [hb])
      rw [List.foldlM_cons, List.cons_append]
      simp only [parseLoop]
      rcases hpl a (by simp) with hla | hwa
      · rw [if_neg (long_not_dd hla), if_pos hla]
        cases hf : findLong tbl (nameOf a) with
        | none =>
          have hpr : pr = true := by
            rcases hk a (by simp) hla with h | h
            · rw [hf] at h; cases h
            · exact h
          have h1 : processLong pr tbl a (l ++ tail) v largs = some (v, largs ++ [a], l ++ tail) := by
            unfold processLong; unfold nameOf at hf; dsimp only; rw [hf]; simp [hpr]
          have h2 : giveOne tbl v a = some v := by simp [giveOne, hla, hf]
          rw [h1, h2, Option.bind_some, ih hpl' hn' hat' hk']
          simp [hla, hf]
        | some o =>
          have ho := findLong_mem hf
          have he : (splitEq a).2 ∈ given o (a :: l) := by
            unfold given
            rw [List.filterMap_cons_some (b := (splitEq a).2)]
            · simp
            · rw [if_pos ⟨hla, ho.2⟩]
          have h1 : processLong pr tbl a (l ++ tail) v largs = (once o (splitEq a).2 v).map fun v' => (v', largs, l ++ tail) := by
            unfold processLong
            dsimp only
            have hf' : findLong tbl (splitEq a).1 = some o := hf
            rw [hf']
            simp only
            rcases hat o ho.1 _ he with ⟨hz, hn0⟩ | ⟨hz, hn0⟩ | ⟨c, hz⟩
            · rw [hz, hn0]; simp [once, hz]
            · obtain ⟨x, hx⟩ := Option.isSome_iff_exists.1 hn0
              rw [hz, hx]; simp [once, hz, takeArgs]
            · rw [hz]
              cases hx : (splitEq a).2 with
              | some x => simp [once]
              | none => cases c with
                | some c => simp [once, hz]
                | none => simp [once, hz, process]
          have h2 : giveOne tbl v a = once o (splitEq a).2 v := by simp [giveOne, hla, hf]
          rw [h1, h2]
          cases hq : once o (splitEq a).2 v with
          | none => simp
          | some v' =>
            simp only [Option.map_some, Option.bind_some]
            rw [ih hpl' hn' hat' hk']
            simp [hla, hf]
      · obtain ⟨w1, w2, w3, w4⟩ := word_facts hwa
        rw [if_neg w1, if_neg (by simp [w3]), if_neg (by simp [w4])]
        have h2 : giveOne tbl v a = some v := by simp [giveOne, w3]
        rw [h2, ih hpl' hn' hat' hk']
        simp [w3]

/-- The same without more to come. -/
theorem parseLoop_plain {pr : Bool} {tbl : List Opt} {l : List Text} {n : Nat} {v : Values} {largs : List Text} (h1 : Plain l) (h2 : l.length < n)
    (h3 : ∀ o ∈ tbl, Attached o l) (h4 : ∀ a ∈ l, isLong a = true → (findLong tbl (nameOf a)).isSome = true ∨ pr = true) :
    parseLoop pr tbl n l v largs =
      (l.foldlM (giveOne tbl) v).map fun v' => (v', largs ++ l.filter fun a => !(isLong a && (findLong tbl (nameOf a)).isSome), []) := by
  have := parseLoop_plain_tail (pr := pr) (tbl := tbl) (tail := []) (R := []) (fun m v la => by simp [parseLoop]) (v := v) (largs := largs) h1 h2 h3 h4
  rwa [List.append_nil] at this

/-- Only the occurrences of one option count when the others are unknown. -/
theorem foldlM_given {tbl : List Opt} {o : Opt} : ∀ {l : List Text} {v : Values}, (∀ a ∈ l, isLong a = true → findLong tbl (nameOf a) = if nameOf a ∈ o.longs then some o else none) →
    l.foldlM (giveOne tbl) v = (given o l).foldlM (fun v e => once o e v) v := by
  intro l
  induction l with
  | nil => intro v _; rfl
  | cons a l ih =>
    intro v h
    have hl := fun v => ih (v := v) fun b hb => h b (by simp [hb])
    rw [List.foldlM_cons]
    by_cases hla : isLong a = true
    · by_cases hn : nameOf a ∈ o.longs
      · have e1 : given o (a :: l) = (splitEq a).2 :: given o l := by
          unfold given; rw [List.filterMap_cons_some (b := (splitEq a).2)]; rw [if_pos ⟨hla, hn⟩]
        have e2 : giveOne tbl v a = once o (splitEq a).2 v := by
          have := h a (by simp) hla
          rw [if_pos hn] at this
          simp [giveOne, hla, this]
        rw [e1, e2, List.foldlM_cons]
        cases once o (splitEq a).2 v with
        | none => rfl
        | some v' => exact hl v'
      · have e1 : given o (a :: l) = given o l := by
          unfold given; rw [List.filterMap_cons_none]; rw [if_neg fun h => hn h.2]
        have e2 : giveOne tbl v a = some v := by
          have := h a (by simp) hla
          rw [if_neg hn] at this
          simp [giveOne, hla, this]
        rw [e1, e2]; exact hl v
    · have e1 : given o (a :: l) = given o l := by
        unfold given; rw [List.filterMap_cons_none]; rw [if_neg fun h => hla h.1]
      have e2 : giveOne tbl v a = some v := by simp [giveOne, hla]
      rw [e1, e2]; exact hl v

theorem once_store {o : Opt} (hs : Stores o) {e : Option Text} {v v' : Values} (h : once o e v = some v')
    (hz : o.nargs ≠ .zero ∨ e = none) : ∃ x, valueOf o e = some x ∧ v' = v.put o.dest x := by
  unfold once at h
  unfold valueOf
  rcases hs with hs | ⟨y, hs⟩
  · split at h
    · simp only [process, Option.map_eq_some_iff] at h
      obtain ⟨y, hy, rfl⟩ := h
      exact ⟨y, by simp [hs, hy], by simp [act, hs]⟩
    · rename_i c hc
      simp only [process, Option.map_eq_some_iff] at h
      obtain ⟨y, hy, rfl⟩ := h
      exact ⟨y, by simp [hs, hc, hy], by simp [act, hs]⟩
    · rename_i hno
      simp only [process, Option.some.injEq] at h
      subst h
      refine ⟨.none, ?_, by simp [act, hs]⟩
      simp only [hs]
  · refine ⟨y, by simp [hs], ?_⟩
    split at h
    · simp only [process, Option.map_eq_some_iff] at h
      obtain ⟨z, hz, rfl⟩ := h
      simp [act, hs]
    · simp only [process, Option.map_eq_some_iff] at h
      obtain ⟨z, hz, rfl⟩ := h
      simp [act, hs]
    · simp only [process, Option.some.injEq] at h
      subst h; simp [act, hs]

/-- Several occurrences: the last one counts. -/
theorem fold_store {o : Opt} (hs : Stores o) : ∀ {es : List (Option Text)} {v v' : Values}, es.foldlM (fun v e => once o e v) v = some v' → (∀ e ∈ es, o.nargs ≠ .zero ∨ e = none) →
    v'.settings = v.settings ∧ v'.defaults = v.defaults ∧ (∀ d, d ≠ o.dest → v'.cmd d = v.cmd d) ∧
    v'.cmd o.dest = match es.getLast? with
      | some e => valueOf o e
      | none => v.cmd o.dest := by
  intro es
  induction es with
  | nil => intro v v' h _; simp only [List.foldlM_nil] at h; cases h; simp
  | cons e es ih =>
    intro v v' h hz
    rw [List.foldlM_cons] at h
    cases h1 : once o e v with
    | none => rw [h1] at h; cases h
    | some v1 =>
      rw [h1] at h
      obtain ⟨x, hx, hv1⟩ := once_store hs h1 (hz e (by simp))
      obtain ⟨a1, a2, a3, a4⟩ := ih (v := v1) (v' := v') h fun e' he' => hz e' (by simp [he'])
      refine ⟨by rw [a1, hv1]; rfl, by rw [a2, hv1]; rfl, fun d hd => by rw [a3 d hd, hv1]; simp [Values.put, hd], ?_⟩
      rw [a4]
      cases es with
      | nil => simp only [List.getLast?_nil, List.getLast?_singleton]; rw [hv1, hx]; simp [Values.put]
      | cons e2 es => simp [List.getLast?_cons]

/-! ## AddOption -/

theorem divide_plain {tbl : List Opt} : ∀ {l : List Text}, Plain l →
    divide tbl l = (l.filter (fun a => !(isLong a) || (findLong tbl (nameOf a)).isSome), l.filter fun a => isLong a && !(findLong tbl (nameOf a)).isSome) := by
  intro l
  induction l with
  | nil => intro _; rfl
  | cons a l ih =>
    intro h
    have hl := ih fun b hb => h b (by simp [hb])
    unfold divide
    rw [hl]
    rcases h a (by simp) with ha | ha
    · rw [if_pos ha]
      unfold nameOf at *
      by_cases hk : (findLong tbl (splitEq a).1).isSome = true
      · rw [if_pos hk, List.filter_cons_of_pos (by simp [hk]), List.filter_cons_of_neg (by simp [hk])]
      · rw [if_neg hk, List.filter_cons_of_neg (by simp [ha, hk]), List.filter_cons_of_pos (by simp [ha, hk])]
    · obtain ⟨w1, w2, w3, w4⟩ := word_facts ha
      rw [if_neg (by simp [w3]), if_neg (by simp [w1, w2])]
      simp [w3]

theorem findLong_append {tbl : List Opt} {o : Opt} {n : Text} : findLong (tbl ++ [o]) n = (findLong tbl n).or (if n ∈ o.longs then some o else none) := by
  unfold findLong
  rw [List.find?_append]
  by_cases h : n ∈ o.longs <;> simp [h]

/-- What `AddOption` does when the arguments left over are plain and unknown so far, and the option is written with its values attached. -/
theorem addOption_plain {p q : Parser} {o : Opt} (hpl : Plain p.largs) (hu : ∀ a ∈ p.largs, isLong a = true → findLong p.tbl (nameOf a) = none) (hat : Attached o p.largs)
    (h : p.addOption o = some q) :
    (given o p.largs).foldlM (fun v e => once o e v) { p.vals with defaults := Function.update p.vals.defaults o.dest (some o.default) } = some q.vals ∧
    q.tbl = p.tbl ++ [o] ∧ q.largs = (p.largs.filter fun a => !isLong a) ++ (p.largs.filter fun a => isLong a && !(findLong (p.tbl ++ [o]) (nameOf a)).isSome) ∧
    q.settable = (if o.settable then p.settable ++ [o.dest] else p.settable) ∧ (∀ n ∈ o.longs, findLong p.tbl n = none) := by
  unfold Parser.addOption at h
  split at h
  · cases h
  · rename_i hfresh
    rw [Option.map_eq_some_iff] at h
    obtain ⟨q1, h1, rfl⟩ := h
    unfold Parser.reparse at h1
    rw [Option.map_eq_some_iff] at h1
    obtain ⟨q2, h2, rfl⟩ := h1
    simp only [divide_plain hpl] at h2 ⊢
    unfold Parser.parse at h2
    rw [Option.map_eq_some_iff] at h2
    obtain ⟨r, hr, rfl⟩ := h2
    simp only at hr ⊢
    have hfr : ∀ n ∈ o.longs, findLong p.tbl n = none := by
      intro n hn
      rw [not_or] at hfresh
      have := hfresh.1
      simp only [List.any_eq_true, not_exists, not_and] at this
      have := this n hn
      simpa using this
    -- the arguments that are parsed again
    generalize hA : (p.largs.filter fun a => !(isLong a) || (findLong (p.tbl ++ [o]) (nameOf a)).isSome) = A at hr
    have hmem : ∀ a ∈ A, a ∈ p.largs ∧ (isLong a = true → (findLong (p.tbl ++ [o]) (nameOf a)).isSome = true) := by
      intro a ha
      rw [← hA, List.mem_filter] at ha
      refine ⟨ha.1, fun hl => ?_⟩
      have := ha.2; simpa [hl] using this
    have hfind : ∀ a ∈ p.largs, isLong a = true → findLong (p.tbl ++ [o]) (nameOf a) = if nameOf a ∈ o.longs then some o else none := by
      intro a ha hl
      rw [findLong_append, hu a ha hl]; simp
    have hgiven : given o A = given o p.largs := by
      unfold given
      rw [← hA, List.filterMap_filter]
      apply List.filterMap_congr
      intro a ha
      by_cases hl : isLong a = true
      · by_cases hn : nameOf a ∈ o.longs
        · have : (findLong (p.tbl ++ [o]) (nameOf a)).isSome = true := by rw [hfind a ha hl]; simp [hn]
          simp [hl, hn, this]
        · simp [hl, hn]
      · simp [hl]
    have hatt : ∀ o' ∈ p.tbl ++ [o], Attached o' A := by
      intro o' ho' e he
      rw [List.mem_append, List.mem_singleton] at ho'
      rcases ho' with ho' | rfl
      · exfalso
        unfold given at he
        rw [List.mem_filterMap] at he
        obtain ⟨a, ha, hae⟩ := he
        split at hae
        · rename_i hc
          have h1 := hu a (hmem a ha).1 hc.1
          unfold findLong at h1
          rw [List.find?_eq_none] at h1
          exact h1 o' ho' (by simpa using hc.2)
        · cases hae
      · rw [hgiven] at he; exact hat e he
    rw [parseLoop_plain (fun a ha => hpl a (hmem a ha).1) (by omega) hatt (fun a ha hl => Or.inl ((hmem a ha).2 hl)), Option.map_eq_some_iff] at hr
    obtain ⟨v', hv', rfl⟩ := hr
    rw [foldlM_given fun a ha hl => hfind a (hmem a ha).1 hl, hgiven] at hv'
    refine ⟨hv', by trivial, ?_, by trivial, hfr⟩
    simp only [List.nil_append]
    congr 1
    rw [← hA, List.filter_filter]
    apply List.filter_congr
    intro a ha
    by_cases hl : isLong a = true <;> simp [hl]

/-- What is left over after the first parse, while options are declared: the words, and the options not known yet. -/
structure Left (L : List Text) (p : Parser) : Prop where
  plain : Plain p.largs
  words : (p.largs.filter fun a => !isLong a) = L.filter fun a => !isLong a
  longs : (p.largs.filter fun a => isLong a) = (L.filter fun a => isLong a).filter fun a => (findLong p.tbl (nameOf a)).isNone

theorem Left.unknown {L : List Text} {p : Parser} (h : Left L p) : ∀ a ∈ p.largs, isLong a = true → findLong p.tbl (nameOf a) = none := by
  intro a ha hl
  have h1 : a ∈ p.largs.filter fun a => isLong a := List.mem_filter.2 ⟨ha, hl⟩
  rw [h.longs, List.mem_filter] at h1
  simpa using h1.2

theorem given_longs (o : Opt) (l : List Text) : given o l = given o (l.filter fun a => isLong a) := by
  unfold given
  rw [List.filterMap_filter]
  apply List.filterMap_congr
  intro a _
  by_cases hl : isLong a = true <;> simp [hl]

/-- An option whose names are not known yet is written in the leftovers as it was on the command line. -/
theorem Left.given {L : List Text} {p : Parser} (h : Left L p) {o : Opt} (hf : ∀ n ∈ o.longs, findLong p.tbl n = none) : given o p.largs = given o L := by
  rw [given_longs, h.longs, given_longs o L]
  unfold Options.given
  rw [List.filterMap_filter]
  apply List.filterMap_congr
  intro a _
  by_cases hn : isLong a = true ∧ nameOf a ∈ o.longs
  · simp [hn, hf _ hn.2]
  · rw [if_neg hn]; split <;> rfl

theorem Left.add {L : List Text} {p q : Parser} (h : Left L p) {o : Opt} (hat : Attached o L) (ha : p.addOption o = some q) :
    Left L q ∧ (Options.given o L).foldlM (fun v e => once o e v) { p.vals with defaults := Function.update p.vals.defaults o.dest (some o.default) } = some q.vals ∧
      q.tbl = p.tbl ++ [o] ∧ q.settable = (if o.settable then p.settable ++ [o.dest] else p.settable) ∧ (∀ n ∈ o.longs, findLong p.tbl n = none) := by
  have hfr : ∀ n ∈ o.longs, findLong p.tbl n = none := by
    unfold Parser.addOption at ha
    split at ha
    · cases ha
    · rename_i hfresh
      intro n hn
      rw [not_or] at hfresh
      have := hfresh.1
      simp only [List.any_eq_true, not_exists, not_and] at this
      simpa using this n hn
  have hg := h.given hfr
  have hat' : Attached o p.largs := by intro e he; rw [hg] at he; exact hat e he
  obtain ⟨h1, h2, h3, h4, h5⟩ := addOption_plain h.plain h.unknown hat' ha
  rw [hg] at h1
  refine ⟨⟨?_, ?_, ?_⟩, h1, h2, h4, hfr⟩
  · intro a hmem
    rw [h3, List.mem_append, List.mem_filter, List.mem_filter] at hmem
    rcases hmem with hmem | hmem <;> exact h.plain a hmem.1
  · rw [h3, List.filter_append, List.filter_filter, List.filter_filter, ← h.words]
    have e1 : (p.largs.filter fun a => !isLong a && !isLong a) = p.largs.filter fun a => !isLong a := by congr 1; funext a; simp
    have e2 : (p.largs.filter fun a => !isLong a && (isLong a && !(findLong (p.tbl ++ [o]) (nameOf a)).isSome)) = [] := by
      rw [List.filter_eq_nil_iff]; intro a _; cases isLong a <;> simp
    rw [e1, e2, List.append_nil]
  · rw [h3, h2, List.filter_append, List.filter_filter, List.filter_filter]
    have e1 : (p.largs.filter fun a => isLong a && !isLong a) = [] := by rw [List.filter_eq_nil_iff]; intro a _; cases isLong a <;> simp
    have e2 : (p.largs.filter fun a => isLong a && (isLong a && !(findLong (p.tbl ++ [o]) (nameOf a)).isSome)) =
        (p.largs.filter fun a => isLong a).filter fun a => (findLong (p.tbl ++ [o]) (nameOf a)).isNone := by
      rw [List.filter_filter]; congr 1; funext a; cases isLong a <;> cases findLong (p.tbl ++ [o]) (nameOf a) <;> rfl
    rw [e1, e2, List.nil_append, h.longs, List.filter_filter]
    congr 1; funext a
    rw [findLong_append]
    cases findLong p.tbl (nameOf a) <;> simp

/-! ## SetOption -/

/-- What is stored for a value given to `SetOption`: numbers for the options that are numbers, disk checks converted, otherwise the value itself. -/
def meaning (intOf : Text → Option Int) (diskOf : Val → Option Val) (name : Text) (x : Val) : Option Val :=
  if name = t "num_jobs" ∨ name = t "max_drift" ∨ name = t "stack_size" then (toInt intOf x).map Val.int
  else if name = t "diskcheck" then diskOf x
  else some x

/-- Names under which `SetOption` collects, or which it stores for another name. -/
def collected : List Text := ["md5_chunksize", "hash_chunksize", "warn", "experimental", "implicit_cache"].map t

theorem setting_at {p : Parser} {n d : Text} {x : Val} : (p.setting n x).vals.settings d = if n = d then some x else p.vals.settings d := by
  by_cases h : n = d
  · subst h; simp [Parser.setting]
  · simp [Parser.setting, Function.update_of_ne (Ne.symm h), h]

/-- The parts of a parser that `SetOption` leaves alone. -/
def Kept (p q : Parser) : Prop := q.tbl = p.tbl ∧ q.largs = p.largs ∧ q.rargs = p.rargs ∧ q.settable = p.settable ∧ q.vals.cmd = p.vals.cmd ∧ q.vals.defaults = p.vals.defaults

theorem setOption_kept {intOf : Text → Option Int} {diskOf : Val → Option Val} {p q : Parser} {n : Text} {x : Val} (h : p.setOption intOf diskOf n x = some q) : Kept p q := by
  unfold Parser.setOption at h
  split at h
  · cases h
  split at h
  · rw [Option.bind_eq_some_iff] at h
    obtain ⟨i, -, h⟩ := h
    split at h
    · cases h
    · cases h; exact ⟨rfl, rfl, rfl, rfl, rfl, rfl⟩
  split at h
  · rw [Option.map_eq_some_iff] at h
    obtain ⟨i, -, rfl⟩ := h; exact ⟨rfl, rfl, rfl, rfl, rfl, rfl⟩
  split at h
  · split at h
    · split at h
      · cases h; exact ⟨rfl, rfl, rfl, rfl, rfl, rfl⟩
      · cases h
    · cases h
  split at h
  · rw [Option.map_eq_some_iff] at h
    obtain ⟨i, -, rfl⟩ := h; exact ⟨rfl, rfl, rfl, rfl, rfl, rfl⟩
  split at h
  · rw [Option.map_eq_some_iff] at h
    obtain ⟨i, -, rfl⟩ := h; exact ⟨rfl, rfl, rfl, rfl, rfl, rfl⟩
  split at h
  · rw [Option.map_eq_some_iff] at h
    obtain ⟨i, -, rfl⟩ := h; exact ⟨rfl, rfl, rfl, rfl, rfl, rfl⟩
  split at h
  · cases h; exact ⟨rfl, rfl, rfl, rfl, rfl, rfl⟩
  split at h
  · cases h; split <;> exact ⟨rfl, rfl, rfl, rfl, rfl, rfl⟩
  · cases h; exact ⟨rfl, rfl, rfl, rfl, rfl, rfl⟩

theorem setOption_settable {intOf : Text → Option Int} {diskOf : Val → Option Val} {p q : Parser} {n : Text} {x : Val} (h : p.setOption intOf diskOf n x = some q) : n ∈ p.settable := by
  unfold Parser.setOption at h
  split at h
  · cases h
  · rename_i hn; simpa using hn

/-- What `SetOption` stores under a name that is not collected. -/
theorem setOption_settings {intOf : Text → Option Int} {diskOf : Val → Option Val} {p q : Parser} {n d : Text} {x : Val} (h : p.setOption intOf diskOf n x = some q) (hd : d ∉ collected) :
    (n ≠ d → q.vals.settings d = p.vals.settings d) ∧ (n = d → ∃ y, meaning intOf diskOf d x = some y ∧ q.vals.settings d = some y) := by
  have hne : ∀ s ∈ collected, s ≠ d := fun s hs e => hd (e ▸ hs)
  have h1 : t "md5_chunksize" ≠ d := hne _ (by simp [collected])
  have h2 : t "hash_chunksize" ≠ d := hne _ (by simp [collected])
  have h3 : t "warn" ≠ d := hne _ (by simp [collected])
  have h4 : t "experimental" ≠ d := hne _ (by simp [collected])
  have h5 : t "implicit_cache" ≠ d := hne _ (by simp [collected])
  unfold Parser.setOption at h
  split at h
  · cases h
  split at h
  · rename_i e
    rw [Option.bind_eq_some_iff] at h
    obtain ⟨i, hi, h⟩ := h
    split at h
    · cases h
    · cases h
      refine ⟨fun hn => by rw [setting_at, if_neg hn], fun hn => ⟨.int i, ?_, by rw [setting_at, if_pos hn]⟩⟩
      rw [← hn, meaning, if_pos (Or.inl e), hi]; rfl
  rename_i e1
  split at h
  · rename_i e
    rw [Option.map_eq_some_iff] at h
    obtain ⟨i, hi, rfl⟩ := h
    refine ⟨fun hn => by rw [setting_at, if_neg hn], fun hn => ⟨.int i, ?_, by rw [setting_at, if_pos hn]⟩⟩
    rw [← hn, meaning, if_pos (Or.inr e), hi]; rfl
  rename_i e2
  have hm : n ≠ t "diskcheck" → meaning intOf diskOf n x = some x := by
    intro hn
    rw [meaning, if_neg (by rw [not_or]; exact ⟨e1, e2⟩), if_neg hn]
  split at h
  · rename_i e
    have hdu : t "duplicate" ≠ t "diskcheck" := by decide
    split at h
    · split at h
      · cases h
        refine ⟨fun hn => ?_, fun hn => ⟨.str ‹Text›, ?_, ?_⟩⟩
        · show (p.setting n _).vals.settings d = _
          rw [setting_at, if_neg hn]
        · rw [← hn]; exact hm (by rw [e]; exact hdu)
        · show (p.setting n _).vals.settings d = _
          rw [setting_at, if_pos hn]
      · cases h
    · cases h
  split at h
  · rename_i e
    rw [Option.map_eq_some_iff] at h
    obtain ⟨y, hy, rfl⟩ := h
    refine ⟨fun hn => ?_, fun hn => ⟨y, ?_, ?_⟩⟩
    · show (p.setting n y).vals.settings d = _
      rw [setting_at, if_neg hn]
    · rw [← hn, meaning, if_neg (by rw [not_or]; exact ⟨e1, e2⟩), if_pos e, hy]
    · show (p.setting n y).vals.settings d = _
      rw [setting_at, if_pos hn]
  rename_i e3
  have hmx := hm e3
  split at h
  · rename_i e
    rw [Option.map_eq_some_iff] at h
    obtain ⟨i, hi, rfl⟩ := h
    refine ⟨fun hn => by rw [setting_at, if_neg h1], fun hn => ?_⟩
    rcases e with e | e
    · exact absurd (e ▸ hn) h1
    · exact absurd (e ▸ hn) h2
  split at h
  · rename_i e
    rw [Option.map_eq_some_iff] at h
    obtain ⟨i, hi, rfl⟩ := h
    have hn : n ≠ d := by rcases e with e | e <;> rw [e] <;> assumption
    exact ⟨fun _ => by rw [setting_at, if_neg hn], fun h => absurd h hn⟩
  split at h
  · cases h
    refine ⟨fun hn => ?_, fun hn => ⟨x, by rw [← hn]; exact hmx, ?_⟩⟩
    · show (p.setting n x).vals.settings d = _
      rw [setting_at, if_neg hn]
    · show (p.setting n x).vals.settings d = _
      rw [setting_at, if_pos hn]
  split at h
  · cases h
    refine ⟨fun hn => ?_, fun hn => ⟨x, by rw [← hn]; exact hmx, ?_⟩⟩
    · rw [setting_at, if_neg hn]
      split
      · rw [setting_at, if_neg h5]
      · rfl
    · rw [setting_at, if_pos hn]
  · cases h
    refine ⟨fun hn => ?_, fun hn => ⟨x, by rw [← hn]; exact hmx, ?_⟩⟩
    · rw [setting_at, if_neg hn]
    · rw [setting_at, if_pos hn]

theorem Left.kept {L : List Text} {p q : Parser} (h : Left L p) (hk : Kept p q) : Left L q := by
  obtain ⟨k1, k2, -⟩ := hk
  exact ⟨by rw [k2]; exact h.plain, by rw [k2]; exact h.words, by rw [k1, k2]; exact h.longs⟩

/-! ## Reading the scripts -/

/-- The options declared by the scripts. -/
def declared : List Cmd → List Opt
  | [] => []
  | .add o :: cs => o :: declared cs
  | .set _ _ :: cs => declared cs

theorem mem_declared {o : Opt} : ∀ {cs : List Cmd}, o ∈ declared cs ↔ Cmd.add o ∈ cs := by
  intro cs
  induction cs with
  | nil => simp [declared]
  | cons c cs ih => cases c <;> simp [declared, ih]

theorem once_other {o : Opt} {e : Option Text} {v v' : Values} {d : Text} (h : ¬ o.touches d) (hp : once o e v = some v') : Same d v v' := by
  unfold once at hp
  split at hp <;> exact process_other h hp

theorem foldOnce_other {o : Opt} {d : Text} (h : ¬ o.touches d) : ∀ {es : List (Option Text)} {v v' : Values}, es.foldlM (fun v e => once o e v) v = some v' → Same d v v' := by
  intro es
  induction es with
  | nil => intro v v' hp; simp only [List.foldlM_nil] at hp; cases hp; exact Same.rfl
  | cons e es ih =>
    intro v v' hp
    rw [List.foldlM_cons] at hp
    cases h1 : once o e v with
    | none => rw [h1] at hp; cases hp
    | some v1 => rw [h1] at hp; exact (once_other h h1).trans (ih hp)

theorem lastSet_append {d : Text} : ∀ {a b : List Cmd}, lastSet d (a ++ b) = (lastSet d b).or (lastSet d a) := by
  intro a
  induction a with
  | nil => intro b; simp [lastSet]
  | cons c a ih => intro b; cases c <;> simp [lastSet, ih, Option.or_assoc]

/-- Commands of the scripts that do not declare an option for this name. -/
theorem readScripts_frame {intOf : Text → Option Int} {diskOf : Val → Option Val} {L : List Text} {d : Text} : ∀ {cs : List Cmd} {p q : Parser}, Left L p →
    (∀ o ∈ declared cs, Attached o L) → (∀ o ∈ declared cs, ¬ o.touches d) → readScripts intOf diskOf p cs = some q →
    Left L q ∧ q.vals.cmd d = p.vals.cmd d ∧ q.vals.defaults d = p.vals.defaults d ∧ q.tbl = p.tbl ++ declared cs ∧
    (d ∉ collected → q.vals.settings d = match lastSet d cs with
      | some x => meaning intOf diskOf d x
      | none => p.vals.settings d) ∧
    (d ∉ collected → ∀ x, lastSet d cs = some x → (meaning intOf diskOf d x).isSome = true) := by
  intro cs
  induction cs with
  | nil => intro p q hl _ _ h; simp only [readScripts, List.foldlM_nil] at h; cases h; simp [declared, lastSet, hl]
  | cons c cs ih =>
    intro p q hl hat htc h
    unfold readScripts at h
    rw [List.foldlM_cons] at h
    cases h1 : step intOf diskOf p c with
    | none => rw [h1] at h; cases h
    | some p1 =>
      rw [h1] at h
      cases c with
      | add o =>
        obtain ⟨a1, a2, a3, a4, a5⟩ := hl.add (hat o (by simp [declared])) h1
        have ho : ¬ o.touches d := htc o (by simp [declared])
        have hod : d ≠ o.dest := fun e => ho (Or.inl e.symm)
        obtain ⟨s1, s2, s3⟩ := foldOnce_other ho a2
        obtain ⟨b1, b2, b3, b4, b5, b6⟩ := ih a1 (fun o' h' => hat o' (by simp [declared, h'])) (fun o' h' => htc o' (by simp [declared, h'])) h
        refine ⟨b1, by rw [b2, s1], ?_, by rw [b4, a3]; simp [declared], fun hd => ?_, fun hd x hx => b6 hd x (by simpa [lastSet] using hx)⟩
        · rw [b3, s3]; simp [Function.update_of_ne hod]
        · rw [b5 hd, s2]; simp [lastSet]
      | set n x =>
        have hk := setOption_kept h1
        obtain ⟨b1, b2, b3, b4, b5, b6⟩ := ih (hl.kept hk) (fun o' h' => hat o' (by simpa [declared] using h')) (fun o' h' => htc o' (by simpa [declared] using h')) h
        obtain ⟨k1, k2, k3, k4, k5, k6⟩ := hk
        refine ⟨b1, by rw [b2, k5], by rw [b3, k6], by rw [b4, k1]; simp [declared], fun hd => ?_, fun hd y hy => ?_⟩
        · rw [b5 hd]
          obtain ⟨c1, c2⟩ := setOption_settings h1 hd
          simp only [lastSet]
          cases hls : lastSet d cs with
          | some y => simp
          | none =>
            by_cases hn : n = d
            · obtain ⟨y, hy, hq⟩ := c2 hn
              simp [hn, hq, hy]
            · simp [hn, c1 hn]
        · obtain ⟨c1, c2⟩ := setOption_settings h1 hd
          simp only [lastSet] at hy
          cases hls : lastSet d cs with
          | some z =>
            rw [hls] at hy; simp only [Option.some_or, Option.some.injEq] at hy
            subst hy; exact b6 hd _ hls
          | none =>
            rw [hls, Option.none_or] at hy
            split at hy
            · rename_i hn
              cases hy
              obtain ⟨y, hy, hq⟩ := c2 hn
              simp [hy]
            · cases hy

/-- The last parse: everything still unknown is an error; otherwise nothing changes. -/
theorem finish_plain {L : List Text} {p : Parser} (h : Left L p) :
    p.finish = if (p.largs.filter fun a => isLong a) = [] then some { p with rargs := [] } else none := by
  have key : ∀ (l : List Text) (n : Nat) (v : Values) (largs : List Text), Plain l → (∀ a ∈ l, isLong a = true → findLong p.tbl (nameOf a) = none) → l.length < n →
      parseLoop false p.tbl n l v largs = if (l.filter fun a => isLong a) = [] then some (v, largs ++ l, []) else none := by
    intro l
    induction l with
    | nil =>
      intro n v largs _ _ hn
      cases n with
      | zero => simp at hn
      | succ n => simp [parseLoop]
    | cons a l ih =>
      intro n v largs hpl hu hn
      cases n with
      | zero => simp at hn
      | succ n =>
        simp only [parseLoop]
        rcases hpl a (by simp) with ha | ha
        · rw [if_neg (long_not_dd ha), if_pos ha]
          have : processLong false p.tbl a l v largs = none := by
            unfold processLong; dsimp only
            have := hu a (by simp) ha
            unfold nameOf at this
            rw [this]; rfl
          rw [this]; simp [ha]
        · obtain ⟨w1, w2, w3, w4⟩ := word_facts ha
          rw [if_neg w1, if_neg (by simp [w3]), if_neg (by simp [w4]),
            ih n v (largs ++ [a]) (fun b hb => hpl b (by simp [hb])) (fun b hb => hu b (by simp [hb])) (by simpa using hn)]
          simp [w3]
  unfold Parser.finish Parser.parse
  rw [key _ _ _ _ h.plain h.unknown (by omega)]
  split <;> simp

/-! ## Whole runs -/

theorem start_left {tbl : List Opt} {settable : List Text} {defaults : Dict} {flags argv : List Text} {p : Parser} (h : start tbl settable defaults flags argv = some p)
    (hpl : Plain p.largs) : Left p.largs p ∧ p.tbl = tbl ∧ p.settable = settable := by
  unfold start Parser.parse at h
  rw [Option.map_eq_some_iff] at h
  obtain ⟨r, hr, rfl⟩ := h
  refine ⟨⟨hpl, rfl, ?_⟩, rfl, rfl⟩
  simp only
  symm
  rw [List.filter_eq_self]
  intro a ha
  rw [List.mem_filter] at ha
  have := parseLoop_left (by simp) hr a ha.1 ha.2
  simpa using this

/-- A run with these built-in options, command line and scripts: the parser before the scripts are read, and at the end. -/
structure Run (intOf : Text → Option Int) (diskOf : Val → Option Val) (tbl : List Opt) (settable : List Text) (defaults : Dict) (flags argv : List Text) (cs : List Cmd) (p0 p2 : Parser) : Prop where
  first : start tbl settable defaults flags argv = some p0
  last : ((readScripts intOf diskOf p0 cs).bind Parser.finish) = some p2

variable {intOf : Text → Option Int} {diskOf : Val → Option Val} {tbl : List Opt} {settable : List Text} {defaults : Dict} {flags argv : List Text} {cs : List Cmd} {p0 p2 : Parser}

theorem Run.mid (r : Run intOf diskOf tbl settable defaults flags argv cs p0 p2) : ∃ p1, readScripts intOf diskOf p0 cs = some p1 ∧ p1.finish = some p2 := by
  have := r.last
  rwa [Option.bind_eq_some_iff] at this

theorem finish_vals {L : List Text} {p q : Parser} (h : Left L p) (hf : p.finish = some q) : q.vals = p.vals ∧ q.largs = p.largs ∧ q.tbl = p.tbl ∧ (p.largs.filter fun a => isLong a) = [] := by
  rw [finish_plain h] at hf
  split at hf
  · rename_i h0; cases hf; exact ⟨rfl, rfl, rfl, h0⟩
  · cases hf

/-- Command line, else the last `SetOption`, else the default: for every name that the scripts do not declare an option for. -/
theorem C78_precedence (r : Run intOf diskOf tbl settable defaults flags argv cs p0 p2) (hpl : Plain p0.largs) (hat : ∀ o ∈ declared cs, Attached o p0.largs) {d : Text}
    (htc : ∀ o ∈ declared cs, ¬ o.touches d) :
    (∀ x, p0.vals.cmd d = some x → p2.vals.get d = some x) ∧
    (p0.vals.cmd d = none → d ∉ collected → ∀ x, lastSet d cs = some x → ∃ y, meaning intOf diskOf d x = some y ∧ p2.vals.get d = some y) ∧
    (d ∉ collected → lastSet d cs = none → p2.vals.get d = p0.vals.get d) := by
  obtain ⟨p1, h1, h2⟩ := r.mid
  obtain ⟨l0, -, -⟩ := start_left r.first hpl
  obtain ⟨a1, a2, a3, a4, a5, a6⟩ := readScripts_frame l0 hat htc h1
  obtain ⟨b1, -, -, -⟩ := finish_vals a1 h2
  refine ⟨fun x hx => ?_, fun h0 hd x hx => ?_, fun hd hx => ?_⟩
  · simp [Values.get, b1, a2, hx]
  · obtain ⟨y, hy⟩ := Option.isSome_iff_exists.1 (a6 hd x hx)
    exact ⟨y, hy, by simp [Values.get, b1, a2, h0, a5 hd, hx, hy]⟩
  · simp [Values.get, b1, a2, a5 hd, hx, a3]

/-- The occurrences of an option that stores, taken in order. -/
theorem attached_zero {o : Opt} {L : List Text} (h : Attached o L) : ∀ e ∈ given o L, o.nargs ≠ .zero ∨ e = none := by
  intro e he
  rcases h e he with ⟨-, h⟩ | ⟨h, -⟩ | ⟨c, h⟩
  · exact Or.inr h
  · left; rw [h]; nofun
  · left; rw [h]; nofun

theorem readScripts_split {pre post : List Cmd} {c : Cmd} {p q : Parser} (h : readScripts intOf diskOf p (pre ++ c :: post) = some q) :
    ∃ a b, readScripts intOf diskOf p pre = some a ∧ step intOf diskOf a c = some b ∧ readScripts intOf diskOf b post = some q := by
  unfold readScripts at *
  rw [List.foldlM_append] at h
  cases h1 : pre.foldlM (step intOf diskOf) p with
  | none => rw [h1] at h; cases h
  | some a =>
    rw [h1] at h
    change ((c :: post).foldlM (step intOf diskOf) a) = some q at h
    rw [List.foldlM_cons] at h
    cases h2 : step intOf diskOf a c with
    | none => rw [h2] at h; cases h
    | some b => rw [h2] at h; exact ⟨a, b, rfl, h2, h⟩

theorem declared_append {a b : List Cmd} : declared (a ++ b) = declared a ++ declared b := by
  induction a with
  | nil => rfl
  | cons c a ih => cases c <;> simp [declared, ih]

/-- Why an option declared by a script finds its value although the command line was parsed before: the first parse has kept what it did not know. -/
theorem C78_local_option (r : Run intOf diskOf tbl settable defaults flags argv cs p0 p2) (hpl : Plain p0.largs) (hat : ∀ o ∈ declared cs, Attached o p0.largs)
    {pre post : List Cmd} {o : Opt} (hcs : cs = pre ++ .add o :: post) (hst : Stores o) (hbuiltin : ∀ o' ∈ tbl, ¬ o'.touches o.dest)
    (hother : ∀ o' ∈ declared pre ++ declared post, ¬ o'.touches o.dest) (hd : o.dest ∉ collected) :
    (∀ e, (given o p0.largs).getLast? = some e → ∃ x, valueOf o e = some x ∧ p2.vals.get o.dest = some x) ∧
    (given o p0.largs = [] → ∀ x, lastSet o.dest cs = some x → ∃ y, meaning intOf diskOf o.dest x = some y ∧ p2.vals.get o.dest = some y) ∧
    (given o p0.largs = [] → lastSet o.dest cs = none → p2.vals.get o.dest = some o.default) := by
  obtain ⟨p1, h1, h2⟩ := r.mid
  obtain ⟨l0, htb, -⟩ := start_left r.first hpl
  have hs := hst
  have hstart : p0.vals.cmd o.dest = none ∧ p0.vals.settings o.dest = none := by
    have := r.first
    unfold start Parser.parse at this
    rw [Option.map_eq_some_iff] at this
    obtain ⟨q, hq, rfl⟩ := this
    obtain ⟨s1, s2, -⟩ := parseLoop_other hbuiltin hq
    exact ⟨s1, s2⟩
  subst hcs
  obtain ⟨a, b, ha, hab, hb⟩ := readScripts_split h1
  simp only [declared_append, declared, List.mem_append, List.mem_cons] at hat hother
  obtain ⟨a1, a2, a3, a4, a5, a6⟩ := readScripts_frame l0 (fun o' h' => hat o' (Or.inl h')) (fun o' h' => hother o' (Or.inl h')) ha
  have hato := hat o (Or.inr (Or.inl rfl))
  obtain ⟨m1, m2, m3, m4, m5⟩ := a1.add hato hab
  obtain ⟨f1, f2, f3, f4⟩ := fold_store hs m2 (attached_zero hato)
  obtain ⟨b1, b2, b3, b4, b5, b6⟩ := readScripts_frame m1 (fun o' h' => hat o' (Or.inr (Or.inr h'))) (fun o' h' => hother o' (Or.inr h')) hb
  obtain ⟨c1, -, -, -⟩ := finish_vals b1 h2
  have hset : p1.vals.settings o.dest = match lastSet o.dest (pre ++ .add o :: post) with
      | some x => meaning intOf diskOf o.dest x
      | none => none := by
    rw [b5 hd, lastSet_append]
    simp only [lastSet]
    cases lastSet o.dest post with
    | some x => simp
    | none => simp only [Option.none_or]; rw [f1, a5 hd, hstart.2]
  have hsome : ∀ x, lastSet o.dest (pre ++ .add o :: post) = some x → (meaning intOf diskOf o.dest x).isSome = true := by
    intro x hx
    rw [lastSet_append] at hx
    simp only [lastSet] at hx
    cases hp : lastSet o.dest post with
    | some y => rw [hp] at hx; simp only [Option.some_or, Option.some.injEq] at hx; subst hx; exact b6 hd _ hp
    | none => rw [hp, Option.none_or] at hx; exact a6 hd _ hx
  have hdef : p1.vals.defaults o.dest = some o.default := by rw [b3, f2]; simp
  refine ⟨fun e he => ?_, fun he x hx => ?_, fun he hx => ?_⟩
  · rw [he] at f4
    simp only at f4
    have hv : (valueOf o e).isSome = true := by
      rw [← f4]
      obtain ⟨es, hes⟩ := List.getLast?_eq_some_iff.1 he
      rw [hes, List.foldlM_append] at m2
      cases h3 : es.foldlM (fun v e => once o e v) { a.vals with defaults := Function.update a.vals.defaults o.dest (some o.default) } with
      | none => rw [h3] at m2; cases m2
      | some v1 =>
        rw [h3] at m2
        change ([e].foldlM (fun v e => once o e v) v1) = some b.vals at m2
        rw [List.foldlM_cons] at m2
        cases h4 : once o e v1 with
        | none => rw [h4] at m2; cases m2
        | some v2 =>
          rw [h4] at m2
          change ([].foldlM (fun v e => once o e v) v2) = some b.vals at m2
          simp only [List.foldlM_nil] at m2
          cases m2
          obtain ⟨x, hx, hv2⟩ := once_store hs h4 (attached_zero hato e (by rw [hes]; simp))
          rw [hv2]; simp [Values.put]
    obtain ⟨x, hx⟩ := Option.isSome_iff_exists.1 hv
    exact ⟨x, hx, by simp [Values.get, c1, b2, f4, hx]⟩
  · obtain ⟨y, hy⟩ := Option.isSome_iff_exists.1 (hsome x hx)
    refine ⟨y, hy, ?_⟩
    rw [he] at f4
    simp only [List.getLast?_nil] at f4
    simp [Values.get, c1, b2, f4, a2, hstart.1, hset, hx, hy]
  · rw [he] at f4
    simp only [List.getLast?_nil] at f4
    simp [Values.get, c1, b2, f4, a2, hstart.1, hset, hx, hdef]

/-- Only settable options can be set: those that are built in as settable, and those declared settable before. -/
theorem C78_settable {p q : Parser} {pre post : List Cmd} {n : Text} {x : Val} (h : readScripts intOf diskOf p (pre ++ .set n x :: post) = some q) :
    n ∈ p.settable ∨ ∃ o ∈ declared pre, o.settable = true ∧ o.dest = n := by
  obtain ⟨a, b, ha, hab, -⟩ := readScripts_split h
  have hn := setOption_settable hab
  have key : ∀ {cs : List Cmd} {p q : Parser}, readScripts intOf diskOf p cs = some q → n ∈ q.settable → n ∈ p.settable ∨ ∃ o ∈ declared cs, o.settable = true ∧ o.dest = n := by
    intro cs
    induction cs with
    | nil => intro p q h hn; simp only [readScripts, List.foldlM_nil] at h; cases h; exact Or.inl hn
    | cons c cs ih =>
      intro p q h hn
      obtain ⟨a, b, ha, hab, hb⟩ := readScripts_split (pre := []) h
      simp only [readScripts, List.foldlM_nil] at ha
      cases ha
      cases c with
      | add o =>
        rcases ih hb hn with h3 | ⟨o', h3, h4⟩
        · simp only [step, Parser.addOption] at hab
          split at hab
          · cases hab
          · rw [Option.map_eq_some_iff] at hab
            obtain ⟨q1, hq1, rfl⟩ := hab
            have hq : q1.settable = p.settable := by
              unfold Parser.reparse Parser.parse at hq1
              simp only [Option.map_map, Option.map_eq_some_iff] at hq1
              obtain ⟨r, -, rfl⟩ := hq1
              rfl
            simp only at h3
            split at h3
            · rename_i hos
              rw [List.mem_append, List.mem_singleton, hq] at h3
              rcases h3 with h3 | h3
              · exact Or.inl h3
              · exact Or.inr ⟨o, by simp [declared], hos, h3.symm⟩
            · rw [hq] at h3; exact Or.inl h3
        · exact Or.inr ⟨o', by simp [declared, h3], h4⟩
      | set m y =>
        rcases ih hb hn with h3 | ⟨o', h3, h4⟩
        · rw [(setOption_kept hab).2.2.2.1] at h3; exact Or.inl h3
        · exact Or.inr ⟨o', by simpa [declared] using h3, h4⟩
  exact key ha hn

theorem once_append {o : Opt} (ha : o.action = .append) (hc : ∀ x, o.conv x = some (.str x)) {x : Text} {v v' : Values} (h : once o (some x) v = some v') :
    (∀ l, v.cmd o.dest = some (.strs l) → v'.cmd o.dest = some (.strs (l ++ [x]))) ∧ (v.get o.dest = some .none → v'.cmd o.dest = some (.strs [x])) := by
  simp only [once, process, hc, Option.map_some, Option.some.injEq] at h
  subst h
  simp only [act, ha]
  constructor
  · intro l hl
    have : v.ensure o.dest (.strs []) = v := by simp [Values.ensure, Values.get, hl]
    rw [this]
    simp [Values.mutate, hl, extendBy, Val.text]
  · intro hv
    have : v.ensure o.dest (.strs []) = v.put o.dest (.strs []) := by simp [Values.ensure, hv]
    rw [this]
    simp [Values.mutate, Values.put, extendBy, Val.text]

theorem fold_append {o : Opt} (ha : o.action = .append) (hc : ∀ x, o.conv x = some (.str x)) : ∀ {es : List (Option Text)} {v v' : Values}, (∀ e ∈ es, e.isSome = true) →
    es.foldlM (fun v e => once o e v) v = some v' →
    (∀ l, v.cmd o.dest = some (.strs l) → v'.cmd o.dest = some (.strs (l ++ es.filterMap id))) ∧
    (v.get o.dest = some .none → es ≠ [] → v'.cmd o.dest = some (.strs (es.filterMap id))) := by
  intro es
  induction es with
  | nil => intro v v' _ h; simp only [List.foldlM_nil] at h; cases h; simp
  | cons e es ih =>
    intro v v' hs h
    rw [List.foldlM_cons] at h
    obtain ⟨x, rfl⟩ := Option.isSome_iff_exists.1 (hs e (by simp))
    cases h1 : once o (some x) v with
    | none => rw [h1] at h; cases h
    | some v1 =>
      rw [h1] at h
      obtain ⟨a1, a2⟩ := once_append ha hc h1
      obtain ⟨b1, -⟩ := ih (fun e he => hs e (by simp [he])) h
      exact ⟨fun l hl => by rw [b1 _ (a1 l hl)]; simp, fun hv _ => by rw [b1 _ (a2 hv)]; simp⟩

/-- An option that collects its values (`action='append'`, no default): all values of the command line, in order. -/
theorem C78_append_option (r : Run intOf diskOf tbl settable defaults flags argv cs p0 p2) (hpl : Plain p0.largs) (hat : ∀ o ∈ declared cs, Attached o p0.largs)
    {pre post : List Cmd} {o : Opt} (hcs : cs = pre ++ .add o :: post) (hac : o.action = .append) (hn : o.nargs = .many 1) (hcv : ∀ x, o.conv x = some (.str x)) (hdef : o.default = .none)
    (hbuiltin : ∀ o' ∈ tbl, ¬ o'.touches o.dest) (hother : ∀ o' ∈ declared pre ++ declared post, ¬ o'.touches o.dest) (hnew : o.dest ∉ settable) (hd : o.dest ∉ collected)
    (hg : given o p0.largs ≠ []) : p2.vals.get o.dest = some (.strs ((given o p0.largs).filterMap id)) := by
  obtain ⟨p1, h1, h2⟩ := r.mid
  obtain ⟨l0, htb, hse⟩ := start_left r.first hpl
  have hstart : p0.vals.cmd o.dest = none ∧ p0.vals.settings o.dest = none := by
    have := r.first
    unfold start Parser.parse at this
    rw [Option.map_eq_some_iff] at this
    obtain ⟨q, hq, rfl⟩ := this
    obtain ⟨s1, s2, -⟩ := parseLoop_other hbuiltin hq
    exact ⟨s1, s2⟩
  subst hcs
  obtain ⟨a, b, ha, hab, hb⟩ := readScripts_split h1
  simp only [declared_append, declared, List.mem_append, List.mem_cons] at hat hother
  obtain ⟨a1, a2, a3, a4, a5, a6⟩ := readScripts_frame l0 (fun o' h' => hat o' (Or.inl h')) (fun o' h' => hother o' (Or.inl h')) ha
  have hato := hat o (Or.inr (Or.inl rfl))
  obtain ⟨m1, m2, m3, m4, m5⟩ := a1.add hato hab
  obtain ⟨b1, b2, b3, b4, b5, b6⟩ := readScripts_frame m1 (fun o' h' => hat o' (Or.inr (Or.inr h'))) (fun o' h' => hother o' (Or.inr h')) hb
  obtain ⟨c1, -, -, -⟩ := finish_vals b1 h2
  have hpre : lastSet o.dest pre = none := by
    by_contra hc
    obtain ⟨x, hx⟩ := Option.ne_none_iff_exists'.1 hc
    have : ∃ u w, pre = u ++ .set o.dest x :: w := by
      clear ha h1 hat hother r a5 a6 a4 hc
      induction pre with
      | nil => simp [lastSet] at hx
      | cons c cs ih =>
        have tail : lastSet o.dest cs = some x → ∃ u w, c :: cs = u ++ .set o.dest x :: w := by
          intro hx
          obtain ⟨u, w, rfl⟩ := ih hx
          exact ⟨c :: u, w, rfl⟩
        cases c with
        | add o' => exact tail (by simpa [lastSet] using hx)
        | set n y =>
          simp only [lastSet] at hx
          cases hl : lastSet o.dest cs with
          | some z => rw [hl] at hx; simp only [Option.some_or, Option.some.injEq] at hx; subst hx; exact tail hl
          | none =>
            rw [hl, Option.none_or] at hx
            split at hx
            · rename_i e; cases hx; subst e; exact ⟨[], cs, rfl⟩
            · cases hx
    obtain ⟨u, w, rfl⟩ := this
    rcases C78_settable ha with h3 | ⟨o', h3, -, h4⟩
    · rw [hse] at h3; exact hnew h3
    · exact hother o' (Or.inl (by rw [declared_append]; simp [h3])) (Or.inl h4)
  have hget : ({ a.vals with defaults := Function.update a.vals.defaults o.dest (some o.default) } : Values).get o.dest = some .none := by
    simp [Values.get, a2, hstart.1, a5 hd, hpre, hstart.2, hdef]
  have hsome : ∀ e ∈ given o p0.largs, e.isSome = true := by
    intro e he
    rcases hato e he with ⟨h, -⟩ | ⟨-, h⟩ | ⟨c, h⟩
    · rw [hn] at h; cases h
    · exact h
    · rw [hn] at h; cases h
  obtain ⟨-, f⟩ := fold_append hac hcv hsome m2
  have := f hget hg
  simp [Values.get, c1, b2, this]

/-- A run gets past the last parse if and only if every long option that the first parse did not know has been declared; the words are what they were. -/
theorem C78_unknown (h0 : start tbl settable defaults flags argv = some p0) {p1 : Parser} (h1 : readScripts intOf diskOf p0 cs = some p1) (hpl : Plain p0.largs)
    (hat : ∀ o ∈ declared cs, Attached o p0.largs) :
    (p1.finish.isSome = true ↔ ∀ a ∈ p0.largs, isLong a = true → ∃ o ∈ declared cs, nameOf a ∈ o.longs) ∧
    ∀ p2, p1.finish = some p2 → p2.largs = p0.largs.filter fun a => !isLong a := by
  obtain ⟨l0, htb, -⟩ := start_left h0 hpl
  -- the frame lemma needs a name that no option touches, which there need not be: only the leftovers matter here
  have key : ∀ {cs : List Cmd} {p q : Parser}, Left p0.largs p → (∀ o ∈ declared cs, Attached o p0.largs) → readScripts intOf diskOf p cs = some q →
      Left p0.largs q ∧ q.tbl = p.tbl ++ declared cs := by
    intro cs
    induction cs with
    | nil => intro p q hl _ h; simp only [readScripts, List.foldlM_nil] at h; cases h; exact ⟨hl, by simp [declared]⟩
    | cons c cs ih =>
      intro p q hl hat h
      obtain ⟨a, b, ha, hab, hb⟩ := readScripts_split (pre := []) h
      simp only [readScripts, List.foldlM_nil] at ha
      cases ha
      cases c with
      | add o =>
        obtain ⟨a1, a2, a3, a4, a5⟩ := hl.add (hat o (by simp [declared])) hab
        obtain ⟨b1, b2⟩ := ih a1 (fun o' h' => hat o' (by simp [declared, h'])) hb
        exact ⟨b1, by rw [b2, a3]; simp [declared]⟩
      | set n x =>
        have hk := setOption_kept hab
        obtain ⟨b1, b2⟩ := ih (hl.kept hk) (fun o' h' => hat o' (by simpa [declared] using h')) hb
        exact ⟨b1, by rw [b2, hk.1]; simp [declared]⟩
  obtain ⟨l1, ht1⟩ := key l0 hat h1
  have hw := l1.words
  constructor
  · rw [finish_plain l1]
    have : (p1.largs.filter fun a => isLong a) = [] ↔ ∀ a ∈ p0.largs, isLong a = true → ∃ o ∈ declared cs, nameOf a ∈ o.longs := by
      rw [l1.longs, List.filter_eq_nil_iff]
      constructor
      · intro h a ha hl
        have h3 := h a (List.mem_filter.2 ⟨ha, hl⟩)
        rw [Bool.not_eq_true, Option.isNone_eq_false_iff, Option.isSome_iff_exists] at h3
        obtain ⟨o, ho⟩ := h3
        have hm := findLong_mem ho
        rw [ht1, List.mem_append] at hm
        rcases hm.1 with hm1 | hm1
        · have hu := l0.unknown a ha hl
          unfold findLong at hu
          rw [List.find?_eq_none] at hu
          exact absurd (by simpa using hm.2) (hu o hm1)
        · exact ⟨o, hm1, hm.2⟩
      · intro h a ha
        rw [List.mem_filter] at ha
        obtain ⟨o, ho, hn⟩ := h a ha.1 ha.2
        rw [Bool.not_eq_true, Option.isNone_eq_false_iff]
        unfold findLong
        rw [List.find?_isSome]
        exact ⟨o, by rw [ht1]; simp [ho], by simpa using hn⟩
    rw [← this]
    split <;> simp_all
  · intro p2 h2
    obtain ⟨-, e2, -, e4⟩ := finish_vals l1 h2
    rw [e2, ← hw]
    symm
    rw [List.filter_eq_self]
    intro a ha
    rw [List.filter_eq_nil_iff] at e4
    simpa using e4 a ha

/-! ## The first parse -/

theorem fold_give {o : Opt} {d : Text} (hs : Stores o) (hd : o.dest = d) (hown : ∀ n ∈ o.longs, findLong tbl n = some o) (honly : ∀ o' ∈ tbl, o'.touches d → o' = o) :
    ∀ {l : List Text} {v v' : Values}, Attached o l → l.foldlM (giveOne tbl) v = some v' →
      v'.cmd d = match (given o l).getLast? with
        | some e => valueOf o e
        | none => v.cmd d := by
  intro l
  induction l with
  | nil => intro v v' _ h; simp only [List.foldlM_nil] at h; cases h; simp [given]
  | cons a l ih =>
    intro v v' hat h
    rw [List.foldlM_cons] at h
    cases h1 : giveOne tbl v a with
    | none => rw [h1] at h; cases h
    | some v1 =>
      rw [h1] at h
      have hat' : Attached o l := by
        intro e he
        refine hat e ?_
        unfold given at he ⊢
        rw [List.filterMap_cons]
        split
        · exact he
        · exact List.mem_cons_of_mem _ he
      have hi := ih hat' h
      by_cases hc : isLong a = true ∧ nameOf a ∈ o.longs
      · have e1 : given o (a :: l) = (splitEq a).2 :: given o l := by
          unfold given; rw [List.filterMap_cons_some (b := (splitEq a).2)]; rw [if_pos hc]
        have h2 : once o (splitEq a).2 v = some v1 := by
          rw [← h1]; simp [giveOne, hc.1, hown _ hc.2]
        obtain ⟨x, hx, hv1⟩ := once_store hs h2 (attached_zero hat _ (by rw [e1]; simp))
        rw [hi, e1]
        cases given o l with
        | nil => simp only [List.getLast?_nil, List.getLast?_singleton]; rw [hv1, hx]; simp [Values.put, hd]
        | cons e2 es => simp [List.getLast?_cons]
      · have e1 : given o (a :: l) = given o l := by
          unfold given; rw [List.filterMap_cons_none]; rw [if_neg hc]
        rw [hi, e1]
        have hsame : v1.cmd d = v.cmd d := by
          unfold giveOne at h1
          split at h1
          · rename_i hl
            split at h1
            · rename_i o' ho'
              refine (once_other (d := d) ?_ h1).1
              intro htc
              have := honly o' (findLong_mem ho').1 htc
              subst this
              exact hc ⟨hl, (findLong_mem ho').2⟩
            · cases h1; rfl
          · cases h1; rfl
        rw [hsame]

/-- The first parse: `SCONSFLAGS` comes before the command line, and the last occurrence counts; unknown options and words are kept. -/
theorem C78_first_parse (h0 : start tbl settable defaults flags argv = some p0) (hpl : Plain (flags ++ argv)) (hat : ∀ o ∈ tbl, Attached o (flags ++ argv)) :
    p0.largs = ((flags ++ argv).filter fun a => !(isLong a && (findLong tbl (nameOf a)).isSome)) ∧ Plain p0.largs ∧
    ∀ o ∈ tbl, Stores o → (∀ n ∈ o.longs, findLong tbl n = some o) → (∀ o' ∈ tbl, o'.touches o.dest → o' = o) →
      p0.vals.cmd o.dest = ((given o argv).getLast?.or (given o flags).getLast?).bind (valueOf o) := by
  unfold start Parser.parse at h0
  rw [Option.map_eq_some_iff] at h0
  obtain ⟨r, hr, rfl⟩ := h0
  simp only at hr ⊢
  rw [parseLoop_plain hpl (by omega) hat (by simp), Option.map_eq_some_iff] at hr
  obtain ⟨v, hv, rfl⟩ := hr
  refine ⟨by simp, fun a ha => hpl a (by simp only [List.nil_append] at ha; exact (List.mem_filter.1 ha).1), ?_⟩
  intro o ho hs hown honly
  have := fold_give hs rfl hown honly (hat o ho) hv
  simp only at this ⊢
  rw [this]
  have e : given o (flags ++ argv) = given o flags ++ given o argv := by simp [given]
  rw [e, List.getLast?_append]
  cases (given o argv).getLast? with
  | some e => rfl
  | none => cases (given o flags).getLast? <;> rfl

/-- Which words are targets and which are `name=value` arguments before the scripts are read: words with `=` are arguments, the others are targets unless they are empty or a pair
of quotes; after `--` every word is a target. -/
theorem C78_words {ws dd more : List Text} (h0 : start tbl settable defaults flags argv = some p0)
    (h : flags ++ argv = ws ++ dd) (hd : dd = [] ∧ more = [] ∨ dd = t "--" :: more)
    (hpl : Plain ws) (hat : ∀ o ∈ tbl, Attached o ws) :
    p0.words.1 = (ws.filter fun a => decide (isLong a = false ∧ '=' ∉ a ∧ a ≠ [] ∧ a ≠ t "\"\"" ∧ a ≠ t "''")) ++ more ∧
    p0.words.2 = (ws.filter fun a => decide (isLong a = false ∧ '=' ∈ a)) := by
  have key : p0.largs = (ws.filter fun a => !(isLong a && (findLong tbl (nameOf a)).isSome)) ∧ p0.rargs = more := by
    unfold start Parser.parse at h0
    rw [Option.map_eq_some_iff] at h0
    obtain ⟨r, hr, rfl⟩ := h0
    simp only at hr ⊢
    rcases hd with ⟨rfl, rfl⟩ | rfl
    · rw [h, List.append_nil, parseLoop_plain hpl (by omega) hat (by simp), Option.map_eq_some_iff] at hr
      obtain ⟨v, hv, rfl⟩ := hr
      exact ⟨by simp, rfl⟩
    · rw [h, parseLoop_plain_tail (R := more) (fun m v la => by simp [parseLoop, t]) hpl (by simp; omega) hat (by simp), Option.map_eq_some_iff] at hr
      obtain ⟨v, hv, rfl⟩ := hr
      exact ⟨by simp, rfl⟩
  unfold Parser.words
  rw [key.1, key.2]
  simp only [List.filter_filter]
  refine ⟨?_, ?_⟩
  · congr 1
    refine List.filter_congr fun a ha => ?_
    rcases hpl a ha with hl | hw
    · have : a.head? = some '-' := long_head hl
      simp [hl, this]
    · simp [(word_facts hw).2.2.1, hw]
  · refine List.filter_congr fun a ha => ?_
    rcases hpl a ha with hl | hw
    · have : a.head? = some '-' := long_head hl
      simp [hl, this]
    · by_cases hc : '=' ∈ a
      · have h1 : a ≠ [] := by rintro rfl; cases hc
        have h2 : a ≠ t "\"\"" := by rintro rfl; revert hc; decide
        have h3 : a ≠ t "''" := by rintro rfl; revert hc; decide
        simp [(word_facts hw).2.2.1, hw, hc, h1, h2, h3]
      · simp [hc]

end Verif.Options
