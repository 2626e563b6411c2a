import Verif.ShellEnv.Model

/-!
# C96: theorems

Specification: the text of a value of `ENV` as the manual has it, a list being a search path.
-/

namespace Verif.ShellEnv

/-! ### Specification -/

mutual
/-- The entries of a search path. -/
inductive Entries : List V → List Str → Prop
  | nil : Entries [] []
  | cons {v : V} {r : List V} {a b : List Str} : Entry v a → Entries r b → Entries (v :: r) (a ++ b)
inductive Entry : V → List Str → Prop
  | str (s : Str) : Entry (.str s) [s]
  | other (s : Str) : Entry (.other s) [s]
  | list {l : List V} {a : List Str} : Entries l a → Entry (.list l) a
  | tuple {l : List V} {sh : Str} {a : List Str} : Entries l a → Entry (.tuple l sh) a
end

/-- The text of a value: a string is itself, a list the entries with colons between, anything else
its `str()`. -/
inductive Text : V → Str → Prop
  | str (s : Str) : Text (.str s) s
  | other (s : Str) : Text (.other s) s
  | tuple (l : List V) (sh : Str) : Text (.tuple l sh) sh
  | list {l : List V} {a : List Str} : Entries l a → Text (.list l) ([':'].intercalate a)

/-- The variables a dictionary stands for: the same names, in the same order, with the texts. -/
inductive Variables : Dict → List (Str × Str) → Prop
  | nil : Variables [] []
  | cons {k : Str} {v : V} {t : Str} {D : Dict} {e : List (Str × Str)} :
    Text v t → Variables D e → Variables ((k, v) :: D) ((k, t) :: e)

/-- The environment a program was started with: nothing but strings. -/
def Started (t : Th) (e : List (Str × Str)) : Prop := t = .spawned (e.map fun p => (p.1, .str p.2))

/-- A generator that does not distinguish a value from its text. -/
def TextOnly (g : Gen) : Prop :=
  ∀ D D', (∀ e, Variables D e ↔ Variables D' e) →
    match g D, g D' with
    | some R, some R' => ∀ e, Variables R e ↔ Variables R' e
    | none, none => True
    | _, _ => False

/-! ### Texts -/

mutual
theorem entries_flatL : ∀ l, Entries l (flatL l)
  | [] => .nil
  | v :: r => .cons (entry_flat v) (entries_flatL r)
theorem entry_flat : ∀ v, Entry v (flat v)
  | .str s => .str s
  | .other s => .other s
  | .list l => .list (entries_flatL l)
  | .tuple l _ => .tuple (entries_flatL l)
end

mutual
theorem entries_unique : ∀ l a, Entries l a → a = flatL l
  | [], _, .nil => rfl
  | v :: r, _, .cons h1 h2 => by rw [entry_unique v _ h1, entries_unique r _ h2]; rfl
theorem entry_unique : ∀ v a, Entry v a → a = flat v
  | .str _, _, .str _ => rfl
  | .other _, _, .other _ => rfl
  | .list l, _, .list h => entries_unique l _ h
  | .tuple l _, _, .tuple h => entries_unique l _ h
end

theorem joinSep_eq (l : List Str) : joinSep l = [':'].intercalate l := by
  induction l with
  | nil => rfl
  | cons a r ih =>
    cases r with
    | nil => simp [joinSep, List.intercalate]
    | cons b r =>
      rw [joinSep, ih]
      · simp [List.intercalate, List.intersperse]
      · simp

theorem text_conv (v : V) (s : Str) : Text v s ↔ conv v = .str s := by
  constructor
  · intro h
    cases h with
    | str => rfl
    | other => rfl
    | tuple => rfl
    | list h => rw [conv, entries_unique _ _ h, joinSep_eq]
  · intro h
    cases v with
    | str x => simp only [conv, V.str.injEq] at h; subst h; exact .str _
    | other x => simp only [conv, V.str.injEq] at h; subst h; exact .other _
    | tuple l x => simp only [conv, V.str.injEq] at h; subst h; exact .tuple l _
    | list l =>
      simp only [conv, V.str.injEq] at h; subst h
      rw [joinSep_eq]; exact .list (entries_flatL l)

theorem conv_conv (v : V) : conv (conv v) = conv v := by cases v <;> rfl

theorem conv_isStr (v : V) : (conv v).isStr = true := by cases v <;> rfl

theorem isStr_conv {v : V} (h : v.isStr = true) : conv v = v := by
  cases v <;> simp_all [V.isStr, conv]

/-- All values converted. -/
def texts (D : Dict) : Dict := D.map fun p => (p.1, conv p.2)

theorem variables_texts (D : Dict) (e : List (Str × Str)) :
    Variables D e ↔ texts D = e.map fun p => (p.1, .str p.2) := by
  constructor
  · intro h
    induction h with
    | nil => rfl
    | cons ht _ ih =>
      have := (text_conv _ _).1 ht
      simp only [texts, List.map_cons] at ih ⊢
      rw [ih, this]
  · intro h
    induction D generalizing e with
    | nil =>
      cases e with
      | nil => exact .nil
      | cons q e => simp [texts] at h
    | cons p D ih =>
      cases e with
      | nil => simp [texts] at h
      | cons q e =>
        simp only [texts, List.map_cons, List.cons.injEq, Prod.mk.injEq] at h
        obtain ⟨⟨h1, h2⟩, h3⟩ := h
        obtain ⟨k, v⟩ := p
        obtain ⟨k', t⟩ := q
        simp only at h1 h2
        subst h1
        exact .cons ((text_conv _ _).2 h2) (ih _ h3)

theorem conv_str (v : V) : ∃ s, conv v = .str s := by cases v <;> exact ⟨_, rfl⟩

theorem variables_exist (D : Dict) : ∃ e : List (Str × Str), texts D = e.map fun p => (p.1, V.str p.2) := by
  induction D with
  | nil => exact ⟨[], rfl⟩
  | cons p D ih =>
    obtain ⟨e, he⟩ := ih
    obtain ⟨s, hs⟩ := conv_str p.2
    refine ⟨(p.1, s) :: e, ?_⟩
    simp only [texts, List.map_cons] at he ⊢
    rw [he, hs]

theorem same_variables (D D' : Dict) : (∀ e, Variables D e ↔ Variables D' e) ↔ texts D = texts D' := by
  constructor
  · intro h
    obtain ⟨e, he⟩ := variables_exist D
    have := (h e).1 ((variables_texts D e).2 he)
    rw [he, (variables_texts D' e).1 this]
  · intro h e
    rw [variables_texts, variables_texts, h]

theorem runGens_blind {gs : List Gen} (h : ∀ g ∈ gs, TextOnly g) {D D' : Dict} (he : texts D = texts D') :
    (runGens gs D).map texts = (runGens gs D').map texts := by
  induction gs generalizing D D' with
  | nil => simp [runGens, he]
  | cons g r ih =>
    have h1 := h g (by simp) D D' ((same_variables D D').2 he)
    simp only [runGens]
    rcases hg : g D with _ | R <;> rcases hg' : g D' with _ | R' <;> rw [hg, hg'] at h1
    · exact h1.elim
    · exact h1.elim
    · exact ih (fun g hg => h g (by simp [hg])) ((same_variables R R').1 h1)

theorem texts_texts (D : Dict) : texts (texts D) = texts D := by
  simp [texts, conv_conv]

theorem convAll_eq (D : Dict) : convAll D = texts D := by
  unfold convAll texts
  apply List.map_congr_left
  intro p _
  split
  · rw [isStr_conv (by assumption)]
  · rfl

theorem texts_keys (D : Dict) : (texts D).keys = D.keys := by
  simp [texts, Dict.keys]

/-! ### The invariant -/

/-- What is known of a thread of an environment with generators `gs`. -/
def Good (D0 D : Dict) (gs : List Gen) : Th → Prop
  | .start g => g = gs
  | .loop ks => gs = [] ∧ ∀ p ∈ D, p.1 ∉ ks → p.2.isStr = true
  | .hold k v ks => gs = [] ∧ v.isStr = true ∧ (∀ p ∈ D0, p.1 = k → conv p.2 = v) ∧
      ∀ p ∈ D, p.1 ∉ k :: ks → p.2.isStr = true
  | .spawned e => ∃ D', (runGens gs D0).map texts = some D' ∧ e = D'
  | .refused => runGens gs D0 = none

theorem put_texts {D0 D : Dict} (h : texts D = texts D0) {k : Str} {v : V} (hs : v.isStr = true)
    (hv : ∀ p ∈ D0, p.1 = k → conv p.2 = v) : texts (D.put k v) = texts D0 := by
  rw [← h]
  have hv' : ∀ p ∈ D, p.1 = k → conv p.2 = v := by
    intro p hp hk
    have : (p.1, conv p.2) ∈ texts D0 := by rw [← h]; exact List.mem_map.2 ⟨p, hp, rfl⟩
    obtain ⟨q, hq, he⟩ := List.mem_map.1 this
    simp only [Prod.mk.injEq] at he
    rw [← he.2]
    exact hv q hq (he.1.trans hk)
  unfold Dict.put texts
  rw [List.map_map]
  apply List.map_congr_left
  intro p hp
  simp only [Function.comp]
  split
  · rw [hv' p hp (by assumption), isStr_conv hs]
  · rfl

theorem put_isStr {D : Dict} {k : Str} {v : V} (hs : v.isStr = true) {ks : List Str}
    (h : ∀ p ∈ D, p.1 ∉ ks → p.2.isStr = true) : ∀ p ∈ D.put k v, p.1 ∉ ks → p.2.isStr = true := by
  intro p hp hk
  obtain ⟨q, hq, he⟩ := List.mem_map.1 hp
  split at he
  · subst he; exact hs
  · subst he; exact h q hq hk

theorem put_isStr_self {D : Dict} {k : Str} {v : V} (hs : v.isStr = true) {ks : List Str}
    (h : ∀ p ∈ D, p.1 ∉ k :: ks → p.2.isStr = true) : ∀ p ∈ D.put k v, p.1 ∉ ks → p.2.isStr = true := by
  intro p hp hk
  obtain ⟨q, hq, he⟩ := List.mem_map.1 hp
  split at he
  · subst he; exact hs
  · subst he; exact h q hq (by simp_all)

theorem good_put {D0 D : Dict} {gs : List Gen} {t : Th} {k : Str} {v : V} (hs : v.isStr = true)
    (h : Good D0 D gs t) : Good D0 (D.put k v) gs t := by
  cases t with
  | start g => exact h
  | loop ks => exact ⟨h.1, put_isStr hs h.2⟩
  | hold k' v' ks => exact ⟨h.1, h.2.1, h.2.2.1, put_isStr hs h.2.2.2⟩
  | spawned e => exact h
  | refused => exact h

theorem lookup_mem {D : Dict} {k : Str} {v : V} (h : D.lookup k = some v) : (k, v) ∈ D := by
  induction D with
  | nil => simp at h
  | cons p D ih =>
    obtain ⟨a, b⟩ := p
    rw [List.lookup_cons] at h
    by_cases hk : k = a
    · subst hk; simp at h; subst h; simp
    · have : (k == a) = false := by simpa using hk
      rw [this] at h
      simp [ih h]

theorem lookup_unique {D : Dict} (hn : D.keys.Nodup) {k : Str} {v : V} (h : D.lookup k = some v) :
    ∀ p ∈ D, p.1 = k → p.2 = v := by
  induction D with
  | nil => simp at h
  | cons p D ih =>
    obtain ⟨a, b⟩ := p
    rw [List.lookup_cons] at h
    simp only [Dict.keys, List.map_cons, List.nodup_cons] at hn
    by_cases hk : k = a
    · subst hk
      simp at h; subst h
      intro q hq hqk
      rcases List.mem_cons.1 hq with rfl | hq
      · rfl
      · exact (hn.1 (List.mem_map.2 ⟨q, hq, hqk⟩)).elim
    · have : (k == a) = false := by simpa using hk
      rw [this] at h
      intro q hq hqk
      rcases List.mem_cons.1 hq with rfl | hq
      · exact (hk hqk.symm).elim
      · exact ih hn.2 h q hq hqk

theorem lookup_none {D : Dict} {k : Str} (h : D.lookup k = none) : ∀ p ∈ D, p.1 ≠ k := by
  induction D with
  | nil => simp
  | cons p D ih =>
    obtain ⟨a, b⟩ := p
    rw [List.lookup_cons] at h
    by_cases hk : k = a
    · subst hk; simp at h
    · have : (k == a) = false := by simpa using hk
      rw [this] at h
      intro q hq
      rcases List.mem_cons.1 hq with rfl | hq
      · exact fun e => hk e.symm
      · exact ih h q hq

theorem good_step {D0 D : Dict} (hn : D.keys.Nodup) (hD : texts D = texts D0) {gs : List Gen}
    (hb : ∀ g ∈ gs, TextOnly g) {t : Th} (h : Good D0 D gs t) : Good D0 (step D t).1 gs (step D t).2 := by
  cases t with
  | start g =>
    obtain rfl : g = gs := h
    cases g with
    | nil =>
      refine ⟨rfl, fun p hp hk => (hk ?_).elim⟩
      exact List.mem_map.2 ⟨p, hp, rfl⟩
    | cons g r =>
      have := runGens_blind hb hD
      simp only [step]
      rcases hr : runGens (g :: r) D with _ | R
      · rw [hr] at this
        simp only [Good]
        cases hr0 : runGens (g :: r) D0 with
        | none => rfl
        | some x => rw [hr0] at this; simp at this
      · rw [hr] at this
        simp only [Good]
        exact ⟨texts R, this.symm, convAll_eq R⟩
  | loop ks =>
    obtain ⟨h1, h2⟩ := h
    cases ks with
    | nil =>
      subst h1
      refine ⟨texts D0, rfl, ?_⟩
      show D = texts D0
      rw [← hD]
      unfold texts
      conv => lhs; rw [← List.map_id D]
      apply List.map_congr_left
      intro p hp
      rw [isStr_conv (h2 p hp (by simp))]; rfl
    | cons k ks =>
      simp only [step, Dict.get]
      rcases hl : D.lookup k with _ | v
      · refine ⟨h1, fun p hp hk => h2 p hp ?_⟩
        simp only [List.mem_cons, not_or]
        exact ⟨lookup_none hl p hp, hk⟩
      · simp only
        split
        · rename_i hv
          refine ⟨h1, fun p hp hk => ?_⟩
          by_cases hpk : p.1 = k
          · rw [lookup_unique hn hl p hp hpk]; exact hv
          · exact h2 p hp (by simp [hpk, hk])
        · refine ⟨h1, conv_isStr v, fun p hp hk => ?_, h2⟩
          have : (p.1, conv p.2) ∈ texts D := by rw [hD]; exact List.mem_map.2 ⟨p, hp, rfl⟩
          obtain ⟨q, hq, he⟩ := List.mem_map.1 this
          simp only [Prod.mk.injEq] at he
          rw [← he.2, lookup_unique hn hl q hq (he.1.trans hk)]
  | hold k v ks =>
    obtain ⟨h1, h2, h3, h4⟩ := h
    exact ⟨h1, put_isStr_self h2 h4⟩
  | spawned e => exact h
  | refused => exact h

/-- Everything known of a state. -/
structure Inv (D0 : Dict) (gs : List (List Gen)) (s : St) : Prop where
  same : texts s.dict = texts D0
  len : s.ths.length = gs.length
  good : ∀ (i : Nat) t g, s.ths[i]? = some t → gs[i]? = some g → Good D0 s.dict g t

theorem inv_start (D0 : Dict) (gs : List (List Gen)) : Inv D0 gs ⟨D0, gs.map .start⟩ where
  same := rfl
  len := by simp
  good := by
    intro i t g h1 h2
    simp only [List.getElem?_map, h2, Option.map_some, Option.some.injEq] at h1
    subst h1; rfl

theorem inv_stepAt {D0 : Dict} (hn : D0.keys.Nodup) {gs : List (List Gen)}
    (hb : ∀ l ∈ gs, ∀ g ∈ l, TextOnly g) {s : St} (h : Inv D0 gs s) (i : Nat) : Inv D0 gs (stepAt s i) := by
  have hn' : s.dict.keys.Nodup := by
    rw [← texts_keys, h.same, texts_keys]; exact hn
  unfold stepAt
  rcases hi : s.ths[i]? with _ | t
  · exact h
  · have hlt : i < s.ths.length := (List.getElem?_eq_some_iff.1 hi).1
    obtain ⟨g, hg⟩ : ∃ g, gs[i]? = some g := ⟨_, List.getElem?_eq_getElem (by rw [← h.len]; exact hlt)⟩
    have hgood := h.good i t g hi hg
    have hstep := good_step hn' h.same (hb g (List.mem_of_getElem? hg)) hgood
    refine ⟨?_, by simp [h.len], ?_⟩
    · cases t with
      | start g => cases g <;> exact h.same
      | loop ks => cases ks <;> exact h.same
      | hold k v ks => exact put_texts h.same hgood.2.1 hgood.2.2.1
      | spawned e => exact h.same
      | refused => exact h.same
    · intro j t' g' hj hg'
      simp only [List.getElem?_set] at hj
      by_cases hij : i = j
      · subst hij
        rw [hg] at hg'; cases hg'
        simp [hlt] at hj
        subst hj; exact hstep
      · simp only [hij, if_false] at hj
        have := h.good j t' g' hj hg'
        cases t with
        | start g => cases g <;> exact this
        | loop ks => cases ks <;> exact this
        | hold k v ks => exact good_put hgood.2.1 this
        | spawned e => exact this
        | refused => exact this

theorem inv_run {D0 : Dict} (hn : D0.keys.Nodup) {gs : List (List Gen)}
    (hb : ∀ l ∈ gs, ∀ g ∈ l, TextOnly g) (sched : List Nat) {s : St} (h : Inv D0 gs s) :
    Inv D0 gs (run s sched) := by
  induction sched generalizing s with
  | nil => exact h
  | cons i r ih => exact ih (inv_stepAt hn hb h i)

/-! ### Theorems -/

/-- C96: whatever commands run at the same time with the same environment, and in whatever order
their steps come, a program is started with exactly the variables of `ENV` as the SConscript
files left it, and of what the generators make of it, and the command is refused only if a generator gives no dictionary;
the generators must not distinguish values from their texts. -/
theorem C96_every_schedule_partial {D0 : Dict} (hn : D0.keys.Nodup) (gs : List (List Gen))
    (hb : ∀ l ∈ gs, ∀ g ∈ l, TextOnly g) (sched : List Nat) (i : Nat) (g : List Gen) (hg : gs[i]? = some g) :
    (∀ e, (run ⟨D0, gs.map .start⟩ sched).ths[i]? = some (.spawned e) →
      ∃ D' vars, runGens g D0 = some D' ∧ Variables D' vars ∧ Started (.spawned e) vars) ∧
    ((run ⟨D0, gs.map .start⟩ sched).ths[i]? = some .refused → runGens g D0 = none) := by
  have hI := inv_run hn hb sched (inv_start D0 gs)
  refine ⟨fun e he => ?_, fun he => hI.good i _ g he hg⟩
  obtain ⟨D', h1, rfl⟩ := hI.good i _ g he hg
  rcases hr : runGens g D0 with _ | R
  · rw [hr] at h1; simp at h1
  · rw [hr] at h1
    simp only [Option.map_some, Option.some.injEq] at h1
    obtain ⟨vars, hv⟩ := variables_exist R
    refine ⟨R, vars, rfl, (variables_texts R vars).2 hv, ?_⟩
    rw [Started, ← h1, hv]

/-- C96, no generators: nothing is assumed of anything. -/
theorem C96_plain {D0 : Dict} (hn : D0.keys.Nodup) (n : Nat) (sched : List Nat) (i : Nat) (hi : i < n) :
    (∀ e, (run ⟨D0, List.replicate n (.start [])⟩ sched).ths[i]? = some (.spawned e) →
      ∃ vars, Variables D0 vars ∧ Started (.spawned e) vars) ∧
    (run ⟨D0, List.replicate n (.start [])⟩ sched).ths[i]? ≠ some .refused := by
  have := C96_every_schedule_partial hn (List.replicate n []) (by simp) sched i [] (by simp [hi])
  rw [List.map_replicate] at this
  refine ⟨fun e he => ?_, fun he => by simpa [runGens] using this.2 he⟩
  obtain ⟨D', vars, h1, h2, h3⟩ := this.1 e he
  simp only [runGens, Option.some.injEq] at h1
  subst h1
  exact ⟨vars, h2, h3⟩

/-- The variables of a dictionary are determined. -/
theorem variables_unique {D : Dict} {e e' : List (Str × Str)} (h : Variables D e) (h' : Variables D e') :
    e = e' := by
  rw [variables_texts] at h h'
  have hh : (e.map fun p => (p.1, V.str p.2)) = e'.map fun p => (p.1, V.str p.2) := by rw [← h, ← h']
  clear h h'
  induction e generalizing e' with
  | nil => cases e' <;> simp_all
  | cons p e ih =>
    cases e' with
    | nil => simp at hh
    | cons q e' =>
      simp only [List.map_cons, List.cons.injEq, Prod.mk.injEq, V.str.injEq] at hh
      rw [ih hh.2, Prod.ext hh.1.1 hh.1.2]

/-! ### Progress -/

/-- Steps a thread still has to take. -/
def todo (n : Nat) : Th → Nat
  | .start _ => 2 * n + 2
  | .loop ks => 2 * ks.length + 1
  | .hold _ _ ks => 2 * ks.length + 2
  | .spawned _ => 0
  | .refused => 0

theorem todo_step (D : Dict) (t : Th) : todo D.length (step D t).2 ≤ todo D.length t - 1 := by
  cases t with
  | start g =>
    cases g with
    | nil => simp [step, todo, Dict.keys]
    | cons g r =>
      simp only [step]
      cases runGens (g :: r) D <;> simp [todo]
  | loop ks =>
    cases ks with
    | nil => simp [step, todo]
    | cons k ks =>
      simp only [step]
      cases D.get k with
      | none => simp [todo]; omega
      | some v =>
        simp only
        split <;> simp [todo] <;> omega
  | hold k v ks => simp [step, todo]
  | spawned e => simp [step, todo]
  | refused => simp [step, todo]

theorem step_length (D : Dict) (t : Th) : (step D t).1.length = D.length := by
  cases t with
  | start g => cases g <;> rfl
  | loop ks => cases ks <;> rfl
  | hold k v ks => simp [step, Dict.put]
  | spawned e => rfl
  | refused => rfl

theorem todo_stepAt (s : St) (i j : Nat) {t : Th} (h : s.ths[i]? = some t) :
    (stepAt s j).dict.length = s.dict.length ∧ ∃ t', (stepAt s j).ths[i]? = some t' ∧
      todo s.dict.length t' ≤ todo s.dict.length t - (if j = i then 1 else 0) := by
  unfold stepAt
  rcases hj : s.ths[j]? with _ | u
  · refine ⟨rfl, t, h, ?_⟩
    have : j ≠ i := by rintro rfl; rw [h] at hj; simp at hj
    simp [this]
  · refine ⟨step_length _ _, ?_⟩
    by_cases hij : j = i
    · subst hij
      rw [h] at hj; cases hj
      have hlt : j < s.ths.length := (List.getElem?_eq_some_iff.1 h).1
      exact ⟨(step s.dict t).2, by simp [hlt], by simpa using todo_step s.dict t⟩
    · exact ⟨t, by simp [hij, h], by simp [hij]⟩

theorem todo_run (s : St) (sched : List Nat) (i : Nat) {t : Th} (h : s.ths[i]? = some t) :
    ∃ t', (run s sched).ths[i]? = some t' ∧ todo s.dict.length t' ≤ todo s.dict.length t - sched.count i := by
  induction sched generalizing s t with
  | nil => exact ⟨t, h, by simp⟩
  | cons j r ih =>
    obtain ⟨h1, t1, h2, h3⟩ := todo_stepAt s i j h
    obtain ⟨t2, h4, h5⟩ := ih (stepAt s j) h2
    refine ⟨t2, h4, ?_⟩
    rw [h1] at h5
    rw [List.count_cons]
    by_cases hij : j = i
    · simp [hij] at h3 ⊢; omega
    · have : (j == i) = false := by simpa using hij
      simp [hij, this] at h3 ⊢; omega

/-- C96: a thread that gets its turns starts its program, after at most two steps per variable and two more. -/
theorem C96_started {D0 : Dict} (gs : List (List Gen)) (sched : List Nat) (i : Nat) (hi : i < gs.length)
    (h : 2 * D0.length + 2 ≤ sched.count i) :
    (∃ e, (run ⟨D0, gs.map .start⟩ sched).ths[i]? = some (.spawned e)) ∨
      (run ⟨D0, gs.map .start⟩ sched).ths[i]? = some .refused := by
  obtain ⟨t', h1, h2⟩ := todo_run ⟨D0, gs.map .start⟩ sched i (t := .start gs[i]) (by simp [hi])
  rw [h1]
  simp only [todo] at h2
  cases t' with
  | start g => simp at h2; omega
  | loop ks => simp at h2; omega
  | hold k v ks => simp at h2; omega
  | spawned e => exact .inl ⟨e, rfl⟩
  | refused => exact .inr rfl

end Verif.ShellEnv
