import Verif.Select.Model
import Mathlib.Data.List.Induction
import Mathlib.Data.List.Nodup
import Mathlib.Order.Basic
import Mathlib.Tactic.ByContra

/-!
# Which action a source is built with (C119): specification and proofs
-/

namespace Verif.Select
open Verif.Attrs (splitext)

variable {α : Type}

/-! ## Specification -/

/-- A dictionary has each key once. -/
def Keys (d : Dict α) : Prop := (d.map (·.1)).Nodup

/-- `e` is the suffix of `path`: the longest of the given ones it ends with, or else what follows the last dot. -/
inductive ExtOf (digit : Char → Bool) (keys : List Str) (path : Str) : Str → Prop
  | given (e) : e ∈ keys → e ≠ [] → e <:+ path → (∀ k ∈ keys, k <:+ path → k.length ≤ e.length) → ExtOf digit keys path e
  | dot : (∀ k ∈ keys, k ≠ [] → ¬ k <:+ path) → ExtOf digit keys path (splitext digit path).2

/-- No two suffixes expand to the same. -/
def NoClash (subst : Str → Str) (d : Dict α) : Prop := ∀ k k' a a', (some k, a) ∈ d → (some k', a') ∈ d → subst k = subst k' → k = k'

/-- What is chosen for the suffix `e`: what is given for just this suffix, or else for the one that expands to it, or else for `None`. -/
inductive Picks (subst : Str → Str) (d : Dict α) (e : Str) : Sel α → Prop
  | literal (a) : (some e, a) ∈ d → Picks subst d e (.found a)
  | expands (k a) : (∀ a, (some e, a) ∉ d) → NoClash subst d → (some k, a) ∈ d → subst k = e → Picks subst d e (.found a)
  | default (a) : (∀ a, (some e, a) ∉ d) → NoClash subst d → (∀ k a, (some k, a) ∈ d → subst k ≠ e) → (none, a) ∈ d → Picks subst d e (.found a)
  | nothing : (∀ a, (some e, a) ∉ d) → NoClash subst d → (∀ k a, (some k, a) ∈ d → subst k ≠ e) → (∀ a, (none, a) ∉ d) → Picks subst d e .none
  | clash : (∀ a, (some e, a) ∉ d) → ¬ NoClash subst d → Picks subst d e .clash

/-! ## Suffixes -/

theorem tail_iff (path k : Str) (hp : path ≠ []) : tail path k.length = k ↔ k ≠ [] ∧ k <:+ path := by
  unfold tail
  by_cases hk : k = []
  · subst hk; simp [hp]
  · have hl : k.length ≠ 0 := by simpa using hk
    rw [if_neg hl]
    constructor
    · intro h; exact ⟨hk, h ▸ List.drop_suffix _ _⟩
    · rintro ⟨_, p, rfl⟩; simp

theorem longest_spec (l : List Str) (h : l ≠ []) : longest l ∈ l ∧ ∀ k ∈ l, k.length ≤ (longest l).length ∨ k = [] := by
  induction l with
  | nil => exact absurd rfl h
  | cons k ks ih =>
    rw [longest]
    by_cases hk : ks = []
    · subst hk
      cases k <;> simp [longest]
    · obtain ⟨h1, h2⟩ := ih hk
      split
      · rename_i hh
        refine ⟨by simp, fun x hx => ?_⟩
        rcases List.mem_cons.1 hx with rfl | hx
        · exact .inl (Nat.le_refl _)
        · rcases h2 x hx with h | h
          · exact .inl (by omega)
          · exact .inr h
      · refine ⟨by simp [h1], fun x hx => ?_⟩
        rcases List.mem_cons.1 hx with rfl | hx
        · exact .inl (by omega)
        · exact h2 x hx

theorem matchExt_ok (digit : Char → Bool) (path : Str) (hp : path ≠ []) (keys : List Str) : ExtOf digit keys path (matchExt digit path keys) := by
  unfold matchExt
  dsimp only
  have hm : ∀ k, k ∈ keys.filter (fun k => tail path k.length = k) ↔ k ∈ keys ∧ k ≠ [] ∧ k <:+ path := by
    intro k; rw [List.mem_filter, decide_eq_true_iff, tail_iff path k hp]
  by_cases h : keys.filter (fun k => tail path k.length = k) = []
  · rw [if_pos h]
    refine .dot fun k hk hn hs => ?_
    have := (hm k).2 ⟨hk, hn, hs⟩
    rw [h] at this; cases this
  · rw [if_neg h]
    obtain ⟨h1, h2⟩ := longest_spec _ h
    obtain ⟨a, b, c⟩ := (hm _).1 h1
    refine .given _ a b c fun k hk hs => ?_
    by_cases hn : k = []
    · subst hn; simp
    · rcases h2 k ((hm k).2 ⟨hk, hn, hs⟩) with h | h
      · exact h
      · exact absurd h hn

theorem ExtOf.unique {digit : Char → Bool} {keys : List Str} {path e e' : Str} (h : ExtOf digit keys path e) (h' : ExtOf digit keys path e') : e = e' := by
  cases h with
  | given _ a b c m => cases h' with
    | given _ a' b' c' m' =>
      have hl : e.length = e'.length := Nat.le_antisymm (m' e a c) (m e' a' c')
      obtain ⟨p, hp⟩ := c
      obtain ⟨p', hp'⟩ := c'
      exact (List.append_inj' (hp.trans hp'.symm) hl).2
    | dot n => exact absurd c (n e a b)
  | dot n => cases h' with
    | given _ a' b' c' m' => exact absurd c' (n e' a' b')
    | dot => rfl

/-- **C119.** The suffix of a source is the longest of the builder's that it ends with; if it ends with none, what follows the last dot. -/
theorem C119_ext (digit : Char → Bool) (path : Str) (hp : path ≠ []) (keys : List Str) (e : Str) : matchExt digit path keys = e ↔ ExtOf digit keys path e :=
  ⟨fun h => h ▸ matchExt_ok digit path hp keys, fun h => (matchExt_ok digit path hp keys).unique h⟩

/-! ## Dictionaries -/

theorem get_mem {d : Dict α} {k : Option Str} {a : α} (h : d.get k = some a) : (k, a) ∈ d := by
  induction d with
  | nil => cases h
  | cons p d ih =>
    rw [Dict.get] at h
    split at h
    · rename_i hk
      injection h with h
      subst h; subst hk; simp
    · exact List.mem_cons_of_mem _ (ih h)

theorem get_none {d : Dict α} {k : Option Str} : d.get k = none ↔ ∀ a, (k, a) ∉ d := by
  induction d with
  | nil => simp [Dict.get]
  | cons p d ih =>
    rw [Dict.get]
    split
    · rename_i hk
      simp only [reduceCtorEq, false_iff]
      intro h; exact h p.2 (by subst hk; simp)
    · rename_i hk
      rw [ih]
      constructor
      · intro h a ha
        rcases List.mem_cons.1 ha with e | ha
        · subst e; exact hk rfl
        · exact h a ha
      · intro h a ha; exact h a (List.mem_cons_of_mem _ ha)

theorem get_eq {d : Dict α} (hd : Keys d) {k : Option Str} {a : α} : d.get k = some a ↔ (k, a) ∈ d := by
  refine ⟨get_mem, fun h => ?_⟩
  rcases hg : d.get k with _ | b
  · exact absurd h (get_none.1 hg a)
  · have hb := get_mem hg
    have := List.inj_on_of_nodup_map hd hb h rfl
    injection this with _ e
    rw [e]

/-- `d` after some assignments. -/
def assign (d : Dict α) (l : List (Option Str × α)) : Dict α := l.foldl (fun d p => d.set p.1 p.2) d

theorem set_keys {d : Dict α} (hd : Keys d) (k : Option Str) (v : α) : Keys (d.set k v) := by
  unfold Dict.set Keys
  split
  · rename_i h
    rw [List.map_map]
    have e : d.map ((fun x : Option Str × α => x.1) ∘ fun p => if p.1 = k then (k, v) else p) = d.map (·.1) := by
      refine List.map_congr_left fun p _ => ?_
      by_cases hk : p.1 = k <;> simp [hk]
    rw [e]; exact hd
  · rename_i h
    rw [List.map_append]
    exact List.nodup_append.2 ⟨hd, by simp, fun a ha b hb => by simp at hb; subst hb; rintro rfl; exact h ha⟩

theorem set_mem {d : Dict α} (k : Option Str) (v : α) (k' : Option Str) (a : α) : (k', a) ∈ d.set k v ↔ if k' = k then a = v else (k', a) ∈ d := by
  unfold Dict.set
  by_cases h : k ∈ d.map (·.1)
  · rw [if_pos h, List.mem_map]
    obtain ⟨p, hp, hpk⟩ := List.mem_map.1 h
    constructor
    · rintro ⟨q, hq, e⟩
      by_cases hk : q.1 = k
      · rw [if_pos hk] at e; injection e with e1 e2; subst e1; subst e2; simp
      · rw [if_neg hk] at e; subst e; rw [if_neg hk]; exact hq
    · intro hh
      by_cases hk : k' = k
      · rw [if_pos hk] at hh; subst hh; subst hk
        exact ⟨p, hp, by rw [if_pos hpk]⟩
      · rw [if_neg hk] at hh
        exact ⟨_, hh, by rw [if_neg hk]⟩
  · rw [if_neg h, List.mem_append, List.mem_singleton]
    by_cases hk : k' = k
    · subst hk
      rw [if_pos rfl]
      constructor
      · rintro (hh | hh)
        · exact absurd (List.mem_map.2 ⟨_, hh, rfl⟩) h
        · injection hh
      · rintro rfl; exact .inr rfl
    · rw [if_neg hk]
      constructor
      · rintro (hh | hh)
        · exact hh
        · injection hh with e; exact absurd e hk
      · exact .inl

/-- **C119.** Of the actions that were given for a suffix, at first or with `add_action`, the last counts. -/
theorem C119_last (l : List (Option Str × α)) : Keys (assign [] l) ∧ ∀ k a, (k, a) ∈ assign [] l ↔ ∃ pre post, l = pre ++ (k, a) :: post ∧ ∀ p ∈ post, p.1 ≠ k := by
  induction l using List.reverseRecOn with
  | nil => exact ⟨by simp [assign, Keys], by simp [assign]⟩
  | append_singleton l p ih =>
    have e : assign [] (l ++ [p]) = (assign [] l).set p.1 p.2 := by simp [assign]
    rw [e]
    refine ⟨set_keys ih.1 _ _, fun k a => ?_⟩
    rw [set_mem]
    by_cases hk : k = p.1
    · rw [if_pos hk]
      constructor
      · rintro rfl; exact ⟨l, [], by subst hk; rfl, by simp⟩
      · rintro ⟨pre, post, hl, hp⟩
        rcases List.eq_nil_or_concat post with rfl | ⟨post', q, rfl⟩
        · have := List.append_inj_right' hl rfl
          injection this with this; subst this; rfl
        · have h2 : l ++ [p] = (pre ++ (k, a) :: post') ++ [q] := by rw [hl]; simp
          have := List.append_inj_right' h2 rfl
          injection this with this; subst this
          exact absurd hk.symm (hp p (by simp))
    · rw [if_neg hk, ih.2]
      constructor
      · rintro ⟨pre, post, rfl, hp⟩
        refine ⟨pre, post ++ [p], by simp, fun q hq => ?_⟩
        rcases List.mem_append.1 hq with hq | hq
        · exact hp q hq
        · simp at hq; subst hq; exact fun h => hk h.symm
      · rintro ⟨pre, post, hl, hp⟩
        rcases List.eq_nil_or_concat post with rfl | ⟨post', q, rfl⟩
        · have := List.append_inj_right' hl rfl
          injection this with this; subst this; exact absurd rfl hk
        · have h2 : l ++ [p] = (pre ++ (k, a) :: post') ++ [q] := by rw [hl]; simp
          exact ⟨pre, post', List.append_inj_left' h2 rfl, fun q' hq' => hp q' (by simp [hq'])⟩

/-! ## `Selector` -/

theorem expanded_spec (subst : Str → Str) (d : Dict α) : ∀ s : Dict α,
    (expanded subst s d = none ↔ (∃ k a, (some k, a) ∈ d ∧ s.get (some (subst k)) ≠ none) ∨ ∃ pre k a mid k' a' post, d = pre ++ (some k, a) :: mid ++ (some k', a') :: post ∧ subst k = subst k') ∧
      ∀ s', expanded subst s d = some s' → ∀ e a, (some e, a) ∈ s' ↔ (some e, a) ∈ s ∨ ∃ k, (some k, a) ∈ d ∧ subst k = e := by
  induction d with
  | nil => intro s; simp [expanded]
  | cons p d ih =>
    intro s
    obtain ⟨k, v⟩ := p
    cases k with
    | none =>
      rw [expanded]
      obtain ⟨h1, h2⟩ := ih s
      refine ⟨?_, ?_⟩
      · rw [h1]
        constructor
        · rintro (⟨k, a, hk, hh⟩ | ⟨pre, k, a, mid, k', a', post, rfl, hh⟩)
          · exact .inl ⟨k, a, by simp [hk], hh⟩
          · exact .inr ⟨(none, v) :: pre, k, a, mid, k', a', post, by simp, hh⟩
        · rintro (⟨k, a, hk, hh⟩ | ⟨pre, k, a, mid, k', a', post, hd, hh⟩)
          · exact .inl ⟨k, a, by simpa using hk, hh⟩
          · cases pre with
            | nil => simp at hd
            | cons q pre =>
              simp at hd
              exact .inr ⟨pre, k, a, mid, k', a', post, by simp [hd.2], hh⟩
      · intro s' hs' e a
        rw [h2 s' hs' e a]; simp
    | some k =>
      rw [expanded]
      by_cases hg : (s.get (some (subst k))).isSome = true
      · rw [if_pos hg]
        refine ⟨?_, by simp⟩
        simp only [true_iff]
        exact .inl ⟨k, v, by simp, by intro h; rw [h] at hg; cases hg⟩
      · rw [if_neg hg]
        have hg' : s.get (some (subst k)) = none := by simpa using hg
        obtain ⟨h1, h2⟩ := ih (s ++ [(some (subst k), v)])
        have hget : ∀ e, (Dict.get (s ++ [(some (subst k), v)]) (some e) ≠ none) ↔ (s.get (some e) ≠ none ∨ subst k = e) := by
          intro e
          have := @get_none α (s ++ [(some (subst k), v)]) (some e)
          have h' := @get_none α s (some e)
          by_cases he : subst k = e
          · subst he
            simp only [or_true, iff_true]
            intro h; exact this.1 h v (by simp)
          · have hmem : ∀ a, (some e, a) ∈ (s ++ [(some (subst k), v)]) ↔ (some e, a) ∈ s := by
              intro a
              rw [List.mem_append, List.mem_singleton]
              constructor
              · rintro (h | h)
                · exact h
                · injection h with h; injection h with h; exact absurd h.symm he
              · exact .inl
            rw [ne_eq, this, ne_eq, h']
            simp only [hmem, he, or_false]
        refine ⟨?_, ?_⟩
        · rw [h1]
          constructor
          · rintro (⟨k', a, hk, hh⟩ | ⟨pre, k1, a, mid, k', a', post, rfl, hh⟩)
            · rcases (hget _).1 hh with hh | hh
              · exact .inl ⟨k', a, by simp [hk], hh⟩
              · obtain ⟨mid, post, hd⟩ := List.append_of_mem hk
                exact .inr ⟨[], k, v, mid, k', a, post, by simp [hd], hh⟩
            · exact .inr ⟨(some k, v) :: pre, k1, a, mid, k', a', post, by simp, hh⟩
          · rintro (⟨k', a, hk, hh⟩ | ⟨pre, k1, a, mid, k', a', post, hd, hh⟩)
            · rcases List.mem_cons.1 hk with e | hk
              · injection e with e1 e2; injection e1 with e1; subst e1; exact absurd hg' hh
              · exact .inl ⟨k', a, hk, (hget _).2 (.inl hh)⟩
            · cases pre with
              | nil =>
                simp at hd
                obtain ⟨⟨rfl, rfl⟩, rfl⟩ := hd
                exact .inl ⟨k', a', by simp, (hget _).2 (.inr hh)⟩
              | cons q pre =>
                simp at hd
                exact .inr ⟨pre, k1, a, mid, k', a', post, by simp [hd.2], hh⟩
        · intro s' hs' e a
          rw [h2 s' hs' e a]
          simp only [List.mem_append, List.not_mem_nil, or_false, Prod.mk.injEq, Option.some.injEq, List.mem_cons]
          constructor
          · rintro ((h | ⟨rfl, rfl⟩) | ⟨k', hk, rfl⟩)
            · exact .inl h
            · exact .inr ⟨k, .inl ⟨rfl, rfl⟩, rfl⟩
            · exact .inr ⟨k', .inr hk, rfl⟩
          · rintro (h | ⟨k', ⟨rfl, rfl⟩ | hk, rfl⟩)
            · exact .inl (.inl h)
            · exact .inl (.inr ⟨rfl, rfl⟩)
            · exact .inr ⟨k', hk, rfl⟩

theorem expanded_none {subst : Str → Str} {d : Dict α} (hd : Keys d) : expanded subst [] d = none ↔ ¬ NoClash subst d := by
  rw [(expanded_spec subst d []).1]
  constructor
  · rintro (⟨k, a, _, h⟩ | ⟨pre, k, a, mid, k', a', post, rfl, h⟩) hn
    · exact h rfl
    · have := hn k k' a a' (by simp) (by simp) h
      subst this
      unfold Keys at hd
      simp [List.nodup_append] at hd
  · intro hn
    right
    unfold NoClash at hn
    simp only [not_forall] at hn
    obtain ⟨k, k', a, a', h1, h2, h3, h4⟩ := hn
    obtain ⟨pre, post, rfl⟩ := List.append_of_mem h1
    rcases List.mem_append.1 h2 with h2 | h2
    · obtain ⟨p1, p2, rfl⟩ := List.append_of_mem h2
      exact ⟨p1, k', a', p2, k, a, post, by simp, h3.symm⟩
    · rcases List.mem_cons.1 h2 with e | h2
      · injection e with e; injection e with e; exact absurd e.symm h4
      · obtain ⟨p1, p2, rfl⟩ := List.append_of_mem h2
        exact ⟨pre, k, a, p1, k', a', p2, by simp, h3⟩

theorem selector_picks (subst : Str → Str) {d : Dict α} (hd : Keys d) (e : Str) : Picks subst d e (selector subst d e) := by
  unfold selector
  rcases h1 : d.get (some e) with _ | a
  · have n1 := get_none.1 h1
    rcases h2 : expanded subst [] d with _ | s
    · exact .clash n1 ((expanded_none hd).1 h2)
    · have hn : NoClash subst d := by
        by_contra h
        rw [(expanded_none hd).2 h] at h2; cases h2
      have hs := (expanded_spec subst d []).2 s h2
      dsimp only
      rcases h3 : s.get (some e) with _ | a
      · have n3 : ∀ k a, (some k, a) ∈ d → subst k ≠ e := fun k a hk he => get_none.1 h3 a ((hs e a).2 (.inr ⟨k, hk, he⟩))
        dsimp only
        rcases h4 : d.get none with _ | a
        · exact .nothing n1 hn n3 (get_none.1 h4)
        · exact .default a n1 hn n3 (get_mem h4)
      · rcases (hs e a).1 (get_mem h3) with h | ⟨k, hk, he⟩
        · cases h
        · exact .expands k a n1 hn hk he
  · exact .literal a (get_mem h1)

theorem Keys.inj {d : Dict α} (hd : Keys d) {k : Option Str} {a b : α} (ha : (k, a) ∈ d) (hb : (k, b) ∈ d) : a = b := by
  have := (get_eq hd).2 ha; rw [(get_eq hd).2 hb] at this; injection this with h; exact h.symm

theorem Picks.unique {subst : Str → Str} {d : Dict α} (hd : Keys d) {e : Str} {r r' : Sel α} (h : Picks subst d e r) (h' : Picks subst d e r') : r = r' := by
  cases h with
  | literal a ha => cases h' with
    | literal b hb => rw [hd.inj ha hb]
    | expands _ _ n => exact absurd ha (n a)
    | default _ n => exact absurd ha (n a)
    | nothing n => exact absurd ha (n a)
    | clash n => exact absurd ha (n a)
  | expands k a n c hk he => cases h' with
    | literal b hb => exact absurd hb (n b)
    | expands k' a' _ _ hk' he' =>
      have := c k k' a a' hk hk' (he.trans he'.symm); subst this
      rw [hd.inj hk hk']
    | default _ _ _ m => exact absurd he (m k a hk)
    | nothing _ _ m => exact absurd he (m k a hk)
    | clash _ c' => exact absurd c c'
  | default a n c m ha => cases h' with
    | literal b hb => exact absurd hb (n b)
    | expands k' a' _ _ hk' he' => exact absurd he' (m k' a' hk')
    | default b _ _ _ hb => rw [hd.inj ha hb]
    | nothing _ _ _ m' => exact absurd ha (m' a)
    | clash _ c' => exact absurd c c'
  | nothing n c m m' => cases h' with
    | literal b hb => exact absurd hb (n b)
    | expands k' a' _ _ hk' he' => exact absurd he' (m k' a' hk')
    | default b _ _ _ hb => exact absurd hb (m' b)
    | nothing => rfl
    | clash _ c' => exact absurd c c'
  | clash n c => cases h' with
    | literal b hb => exact absurd hb (n b)
    | expands _ _ _ c' => exact absurd c' c
    | default _ _ c' => exact absurd c' c
    | nothing _ c' => exact absurd c' c
    | clash => rfl

/-- **C119.** What a dictionary chooses for a suffix is what is given for it, or else for the variable that expands to it, or else for `None`; if two suffixes expand to the same and none is just this, it is an error. -/
theorem C119_select (subst : Str → Str) (d : Dict α) (hd : Keys d) (e : Str) (r : Sel α) : selector subst d e = r ↔ Picks subst d e r :=
  ⟨fun h => h ▸ selector_picks subst hd e, fun h => (selector_picks subst hd e).unique hd h⟩

theorem keys_perm {d d' : Dict α} (h : d.Perm d') (hd : Keys d) : Keys d' := (h.map _).nodup_iff.1 hd

theorem selector_perm (subst : Str → Str) {d d' : Dict α} (hp : d.Perm d') (hd : Keys d) (e : Str) : selector subst d e = selector subst d' e := by
  rw [C119_select subst d hd]
  have hm : ∀ x, x ∈ d' ↔ x ∈ d := fun x => hp.mem_iff.symm
  have hc : NoClash subst d ↔ NoClash subst d' := by simp only [NoClash, hm]
  have := selector_picks subst (keys_perm hp hd) e
  generalize selector subst d' e = r at this
  cases this with
  | literal a h => exact .literal a ((hm _).1 h)
  | expands k a n c hk he => exact .expands k a (fun b hb => n b ((hm _).2 hb)) (hc.2 c) ((hm _).1 hk) he
  | default a n c m ha => exact .default a (fun b hb => n b ((hm _).2 hb)) (hc.2 c) (fun k b hb => m k b ((hm _).2 hb)) ((hm _).1 ha)
  | nothing n c m m' => exact .nothing (fun b hb => n b ((hm _).2 hb)) (hc.2 c) (fun k b hb => m k b ((hm _).2 hb)) (fun b hb => m' b ((hm _).2 hb))
  | clash n c => exact .clash (fun b hb => n b ((hm _).2 hb)) (fun h => c (hc.1 h))

theorem matchExt_perm (digit : Char → Bool) (path : Str) (hp : path ≠ []) {keys keys' : List Str} (h : keys.Perm keys') : matchExt digit path keys = matchExt digit path keys' := by
  rw [C119_ext digit path hp]
  have := matchExt_ok digit path hp keys'
  generalize matchExt digit path keys' = r at this
  have hm : ∀ x, x ∈ keys' ↔ x ∈ keys := fun x => h.mem_iff.symm
  cases this with
  | given e a b c m => exact .given _ ((hm _).1 a) b c fun k hk => m k ((hm _).2 hk)
  | dot n => exact .dot fun k hk => n k ((hm _).2 hk)

/-- **C119.** The order in which the actions were given does not matter. -/
theorem C119_order (digit : Char → Bool) (subst : Str → Str) (same : Bool) (d d' : Dict α) (hp : d.Perm d') (hd : Keys d) (sources : List Str) (hs : ∀ s ∈ sources, s ≠ []) :
    action digit subst same d sources = action digit subst same d' sources := by
  cases sources with
  | nil => rfl
  | cons s ss =>
    have h1 : (none ∈ d.map (·.1)) ↔ (none ∈ d'.map (·.1)) := (hp.map _).mem_iff
    have h2 : (s :: ss).map (fun p => matchExt digit p (d.filterMap (·.1))) = (s :: ss).map (fun p => matchExt digit p (d'.filterMap (·.1))) :=
      List.map_congr_left fun p hp' => matchExt_perm digit p (hs p hp') (hp.filterMap _)
    have h3 : matchExt digit s (d.filterMap (·.1)) = matchExt digit s (d'.filterMap (·.1)) := matchExt_perm digit s (hs s (by simp)) (hp.filterMap _)
    unfold action
    simp only [h1, h2, h3, selector_perm subst hp hd]

/-! ## Several sources -/

theorem loop_same (e : Str) (es : List Str) (h : ∀ x ∈ es, x = e) : loop e es = some e := by
  induction es with
  | nil => rfl
  | cons x es ih =>
    have hx := h x (by simp)
    subst hx
    rw [loop, if_neg (by simp)]
    exact ih fun y hy => h y (by simp [hy])

theorem loop_some (x : Str) (es : List Str) (e : Str) (h : loop x es = some e) : (∀ y ∈ es, y = e ∨ y = []) ∧ (x ≠ [] → x = e ∧ ∀ y ∈ es, y = e) := by
  induction es generalizing x with
  | nil => simp [loop] at h; subst h; simp
  | cons y es ih =>
    rw [loop] at h
    split at h
    · cases h
    · rename_i hc
      obtain ⟨h1, h2⟩ := ih y h
      constructor
      · intro z hz
        rcases List.mem_cons.1 hz with rfl | hz
        · by_cases hy : z = []
          · exact .inr hy
          · exact .inl (h2 hy).1
        · exact h1 z hz
      · intro hx
        have hyx : y = x := by
          by_contra hn; exact hc ⟨hx, hn⟩
        subst hyx
        obtain ⟨h3, h4⟩ := h2 hx
        exact ⟨h3, fun z hz => (List.mem_cons.1 hz).elim (fun e => e.trans h3) (h4 z)⟩

theorem noNone {d : Dict α} (hn : ∀ a, (none, a) ∉ d) : none ∉ d.map (·.1) := by
  intro h
  obtain ⟨⟨k, a⟩, hm, rfl⟩ := List.mem_map.1 h
  exact hn a hm

/-- **C119.** If all sources have the same suffix, the action is the one chosen for it; if none is, it is an error. -/
theorem C119_action (digit : Char → Bool) (subst : Str → Str) (same : Bool) (d : Dict α) (hd : Keys d) (hn : ∀ a, (none, a) ∉ d) (sources : List Str) (hne : sources ≠ []) (hs : ∀ s ∈ sources, s ≠ [])
    (e : Str) (he : e ≠ []) (hx : ∀ s ∈ sources, ExtOf digit (d.filterMap (·.1)) s e) :
    (∀ a, action digit subst same d sources = .action a ↔ Picks subst d e (.found a)) ∧ (action digit subst same d sources = .unknown ↔ Picks subst d e .none) ∧
      (action digit subst same d sources = .ambiguous ↔ Picks subst d e .clash) := by
  cases sources with
  | nil => exact absurd rfl hne
  | cons s ss =>
    have hm : ∀ p ∈ s :: ss, matchExt digit p (d.filterMap (·.1)) = e := fun p hp => (C119_ext digit p (hs p hp) _ e).2 (hx p hp)
    have hl : loop [] ((s :: ss).map fun p => matchExt digit p (d.filterMap (·.1))) = some e := by
      rw [List.map_cons, loop, if_neg (by simp), hm s (by simp)]
      refine loop_same e _ fun x hx => ?_
      obtain ⟨p, hp, rfl⟩ := List.mem_map.1 hx
      exact hm p (by simp [hp])
    have key : action digit subst same d (s :: ss) = (match selector subst d e with | .found a => .action a | .none => .unknown | .clash => .ambiguous) := by
      unfold action
      dsimp only
      rw [if_neg (noNone hn), hl, hm s (by simp)]
      rcases hsel : selector subst d e <;> cases same <;> simp [he, hsel]
    rw [key]
    simp only [← C119_select subst d hd]
    cases selector subst d e <;> simp

/-- **C119.** Sources of which two have different suffixes are refused. -/
theorem C119_refused (digit : Char → Bool) (subst : Str → Str) (d : Dict α) (hn : ∀ a, (none, a) ∉ d) (sources : List Str) (s s' : Str) (h : s ∈ sources) (h' : s' ∈ sources)
    (hd : matchExt digit s (d.filterMap (·.1)) ≠ matchExt digit s' (d.filterMap (·.1))) (h0 : matchExt digit s (d.filterMap (·.1)) ≠ []) (h0' : matchExt digit s' (d.filterMap (·.1)) ≠ []) :
    action digit subst true d sources = .differing := by
  cases sources with
  | nil => cases h
  | cons x xs =>
    have hl : loop [] ((x :: xs).map fun p => matchExt digit p (d.filterMap (·.1))) = none := by
      rcases hl : loop [] ((x :: xs).map fun p => matchExt digit p (d.filterMap (·.1))) with _ | e
      · exact hl
      · have := (loop_some _ _ _ hl).1
        have a := (this _ (List.mem_map.2 ⟨s, h, rfl⟩)).resolve_right h0
        have b := (this _ (List.mem_map.2 ⟨s', h', rfl⟩)).resolve_right h0'
        exact absurd (a.trans b.symm) hd
    unfold action
    dsimp only
    rw [if_neg (noNone hn)]
    simp only [if_true, hl]

/-- **C119.** Whenever an action is chosen, every source that has a suffix has the one it was chosen for. -/
theorem C119_chosen (digit : Char → Bool) (subst : Str → Str) (d : Dict α) (hd : Keys d) (sources : List Str) (hs : ∀ s ∈ sources, s ≠ []) (a : α) (h : action digit subst true d sources = .action a) :
    ∃ e, e ≠ [] ∧ Picks subst d e (.found a) ∧ ∀ s ∈ sources, ExtOf digit (d.filterMap (·.1)) s e ∨ ExtOf digit (d.filterMap (·.1)) s [] := by
  cases sources with
  | nil => cases h
  | cons x xs =>
    unfold action at h
    dsimp only at h
    split at h
    · cases h
    · simp only [if_true] at h
      rcases hl : loop [] ((x :: xs).map fun p => matchExt digit p (d.filterMap (·.1))) with _ | e
      · rw [hl] at h; cases h
      · rw [hl] at h
        dsimp only at h
        by_cases he : e = []
        · rw [if_pos he] at h; cases h
        · rw [if_neg he] at h
          refine ⟨e, he, ?_, fun s hm => ?_⟩
          · rw [← C119_select subst d hd]
            cases hsel : selector subst d e with
            | found b => rw [hsel] at h; injection h with h; rw [h]
            | none => rw [hsel] at h; cases h
            | clash => rw [hsel] at h; cases h
          · rw [← C119_ext digit s (hs s hm), ← C119_ext digit s (hs s hm)]
            exact (loop_some _ _ _ hl).1 _ (List.mem_map.2 ⟨s, hm, rfl⟩)

/-- **C119.** The emitter is chosen by what follows the last dot of the name of the first source. -/
theorem C119_emitter (digit : Char → Bool) (subst : Str → Str) (d : Dict α) (hd : Keys d) (n : Str) (ns : List Str) (r : Sel α) : emitter digit subst d (n :: ns) = r ↔ Picks subst d (splitext digit n).2 r :=
  C119_select subst d hd _ r

/-- **C119.** Without sources the emitter is the one for no suffix, and there is no action and no error. -/
theorem C119_no_sources (digit : Char → Bool) (subst : Str → Str) (same : Bool) (d : Dict α) (hd : Keys d) (r : Sel α) : action digit subst same d [] = .empty ∧ (emitter digit subst d [] = r ↔ Picks subst d [] r) :=
  ⟨rfl, C119_select subst d hd [] r⟩

/-! ## What goes wrong -/

/-- Digits. -/
def dg (c : Char) : Bool := decide ('0' ≤ c ∧ c ≤ '9')
def s (x : String) : Str := x.toList
/-- Two variables. -/
def sub (k : Str) : Str := if k = s "$CSUF" then s ".c" else if k = s "$TARSUF" then s ".tar.gz" else k

/-- **Counterexample.** A source without suffix is let through if it comes first, and refused if it comes later. -/
theorem C119_order_of_sources : action dg sub true [(some (s ".c"), 1)] [s "README", s "a.c"] = .action 1 ∧ action dg sub true [(some (s ".c"), 1)] [s "a.c", s "README"] = .differing := by decide +kernel

/-- **Counterexample.** A suffix with two dots works, a variable for it does not. -/
theorem C119_variable_dots : action dg sub true [(some (s ".tar.gz"), 1)] [s "a.tar.gz"] = .action 1 ∧ action dg sub true [(some (s "$TARSUF"), 1)] [s "a.tar.gz"] = .unknown := by decide +kernel

/-- **Counterexample.** The emitter that is given for the suffix of the action is not called, if it has two dots. -/
theorem C119_emitter_dots : action dg sub true [(some (s ".tar.gz"), 1)] [s "a.tar.gz"] = .action 1 ∧ emitter dg sub [(some (s ".tar.gz"), 1)] [s "a.tar.gz"] = .none := by decide +kernel

/-- **Counterexample.** A suffix and a variable for the same one: sources of this suffix are built, and for all others it is an error, a KeyError from an emitter, even if there is a default. -/
theorem C119_clash_elsewhere : action dg sub true [(some (s ".c"), 1), (some (s "$CSUF"), 2)] [s "a.c"] = .action 1 ∧ emitter dg sub [(some (s ".c"), 1), (some (s "$CSUF"), 2), (none, 3)] [s "a.y"] = .clash ∧
    emitter dg sub [(some (s ".c"), 1), (none, 3)] [s "a.y"] = .found 3 := by decide +kernel

/-- **Counterexample.** A default is for emitters only: with actions it is a TypeError, whatever the source is. -/
theorem C119_no_default (digit : Char → Bool) (subst : Str → Str) (same : Bool) (d : Dict α) (a : α) (h : (none, a) ∈ d) (x : Str) (xs : List Str) : action digit subst same d (x :: xs) = .typeError := by
  unfold action
  dsimp only
  rw [if_pos (List.mem_map.2 ⟨_, h, rfl⟩)]

/-- **Counterexample.** A number is no suffix, unless it is given. -/
theorem C119_digits : action dg sub true [(some (s "$X"), 1)] [s "man.1"] = .noExt ∧ action dg sub true [(some (s ".1"), 1)] [s "man.1"] = .action 1 := by decide +kernel

/-! ## Cases -/

example : action dg sub true [(some (s ".c"), 1), (some (s "_test.c"), 2), (some (s ".o"), 3)] [s "d.x/a_test.c", s "b_test.c"] = .action 2 := by decide +kernel
example : action dg sub true [(some (s "$CSUF"), 1), (some (s ".o"), 3)] [s "a.c"] = .action 1 ∧ action dg sub false [(some (s "$CSUF"), 1), (some (s ".o"), 3)] [s "a.o", s "b.c"] = .action 3 := by decide +kernel
example : ExtOf dg [s ".c", s "_test.c"] (s "a_test.c") (s "_test.c") := (C119_ext dg _ (by decide) _ _).1 (by decide +kernel)
example : assign [] [(some (s ".c"), 1), (some (s ".o"), 2), (some (s ".c"), 3)] = [(some (s ".c"), 3), (some (s ".o"), 2)] := by decide +kernel

end Verif.Select
