import Verif.Vars.Model
import Mathlib.Data.List.Induction

/-! # C61: precedence of the sources of build variables, and what `Update` leaves -/

namespace Verif.Vars

/-! ## Dictionaries -/

theorem toDict_snoc (l : List (Str × Val)) (p : Str × Val) : toDict (l ++ [p]) = dictSet (toDict l) p.1 p.2 := by
  unfold toDict; rw [List.foldl_append]; rfl

theorem dictSet_keys (d : List (Str × Val)) (k x : Str) (v : Val) : x ∈ (dictSet d k v).map (·.1) ↔ x = k ∨ x ∈ d.map (·.1) := by
  unfold dictSet
  split
  · rename_i h
    have e : (d.map (fun p => if p.1 = k then (k, v) else p)).map (·.1) = d.map (·.1) := by
      rw [List.map_map]; refine List.map_congr_left (fun p _ => ?_)
      simp only [Function.comp]; split
      · rename_i h; exact h.symm
      · rfl
    rw [e]; constructor
    · exact Or.inr
    · rintro (rfl | h')
      · exact h
      · exact h'
  · simp [or_comm]

theorem toDict_keys (l : List (Str × Val)) (x : Str) : x ∈ (toDict l).map (·.1) ↔ x ∈ l.map (·.1) := by
  induction l using List.reverseRecOn with
  | nil => rfl
  | append_singleton l p ih => rw [toDict_snoc, dictSet_keys, ih]; simp [or_comm]

theorem filter_dictSet_ne (P : Str → Bool) (d : List (Str × Val)) (k : Str) (v : Val) (h : P k = false) :
    (dictSet d k v).filter (fun p => P p.1) = d.filter (fun p => P p.1) := by
  unfold dictSet
  split
  · clear * - h
    induction d with
    | nil => rfl
    | cons p d ih =>
      rw [List.map_cons, List.filter_cons, List.filter_cons, ih]
      by_cases e : p.1 = k
      · simp [e, h]
      · simp [e]
  · simp [h]

/-- If all names of one kind that are assigned are the same, the last item of that kind in the dictionary is the last assignment. -/
theorem last_toDict (P : Str → Bool) (l : List (Str × Val)) (h : ∀ p ∈ l, ∀ q ∈ l, P p.1 → P q.1 → p.1 = q.1) :
    (((toDict l).filter (fun p => P p.1)).getLast?).map (·.2) = ((l.filter (fun p => P p.1)).getLast?).map (·.2) := by
  induction l using List.reverseRecOn with
  | nil => rfl
  | append_singleton l p ih =>
    have ih' := ih (fun a ha b hb => h a (by simp [ha]) b (by simp [hb]))
    rw [toDict_snoc]
    by_cases e : P p.1
    · rw [List.filter_append]
      simp only [List.filter_cons, e, if_true, List.filter_nil, List.getLast?_append, List.getLast?_singleton, Option.some_or, Option.map_some]
      unfold dictSet
      split
      · rename_i hk
        set d' := (toDict l).map (fun q => if q.1 = p.1 then (p.1, p.2) else q) with hd'
        have all : ∀ q ∈ d'.filter (fun q => P q.1), q = p := by
          intro q hq
          rw [List.mem_filter, hd', List.mem_map] at hq
          obtain ⟨⟨r, hr, rfl⟩, hP⟩ := hq
          by_cases er : r.1 = p.1
          · rw [if_pos er]
          · rw [if_neg er] at hP ⊢
            have : r.1 ∈ l.map (·.1) := (toDict_keys l r.1).1 (List.mem_map.2 ⟨r, hr, rfl⟩)
            obtain ⟨r', hr', e'⟩ := List.mem_map.1 this
            exact absurd (by rw [← e']; exact h r' (by simp [hr']) p (by simp) (by rw [e']; exact hP) e) er
        have ne : d'.filter (fun q => P q.1) ≠ [] := by
          intro h0
          obtain ⟨r, hr, er⟩ := List.mem_map.1 hk
          have : (p.1, p.2) ∈ d'.filter (fun q => P q.1) := by
            rw [List.mem_filter]; exact ⟨hd' ▸ List.mem_map.2 ⟨r, hr, by simp [er]⟩, e⟩
          rw [h0] at this; exact absurd this (by simp)
        rw [List.getLast?_eq_getLast_of_ne_nil ne, all _ (List.getLast_mem ne)]; rfl
      · rw [List.filter_append]; simp [e]
    · have e' : P p.1 = false := by simpa using e
      rw [filter_dictSet_ne P _ _ _ e', ih', List.filter_append]; simp [e']

/-! ## The values collected -/

/-- The name `n` sets the variable `k`. -/
def sets (opts : List Opt) (k n : Str) : Bool := opts.any (fun o => decide (o.key = k ∧ n ∈ o.names))

theorem sets_cons (o : Opt) (os : List Opt) (k n : Str) : sets (o :: os) k n = (decide (o.key = k ∧ n ∈ o.names) || sets os k n) := rfl

theorem assign_fold (opts : List Opt) (arg : Str) (v : Val) (w : Work) (b : Bool) (k : Str) :
    let r := opts.foldl (fun (acc : Work × Bool) o =>
      if arg ∈ o.names then
        ({ acc.1 with values := fun k => if k = o.key then some v else acc.1.values k, defaulted := acc.1.defaulted.erase o.key }, true)
      else acc) (w, b)
    r.1.values k = (if sets opts k arg then some v else w.values k) ∧ r.1.unknown = w.unknown ∧ r.2 = (b || opts.any (fun o => decide (arg ∈ o.names))) ∧
      (w.defaulted.Nodup → r.1.defaulted.Nodup ∧ (k ∈ r.1.defaulted ↔ k ∈ w.defaulted ∧ sets opts k arg = false)) := by
  induction opts generalizing w b with
  | nil => simp [sets]
  | cons o os ih =>
    dsimp only at ih ⊢
    rw [List.foldl_cons]
    by_cases h : arg ∈ o.names
    · rw [if_pos h]
      obtain ⟨h1, h2, h3, h4⟩ := ih { w with values := fun k => if k = o.key then some v else w.values k, defaulted := w.defaulted.erase o.key } true
      refine ⟨?_, h2, ?_, fun hn => ?_⟩
      · rw [h1]
        dsimp only
        rw [sets_cons]
        by_cases e : k = o.key
        · simp [e, h]
        · simp [e, Ne.symm e]
      · rw [h3]; simp [h]
      · obtain ⟨h5, h6⟩ := h4 (hn.erase _)
        refine ⟨h5, ?_⟩
        rw [h6]; dsimp only; rw [hn.mem_erase_iff]
        rw [sets_cons]
        by_cases e : k = o.key
        · simp [e, h]
        · simp [e, Ne.symm e]
    · rw [if_neg h]
      obtain ⟨h1, h2, h3, h4⟩ := ih w b
      have hs : sets (o :: os) k arg = sets os k arg := by simp [sets, h]
      refine ⟨by rw [h1, hs], h2, by rw [h3]; simp [h], fun hn => ?_⟩
      rw [hs]; exact h4 hn

theorem assign_values (opts : List Opt) (w : Work) (arg : Str) (v : Val) (k : Str) :
    (assign opts w arg v).values k = if sets opts k arg then some v else w.values k := by
  have h := (assign_fold opts arg v w false k).1
  unfold assign; dsimp only at h ⊢; split <;> exact h

theorem assign_unknown (opts : List Opt) (w : Work) (arg : Str) (v : Val) (k : Str) :
    (assign opts w arg v).unknown k = if k = arg ∧ ∀ o ∈ opts, arg ∉ o.names then some v else w.unknown k := by
  have h := assign_fold opts arg v w false k
  unfold assign; dsimp only at h ⊢
  obtain ⟨_, h2, h3, _⟩ := h
  simp only [Bool.false_or] at h3
  split
  · rename_i hh
    rw [h3, List.any_eq_true] at hh
    obtain ⟨o, ho, hm⟩ := hh
    rw [h2, if_neg]; rintro ⟨_, hx⟩; exact hx o ho (by simpa using hm)
  · rename_i hh
    rw [h3, Bool.not_eq_true, List.any_eq_false] at hh
    dsimp only; rw [h2]
    by_cases e : k = arg
    · rw [if_pos e, if_pos ⟨e, fun o ho => by simpa using hh o ho⟩]
    · rw [if_neg e, if_neg (fun x => e x.1)]

theorem assign_defaulted (opts : List Opt) (w : Work) (arg : Str) (v : Val) (k : Str) (hn : w.defaulted.Nodup) :
    (assign opts w arg v).defaulted.Nodup ∧ (k ∈ (assign opts w arg v).defaulted ↔ k ∈ w.defaulted ∧ sets opts k arg = false) := by
  have h := (assign_fold opts arg v w false k).2.2.2 hn
  unfold assign; dsimp only at h ⊢; split <;> exact h

theorem assignAll_snoc (opts : List Opt) (w : Work) (l : List (Str × Val)) (p : Str × Val) :
    assignAll opts w (l ++ [p]) = assign opts (assignAll opts w l) p.1 p.2 := by
  unfold assignAll; rw [List.foldl_append]; rfl

theorem assignAll_append (opts : List Opt) (w : Work) (l m : List (Str × Val)) : assignAll opts w (l ++ m) = assignAll opts (assignAll opts w l) m := by
  unfold assignAll; rw [List.foldl_append]

theorem assignAll_values (opts : List Opt) (w : Work) (l : List (Str × Val)) (k : Str) :
    (assignAll opts w l).values k = (((l.filter (fun p => sets opts k p.1)).getLast?).map (·.2)).or (w.values k) := by
  induction l using List.reverseRecOn with
  | nil => rfl
  | append_singleton l p ih =>
    rw [assignAll_snoc, assign_values, List.filter_append]
    by_cases e : sets opts k p.1 <;> simp [e, ih]

theorem assignAll_unknown (opts : List Opt) (w : Work) (l : List (Str × Val)) (k : Str) :
    (assignAll opts w l).unknown k
      = (((l.filter (fun p => decide (p.1 = k ∧ ∀ o ∈ opts, k ∉ o.names))).getLast?).map (·.2)).or (w.unknown k) := by
  induction l using List.reverseRecOn with
  | nil => rfl
  | append_singleton l p ih =>
    rw [assignAll_snoc, assign_unknown, List.filter_append]
    by_cases e : k = p.1
    · subst e
      by_cases h : ∀ o ∈ opts, p.1 ∉ o.names
      · rw [if_pos ⟨rfl, h⟩, List.filter_cons_of_pos (by simpa using h)]; simp
      · rw [if_neg (fun x => h x.2), List.filter_cons_of_neg (by simpa using h), ih]; simp
    · simp [e, Ne.symm e, ih]

theorem assignAll_defaulted (opts : List Opt) (w : Work) (l : List (Str × Val)) (k : Str) (hn : w.defaulted.Nodup) :
    (assignAll opts w l).defaulted.Nodup ∧ (k ∈ (assignAll opts w l).defaulted ↔ k ∈ w.defaulted ∧ ∀ p ∈ l, sets opts k p.1 = false) := by
  induction l using List.reverseRecOn with
  | nil => simp [assignAll, hn]
  | append_singleton l p ih =>
    rw [assignAll_snoc]
    obtain ⟨h1, h2⟩ := assign_defaulted opts (assignAll opts w l) p.1 p.2 k ih.1
    refine ⟨h1, ?_⟩
    rw [h2, ih.2]
    simp only [List.mem_append, List.mem_singleton]
    constructor
    · rintro ⟨⟨a, b⟩, c⟩; refine ⟨a, ?_⟩; rintro q (hq | rfl)
      · exact b q hq
      · exact c
    · rintro ⟨a, b⟩; exact ⟨⟨a, fun q hq => b q (.inl hq)⟩, b p (.inr rfl)⟩

theorem gather_eq (V : Vars) (files : List (List (Str × Val))) (args : List (Str × Val)) :
    gather V files args = assignAll V.options { values := dictGet (defaults V.options), unknown := V.unknown, defaulted := (defaults V.options).map (·.1) }
      ((files.map toDict).flatten ++ toDict args) := by
  unfold gather; dsimp only
  rw [assignAll_append]; congr 1
  generalize ({ values := dictGet (defaults V.options), unknown := V.unknown, defaulted := (defaults V.options).map (·.1) } : Work) = w
  induction files generalizing w with
  | nil => rfl
  | cons f fs ih => rw [List.foldl_cons, ih, List.map_cons, List.flatten_cons, assignAll_append]

/-! ## Defaults -/

theorem defaults_snoc (os : List Opt) (o : Opt) : defaults (os ++ [o]) = match o.default with | some v => dictSet (defaults os) o.key v | none => defaults os := by
  unfold defaults; rw [List.foldl_append]; rfl

theorem dictGet_set (d : List (Str × Val)) (k x : Str) (v : Val) : dictGet (dictSet d k v) x = if x = k then some v else dictGet d x := by
  unfold dictGet dictSet
  by_cases h : k ∈ d.map (·.1)
  · rw [if_pos h]
    induction d with
    | nil => simp at h
    | cons p d ih =>
      rw [List.map_cons]
      by_cases e : p.1 = k
      · rw [if_pos e]
        by_cases ex : x = k
        · subst ex; simp
        · rw [List.find?_cons_of_neg (by simpa using Ne.symm ex), List.find?_cons_of_neg (by simpa [e] using Ne.symm ex), if_neg ex]
          by_cases hk : k ∈ d.map (·.1)
          · rw [ih hk, if_neg ex]
          · congr 1
            have : d.map (fun p => if p.1 = k then (k, v) else p) = d := by
              conv_rhs => rw [← List.map_id d]
              exact List.map_congr_left (fun q hq => if_neg (fun hq' => hk (List.mem_map.2 ⟨q, hq, hq'⟩)))
            rw [this]
      · rw [if_neg e]
        have hk : k ∈ d.map (·.1) := by
          rw [List.map_cons, List.mem_cons] at h; rcases h with h | h
          · exact absurd h.symm e
          · exact h
        by_cases ex : p.1 = x
        · have : x ≠ k := fun h => e (ex.trans h)
          simp [ex, this]
        · rw [List.find?_cons_of_neg (by simpa using ex), List.find?_cons_of_neg (by simpa using ex)]; exact ih hk
  · rw [if_neg h, List.find?_append]
    by_cases ex : x = k
    · subst ex
      have : d.find? (fun p => decide (p.1 = x)) = none := by
        rw [List.find?_eq_none]; intro p hp; simpa using fun h' => h (List.mem_map.2 ⟨p, hp, h'⟩)
      simp [this]
    · simp [ex, Ne.symm ex]

theorem defaults_get (os : List Opt) (k : Str) :
    dictGet (defaults os) k = ((os.filter (fun o => decide (o.key = k ∧ o.default.isSome))).getLast?).bind (·.default) := by
  induction os using List.reverseRecOn with
  | nil => rfl
  | append_singleton os o ih =>
    rw [defaults_snoc, List.filter_append]
    cases e : o.default with
    | none => simp [e, ih]
    | some v =>
      dsimp only; rw [dictGet_set]
      by_cases ek : k = o.key
      · subst ek; simp [e]
      · simp [ek, Ne.symm ek, ih]

theorem defaults_nodup (os : List Opt) : ((defaults os).map (·.1)).Nodup := by
  induction os using List.reverseRecOn with
  | nil => simp [defaults]
  | append_singleton os o ih =>
    rw [defaults_snoc]
    cases e : o.default with
    | none => exact ih
    | some v =>
      dsimp only
      unfold dictSet; split
      · have : ((defaults os).map (fun p => if p.1 = o.key then (o.key, v) else p)).map (·.1) = (defaults os).map (·.1) := by
          rw [List.map_map]; refine List.map_congr_left (fun p _ => ?_)
          simp only [Function.comp]; split
          · rename_i h; exact h.symm
          · rfl
        rw [this]; exact ih
      · rename_i h
        rw [List.map_append, List.nodup_append]
        refine ⟨ih, by simp, ?_⟩
        intro a ha b hb e'; simp only [List.map_cons, List.map_nil, List.mem_singleton] at hb; subst hb; subst e'; exact h ha

theorem defaults_keys (os : List Opt) (k : Str) : k ∈ (defaults os).map (·.1) ↔ ∃ o ∈ os, o.key = k ∧ o.default.isSome := by
  induction os using List.reverseRecOn with
  | nil => simp [defaults]
  | append_singleton os o ih =>
    rw [defaults_snoc]
    have : (∃ o' ∈ os ++ [o], o'.key = k ∧ o'.default.isSome) ↔ (o.key = k ∧ o.default.isSome) ∨ ∃ o' ∈ os, o'.key = k ∧ o'.default.isSome := by
      simp only [List.mem_append, List.mem_singleton]
      constructor
      · rintro ⟨o', h | rfl, h2⟩
        · exact .inr ⟨o', h, h2⟩
        · exact .inl h2
      · rintro (h | ⟨o', h, h2⟩)
        · exact ⟨o, .inr rfl, h⟩
        · exact ⟨o', .inl h, h2⟩
    rw [this]
    cases e : o.default with
    | none => simp [ih]
    | some v => dsimp only; rw [dictSet_keys, ih, eq_comm (a := k)]; simp

/-! ## Specification: the value a variable gets -/

/-- The options are declared once each: different options have different keys and no common name. -/
def Declared (opts : List Opt) : Prop := opts.Pairwise (fun a b => ∀ n ∈ a.names, n ∉ b.names)

theorem Declared.key {opts : List Opt} (h : Declared opts) : ∀ a ∈ opts, ∀ b ∈ opts, ∀ n, n ∈ a.names → n ∈ b.names → a = b ∨ ¬ Declared opts := by
  intro a ha b hb n hna hnb
  by_contra hc
  have hc' : a ≠ b := fun e => hc (.inl e)
  have h' : opts.Pairwise (fun a b => ∀ n ∈ a.names, n ∉ b.names) := h
  have := List.Pairwise.forall_of_forall_of_flip (R := fun a b => a ≠ b → ∀ n ∈ a.names, n ∉ b.names) (l := opts)
    (fun x _ hx => absurd rfl hx) (h'.imp (S := fun (a b : Opt) => a ≠ b → ∀ n ∈ a.names, n ∉ b.names) (fun {x y} hh _ => hh)) (h'.imp (fun {x y} hh _ n hn hn' => hh n hn' hn))
  exact this ha hb hc' n hna hnb

theorem Declared.eq {opts : List Opt} (h : Declared opts) {a b : Opt} (ha : a ∈ opts) (hb : b ∈ opts) {n : Str} (hna : n ∈ a.names) (hnb : n ∈ b.names) : a = b :=
  (h.key a ha b hb n hna hnb).resolve_right (fun x => x h)

theorem Opt.key_mem (o : Opt) : o.key ∈ o.names := by simp [Opt.names]

theorem sets_iff {opts : List Opt} (h : Declared opts) {o : Opt} (ho : o ∈ opts) (n : Str) : sets opts o.key n = decide (n ∈ o.names) := by
  rw [Bool.eq_iff_iff]
  simp only [sets, List.any_eq_true, decide_eq_true_eq]
  constructor
  · rintro ⟨o', ho', hk, hn⟩
    rw [← h.eq ho' ho (n := o.key) (hk ▸ o'.key_mem) o.key_mem]; exact hn
  · intro hn; exact ⟨o, ho, rfl, hn⟩

theorem default_of {opts : List Opt} (h : Declared opts) {o : Opt} (ho : o ∈ opts) : dictGet (defaults opts) o.key = o.default := by
  rw [defaults_get]
  have all : ∀ x ∈ opts.filter (fun x => decide (x.key = o.key ∧ x.default.isSome)), x = o := by
    intro x hx
    rw [List.mem_filter, decide_eq_true_eq] at hx
    exact h.eq hx.1 ho (n := o.key) (hx.2.1 ▸ x.key_mem) o.key_mem
  cases e : o.default with
  | none =>
    have : opts.filter (fun x => decide (x.key = o.key ∧ x.default.isSome)) = [] := by
      rw [List.eq_nil_iff_forall_not_mem]; intro x hx
      have h1 := all x hx
      rw [List.mem_filter, decide_eq_true_eq, h1, e] at hx
      exact absurd hx.2.2 (by simp)
    rw [this]; rfl
  | some v =>
    have hm : o ∈ opts.filter (fun x => decide (x.key = o.key ∧ x.default.isSome)) := by
      rw [List.mem_filter, decide_eq_true_eq]; exact ⟨ho, rfl, by simp [e]⟩
    have ne := List.ne_nil_of_mem hm
    rw [List.getLast?_eq_getLast_of_ne_nil ne, all _ (List.getLast_mem ne)]; exact e

/-- What the sources say about an option: the last assignment to one of its names, files first (in order), then the command line. -/
def said (o : Opt) (files : List (List (Str × Val))) (args : List (Str × Val)) : Option Val :=
  (((files.flatten ++ args).filter (fun p => decide (p.1 ∈ o.names))).getLast?).map (·.2)

/-- In no source are two different names of the option assigned. -/
def OneName (o : Opt) (src : List (Str × Val)) : Prop := ∀ p ∈ src, ∀ q ∈ src, p.1 ∈ o.names → q.1 ∈ o.names → p.1 = q.1

theorem said_dict (o : Opt) (files : List (List (Str × Val))) (args : List (Str × Val)) (hf : ∀ f ∈ files, OneName o f) (ha : OneName o args) :
    ((((files.map toDict).flatten ++ toDict args).filter (fun p => decide (p.1 ∈ o.names))).getLast?).map (·.2) = said o files args := by
  unfold said
  rw [List.filter_append, List.filter_append, List.getLast?_append, List.getLast?_append]
  have h1 := last_toDict (fun n => decide (n ∈ o.names)) args (fun p hp q hq a b => ha p hp q hq (by simpa using a) (by simpa using b))
  have h2 : ((((files.map toDict).flatten).filter (fun p => decide (p.1 ∈ o.names))).getLast?).map (·.2)
      = ((files.flatten.filter (fun p => decide (p.1 ∈ o.names))).getLast?).map (·.2) := by
    clear h1 ha
    induction files with
    | nil => rfl
    | cons f fs ih =>
      have ih := ih (fun g hg => hf g (by simp [hg]))
      have h1 := last_toDict (fun n => decide (n ∈ o.names)) f (fun p hp q hq a b => hf f (by simp) p hp q hq (by simpa using a) (by simpa using b))
      rw [List.map_cons, List.flatten_cons, List.flatten_cons, List.filter_append, List.filter_append, List.getLast?_append, List.getLast?_append,
        Option.map_or, Option.map_or, ih, h1]
  rw [Option.map_or, Option.map_or, h1, h2]

theorem gather_value (V : Vars) (files : List (List (Str × Val))) (args : List (Str × Val)) (hd : Declared V.options) {o : Opt} (ho : o ∈ V.options)
    (hf : ∀ f ∈ files, OneName o f) (ha : OneName o args) : (gather V files args).values o.key = (said o files args).or o.default := by
  rw [gather_eq, assignAll_values]; dsimp only
  rw [default_of hd ho, ← said_dict o files args hf ha]
  congr 5; funext p; exact sets_iff hd ho p.1

/-! ## From the values to the environment -/

theorem putAll_other (opts : List Opt) (vals : Str → Option Val) (e : Env) (k : Str) (h : ∀ o ∈ opts, o.key ≠ k) : putAll opts vals e k = e k := by
  unfold putAll
  induction opts generalizing e with
  | nil => rfl
  | cons o os ih =>
    rw [List.foldl_cons, ih _ (fun x hx => h x (by simp [hx]))]
    cases vals o.key with
    | none => rfl
    | some v => exact if_neg (Ne.symm (h o (by simp)))

theorem putAll_key (opts : List Opt) (vals : Str → Option Val) (e : Env) (o : Opt) (ho : o ∈ opts) : putAll opts vals e o.key = (vals o.key).or (e o.key) := by
  unfold putAll
  induction opts using List.reverseRecOn with
  | nil => simp at ho
  | append_singleton os p ih =>
    rw [List.foldl_append, List.foldl_cons, List.foldl_nil]
    by_cases ek : o.key = p.key
    · cases hv : vals p.key with
      | some v => simp [Env.set, ek, hv]
      | none =>
        dsimp only; rw [ek, hv]
        clear ih ho
        suffices h : ∀ (l : List Opt) (e : Env), (l.foldl (fun e o => match vals o.key with | some v => e.set o.key v | none => e) e) p.key = e p.key from h os e
        intro l
        induction l with
        | nil => intro e; rfl
        | cons q qs ihq =>
          intro e; rw [List.foldl_cons, ihq]
          cases hq : vals q.key with
          | none => rfl
          | some v =>
            refine if_neg (fun e' => ?_); rw [← e', hv] at hq; exact absurd hq (by simp)
    · have hm : o ∈ os := by
        rcases List.mem_append.1 ho with h | h
        · exact h
        · exact absurd (by rw [List.mem_singleton.1 h]) ek
      cases hv : vals p.key with
      | some v => dsimp only; rw [show (Env.set _ p.key v) o.key = _ from if_neg ek]; exact ih hm
      | none => exact ih hm

theorem convertAll_other (sub : Env → Str → Str) (vals : Str → Option Val) (opts : List Opt) (e e' : Env) (h : convertAll sub vals opts e = some e') (k : Str)
    (hk : ∀ o ∈ opts, o.key ≠ k) : e' k = e k := by
  induction opts generalizing e with
  | nil => cases h; rfl
  | cons o os ih =>
    have hk' : ∀ x ∈ os, x.key ≠ k := fun x hx => hk x (by simp [hx])
    unfold convertAll at h
    split at h
    · split at h
      · rw [ih _ h hk']; exact if_neg (Ne.symm (hk o (by simp)))
      · cases h
    · exact ih _ h hk'

/-- What the converters leave for one option. -/
theorem convertAll_key (sub : Env → Str → Str) (vals : Str → Option Val) (opts : List Opt) (e e' : Env) (h : convertAll sub vals opts e = some e')
    (hd : Declared opts) (o : Opt) (ho : o ∈ opts) :
    ((o.conv = none ∨ vals o.key = none ∨ e o.key = none) ∧ e' o.key = e o.key) ∨
    ∃ f cur e'' v, o.conv = some f ∧ (vals o.key).isSome ∧ e o.key = some cur ∧ e'' o.key = some cur ∧ (∀ k, (∀ x ∈ opts, x.key ≠ k) → e'' k = e k) ∧
      f (if o.doSubst then .str (sub e'' o.key) else cur) = some v ∧ e' o.key = some v := by
  induction opts generalizing e with
  | nil => simp at ho
  | cons p os ih =>
    have hd' : Declared os := (List.pairwise_cons.1 hd).2
    by_cases hm : o ∈ os
    · have hne : o.key ≠ p.key := fun ek => (List.pairwise_cons.1 hd).1 o hm o.key (ek ▸ p.key_mem) o.key_mem
      unfold convertAll at h
      split at h
      · split at h
        · rename_i v _
          have := ih _ h hd' hm
          have es : ∀ k, k ≠ p.key → (e.set p.key v) k = e k := fun k hk => if_neg hk
          rcases this with ⟨h1, h2⟩ | ⟨f, cur, e'', v', h1, h2, h3, h4, h5, h6, h7⟩
          · rw [es _ hne] at h1 h2; exact .inl ⟨h1, h2⟩
          · rw [es _ hne] at h3
            exact .inr ⟨f, cur, e'', v', h1, h2, h3, h4, fun k hk => by
              rw [h5 k (fun x hx => hk x (by simp [hx])), es]; exact Ne.symm (hk p (by simp)), h6, h7⟩
        · cases h
      · rcases ih _ h hd' hm with h1 | ⟨f, cur, e'', v', h1, h2, h3, h4, h5, h6, h7⟩
        · exact .inl h1
        · exact .inr ⟨f, cur, e'', v', h1, h2, h3, h4, fun k hk => h5 k (fun x hx => hk x (by simp [hx])), h6, h7⟩
    · have hp : o = p := by simpa [hm] using ho
      subst hp
      have hk : ∀ x ∈ os, x.key ≠ o.key := fun x hx ek => (List.pairwise_cons.1 hd).1 x hx o.key o.key_mem (ek ▸ x.key_mem)
      unfold convertAll at h
      split at h
      · rename_i f _ cur hf hv hc
        split at h
        · rename_i v hfv
          refine .inr ⟨f, cur, e, v, hf, by simp [hv], hc, hc, fun _ _ => rfl, hfv, ?_⟩
          rw [convertAll_other sub vals os _ e' h _ hk]; simp [Env.set]
        · cases h
      · rename_i hno
        refine .inl ⟨?_, convertAll_other sub vals os _ e' h _ hk⟩
        by_contra hc
        push Not at hc
        obtain ⟨a, b, c⟩ := hc
        obtain ⟨f, hf⟩ := Option.ne_none_iff_exists'.1 a
        obtain ⟨v, hv⟩ := Option.ne_none_iff_exists'.1 b
        obtain ⟨w, hw⟩ := Option.ne_none_iff_exists'.1 c
        exact hno f v w hf hv hw

/-! ## The theorems -/

/-- `Update` succeeded: what it left. -/
def Updated (sub : Env → Str → Str) (V : Vars) (files : List (List (Str × Val))) (args : List (Str × Val)) (e e' : Env) (V' : Vars) : Prop :=
  V.update sub files args e = some (e', V')

theorem Updated.conv {sub V files args e e' V'} (h : Updated sub V files args e e' V') :
    convertAll sub (gather V files args).values V.options (putAll V.options (gather V files args).values e) = some e' ∧
    validateAll sub (gather V files args).values V.options e' = true ∧
    V' = { V with unknown := (gather V files args).unknown, defaulted := (gather V files args).defaulted } := by
  unfold Updated Vars.update at h
  dsimp only at h
  rw [Option.bind_eq_some_iff] at h
  obtain ⟨a, h1, h2⟩ := h
  split at h2
  · rename_i hv; cases h2; exact ⟨h1, hv, rfl⟩
  · cases h2

/-- **C61**: only declared variables are set in the environment. -/
theorem C61_others_untouched (sub : Env → Str → Str) (V : Vars) (files : List (List (Str × Val))) (args : List (Str × Val)) (e e' : Env) (V' : Vars)
    (h : Updated sub V files args e e' V') (k : Str) (hk : ∀ o ∈ V.options, o.key ≠ k) : e' k = e k := by
  rw [convertAll_other sub _ _ _ _ h.conv.1 k hk, putAll_other _ _ _ _ hk]

/-- **C61** (partial: assumes no source assigns an option under two names): the raw value of a variable is what the command line says last, else what the last
saved-variables file that names it says last, else the default, else what the environment had; and without a converter that is the value it has afterwards. -/
theorem C61_precedence_partial (sub : Env → Str → Str) (V : Vars) (files : List (List (Str × Val))) (args : List (Str × Val)) (e e' : Env) (V' : Vars)
    (hd : Declared V.options) (h : Updated sub V files args e e' V') (o : Opt) (ho : o ∈ V.options) (hf : ∀ f ∈ files, OneName o f) (ha : OneName o args)
    (hc : o.conv = none) : e' o.key = ((said o files args).or o.default).or (e o.key) := by
  have hg := gather_value V files args hd ho hf ha
  rcases convertAll_key sub _ _ _ _ h.conv.1 hd o ho with ⟨_, h2⟩ | ⟨f, _, _, _, h1, _⟩
  · rw [h2, putAll_key _ _ _ _ ho, hg]
  · rw [hc] at h1; cases h1

/-- **C61** (partial, as above): with a converter, the value afterwards is the converter's result for that raw value - expanded in an environment where the variable
has the raw value, unless `subst=False` - if any source or the default gave one; otherwise the variable is left alone. -/
theorem C61_converted_partial (sub : Env → Str → Str) (V : Vars) (files : List (List (Str × Val))) (args : List (Str × Val)) (e e' : Env) (V' : Vars)
    (hd : Declared V.options) (h : Updated sub V files args e e' V') (o : Opt) (ho : o ∈ V.options) (hf : ∀ f ∈ files, OneName o f) (ha : OneName o args)
    (f : Val → Option Val) (hc : o.conv = some f) :
    ((said o files args).or o.default = none → e' o.key = e o.key) ∧
    (∀ raw, (said o files args).or o.default = some raw → ∃ e'' : Env, e'' o.key = some raw ∧
      (∀ k, (∀ x ∈ V.options, x.key ≠ k) → e'' k = e k) ∧
      e' o.key = f (if o.doSubst then .str (sub e'' o.key) else raw) ∧ e' o.key ≠ none) := by
  have hg := gather_value V files args hd ho hf ha
  have hp := putAll_key V.options (gather V files args).values e o ho
  rcases convertAll_key sub _ _ _ _ h.conv.1 hd o ho with ⟨h1, h2⟩ | ⟨g, cur, e'', v, h1, h2, h3, h4, h5, h6, h7⟩
  · rw [hg] at hp h1
    refine ⟨fun hn => by rw [h2, hp, hn]; rfl, fun raw hr => ?_⟩
    rw [hr] at hp h1
    rcases h1 with h1 | h1 | h1
    · rw [hc] at h1; cases h1
    · cases h1
    · rw [hp] at h1; cases h1
  · rw [hc] at h1; cases h1
    rw [hg] at hp h2
    refine ⟨fun hn => by rw [hn] at h2; exact absurd h2 (by simp), fun raw hr => ?_⟩
    rw [hr] at hp; rw [h3] at hp
    have hcur : cur = raw := by simpa using hp
    subst hcur
    refine ⟨e'', h4, fun k hk => ?_, by rw [h6, h7], by rw [h7]; simp⟩
    rw [h5 k hk, putAll_other _ _ _ _ hk]

/-- **C61**: when `Update` returns, every option that got a value and has a validator was accepted by it, on the value and environment it leaves. -/
theorem C61_validated (sub : Env → Str → Str) (V : Vars) (files : List (List (Str × Val))) (args : List (Str × Val)) (e e' : Env) (V' : Vars)
    (h : Updated sub V files args e e' V') (o : Opt) (ho : o ∈ V.options) (f : Val → Env → Bool) (hv : o.valid = some f) (cur : Val) (hcur : e' o.key = some cur)
    (hg : o.default ≠ none ∨ ∃ p ∈ files.flatten ++ args, p.1 ∈ o.names) :
    (o.doSubst = false → f cur e' = true) ∧ ((∀ s, cur ≠ .str s) → f cur e' = true) ∧ (∀ s, cur = .str s → o.doSubst = true → f (.str (sub e' o.key)) e' = true) := by
  have hval := h.conv.2.1
  have hsome : ((gather V files args).values o.key).isSome := by
    rw [gather_eq, assignAll_values, Option.isSome_or]; dsimp only
    rw [Bool.or_eq_true]
    rcases hg with hg | ⟨p, hp, hn⟩
    · refine .inr ?_
      rw [defaults_get]
      have hm : o ∈ V.options.filter (fun x => decide (x.key = o.key ∧ x.default.isSome)) := by
        rw [List.mem_filter, decide_eq_true_eq]; exact ⟨ho, rfl, Option.isSome_iff_ne_none.2 hg⟩
      have ne := List.ne_nil_of_mem hm
      rw [List.getLast?_eq_getLast_of_ne_nil ne]
      have := List.getLast_mem ne
      rw [List.mem_filter, decide_eq_true_eq] at this
      exact this.2.2
    · refine .inl ?_
      rw [Option.isSome_map]
      have hk : p.1 ∈ ((files.map toDict).flatten ++ toDict args).map (·.1) := by
        rw [List.map_append, List.mem_append]
        rcases List.mem_append.1 hp with hp | hp
        · left
          obtain ⟨l, hl, hpl⟩ := List.mem_flatten.1 hp
          rw [List.map_flatten, List.mem_flatten]
          exact ⟨(toDict l).map (·.1), by rw [List.map_map]; exact List.mem_map.2 ⟨l, hl, rfl⟩, (toDict_keys l p.1).2 (List.mem_map.2 ⟨p, hpl, rfl⟩)⟩
        · right; exact (toDict_keys args p.1).2 (List.mem_map.2 ⟨p, hp, rfl⟩)
      obtain ⟨q, hq, eq⟩ := List.mem_map.1 hk
      have : q ∈ ((files.map toDict).flatten ++ toDict args).filter (fun p => sets V.options o.key p.1) := by
        rw [List.mem_filter]; refine ⟨hq, ?_⟩
        simp only [sets, List.any_eq_true, decide_eq_true_eq]; exact ⟨o, ho, rfl, eq ▸ hn⟩
      have ne := List.ne_nil_of_mem this
      rw [List.getLast?_eq_getLast_of_ne_nil ne]; rfl
  obtain ⟨x, hx⟩ := Option.isSome_iff_exists.1 hsome
  unfold validateAll at hval
  rw [List.all_eq_true] at hval
  have := hval o ho
  rw [hv, hx, hcur] at this
  dsimp only at this
  refine ⟨fun hs => ?_, fun hs => ?_, fun s hs hd => ?_⟩
  · rw [hs] at this
    cases cur <;> exact this
  · cases cur with
    | str s => exact absurd rfl (hs s)
    | bool b => exact this
    | list d a => exact this
  · subst hs; rw [hd] at this; exact this

/-- **C61**: `UnknownVariables()` after `Update`: the names no option has, with the last value given, and whatever was there before. -/
theorem C61_unknown (sub : Env → Str → Str) (V : Vars) (files : List (List (Str × Val))) (args : List (Str × Val)) (e e' : Env) (V' : Vars)
    (h : Updated sub V files args e e' V') (n : Str) :
    ((∃ o ∈ V.options, n ∈ o.names) → V'.unknown n = V.unknown n) ∧
    ((∀ o ∈ V.options, n ∉ o.names) →
      V'.unknown n = ((((files.flatten ++ args).filter (fun p => decide (p.1 = n))).getLast?).map (·.2)).or (V.unknown n)) := by
  rw [h.conv.2.2]; dsimp only
  rw [gather_eq, assignAll_unknown]; dsimp only
  constructor
  · rintro ⟨o, ho, hn⟩
    have : ¬ ∀ o ∈ V.options, n ∉ o.names := fun hh => hh o ho hn
    have h2 : (fun p : Str × Val => decide (p.1 = n ∧ ∀ o ∈ V.options, n ∉ o.names)) = fun _ => false := by funext p; simp [this]
    rw [h2, List.filter_eq_nil_iff.2 (by simp)]; rfl
  · intro hh
    have hs := said_dict { key := n } files args (fun f _ p _ q _ a b => by simp [Opt.names] at a b; rw [a, b]) (fun p _ q _ a b => by simp [Opt.names] at a b; rw [a, b])
    have e1 : (fun p : Str × Val => decide (p.1 ∈ Opt.names { key := n })) = (fun p => decide (p.1 = n ∧ ∀ o ∈ V.options, n ∉ o.names)) := by
      funext p; rw [Bool.eq_iff_iff, decide_eq_true_eq, decide_eq_true_eq]; simp only [Opt.names, List.nil_append, List.mem_singleton]; exact ⟨fun x => ⟨x, hh⟩, fun x => x.1⟩
    have e2 : (fun p : Str × Val => decide (p.1 ∈ Opt.names { key := n })) = (fun p => decide (p.1 = n)) := by
      funext p; simp [Opt.names]
    unfold said at hs
    rw [e1] at hs
    rw [hs]; rw [← e1, e2]

/-- **C61**: `Variables.defaulted` after `Update`: exactly the variables that have a default and that no source names, each once. -/
theorem C61_defaulted (sub : Env → Str → Str) (V : Vars) (files : List (List (Str × Val))) (args : List (Str × Val)) (e e' : Env) (V' : Vars)
    (hd : Declared V.options) (h : Updated sub V files args e e' V') :
    V'.defaulted.Nodup ∧ ∀ k, k ∈ V'.defaulted ↔ ∃ o ∈ V.options, o.key = k ∧ o.default ≠ none ∧ ∀ p ∈ files.flatten ++ args, p.1 ∉ o.names := by
  rw [h.conv.2.2]; dsimp only
  rw [gather_eq]
  set w : Work := { values := dictGet (defaults V.options), unknown := V.unknown, defaulted := (defaults V.options).map (·.1) } with hw
  have hn : w.defaulted.Nodup := defaults_nodup V.options
  refine ⟨(assignAll_defaulted V.options w _ [] hn).1, fun k => ?_⟩
  rw [(assignAll_defaulted V.options w _ k hn).2]
  have hkeys : ∀ n, n ∈ ((files.map toDict).flatten ++ toDict args).map (·.1) ↔ n ∈ (files.flatten ++ args).map (·.1) := by
    intro n
    rw [List.map_append, List.map_append, List.mem_append, List.mem_append, toDict_keys]
    refine or_congr ?_ Iff.rfl
    clear h
    induction files with
    | nil => rfl
    | cons f fs ih => rw [List.map_cons, List.flatten_cons, List.flatten_cons, List.map_append, List.map_append, List.mem_append, List.mem_append, ih, toDict_keys]
  rw [show k ∈ w.defaulted ↔ _ from defaults_keys V.options k]
  constructor
  · rintro ⟨⟨o, ho, ek, hs⟩, hall⟩
    refine ⟨o, ho, ek, Option.isSome_iff_ne_none.1 hs, fun p hp hm => ?_⟩
    obtain ⟨q, hq, eq⟩ := List.mem_map.1 ((hkeys p.1).2 (List.mem_map.2 ⟨p, hp, rfl⟩))
    have h1 := hall q hq
    rw [← ek, sets_iff hd ho, eq] at h1
    exact absurd hm (by simpa using h1)
  · rintro ⟨o, ho, ek, hs, hall⟩
    refine ⟨⟨o, ho, ek, Option.isSome_iff_ne_none.2 hs⟩, fun q hq => ?_⟩
    rw [← ek, sets_iff hd ho]
    obtain ⟨p, hp, eq⟩ := List.mem_map.1 ((hkeys q.1).1 (List.mem_map.2 ⟨q, hq, rfl⟩))
    simpa [← eq] using hall p hp

/-! ## Example and counterexamples -/

/-- `env.subst('${k}')` for values without `$`. -/
def litSub : Env → Str → Str := fun e k => match e k with | some v => v.expand | none => []

def exDebug : Opt := { key := "debug".toList, aliases := ["DEBUG".toList], default := some (.str "0".toList) }
def exBool : Opt := { key := "opt".toList, default := some (.str "yes".toList), conv := some text2bool, valid := some (fun v _ => match v with | .bool _ => true | _ => false) }
def exV : Vars := { options := [exDebug, exBool] }

/-- The hypotheses of the theorems are met: a file says `debug = '1'`, the command line `opt=off foo=x opt=ON`. -/
theorem exV_update : Declared exV.options ∧ ∃ e' V', Updated litSub exV [[("debug".toList, .str "1".toList)]]
    [("opt".toList, .str "off".toList), ("foo".toList, .str "x".toList), ("opt".toList, .str "ON".toList)] (fun _ => none) e' V' ∧
    e' "debug".toList = some (.str "1".toList) ∧ e' "opt".toList = some (.bool true) ∧ e' "foo".toList = none ∧
    V'.unknown "foo".toList = some (.str "x".toList) ∧ V'.defaulted = [] := by
  refine ⟨by unfold Declared; decide +kernel, _, _, rfl, ?_⟩; decide +kernel

/-- **C61** counterexample: `scons DEBUG=1 debug=2 DEBUG=3` gives the variable `debug` (alias `DEBUG`) the value 2: the last setting does not win, because `ARGUMENTS`
keeps the place of the first `DEBUG`. -/
theorem C61_counterexample_last_does_not_win : ∃ e' V',
    Updated litSub exV [] [("DEBUG".toList, .str "1".toList), ("debug".toList, .str "2".toList), ("DEBUG".toList, .str "3".toList)] (fun _ => none) e' V' ∧
    e' "debug".toList = some (.str "2".toList) ∧
    said exDebug [] [("DEBUG".toList, .str "1".toList), ("debug".toList, .str "2".toList), ("DEBUG".toList, .str "3".toList)] = some (.str "3".toList) := by
  refine ⟨_, _, rfl, ?_⟩; decide +kernel

/-- **C61** counterexample: `UnknownVariables()` still reports a name of an earlier `Update` which the last one was not given. -/
theorem C61_counterexample_unknown_stale : ∃ e1 V1 e2 V2,
    Updated litSub exV [] [("foo".toList, .str "x".toList)] (fun _ => none) e1 V1 ∧ Updated litSub V1 [] [] e1 e2 V2 ∧ V2.unknown "foo".toList = some (.str "x".toList) := by
  refine ⟨_, _, _, _, rfl, rfl, ?_⟩; decide +kernel

end Verif.Vars
