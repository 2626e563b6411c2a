import Verif.Methods.Spec

/-!
# C100: a call through an environment acts on that environment
-/

namespace Verif.Methods

/-! ## Dictionaries -/

theorem lookup_append_single (l : List (String × Nat)) (k n : String) (v : Nat) :
    (l ++ [(k, v)]).lookup n = (l.lookup n).or (if n = k then some v else none) := by
  induction l with
  | nil =>
    simp only [List.nil_append, List.lookup_cons, List.lookup_nil, Option.none_or]
    by_cases h : n = k
    · simp [h]
    · simp [h, beq_eq_false_iff_ne.2 h]
  | cons p l ih =>
    obtain ⟨a, b⟩ := p
    simp only [List.cons_append, List.lookup_cons]
    split <;> simp_all

theorem lookup_map_set (l : List (String × Nat)) (k n : String) (v : Nat) :
    (l.map fun p => if p.1 = k then (k, v) else p).lookup n =
      if n = k then (l.lookup n).map fun _ => v else l.lookup n := by
  induction l with
  | nil => simp
  | cons p l ih =>
    obtain ⟨a, b⟩ := p
    simp only [List.map_cons]
    by_cases hak : a = k
    · subst hak
      simp only [if_true, List.lookup_cons, ih]
      by_cases hn : n = a
      · simp [hn]
      · simp [hn, beq_eq_false_iff_ne.2 hn]
    · rw [if_neg hak]
      simp only [List.lookup_cons, ih]
      by_cases hn : n = a
      · subst hn; simp [hak]
      · simp [beq_eq_false_iff_ne.2 hn]

theorem lookup_dictSet (l : List (String × Nat)) (k n : String) (v : Nat) :
    (dictSet l k v).lookup n = if n = k then some v else l.lookup n := by
  unfold dictSet
  split
  · rename_i h
    rw [lookup_map_set]
    by_cases hn : n = k
    · subst hn
      obtain ⟨x, hx⟩ := Option.isSome_iff_exists.1 h
      simp [hx]
    · simp [hn]
  · rename_i h
    rw [lookup_append_single]
    by_cases hn : n = k
    · subst hn
      have : l.lookup n = none := by
        rcases hx : l.lookup n with _ | v
        · rfl
        · rw [hx] at h; simp at h
      simp [this]
    · simp [hn]

theorem lookup_dictDel (l : List (String × Nat)) (k n : String) :
    (dictDel l k).lookup n = if n = k then none else l.lookup n := by
  unfold dictDel
  induction l with
  | nil => simp
  | cons p l ih =>
    obtain ⟨a, b⟩ := p
    rw [List.filter_cons]
    by_cases hak : a = k
    · subst hak
      simp only [ne_eq, not_true_eq_false, decide_false, Bool.false_eq_true, if_false, ih, List.lookup_cons]
      by_cases hn : n = a
      · simp [hn]
      · simp [hn, beq_eq_false_iff_ne.2 hn]
    · simp only [ne_eq, hak, not_false_eq_true, decide_true, if_true, List.lookup_cons, ih]
      by_cases hn : n = a
      · subst hn; simp [hak]
      · simp [beq_eq_false_iff_ne.2 hn]

/-- The keys of a dictionary, each once. -/
def Keys (l : List (String × Nat)) : Prop := (l.map Prod.fst).Nodup

theorem keys_dictSet {l : List (String × Nat)} (h : Keys l) (k : String) (v : Nat) : Keys (dictSet l k v) := by
  unfold dictSet Keys at *
  split
  · have : (l.map fun p => if p.1 = k then (k, v) else p).map Prod.fst = l.map Prod.fst := by
      rw [List.map_map]
      apply List.map_congr_left
      rintro ⟨a, b⟩ _
      simp only [Function.comp]
      split
      · rename_i h; exact h.symm
      · rfl
    rw [this]; exact h
  · rename_i hn
    rw [List.map_append, List.nodup_append]
    refine ⟨h, by simp, ?_⟩
    intro a ha b hb
    simp only [List.map_cons, List.map_nil, List.mem_singleton] at hb
    subst hb
    rintro rfl
    apply hn
    obtain ⟨⟨x, y⟩, hxy, hx⟩ := List.mem_map.1 ha
    simp only at hx
    subst hx
    have : ∀ l : List (String × Nat), (x, y) ∈ l → (l.lookup x).isSome := by
      intro l
      induction l with
      | nil => simp
      | cons p l ih =>
        obtain ⟨a, b⟩ := p
        intro hm
        rw [List.lookup_cons]
        split
        · rfl
        · rcases List.mem_cons.1 hm with h | h
          · simp_all
          · exact ih h
    exact this l hxy

theorem keys_dictDel {l : List (String × Nat)} (h : Keys l) (k : String) : Keys (dictDel l k) := by
  unfold dictDel Keys at *
  exact h.sublist (List.filter_sublist.map _)

/-! ## Wrappers are told apart by their numbers -/

structure Ids (b : Base) (i : Nat) : Prop where
  small : ∀ mw ∈ b.added, mw.id < i
  attr : ∀ n w, b.attrs n = some (.wrap w) → w.id < i ∧ w.name = n
  same : ∀ mw ∈ b.added, ∀ w, b.attrs mw.name = some (.wrap w) → w.id = mw.id → w = mw
  keys : Keys b.builders

theorem Ids.mono {b : Base} {i j : Nat} (h : Ids b i) (hij : i ≤ j) : Ids b j :=
  ⟨fun mw hm => Nat.lt_of_lt_of_le (h.small mw hm) hij,
   fun n w hw => ⟨Nat.lt_of_lt_of_le (h.attr n w hw).1 hij, (h.attr n w hw).2⟩, h.same, h.keys⟩

/-- Binding a new wrapper. -/
theorem Ids.set {b : Base} {i : Nat} (h : Ids b i) (w : Wrapper) (hw : w.id = i) :
    Ids (b.setAttr w.name (.wrap w)) (i + 1) where
  small mw hm := Nat.lt_succ_of_lt (h.small mw hm)
  attr n x hx := by
    simp only [Base.setAttr] at hx
    split at hx
    · rename_i hn
      simp only [Option.some.injEq, Attr.wrap.injEq] at hx
      subst hx
      exact ⟨by omega, hn.symm⟩
    · have := h.attr n x hx; exact ⟨by omega, this.2⟩
  same mw hm x hx he := by
    have hm' := h.small mw hm
    simp only [Base.setAttr] at hx
    split at hx
    · simp only [Option.some.injEq, Attr.wrap.injEq] at hx
      subst hx
      omega
    · exact h.same mw hm x hx he
  keys := h.keys

theorem Ids.track {b : Base} {i : Nat} (h : Ids b i) (w : Wrapper) (hw : w.id = i) :
    Ids { b.setAttr w.name (.wrap w) with added := b.added ++ [w] } (i + 1) where
  small mw hm := by
    rcases List.mem_append.1 hm with hm | hm
    · exact Nat.lt_succ_of_lt (h.small mw hm)
    · simp only [List.mem_singleton] at hm; subst hm; omega
  attr := (h.set w hw).attr
  same mw hm x hx he := by
    rcases List.mem_append.1 hm with hm | hm
    · exact (h.set w hw).same mw hm x hx he
    · simp only [List.mem_singleton] at hm
      subst hm
      simp only [Base.setAttr, if_true, Option.some.injEq, Attr.wrap.injEq] at hx
      exact hx.symm
  keys := h.keys

theorem Ids.forget {b : Base} {i : Nat} (h : Ids b i) (n : String) : Ids (b.forget n) i := by
  unfold Base.forget
  split
  · exact ⟨fun mw hm => h.small mw (List.mem_filter.1 hm).1, h.attr,
      fun mw hm => h.same mw (List.mem_filter.1 hm).1, h.keys⟩
  · exact h

theorem forget_attrs (b : Base) (n : String) : (b.forget n).attrs = b.attrs := by
  unfold Base.forget; split <;> rfl

theorem forget_builders (b : Base) (n : String) : (b.forget n).builders = b.builders := by
  unfold Base.forget; split <;> rfl

theorem setBuilder_attrs (b : Base) (i e : Nat) (n : String) (f : Nat) (x : String) :
    (b.setBuilder i e n f).attrs x = if x = n then some (.wrap ⟨i, e, f, n, true⟩) else b.attrs x := by
  simp only [Base.setBuilder, Base.setAttr, forget_attrs]

theorem setBuilder_builders (b : Base) (i e : Nat) (n : String) (f : Nat) :
    (b.setBuilder i e n f).builders = dictSet b.builders n f := by
  simp only [Base.setBuilder, Base.setAttr, forget_builders]

theorem setBuilder_added (b : Base) (i e : Nat) (n : String) (f : Nat) :
    (b.setBuilder i e n f).added = (b.forget n).added := rfl

theorem Ids.setBuilder {b : Base} {i : Nat} (h : Ids b i) (e : Nat) (n : String) (f : Nat) :
    Ids (b.setBuilder i e n f) (i + 1) := by
  have h' := h.forget n
  have h2 : Ids { b.forget n with builders := dictSet (b.forget n).builders n f } i :=
    ⟨h'.small, h'.attr, h'.same, keys_dictSet h'.keys n f⟩
  exact h2.set ⟨i, e, f, n, true⟩ rfl

/-! ## Environments and their tables -/

/-- The environment numbered `e` is what its table says. -/
structure Rel (e : Nat) (b : Base) (means : String → Option Meaning) (blds : String → Option Nat)
    (looked ever : String → Bool) : Prop where
  absent : ∀ n, means n = none ↔ b.attrs n = none
  method : ∀ n f, means n = some (.method f) → ∃ w, b.attrs n = some (.wrap w) ∧ w.fn = f ∧
    w.bld = false ∧ (looked n = false → w.obj = e ∧ w ∈ b.added)
  builder : ∀ n f, means n = some (.builder f) → ∃ w, b.attrs n = some (.wrap w) ∧ w.fn = f ∧
    w.bld = true ∧ (looked n = false → w.obj = e) ∧ blds n = some f
  plain : ∀ n v, means n = some (.plain v) → b.attrs n = some (.plain v) ∧ blds n = none
  dict : ∀ n, b.builders.lookup n = blds n
  named : ∀ n f, blds n = some f → means n ≠ none
  /-- a clone will find something under the name of each added method -/
  there : ∀ mw ∈ b.added, mw.bld = false ∧ b.attrs mw.name ≠ none ∧ ever mw.name = true

/-- Change one entry of a table. -/
def upd1 {α : Type} (t : String → α) (n : String) (v : α) : String → α := fun x => if x = n then v else t x

theorem setAttr_attrs (b : Base) (n : String) (a : Attr) (x : String) :
    (b.setAttr n a).attrs x = if x = n then some a else b.attrs x := rfl

theorem setAttr_added (b : Base) (n : String) (a : Attr) : (b.setAttr n a).added = b.added := rfl
theorem setAttr_builders (b : Base) (n : String) (a : Attr) : (b.setAttr n a).builders = b.builders := rfl

section
variable {e : Nat} {b : Base} {means : String → Option Meaning} {blds : String → Option Nat}
  {looked ever : String → Bool}

theorem Rel.empty (e : Nat) :
    Rel e ⟨fun _ => none, [], []⟩ (fun _ => none) (fun _ => none) (fun _ => false) (fun _ => false) := by
  constructor <;> simp

/-- Looking a name up through an override. -/
theorem Rel.rebind (h : Rel e b means blds looked ever) {n : String} {w w' : Wrapper}
    (hw : b.attrs n = some (.wrap w)) (hf : w'.fn = w.fn) (hb : w'.bld = w.bld) :
    Rel e (b.setAttr n (.wrap w')) means blds (upd1 looked n true) ever where
  absent x := by
    rw [setAttr_attrs, h.absent]
    by_cases hx : x = n
    · subst hx; simp [hw]
    · simp [hx]
  method x f hm := by
    obtain ⟨v, hv, h1, h2, h3⟩ := h.method x f hm
    rw [setAttr_attrs]
    by_cases hx : x = n
    · subst hx
      rw [hw] at hv
      simp only [Option.some.injEq, Attr.wrap.injEq] at hv
      subst hv
      exact ⟨w', by simp, by simp [hf, h1], by simp [hb, h2], by simp [upd1]⟩
    · exact ⟨v, by simp [hx, hv], h1, h2, by simpa [upd1, hx, setAttr_added] using h3⟩
  builder x f hm := by
    obtain ⟨v, hv, h1, h2, h3, h4⟩ := h.builder x f hm
    rw [setAttr_attrs]
    by_cases hx : x = n
    · subst hx
      rw [hw] at hv
      simp only [Option.some.injEq, Attr.wrap.injEq] at hv
      subst hv
      exact ⟨w', by simp, by simp [hf, h1], by simp [hb, h2], by simp [upd1], h4⟩
    · exact ⟨v, by simp [hx, hv], h1, h2, by simpa [upd1, hx] using h3, h4⟩
  plain x v hm := by
    obtain ⟨h1, h2⟩ := h.plain x v hm
    rw [setAttr_attrs]
    by_cases hx : x = n
    · subst hx; rw [hw] at h1; simp at h1
    · exact ⟨by simp [hx, h1], h2⟩
  dict := h.dict
  named := h.named
  there mw hm := by
    obtain ⟨h1, h2, h3⟩ := h.there mw hm
    refine ⟨h1, ?_, h3⟩
    rw [setAttr_attrs]
    split
    · simp
    · exact h2

/-- A name that was looked up, as far as the table is concerned. -/
theorem Rel.weaken (h : Rel e b means blds looked ever) (n : String) :
    Rel e b means blds (upd1 looked n true) ever where
  absent := h.absent
  method x f hm := by
    obtain ⟨v, hv, h1, h2, h3⟩ := h.method x f hm
    refine ⟨v, hv, h1, h2, fun hl => h3 ?_⟩
    simp only [upd1] at hl
    split at hl
    · cases hl
    · exact hl
  builder x f hm := by
    obtain ⟨v, hv, h1, h2, h3, h4⟩ := h.builder x f hm
    refine ⟨v, hv, h1, h2, fun hl => h3 ?_, h4⟩
    simp only [upd1] at hl
    split at hl
    · cases hl
    · exact hl
  plain := h.plain
  dict := h.dict
  named := h.named
  there := h.there

theorem Rel.addMethod (h : Rel e b means blds looked ever) (i f : Nat) (n : String) :
    Rel e { b.setAttr n (.wrap ⟨i, e, f, n, false⟩) with added := b.added ++ [⟨i, e, f, n, false⟩] }
      (upd1 means n (some (.method f))) blds (upd1 looked n false) (upd1 ever n true) where
  absent x := by
    simp only [setAttr_attrs, upd1]
    by_cases hx : x = n
    · simp [hx]
    · simp [hx, h.absent]
  method x g hm := by
    simp only [setAttr_attrs, upd1] at hm ⊢
    by_cases hx : x = n
    · subst hx
      simp only [if_true, Option.some.injEq, Meaning.method.injEq] at hm
      subst hm
      exact ⟨_, by simp; rfl, rfl, rfl, by simp⟩
    · rw [if_neg hx] at hm
      obtain ⟨v, hv, h1, h2, h3⟩ := h.method x g hm
      exact ⟨v, by simp [hx, hv], h1, h2, by simp only [hx, if_false]; exact fun hl => ⟨(h3 hl).1, List.mem_append_left _ (h3 hl).2⟩⟩
  builder x g hm := by
    simp only [setAttr_attrs, upd1] at hm ⊢
    by_cases hx : x = n
    · subst hx; simp at hm
    · rw [if_neg hx] at hm
      obtain ⟨v, hv, h1, h2, h3, h4⟩ := h.builder x g hm
      exact ⟨v, by simp [hx, hv], h1, h2, by simpa [hx] using h3, h4⟩
  plain x v hm := by
    simp only [setAttr_attrs, upd1] at hm ⊢
    by_cases hx : x = n
    · subst hx; simp at hm
    · rw [if_neg hx] at hm
      obtain ⟨h1, h2⟩ := h.plain x v hm
      exact ⟨by simp [hx, h1], h2⟩
  dict := h.dict
  named x g hg := by
    simp only [upd1]
    split
    · simp
    · exact h.named x g hg
  there mw hm := by
    simp only [setAttr_attrs, upd1]
    rcases List.mem_append.1 hm with hm | hm
    · obtain ⟨h1, h2, h3⟩ := h.there mw hm
      refine ⟨h1, ?_, ?_⟩
      · split
        · simp
        · exact h2
      · split
        · rfl
        · exact h3
    · simp only [List.mem_singleton] at hm
      subst hm
      simp

theorem Rel.setBuilder (h : Rel e b means blds looked ever) (i f : Nat) (n : String)
    (hfair : ∀ g, (means n = some (.method g) ∨ means n = some (.builder g)) →
      ∀ n', n' ≠ n → means n' ≠ some (.method g)) :
    Rel e (b.setBuilder i e n f)
      (upd1 means n (some (.builder f))) (upd1 blds n (some f)) (upd1 looked n false) ever where
  absent x := by
    simp only [setBuilder_attrs, upd1]
    by_cases hx : x = n
    · simp [hx]
    · simp [hx, h.absent]
  method x g hm := by
    simp only [setBuilder_attrs, upd1] at hm ⊢
    by_cases hx : x = n
    · subst hx; simp at hm
    · rw [if_neg hx] at hm
      obtain ⟨v, hv, h1, h2, h3⟩ := h.method x g hm
      refine ⟨v, by simp [hx, hv], h1, h2, ?_⟩
      simp only [hx, if_false]
      refine fun hl => ⟨(h3 hl).1, ?_⟩
      rw [setBuilder_added]
      unfold Base.forget
      split
      · rename_i w hw
        refine List.mem_filter.2 ⟨(h3 hl).2, ?_⟩
        simp only [ne_eq, decide_not, Bool.not_eq_true', decide_eq_false_iff_not]
        intro hfn
        rcases hn : means n with _ | m
        · rw [(h.absent n).1 hn] at hw; cases hw
        · cases m with
          | method g' =>
            obtain ⟨v', hv', h1', _⟩ := h.method n g' hn
            rw [hw] at hv'
            simp only [Option.some.injEq, Attr.wrap.injEq] at hv'
            subst hv'
            refine hfair g' (Or.inl hn) x hx ?_
            rw [hm, ← h1, hfn, h1']
          | builder g' =>
            obtain ⟨v', hv', h1', _⟩ := h.builder n g' hn
            rw [hw] at hv'
            simp only [Option.some.injEq, Attr.wrap.injEq] at hv'
            subst hv'
            refine hfair g' (Or.inr hn) x hx ?_
            rw [hm, ← h1, hfn, h1']
          | plain v' =>
            rw [(h.plain n v' hn).1] at hw; cases hw
      · exact (h3 hl).2
  builder x g hm := by
    simp only [setBuilder_attrs, upd1] at hm ⊢
    by_cases hx : x = n
    · subst hx
      simp only [if_true, Option.some.injEq, Meaning.builder.injEq] at hm
      subst hm
      exact ⟨_, by simp; rfl, rfl, rfl, by simp, by simp⟩
    · rw [if_neg hx] at hm
      obtain ⟨v, hv, h1, h2, h3, h4⟩ := h.builder x g hm
      exact ⟨v, by simp [hx, hv], h1, h2, by simpa [hx] using h3, by simp [hx, h4]⟩
  plain x v hm := by
    simp only [setBuilder_attrs, upd1] at hm ⊢
    by_cases hx : x = n
    · subst hx; simp at hm
    · rw [if_neg hx] at hm
      obtain ⟨h1, h2⟩ := h.plain x v hm
      exact ⟨by simp [hx, h1], by simp [hx, h2]⟩
  dict x := by
    rw [setBuilder_builders, lookup_dictSet, h.dict]; rfl
  named x g hg := by
    simp only [upd1] at hg ⊢
    split
    · simp
    · rename_i hx
      rw [if_neg hx] at hg
      exact h.named x g hg
  there mw hm := by
    have hm' : mw ∈ b.added := by
      rw [setBuilder_added] at hm
      unfold Base.forget at hm
      split at hm
      · exact (List.mem_filter.1 hm).1
      · exact hm
    obtain ⟨h1, h2, h3⟩ := h.there mw hm'
    refine ⟨h1, ?_, h3⟩
    rw [setBuilder_attrs]
    split
    · simp
    · exact h2

theorem Rel.delBuilder (h : Rel e b means blds looked ever) (n : String) (hever : ever n = false) :
    Rel e { b with
        builders := dictDel b.builders n
        attrs := fun x => if x = n then none else b.attrs x }
      (upd1 means n none) (upd1 blds n none) (upd1 looked n false) ever where
  absent x := by
    simp only [upd1]
    by_cases hx : x = n
    · simp [hx]
    · simp [hx, h.absent]
  method x g hm := by
    simp only [upd1] at hm ⊢
    by_cases hx : x = n
    · subst hx; simp at hm
    · rw [if_neg hx] at hm
      obtain ⟨v, hv, h1, h2, h3⟩ := h.method x g hm
      exact ⟨v, by simp [hx, hv], h1, h2, by simpa [hx] using h3⟩
  builder x g hm := by
    simp only [upd1] at hm ⊢
    by_cases hx : x = n
    · subst hx; simp at hm
    · rw [if_neg hx] at hm
      obtain ⟨v, hv, h1, h2, h3, h4⟩ := h.builder x g hm
      exact ⟨v, by simp [hx, hv], h1, h2, by simpa [hx] using h3, by simp [hx, h4]⟩
  plain x v hm := by
    simp only [upd1] at hm ⊢
    by_cases hx : x = n
    · subst hx; simp at hm
    · rw [if_neg hx] at hm
      obtain ⟨h1, h2⟩ := h.plain x v hm
      exact ⟨by simp [hx, h1], by simp [hx, h2]⟩
  dict x := by
    simp only [lookup_dictDel, h.dict]; rfl
  named x g hg := by
    simp only [upd1] at hg ⊢
    split
    · rename_i hx; simp [hx] at hg
    · rename_i hx
      rw [if_neg hx] at hg
      exact h.named x g hg
  there mw hm := by
    obtain ⟨h1, h2, h3⟩ := h.there mw hm
    refine ⟨h1, ?_, h3⟩
    have : mw.name ≠ n := by rintro rfl; rw [hever] at h3; cases h3
    simpa [this] using h2

theorem Rel.setPlain (h : Rel e b means blds looked ever) (n : String) (v : Nat) (hb : blds n = none) :
    Rel e (b.setAttr n (.plain v)) (upd1 means n (some (.plain v))) blds (upd1 looked n false) ever where
  absent x := by
    simp only [setAttr_attrs, upd1]
    by_cases hx : x = n
    · simp [hx]
    · simp [hx, h.absent]
  method x g hm := by
    simp only [setAttr_attrs, upd1] at hm ⊢
    by_cases hx : x = n
    · subst hx; simp at hm
    · rw [if_neg hx] at hm
      obtain ⟨v, hv, h1, h2, h3⟩ := h.method x g hm
      exact ⟨v, by simp [hx, hv], h1, h2, by simpa [hx, setAttr_added] using h3⟩
  builder x g hm := by
    simp only [setAttr_attrs, upd1] at hm ⊢
    by_cases hx : x = n
    · subst hx; simp at hm
    · rw [if_neg hx] at hm
      obtain ⟨v, hv, h1, h2, h3, h4⟩ := h.builder x g hm
      exact ⟨v, by simp [hx, hv], h1, h2, by simpa [hx] using h3, h4⟩
  plain x u hm := by
    simp only [setAttr_attrs, upd1] at hm ⊢
    by_cases hx : x = n
    · subst hx
      simp only [if_true, Option.some.injEq, Meaning.plain.injEq] at hm
      subst hm
      simp [hb]
    · rw [if_neg hx] at hm
      obtain ⟨h1, h2⟩ := h.plain x u hm
      exact ⟨by simp [hx, h1], h2⟩
  dict := h.dict
  named x g hg := by
    simp only [upd1]
    split
    · simp
    · exact h.named x g hg
  there mw hm := by
    obtain ⟨h1, h2, h3⟩ := h.there mw hm
    refine ⟨h1, ?_, h3⟩
    rw [setAttr_attrs]
    split
    · simp
    · exact h2

end

/-! ## A clone -/

theorem bindBuilders_spec (c : Nat) : ∀ (l : List (String × Nat)) (b : Base) (i : Nat), Keys l → Ids b i →
    (bindBuilders c l b i).2 = i + l.length ∧
    Ids (bindBuilders c l b i).1 (bindBuilders c l b i).2 ∧
    (∀ n, (bindBuilders c l b i).1.builders.lookup n = (l.lookup n).or (b.builders.lookup n)) ∧
    ∀ n, match l.lookup n with
      | some f => ∃ j, (bindBuilders c l b i).1.attrs n = some (.wrap ⟨j, c, f, n, true⟩)
      | none => (bindBuilders c l b i).1.attrs n = b.attrs n := by
  intro l
  induction l with
  | nil => intro b i _ h; exact ⟨rfl, h, by simp [bindBuilders], by simp [bindBuilders]⟩
  | cons p l ih =>
    obtain ⟨k, f⟩ := p
    intro b i hk h
    have hk' : Keys l := (List.nodup_cons.1 hk).2
    have hkn : l.lookup k = none := by
      have h1 : k ∉ l.map Prod.fst := (List.nodup_cons.1 hk).1
      rcases hx : l.lookup k with _ | v
      · rfl
      · exfalso
        clear ih hk hk'
        induction l with
        | nil => simp at hx
        | cons q l ih =>
          obtain ⟨a, d⟩ := q
          simp only [List.map_cons, List.mem_cons, not_or] at h1
          rw [List.lookup_cons] at hx
          have : (k == a) = false := beq_eq_false_iff_ne.2 h1.1
          rw [this] at hx
          exact ih h1.2 hx
    obtain ⟨h1, h2, h3, h4⟩ := ih (b.setBuilder i c k f) (i + 1) hk' (h.setBuilder c k f)
    simp only [bindBuilders]
    refine ⟨by rw [h1]; simp; omega, h2, ?_, ?_⟩
    · intro n
      rw [h3, setBuilder_builders, lookup_dictSet, List.lookup_cons]
      by_cases hn : n = k
      · subst hn; simp [hkn]
      · simp [hn, beq_eq_false_iff_ne.2 hn]
    · intro n
      have := h4 n
      rw [List.lookup_cons]
      by_cases hn : n = k
      · subst hn
        rw [hkn] at this
        simp only at this
        simp only [beq_self_eq_true, this, setBuilder_attrs, if_true]
        exact ⟨i, rfl⟩
      · rw [beq_eq_false_iff_ne.2 hn]
        rcases hx : l.lookup n with _ | v
        · rw [hx] at this
          simp only at this
          simp only [this, setBuilder_attrs, hn, if_false]
        · rw [hx] at this
          exact this

structure Bound (c : Nat) (src : String → Option Attr) (l : List Wrapper) (b b' : Base) (i j : Nat) : Prop where
  le : i ≤ j
  ids : Ids b' j
  builders : b'.builders = b.builders
  stays : ∀ mw ∈ b.added, mw ∈ b'.added
  attr : ∀ n, (∃ w w', src n = some (.wrap w) ∧ w ∈ l ∧ b'.attrs n = some (.wrap w') ∧ w'.fn = w.fn ∧
      w'.bld = w.bld ∧ w'.obj = c ∧ w' ∈ b'.added) ∨
    ((∀ w, src n = some (.wrap w) → w ∉ l) ∧ b'.attrs n = b.attrs n)
  grows : ∀ n, b.attrs n ≠ none → b'.attrs n ≠ none
  there : ∀ mw ∈ b'.added, mw ∈ b.added ∨ ∃ w ∈ l, mw.bld = w.bld ∧ mw.name = w.name ∧ b'.attrs mw.name ≠ none

theorem bindMethods_spec (c : Nat) (src : String → Option Attr) : ∀ (l : List Wrapper) (b : Base) (i : Nat),
    Ids b i → (∀ mw ∈ l, src mw.name ≠ none) →
    (∀ n w, src n = some (.wrap w) → w.name = n) →
    (∀ mw ∈ l, ∀ w, src mw.name = some (.wrap w) → w.id = mw.id → w = mw) →
    ∃ b' j, bindMethods c src l b i = some (b', j) ∧ Bound c src l b b' i j := by
  intro l
  induction l with
  | nil =>
    intro b i h _ _ _
    exact ⟨b, i, rfl, Nat.le_refl _, h, rfl, fun _ h => h, fun n => Or.inr ⟨by simp, rfl⟩, fun _ h => h, fun _ h => Or.inl h⟩
  | cons mw l ih =>
    intro b i h hthere hname hsame
    rw [bindMethods.eq_def]
    simp only
    have hth' : ∀ mw ∈ l, src mw.name ≠ none := fun m hm => hthere m (List.mem_cons_of_mem _ hm)
    have hsm' : ∀ mw ∈ l, ∀ w, src mw.name = some (.wrap w) → w.id = mw.id → w = mw :=
      fun m hm => hsame m (List.mem_cons_of_mem _ hm)
    -- the case where nothing is bound
    have skip : (∀ w, src mw.name = some (.wrap w) → w ≠ mw) →
        ∃ b' j, bindMethods c src l b i = some (b', j) ∧ Bound c src (mw :: l) b b' i j := by
      intro hno
      obtain ⟨b', j, h1, h2⟩ := ih b i h hth' hname hsm'
      refine ⟨b', j, h1, h2.le, h2.ids, h2.builders, h2.stays, ?_, h2.grows, ?_⟩
      · intro n
        rcases h2.attr n with ⟨w, w', a1, a2, a3⟩ | ⟨a1, a2⟩
        · exact Or.inl ⟨w, w', a1, List.mem_cons_of_mem _ a2, a3⟩
        · refine Or.inr ⟨?_, a2⟩
          intro w hw hm
          rcases List.mem_cons.1 hm with hm | hm
          · subst hm
            have := hname n w hw
            subst this
            exact hno w hw rfl
          · exact a1 w hw hm
      · intro m hm
        rcases h2.there m hm with h3 | ⟨w, hw, h3⟩
        · exact Or.inl h3
        · exact Or.inr ⟨w, List.mem_cons_of_mem _ hw, h3⟩
    rcases hs : src mw.name with _ | a
    · exact absurd hs (hthere mw List.mem_cons_self)
    · cases a with
      | plain v => simp only; exact skip (by intro w hw; rw [hs] at hw; cases hw)
      | wrap w =>
        simp only
        by_cases hid : w.id = mw.id
        · rw [if_pos hid]
          have hwm : w = mw := hsame mw List.mem_cons_self w hs hid
          subst hwm
          have hids := h.track ⟨i, c, w.fn, w.name, w.bld⟩ rfl
          obtain ⟨b', j, h1, h2⟩ := ih _ (i + 1) hids hth' hname hsm'
          refine ⟨b', j, h1, by have := h2.le; omega, h2.ids, h2.builders, ?_, ?_, ?_, ?_⟩
          · exact fun m hm => h2.stays m (List.mem_append_left _ hm)
          · intro n
            rcases h2.attr n with ⟨v, v', a1, a2, a3⟩ | ⟨a1, a2⟩
            · exact Or.inl ⟨v, v', a1, List.mem_cons_of_mem _ a2, a3⟩
            · by_cases hn : n = w.name
              · subst hn
                refine Or.inl ⟨w, ⟨i, c, w.fn, w.name, w.bld⟩, hs, List.mem_cons_self, ?_, rfl, rfl, rfl, ?_⟩
                · rw [a2]; simp [setAttr_attrs]
                · exact h2.stays _ (List.mem_append_right _ (by simp))
              · refine Or.inr ⟨?_, ?_⟩
                · intro v hv hm
                  rcases List.mem_cons.1 hm with hm | hm
                  · subst hm; exact hn (hname n v hv).symm
                  · exact a1 v hv hm
                · rw [a2]; simp [setAttr_attrs, hn]
          · intro n hn
            apply h2.grows
            simp only [setAttr_attrs]
            split
            · simp
            · exact hn
          · intro m hm
            rcases h2.there m hm with h3 | ⟨w, hw, h3⟩
            · rcases List.mem_append.1 h3 with h3 | h3
              · exact Or.inl h3
              · simp only [List.mem_singleton] at h3
                refine Or.inr ⟨w, List.mem_cons_self, by rw [h3], by rw [h3], ?_⟩
                apply h2.grows
                simp [setAttr_attrs, h3]
            · exact Or.inr ⟨w, List.mem_cons_of_mem _ hw, h3⟩
        · rw [if_neg hid]
          exact skip (by
            intro v hv
            rw [hs] at hv
            simp only [Option.some.injEq, Attr.wrap.injEq] at hv
            subst hv
            rintro rfl
            exact hid rfl)

/-- The clone of an environment. -/
theorem clone_spec {e : Nat} {b : Base} {means : String → Option Meaning} {blds : String → Option Nat}
    {looked ever : String → Bool} (h : Rel e b means blds looked ever) {i : Nat} (hi : Ids b i) (c : Nat)
    (hfair : ∀ n f, means n = some (.method f) → looked n = true → blds n = none) :
    ∃ b' j, bindMethods c b.attrs b.added
        { (bindBuilders c b.builders { b with builders := [] } i).1 with added := [] }
        (bindBuilders c b.builders { b with builders := [] } i).2 = some (b', j) ∧
      i ≤ j ∧ Ids b' j ∧
      Rel c b' means blds (fun n => match means n with | some (.method _) => looked n | _ => false) ever := by
  have hi0 : Ids { b with builders := [] } i := ⟨hi.small, hi.attr, hi.same, by simp [Keys]⟩
  obtain ⟨p1, p2, p3, p4⟩ := bindBuilders_spec c b.builders { b with builders := [] } i hi.keys hi0
  generalize bindBuilders c b.builders { b with builders := [] } i = r at *
  obtain ⟨b1, i1⟩ := r
  simp only at *
  have p2' : Ids { b1 with added := [] } i1 :=
    ⟨by simp, p2.attr, by simp, p2.keys⟩
  obtain ⟨b', j, q, hb⟩ := bindMethods_spec c b.attrs b.added { b1 with added := [] } i1 p2'
    (fun mw hm => (h.there mw hm).2.1) (fun n w hw => (hi.attr n w hw).2) hi.same
  refine ⟨b', j, q, by have := hb.le; omega, hb.ids, ?_⟩
  have hsome : ∀ n, b.attrs n = none → b'.attrs n = none := by
    intro n hn
    rcases hb.attr n with ⟨w, w', a1, _⟩ | ⟨_, a2⟩
    · rw [hn] at a1; cases a1
    · rw [a2]
      have := p4 n
      rw [h.dict] at this
      rcases hd : blds n with _ | f
      · rw [hd] at this; simp only at this; simp only [this, hn]
      · exact absurd ((h.absent n).2 hn) (h.named n f hd)
  have hnone : ∀ n, b.attrs n ≠ none → b'.attrs n ≠ none := by
    intro n hn
    apply hb.grows
    have := p4 n
    rcases hd : b.builders.lookup n with _ | f
    · rw [hd] at this; simp only at this; simp only [this]; exact hn
    · rw [hd] at this
      obtain ⟨k, hk⟩ := this
      simp [hk]
  constructor
  · intro n
    rw [h.absent]
    exact ⟨hsome n, fun h0 => Classical.byContradiction fun h1 => hnone n h1 h0⟩
  · intro n f hm
    obtain ⟨w, hw, hf, hbld, hl⟩ := h.method n f hm
    simp only [hm]
    rcases hb.attr n with ⟨v, w', a1, a2, a3, a4, a5, a6, a7⟩ | ⟨a1, a2⟩
    · rw [hw] at a1
      simp only [Option.some.injEq, Attr.wrap.injEq] at a1
      subst a1
      exact ⟨w', a3, by rw [a4, hf], by rw [a5, hbld], fun _ => ⟨a6, a7⟩⟩
    · rcases hlk : looked n with _ | _
      · exact absurd (hl hlk).2 (a1 w hw)
      · refine ⟨w, ?_, hf, hbld, by simp⟩
        rw [a2]
        have := p4 n
        rw [h.dict, hfair n f hm hlk] at this
        simp only at this
        simp only [this, hw]
  · intro n f hm
    obtain ⟨w, hw, hf, hbld, hl, hd⟩ := h.builder n f hm
    simp only [hm]
    rcases hb.attr n with ⟨v, w', a1, a2, a3, a4, a5, a6, a7⟩ | ⟨a1, a2⟩
    · rw [hw] at a1
      simp only [Option.some.injEq, Attr.wrap.injEq] at a1
      subst a1
      have := (h.there w a2).1
      rw [hbld] at this
      cases this
    · have := p4 n
      rw [h.dict, hd] at this
      obtain ⟨k, hk⟩ := this
      refine ⟨⟨k, c, f, n, true⟩, by rw [a2]; exact hk, rfl, rfl, by simp, hd⟩
  · intro n v hm
    obtain ⟨h1, h2⟩ := h.plain n v hm
    refine ⟨?_, h2⟩
    rcases hb.attr n with ⟨v, w', a1, _⟩ | ⟨a1, a2⟩
    · rw [h1] at a1; cases a1
    · rw [a2]
      have := p4 n
      rw [h.dict, h2] at this
      simp only at this
      simp only [this, h1]
  · intro n
    rw [hb.builders]
    rw [p3, h.dict]; simp
  · exact h.named
  · intro mw hm
    rcases hb.there mw hm with h1 | ⟨w, hw, h1, h2, h3⟩
    · simp at h1
    · obtain ⟨k1, _, k3⟩ := h.there w hw
      exact ⟨by rw [h1, k1], h3, by rw [h2, k3]⟩

end Verif.Methods
