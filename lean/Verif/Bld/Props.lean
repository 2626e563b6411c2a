import Verif.Bld.Calls
import Mathlib.Data.List.Nodup
import Mathlib.Data.List.Induction

/-!
# C60: one way to build each target
-/

set_option linter.unusedSectionVars false

namespace Verif.Bld

variable {V E L C K : Type} [DecidableEq V] [DecidableEq E] [DecidableEq C] [DecidableEq K]

/-- The state after the SConscript files `p` have been read without error. -/
def Read (O : Objs V E L C) (p : List (Stmt V E L K)) (S : St V E L K) : Prop := St.run O {} p = some S

theorem run_append (O : Objs V E L C) (S : St V E L K) (p q : List (Stmt V E L K)) : S.run O (p ++ q) = (S.run O p).bind (fun S' => S'.run O q) := by
  induction p generalizing S with
  | nil => rfl
  | cons s p ih =>
    simp only [List.cons_append, St.run]
    cases S.exec1 O s with
    | none => rfl
    | some S' => exact ih S'

theorem Read.snoc {O : Objs V E L C} {p : List (Stmt V E L K)} {s : Stmt V E L K} {S : St V E L K} (h : Read O (p ++ [s]) S) :
    ∃ S0, Read O p S0 ∧ S0.exec1 O s = some S := by
  unfold Read at h
  rw [run_append, Option.bind_eq_some_iff] at h
  obtain ⟨S0, h0, h1⟩ := h
  refine ⟨S0, h0, ?_⟩
  simp only [St.run, Option.bind_eq_some_iff] at h1
  obtain ⟨a, ha, hb⟩ := h1
  simp only [Option.some.injEq] at hb
  rw [← hb]; exact ha

theorem Read.call_snoc {O : Objs V E L C} {p : List (Stmt V E L K)} {S : St V E L K} (h : Read O p S) {c : Call V E L K} {S' : St V E L K}
    (hc : Bld.call O S c = some S') : Read O (p ++ [.call c]) S' := by
  unfold Read at h ⊢
  rw [run_append, h]
  show ((Bld.call O S c).bind fun S' => some S') = some S'
  rw [hc]; rfl

/-- Induction over what has been read. -/
theorem Read.induct {O : Objs V E L C} {P : List (Stmt V E L K) → St V E L K → Prop} (h0 : P [] {})
    (hc : ∀ p S c S', Read O p S → P p S → call O S c = some S' → P (p ++ [.call c]) S')
    (hs : ∀ p S s ts S', Read O p S → P p S → sideEffect S s ts = some S' → P (p ++ [.side s ts]) S') :
    ∀ p S, Read O p S → P p S := by
  intro p
  induction p using List.reverseRecOn with
  | nil => intro S h; cases h; exact h0
  | append_singleton p s ih =>
    intro S h
    obtain ⟨S0, h1, h2⟩ := h.snoc
    cases s with
    | call c => exact hc p S0 c S h1 (ih S0 h1) h2
    | side s ts => exact hs p S0 s ts S h1 (ih S0 h1) h2

@[simp] theorem calls_nil : calls ([] : List (Stmt V E L K)) = [] := rfl
@[simp] theorem calls_call (p : List (Stmt V E L K)) (c : Call V E L K) : calls (p ++ [.call c]) = calls p ++ [c] := by simp [calls]
@[simp] theorem calls_side (p : List (Stmt V E L K)) (s : V) (ts : List V) : calls (p ++ [.side s ts]) = calls p := by simp [calls]

/-! ## Small facts -/

theorem findExec_node (O : Objs V E L C) (S : St V E L K) (c : Call V E L K) : (findExec O S c).1.node = S.node := by
  unfold findExec
  split
  · rfl
  · split <;> rfl

theorem call_some {O : Objs V E L C} {S S' : St V E L K} {c : Call V E L K} (h : call O S c = some S') :
    (∀ t ∈ c.tlist, bad O S c t = false) ∧ ¬ (O.single c.bld = true ∧ 1 < c.slist.length) ∧
      S' = { (findExec O S c).1 with node := fun x => if x ∈ c.tlist then setNode O c (findExec O S c).2 (S.node x) else S.node x } := by
  unfold call at h
  split at h
  · cases h
  · rename_i hn
    simp only [Option.some.injEq, findExec_node] at h
    refine ⟨?_, ?_, h.symm⟩
    · intro t ht
      by_contra hb
      apply hn
      simp only [nodeErrors, Bool.or_eq_true, List.any_eq_true]
      exact Or.inl ⟨t, ht, by simpa using hb⟩
    · rintro ⟨h1, h2⟩
      apply hn
      simp [nodeErrors, h1, h2]

theorem call_node {O : Objs V E L C} {S S' : St V E L K} {c : Call V E L K} (h : call O S c = some S') (x : V) :
    S'.node x = if x ∈ c.tlist then setNode O c (findExec O S c).2 (S.node x) else S.node x := by
  rw [(call_some h).2.2]

theorem side_node {S S' : St V E L K} {s : V} {ts : List V} (h : sideEffect S s ts = some S') :
    (S.node s).builder = none ∧ S'.exec = S.exec ∧ S'.next = S.next ∧ S'.batch = S.batch ∧
      ∀ x, S'.node x = if x = s then { S.node s with side := true, sources := addChild (S.node s).sources ts } else S.node x := by
  unfold sideEffect at h
  split at h
  · cases h
  · rename_i hb
    simp only [Option.some.injEq] at h
    subst h
    exact ⟨by simpa using hb, rfl, rfl, rfl, fun x => rfl⟩

theorem addChild_snoc (a : List V) (l : List V) (x : V) : addChild a (l ++ [x]) = if x ∈ addChild a l then addChild a l else addChild a l ++ [x] := by
  unfold addChild; rw [List.foldl_append]; rfl

theorem mem_addChild {a l : List V} {x : V} : x ∈ addChild a l ↔ x ∈ a ∨ x ∈ l := by
  induction l using List.reverseRecOn with
  | nil => simp [addChild]
  | append_singleton l y ih =>
    rw [addChild_snoc]
    split
    · rename_i hy
      rw [ih, List.mem_append, List.mem_singleton]
      constructor
      · rintro (h | h)
        · exact Or.inl h
        · exact Or.inr (Or.inl h)
      · rintro (h | h | rfl)
        · exact Or.inl h
        · exact Or.inr h
        · exact ih.1 hy
    · simp [ih, or_assoc]

theorem addChild_nodup {a l : List V} (ha : a.Nodup) : (addChild a l).Nodup := by
  induction l using List.reverseRecOn with
  | nil => simpa [addChild]
  | append_singleton l y ih =>
    rw [addChild_snoc]
    split
    · exact ih
    · rename_i hy
      exact List.nodup_append.2 ⟨ih, by simp, fun z hz w hw e => hy (by simp only [List.mem_singleton] at hw; rw [← hw, ← e]; exact hz)⟩

theorem addChild_sub {a l : List V} (h : ∀ x ∈ l, x ∈ a) : addChild a l = a := by
  induction l using List.reverseRecOn with
  | nil => rfl
  | append_singleton l y ih =>
    have := ih (fun x hx => h x (by simp [hx]))
    rw [addChild_snoc, this, if_pos (h y (by simp))]

theorem addChild_disjoint {a l : List V} (hl : l.Nodup) (h : ∀ x ∈ l, x ∉ a) : addChild a l = a ++ l := by
  induction l using List.reverseRecOn with
  | nil => simp [addChild]
  | append_singleton l y ih =>
    have hn := List.nodup_append.1 hl
    have := ih hn.1 (fun x hx => h x (by simp [hx]))
    have hy : y ∉ a ++ l := by
      simp only [List.mem_append, not_or]
      exact ⟨h y (by simp), fun hy => hn.2.2 y hy y (by simp) rfl⟩
    rw [addChild_snoc, this, if_neg hy, List.append_assoc]

theorem addChild_nil {l : List V} (hl : l.Nodup) : addChild [] l = l := by simpa using addChild_disjoint hl (a := []) (by simp)

/-! ## Who built what -/

/-- `c` is the last call that names `t`. -/
def Last (cs : List (Call V E L K)) (t : V) (c : Call V E L K) : Prop := ∃ cs1 cs2, cs = cs1 ++ c :: cs2 ∧ t ∈ c.tlist ∧ ∀ c' ∈ cs2, t ∉ c'.tlist

theorem Last.mem {cs : List (Call V E L K)} {t : V} {c : Call V E L K} (h : Last cs t c) : c ∈ cs ∧ t ∈ c.tlist := by
  obtain ⟨a, b, rfl, h1, -⟩ := h
  exact ⟨by simp, h1⟩

theorem last_new (cs : List (Call V E L K)) {t : V} {c : Call V E L K} (h : t ∈ c.tlist) : Last (cs ++ [c]) t c := ⟨cs, [], rfl, h, by simp⟩

theorem Last.old {cs : List (Call V E L K)} {t : V} {c c' : Call V E L K} (h : Last cs t c) (hn : t ∉ c'.tlist) : Last (cs ++ [c']) t c := by
  obtain ⟨a, b, rfl, h1, h2⟩ := h
  refine ⟨a, b ++ [c'], by simp, h1, ?_⟩
  intro x hx
  rcases List.mem_append.1 hx with hx | hx
  · exact h2 x hx
  · simp only [List.mem_singleton] at hx; subst hx; exact hn

theorem Last.unique {cs : List (Call V E L K)} {t : V} {c c' : Call V E L K} (h : Last cs t c) (h' : Last cs t c') : c = c' := by
  induction cs using List.reverseRecOn generalizing c c' with
  | nil => exact absurd h.mem.1 (by simp)
  | append_singleton cs d ih =>
    have step : ∀ {x}, Last (cs ++ [d]) t x → (t ∈ d.tlist → x = d) ∧ (t ∉ d.tlist → Last cs t x) := by
      intro x hx
      obtain ⟨a, b, hab, h1, h2⟩ := hx
      rcases List.eq_nil_or_concat b with rfl | ⟨b', y, rfl⟩
      · have := List.append_inj_right' (s₁ := cs) (s₂ := a) hab (by simp)
        simp only [List.cons.injEq, and_true] at this
        exact ⟨fun _ => this.symm, fun hn => absurd (this ▸ h1) hn⟩
      · rw [show a ++ x :: (b'.concat y) = (a ++ x :: b') ++ [y] by simp] at hab
        obtain ⟨e1, e2⟩ := List.append_inj' hab (by simp)
        simp only [List.cons.injEq, and_true] at e2
        subst e2
        exact ⟨fun hd => absurd hd (h2 d (by simp)), fun _ => ⟨a, b', e1, h1, fun c' hc' => h2 c' (by simp [hc'])⟩⟩
    by_cases hd : t ∈ d.tlist
    · rw [(step h).1 hd, (step h').1 hd]
    · exact ih ((step h).2 hd) ((step h').2 hd)

theorem exists_last (cs : List (Call V E L K)) (t : V) : (∃ c, Last cs t c) ∨ ∀ c ∈ cs, t ∉ c.tlist := by
  induction cs using List.reverseRecOn with
  | nil => exact Or.inr (by simp)
  | append_singleton cs d ih =>
    by_cases hd : t ∈ d.tlist
    · exact Or.inl ⟨d, last_new cs hd⟩
    · rcases ih with ⟨c, hc⟩ | h
      · exact Or.inl ⟨c, hc.old hd⟩
      · refine Or.inr fun c hc => ?_
        rcases List.mem_append.1 hc with hc | hc
        · exact h c hc
        · simp only [List.mem_singleton] at hc; subst hc; exact hd

/-- A node nobody built has nothing set. -/
def Untouched (n : Node V E L) : Prop := n.builder = none ∧ n.env = none ∧ n.exec = none ∧ n.explicit = false

theorem attrs {O : Objs V E L C} (t : V) : ∀ (p : List (Stmt V E L K)) (S : St V E L K), Read O p S →
    ((S.node t).side = true → Untouched (S.node t)) ∧ (S.node t).sources.Nodup ∧
    ((∀ c ∈ calls p, t ∉ c.tlist) → Untouched (S.node t) ∧ ((S.node t).side = false → (S.node t).sources = [])) ∧
    ∀ c, Last (calls p) t c → (S.node t).builder = some c.bld ∧ (S.node t).env = some c.env ∧ (S.node t).explicit = O.explicit c.bld ∧ (S.node t).exec ≠ none := by
  refine Read.induct (P := fun p S => ((S.node t).side = true → Untouched (S.node t)) ∧ (S.node t).sources.Nodup ∧
    ((∀ c ∈ calls p, t ∉ c.tlist) → Untouched (S.node t) ∧ ((S.node t).side = false → (S.node t).sources = [])) ∧
    ∀ c, Last (calls p) t c → (S.node t).builder = some c.bld ∧ (S.node t).env = some c.env ∧ (S.node t).explicit = O.explicit c.bld ∧ (S.node t).exec ≠ none) ?_ ?_ ?_
  · refine ⟨(fun h => nomatch h), List.nodup_nil, fun _ => ⟨⟨rfl, rfl, rfl, rfl⟩, fun _ => rfl⟩, fun c h => ?_⟩
    exact absurd h.mem.1 (by simp)
  · intro p S c S' _ ih hc
    obtain ⟨i1, i2, i3, i4⟩ := ih
    rw [call_node hc t, calls_call]
    by_cases ht : t ∈ c.tlist
    · rw [if_pos ht]
      have hb := (call_some hc).1 t ht
      have hside : (S.node t).side = false := by
        simp only [bad, Bool.or_eq_false_iff] at hb; exact hb.1
      refine ⟨fun h => ?_, addChild_nodup i2, fun h => absurd ht (h c (by simp)), fun c' hc' => ?_⟩
      · rw [show (setNode O c (findExec O S c).2 (S.node t)).side = (S.node t).side from rfl, hside] at h; cases h
      · have := hc'.unique (last_new (calls p) ht)
        subst this
        exact ⟨rfl, rfl, rfl, by simp [setNode]⟩
    · rw [if_neg ht]
      refine ⟨i1, i2, fun h => i3 (fun c' hc' => h c' (by simp [hc'])), fun c' hc' => ?_⟩
      rcases exists_last (calls p) t with ⟨d, hd⟩ | h
      · have := hc'.unique (hd.old ht)
        subst this
        exact i4 _ hd
      · have := hc'.mem
        rcases List.mem_append.1 this.1 with hm | hm
        · exact absurd this.2 (h _ hm)
        · simp only [List.mem_singleton] at hm; subst hm; exact absurd this.2 ht
  · intro p S s ts S' _ ih hs
    obtain ⟨i1, i2, i3, i4⟩ := ih
    obtain ⟨hb, -, -, -, hn⟩ := side_node hs
    rw [hn t, calls_side]
    by_cases e : t = s
    · subst e
      rw [if_pos rfl]
      have hnot : ∀ c ∈ calls p, t ∉ c.tlist := by
        rcases exists_last (calls p) t with ⟨d, hd⟩ | h
        · have := (i4 d hd).1; rw [hb] at this; cases this
        · exact h
      refine ⟨fun _ => (i3 hnot).1, addChild_nodup i2, fun _ => ⟨(i3 hnot).1, fun h => by cases h⟩, fun c hc => ?_⟩
      exact absurd hc.mem.2 (hnot c hc.mem.1)
    · rw [if_neg e]
      exact ⟨i1, i2, i3, i4⟩

/-! ## C60 -/

/-- **C60, a side effect is nobody's target**: whatever the order of `SideEffect()` and Builder calls, no file ends up both with a builder and as a side effect; one
of the statements raises an error. -/
theorem C60_side_effect_or_target {O : Objs V E L C} {p : List (Stmt V E L K)} {S : St V E L K} (h : Read O p S) {t : V} {c : Call V E L K} (hc : c ∈ calls p)
    (ht : t ∈ c.tlist) (s : V) (ts : List V) (hs : .side s ts ∈ p) : s ≠ t := by
  rintro rfl
  have key : ∀ (p : List (Stmt V E L K)) (S : St V E L K), Read O p S → (∃ ts, .side s ts ∈ p) → (S.node s).side = true := by
    refine Read.induct (O := O) (P := fun (p : List (Stmt V E L K)) (S : St V E L K) => (∃ ts, .side s ts ∈ p) → (S.node s).side = true) (by simp) ?_ ?_
    · intro p S c S' _ ih hc ⟨ts, hts⟩
      have := ih ⟨ts, by simpa using hts⟩
      rw [call_node hc]; split
      · exact this
      · exact this
    · intro p S s' ts' S' _ ih hs ⟨ts, hts⟩
      obtain ⟨-, -, -, -, hn⟩ := side_node hs
      rw [hn]
      split
      · rfl
      · rename_i hne
        rcases List.mem_append.1 hts with hts | hts
        · exact ih ⟨ts, hts⟩
        · simp only [List.mem_singleton, Stmt.side.injEq] at hts; exact absurd hts.1 hne
  obtain ⟨a1, -, -, a4⟩ := attrs s p S h
  rcases exists_last (calls p) s with ⟨d, hd⟩ | hno
  · have := (a1 (key p S h ⟨ts, hs⟩)).1
    rw [(a4 d hd).1] at this; cases this
  · exact hno c hc ht

/-- **C60, the last call is in force**: the builder and the environment of a target are those of the last call that named it. -/
theorem C60_last_call {O : Objs V E L C} {p : List (Stmt V E L K)} {S : St V E L K} (h : Read O p S) {t : V} {c : Call V E L K} (hc : Last (calls p) t c) :
    (S.node t).builder = some c.bld ∧ (S.node t).env = some c.env := ⟨((attrs t p S h).2.2.2 c hc).1, ((attrs t p S h).2.2.2 c hc).2.1⟩

/-- **C60, all calls for a target have the same sources** (ordinary builders: those that do not accumulate sources).  If no error was raised, the calls that name `t`
name the same sources in the same order, up to repetitions, and these are the sources of `t`. -/
theorem C60_same_sources {O : Objs V E L C} {p : List (Stmt V E L K)} {S : St V E L K} (h : Read O p S) {t : V}
    (hord : ∀ c ∈ calls p, t ∈ c.tlist → O.multi c.bld = false ∧ O.explicit c.bld = true) {c : Call V E L K} (hc : c ∈ calls p) (ht : t ∈ c.tlist) :
    (S.node t).sources = addChild [] c.slist := by
  revert hord c
  refine Read.induct (P := fun p S => (∀ c ∈ calls p, t ∈ c.tlist → O.multi c.bld = false ∧ O.explicit c.bld = true) →
    ∀ {c : Call V E L K}, c ∈ calls p → t ∈ c.tlist → (S.node t).sources = addChild [] c.slist) (by simp) ?_ ?_ p S h
  · intro p S c S' hr ih hcall hord c' hc' ht'
    rw [calls_call] at hord hc'
    have ih := fun {x : Call V E L K} => @ih (fun c hc => hord c (by simp [hc])) x
    rw [call_node hcall t]
    by_cases ht : t ∈ c.tlist
    · rw [if_pos ht]
      change addChild (S.node t).sources c.slist = _
      have hb := (call_some hcall).1 t ht
      obtain ⟨a1, a2, a3, a4⟩ := attrs t p S hr
      rcases exists_last (calls p) t with ⟨d, hd⟩ | hno
      · have hx := (a4 d hd).2.2.1
        rw [(hord d (by simp [hd.mem.1]) hd.mem.2).2] at hx
        have hm := (hord c (by simp) ht).1
        simp only [bad, Bool.or_eq_false_iff, hx, hm, Bool.true_and, Bool.false_eq_true, if_false, decide_eq_false_iff_not, ne_eq, not_not] at hb
        have hsl : (S.node t).sources = c.slist := hb.2.2
        rw [addChild_sub (by rw [hsl]; exact fun x hx => hx)]
        rcases List.mem_append.1 hc' with hm' | hm'
        · exact ih hm' ht'
        · simp only [List.mem_singleton] at hm'; subst hm'
          rw [hsl, addChild_nil]; rw [← hsl]; exact a2
      · have hside : (S.node t).side = false := by simp only [bad, Bool.or_eq_false_iff] at hb; exact hb.1
        rw [(a3 hno).2 hside]
        rcases List.mem_append.1 hc' with hm' | hm'
        · exact absurd ht' (hno _ hm')
        · simp only [List.mem_singleton] at hm'; subst hm'; rfl
    · rw [if_neg ht]
      rcases List.mem_append.1 hc' with hm' | hm'
      · exact ih hm' ht'
      · simp only [List.mem_singleton] at hm'; subst hm'; exact absurd ht' ht
  · intro p S s ts S' hr ih hs hord c hc ht
    rw [calls_side] at hord hc
    obtain ⟨hb, -, -, -, hn⟩ := side_node hs
    rw [hn]
    split
    · rename_i e; subst e
      rcases exists_last (calls p) t with ⟨d, hd⟩ | h
      · have := ((attrs t p S hr).2.2.2 d hd).1; rw [hb] at this; cases this
      · exact absurd ht (h c hc)
    · exact ih hord hc ht

/-- **C60, another environment, same action.**  A call for a file that is already the target of an explicit builder, from an environment that is neither the same
object nor an equal override of the same one, is accepted only if both would execute the same action. -/
theorem C60_other_environment_same_action {O : Objs V E L C} {p : List (Stmt V E L K)} {S : St V E L K} {c c' : Call V E L K} (h : Read O (p ++ [.call c']) S) {t : V}
    (hc : Last (calls p) t c) (hx : O.explicit c.bld = true) (ht : t ∈ c'.tlist) (he : c.env ≠ c'.env) (hs : O.similar c.env c'.env = false ∨ O.multi c'.bld = true) :
    O.contents c.bld c'.tlist c'.slist c.env = O.contents c'.bld c'.tlist c'.slist c'.env := by
  obtain ⟨S0, h0, h1⟩ := h.snoc
  have hb := (call_some h1).1 t ht
  obtain ⟨b1, b2, b3, -⟩ := (attrs t p S0 h0).2.2.2 c hc
  rw [hx] at b3
  simp only [bad, b1, b2, b3, Bool.or_eq_false_iff, Bool.true_and, Bool.and_eq_false_iff, decide_eq_false_iff_not, ne_eq, not_not] at hb
  rcases hb.2.1 with (h | h) | h
  · exact absurd h he
  · rcases hs with h' | h' <;> simp [h'] at h
  · exact h

/-- **C60, builders that accumulate sources** (`Tar`, `Zip`, `Install`, …): two accepted calls for one file are for the same target list and equal builders. -/
theorem C60_accumulating_builder {O : Objs V E L C} {p : List (Stmt V E L K)} {S : St V E L K} {c c' : Call V E L K} (h : Read O (p ++ [.call c']) S) {t : V}
    (hc : Last (calls p) t c) (hx : O.explicit c.bld = true) (ht : t ∈ c'.tlist) (hm : O.multi c'.bld = true) :
    O.eqv c.bld c'.bld = true ∧ ∃ S0, Read O p S0 ∧ (S0.execOf t).targets = c'.tlist := by
  obtain ⟨S0, h0, h1⟩ := h.snoc
  have hb := (call_some h1).1 t ht
  obtain ⟨b1, b2, b3, -⟩ := (attrs t p S0 h0).2.2.2 c hc
  rw [hx] at b3
  simp only [bad, b1, b2, b3, hm, if_true, Bool.or_eq_false_iff, Bool.true_and, Option.any_some, Bool.not_eq_false', decide_eq_false_iff_not, ne_eq, not_not] at hb
  exact ⟨hb.2.2.1, S0, h0, hb.2.2.2⟩

/-- **C60, a builder for single sources never gets two.** -/
theorem C60_single_source {O : Objs V E L C} {p : List (Stmt V E L K)} {S : St V E L K} (h : Read O p S) {c : Call V E L K} (hc : c ∈ calls p) (hs : O.single c.bld = true) :
    c.slist.length ≤ 1 := by
  revert hc
  refine Read.induct (P := fun p _ => c ∈ calls p → c.slist.length ≤ 1) (by simp) ?_ ?_ p S h
  · intro p S d S' _ ih hcall hc
    rw [calls_call] at hc
    rcases List.mem_append.1 hc with hc | hc
    · exact ih hc
    · simp only [List.mem_singleton] at hc; subst hc
      have := (call_some hcall).2.1
      simp only [hs, true_and] at this
      omega
  · intro p S s ts S' _ ih _ hc
    rw [calls_side] at hc
    exact ih hc

/-- **C60, no false alarm: new targets.**  A call whose targets are no side effects and no other call has named is accepted (a single-source builder: with at most one
source). -/
theorem C60_fresh_call_accepted {O : Objs V E L C} {p : List (Stmt V E L K)} {S : St V E L K} (h : Read O p S) (c : Call V E L K)
    (hs : ∀ t ∈ c.tlist, ∀ ts, .side t ts ∉ p) (hn : ∀ t ∈ c.tlist, ∀ d ∈ calls p, t ∉ d.tlist) (h1 : O.single c.bld = true → c.slist.length ≤ 1) :
    ∃ S', Read O (p ++ [.call c]) S' := by
  have hside : ∀ t, (∀ ts, .side t ts ∉ p) → (S.node t).side = false := by
    intro t
    refine Read.induct (O := O) (P := fun (p : List (Stmt V E L K)) (S : St V E L K) => (∀ ts, .side t ts ∉ p) → (S.node t).side = false) (fun _ => rfl) ?_ ?_ p S h
    · intro p S c S' _ ih hc hno
      have := ih (fun ts hts => hno ts (by simp [hts]))
      rw [call_node hc]; split
      · exact this
      · exact this
    · intro p S s ts S' _ ih hs hno
      have := ih (fun ts hts => hno ts (by simp [hts]))
      obtain ⟨-, -, -, -, hn⟩ := side_node hs
      rw [hn]; split
      · rename_i e; subst e; exact absurd (by simp) (hno ts)
      · exact this
  have herr : nodeErrors O S c = false := by
    unfold nodeErrors
    rw [Bool.or_eq_false_iff, List.any_eq_false]
    refine ⟨fun t ht => ?_, ?_⟩
    · have hu := ((attrs t p S h).2.2.1 (hn t ht)).1
      simp [bad, hside t (hs t ht), hu.2.2.2]
    · cases hs1 : O.single c.bld with
      | false => rfl
      | true => have := h1 hs1; simp; omega
  have hcall : ∃ S', Bld.call O S c = some S' := by unfold Bld.call; rw [herr]; exact ⟨_, rfl⟩
  exact hcall.imp fun _ => Read.call_snoc h

/-- **C60, no false alarm: the same call again.**  With an ordinary builder and a source list without repetitions, the call that was made last for each of its targets
may be made again (finding 63: with a repetition it is an error). -/
theorem C60_repeat_accepted {O : Objs V E L C} {p : List (Stmt V E L K)} {S : St V E L K} (h : Read O p S) (c : Call V E L K) (hc : c ∈ calls p)
    (hl : ∀ t ∈ c.tlist, Last (calls p) t c) (hnd : c.slist.Nodup)
    (hord : ∀ t ∈ c.tlist, ∀ d ∈ calls p, t ∈ d.tlist → O.multi d.bld = false ∧ O.explicit d.bld = true) : ∃ S', Read O (p ++ [.call c]) S' := by
  have herr : nodeErrors O S c = false := by
    unfold nodeErrors
    rw [Bool.or_eq_false_iff, List.any_eq_false]
    refine ⟨fun t ht => ?_, ?_⟩
    · obtain ⟨a1, -, -, a4⟩ := attrs t p S h
      obtain ⟨b1, b2, b3, b4⟩ := a4 c (hl t ht)
      have hsd : (S.node t).side = false := by
        by_contra hx
        have := (a1 (by simpa using hx)).1
        rw [b1] at this; cases this
      have hsrc := C60_same_sources h (hord t ht) hc ht
      rw [addChild_nil hnd] at hsrc
      have hm := (hord t ht c hc ht).1
      simp [bad, hsd, b1, b2, hsrc, hm]
    · cases hs1 : O.single c.bld with
      | false => rfl
      | true => have := C60_single_source h hc hs1; simp; omega
  have hcall : ∃ S', Bld.call O S c = some S' := by unfold Bld.call; rw [herr]; exact ⟨_, rfl⟩
  exact hcall.imp fun _ => Read.call_snoc h

/-- **C60, one action per target.**  Partial: calls from one environment (or equal overrides of one) are assumed to use the same action; the code does not check this
(`C60_counterexample_same_environment`). -/
theorem C60_one_action_partial {O : Objs V E L C} {t : V} {ts ss : List V} {p : List (Stmt V E L K)} {S : St V E L K} (h : Read O p S)
    (hall : ∀ c ∈ calls p, t ∈ c.tlist → c.tlist = ts ∧ c.slist = ss ∧ O.explicit c.bld = true)
    (hsame : ∀ c ∈ calls p, ∀ c' ∈ calls p, t ∈ c.tlist → t ∈ c'.tlist → c.env = c'.env ∨ O.similar c.env c'.env = true →
      O.contents c.bld ts ss c.env = O.contents c'.bld ts ss c'.env)
    {c c' : Call V E L K} (hc : c ∈ calls p) (hc' : c' ∈ calls p) (ht : t ∈ c.tlist) (ht' : t ∈ c'.tlist) :
    O.contents c.bld ts ss c.env = O.contents c'.bld ts ss c'.env := by
  have key : ∀ (p : List (Stmt V E L K)), (∀ c ∈ calls p, t ∈ c.tlist → c.tlist = ts ∧ c.slist = ss ∧ O.explicit c.bld = true) →
      (∀ c ∈ calls p, ∀ c' ∈ calls p, t ∈ c.tlist → t ∈ c'.tlist → c.env = c'.env ∨ O.similar c.env c'.env = true →
        O.contents c.bld ts ss c.env = O.contents c'.bld ts ss c'.env) → ∀ S, Read O p S →
      ∀ d, Last (calls p) t d → ∀ c ∈ calls p, t ∈ c.tlist → O.contents c.bld ts ss c.env = O.contents d.bld ts ss d.env := by
    intro p
    induction p using List.reverseRecOn with
    | nil => intro _ _ S _ d hd; exact absurd hd.mem.1 (by simp)
    | append_singleton p s ih =>
      intro hall hsame S hr d hd c hc ht
      obtain ⟨S0, h0, h1⟩ := hr.snoc
      cases s with
      | side s ts' =>
        rw [calls_side] at *
        exact ih hall hsame S0 h0 d hd c hc ht
      | call n =>
        have hr' := hr
        rw [calls_call] at hall hsame hd hc
        have ih := ih (fun c hc => hall c (by simp [hc])) (fun c hc c' hc' => hsame c (by simp [hc]) c' (by simp [hc'])) S0 h0
        by_cases hn : t ∈ n.tlist
        · have := hd.unique (last_new (calls p) hn); subst this
          rcases List.mem_append.1 hc with hc | hc
          · rcases exists_last (calls p) t with ⟨l, hl⟩ | hno
            · rw [ih l hl c hc ht]
              by_cases henv : l.env = d.env ∨ O.similar l.env d.env = true
              · exact hsame l (by simp [hl.mem.1]) d (by simp) hl.mem.2 hn henv
              · simp only [not_or, Bool.not_eq_true] at henv
                have := C60_other_environment_same_action hr' hl (hall l (by simp [hl.mem.1]) hl.mem.2).2.2 hn henv.1 (Or.inl henv.2)
                rwa [(hall d (by simp) hn).1, (hall d (by simp) hn).2.1] at this
            · exact absurd ht (hno c hc)
          · simp only [List.mem_singleton] at hc; subst hc; rfl
        · rcases exists_last (calls p) t with ⟨l, hl⟩ | hno
          · have := hd.unique (hl.old hn); subst this
            rcases List.mem_append.1 hc with hc | hc
            · exact ih d hl c hc ht
            · simp only [List.mem_singleton] at hc; subst hc; exact absurd ht hn
          · rcases List.mem_append.1 hc with hc | hc
            · exact absurd ht (hno c hc)
            · simp only [List.mem_singleton] at hc; subst hc; exact absurd ht hn
  rcases exists_last (calls p) t with ⟨d, hd⟩ | hno
  · rw [key p hall hsame S h d hd c hc ht, key p hall hsame S h d hd c' hc' ht']
  · exact absurd ht (hno c hc)

end Verif.Bld
