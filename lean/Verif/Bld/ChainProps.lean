import Verif.Bld.Chain

/-!
# C75: properties of builder chains
-/

set_option linter.unusedSimpArgs false
set_option linter.unusedVariables false

namespace Verif.Bld.Chain

/-! ## Suffix lists -/

/-- `c` is one of the builders that make sources for `b`. -/
def Feeds (T : Table) (b c : Nat) : Prop := ∃ B, T b = some B ∧ c ∈ B.srcBuilders ∧ (T c).isSome

theorem mem_appendNew {acc new : List Text} {s : Text} : s ∈ appendNew acc new ↔ s ∈ acc ∨ s ∈ new := by
  unfold appendNew
  induction new generalizing acc with
  | nil => simp
  | cons n ns ih =>
    simp only [List.foldl_cons, ih, List.mem_cons]
    split
    · rename_i h
      constructor
      · rintro (h1 | h1) <;> tauto
      · rintro (h1 | rfl | h1) <;> tauto
    · simp only [List.mem_append, List.mem_singleton]; tauto

theorem prefix_appendNew (acc new : List Text) : acc <+: appendNew acc new := by
  unfold appendNew
  induction new generalizing acc with
  | nil => simp
  | cons n ns ih =>
    simp only [List.foldl_cons]
    split
    · exact ih acc
    · exact (List.prefix_append acc [n]).trans (ih _)

theorem collect_spec {f : Nat → Option (List Text)} {bs : List Nat} {acc l : List Text} (h : collect f bs acc = some l) :
    (∀ s, s ∈ l ↔ s ∈ acc ∨ ∃ b ∈ bs, ∃ lb, f b = some lb ∧ s ∈ lb) ∧ acc <+: l := by
  induction bs generalizing acc with
  | nil => simp only [collect, Option.some.injEq] at h; subst h; simp
  | cons b bs ih =>
    simp only [collect] at h
    split at h
    · cases h
    · rename_i lb hb
      obtain ⟨h1, h2⟩ := ih h
      refine ⟨fun s => ?_, (prefix_appendNew _ _).trans h2⟩
      rw [h1 s, mem_appendNew]
      constructor
      · rintro ((h3 | h3) | ⟨b', hb', h3⟩)
        · exact Or.inl h3
        · exact Or.inr ⟨b, by simp, lb, hb, h3⟩
        · exact Or.inr ⟨b', by simp [hb'], h3⟩
      · rintro (h3 | ⟨b', hb', lb', h3, h4⟩)
        · exact Or.inl (Or.inl h3)
        · rcases List.mem_cons.1 hb' with rfl | hb'
          · rw [hb] at h3; cases h3; exact Or.inl (Or.inr h4)
          · exact Or.inr ⟨b', hb', lb', h3, h4⟩

theorem collect_all {f : Nat → Option (List Text)} {bs : List Nat} {acc l : List Text} (h : collect f bs acc = some l) : ∀ b ∈ bs, (f b).isSome := by
  induction bs generalizing acc with
  | nil => simp
  | cons b bs ih =>
    simp only [collect] at h
    split at h
    · cases h
    · rename_i lb hb
      intro b' hb'
      rcases List.mem_cons.1 hb' with rfl | hb'
      · simp [hb]
      · exact ih h b' hb'

theorem collect_mono {f g : Nat → Option (List Text)} (hfg : ∀ b l, f b = some l → g b = some l) {bs : List Nat} {acc l : List Text}
    (h : collect f bs acc = some l) : collect g bs acc = some l := by
  induction bs generalizing acc with
  | nil => exact h
  | cons b bs ih =>
    simp only [collect] at h ⊢
    split at h
    · cases h
    · rename_i lb hb
      rw [hfg b lb hb]
      exact ih h

theorem suffixes_eq {T : Table} {fuel b : Nat} {B : Builder} (hB : T b = some B) :
    suffixes T (fuel + 1) b = collect (suffixes T fuel) (T.known B.srcBuilders) B.srcSuffix := by
  conv_lhs => unfold suffixes
  rw [hB]

theorem suffixes_succ {T : Table} {fuel b : Nat} {l : List Text} (h : suffixes T fuel b = some l) : suffixes T (fuel + 1) b = some l := by
  induction fuel generalizing b l with
  | zero => simp [suffixes] at h
  | succ fuel ih =>
    cases hB : T b with
    | none => simp [suffixes, hB] at h
    | some B =>
      rw [suffixes_eq hB] at h ⊢
      exact collect_mono (fun b l => ih) h

theorem suffixes_mono {T : Table} {fuel fuel' b : Nat} (hle : fuel ≤ fuel') {l : List Text} (h : suffixes T fuel b = some l) : suffixes T fuel' b = some l := by
  induction hle with
  | refl => exact h
  | step _ ih => exact suffixes_succ ih

theorem suffixes_unique {T : Table} {fuel fuel' b : Nat} {l l' : List Text} (h : suffixes T fuel b = some l) (h' : suffixes T fuel' b = some l') : l = l' := by
  rcases Nat.le_total fuel fuel' with hle | hle
  · rw [suffixes_mono hle h] at h'; exact Option.some.inj h'
  · rw [suffixes_mono hle h'] at h; exact (Option.some.inj h).symm

/-- **C75, what a builder takes.**  The suffixes a builder accepts are its own and those of all builders below it in the tree of source builders; its own come
first, in the order given. -/
theorem C75_accepted_suffixes {T : Table} {fuel b : Nat} {l : List Text} (h : suffixes T fuel b = some l) :
    (∀ s, s ∈ l ↔ ∃ c C, Relation.ReflTransGen (Feeds T) b c ∧ T c = some C ∧ s ∈ C.srcSuffix) ∧ ∀ B, T b = some B → B.srcSuffix <+: l := by
  induction fuel generalizing b l with
  | zero => simp [suffixes] at h
  | succ fuel ih =>
    simp only [suffixes] at h
    split at h
    · cases h
    rename_i B hB
    obtain ⟨h1, h2⟩ := collect_spec h
    have hall := collect_all h
    refine ⟨fun s => ?_, fun B' hB' => by rw [hB] at hB'; cases hB'; exact h2⟩
    rw [h1 s]
    constructor
    · rintro (h3 | ⟨c, hc, lc, h3, h4⟩)
      · exact ⟨b, B, .refl, hB, h3⟩
      · obtain ⟨d, D, h5, h6, h7⟩ := ((ih h3).1 s).1 h4
        refine ⟨d, D, .head ⟨B, hB, ?_⟩ h5, h6, h7⟩
        simpa [Table.known] using hc
    · rintro ⟨d, D, h5, h6, h7⟩
      rcases Relation.ReflTransGen.cases_head h5 with rfl | ⟨c, ⟨B', hB', hc1, hc2⟩, h5⟩
      · rw [hB] at h6; cases h6; exact Or.inl h7
      · rw [hB] at hB'; cases hB'
        have hc : c ∈ T.known B.srcBuilders := by simp [Table.known, hc1, hc2]
        obtain ⟨lc, hlc⟩ := Option.isSome_iff_exists.1 (hall c hc)
        exact Or.inr ⟨c, hc, lc, hlc, ((ih hlc).1 s).2 ⟨d, D, h5, h6, h7⟩⟩

/-! ## Matching -/

theorem lastN_suffix (x : Text) (l : Nat) : lastN x l <:+ x := by
  unfold lastN
  split
  · simp
  · exact List.drop_suffix _ _

theorem lastN_eq {x s : Text} (hs : s ≠ []) : lastN x s.length = s ↔ s <:+ x := by
  constructor
  · intro h; rw [← h]; exact lastN_suffix _ _
  · intro h
    unfold lastN
    rw [if_neg (by simpa using hs)]
    exact (List.suffix_iff_eq_drop.1 h).symm

/-- **C75, which suffix counts.**  A source is treated according to the first suffix, in the list of the builder, with which its name ends. -/
theorem C75_first_listed_suffix {sufs : List Text} (hne : [] ∉ sufs) (x : Text) : matchSrc sufs x = sufs.find? fun s => decide (s <:+ x) := by
  unfold matchSrc
  have goal1 : ∀ s ∈ sufs, decide (s ∈ (sufs.map List.length).map (lastN x)) = decide (s <:+ x) := by
    intro s hs
    have hs' : s ≠ [] := fun e => hne (e ▸ hs)
    rw [decide_eq_decide]
    constructor
    · intro h
      simp only [List.mem_map] at h
      obtain ⟨l, _, h⟩ := h
      rw [← h]; exact lastN_suffix _ _
    · intro h
      simp only [List.mem_map]
      exact ⟨s.length, ⟨s, hs, rfl⟩, (lastN_eq hs').2 h⟩
  have key : ∀ l : List Text, (∀ s ∈ l, s ∈ sufs) → l.find? (fun s => decide (s ∈ (sufs.map List.length).map (lastN x))) = l.find? fun s => decide (s <:+ x) := by
    intro l
    induction l with
    | nil => intro _; rfl
    | cons a l ih =>
      intro hl
      rw [List.find?_cons, List.find?_cons, ih (fun s hs => hl s (by simp [hs])), goal1 a (hl a (by simp))]
  exact key sufs fun _ h => h

theorem longest_spec {l : List Text} {s : Text} (h : longest l = some s) : s ∈ l ∧ ∀ t ∈ l, t.length ≤ s.length := by
  induction l generalizing s with
  | nil => simp [longest] at h
  | cons a l ih =>
    simp only [longest] at h
    split at h
    · rename_i hn
      cases h
      have : l = [] := by
        cases l with
        | nil => rfl
        | cons b l => simp only [longest] at hn; split at hn <;> (try split at hn) <;> cases hn
      subst this; simp
    · rename_i t ht
      obtain ⟨h1, h2⟩ := ih ht
      split at h
      · rename_i hlt
        cases h
        exact ⟨by simp, fun u hu => by rcases List.mem_cons.1 hu with rfl | hu; exacts [Nat.le_refl _, (h2 u hu).trans hlt.le]⟩
      · rename_i hlt
        cases h
        exact ⟨by simp [h1], fun u hu => by rcases List.mem_cons.1 hu with rfl | hu; exacts [Nat.le_of_not_lt hlt, h2 u hu]⟩

theorem longest_isSome {l : List Text} (h : l ≠ []) : (longest l).isSome := by
  cases l with
  | nil => exact absurd rfl h
  | cons a l => simp only [longest]; split <;> (try split) <;> rfl

/-- **C75, what is cut off.**  If the name ends with one of the suffixes, the longest such suffix is cut off. -/
theorem C75_longest_suffix_cut {sufs : List Text} (hne : [] ∉ sufs) {x : Text} (h : ∃ s ∈ sufs, s <:+ x) :
    ∃ s ∈ sufs, x = (matchSplitext x sufs).1 ++ s ∧ (matchSplitext x sufs).2 = s ∧ ∀ t ∈ sufs, t <:+ x → t.length ≤ s.length := by
  have hfil : ∀ t, t ∈ sufs.filter (fun s => decide (lastN x s.length = s)) ↔ t ∈ sufs ∧ t <:+ x := by
    intro t
    simp only [List.mem_filter, decide_eq_true_eq]
    constructor
    · rintro ⟨h1, h2⟩; exact ⟨h1, (lastN_eq (fun e => hne (e ▸ h1))).1 h2⟩
    · rintro ⟨h1, h2⟩; exact ⟨h1, (lastN_eq (fun e => hne (e ▸ h1))).2 h2⟩
  obtain ⟨s0, h0, h0'⟩ := h
  obtain ⟨s, hs⟩ := Option.isSome_iff_exists.1 (longest_isSome (l := sufs.filter fun s => decide (lastN x s.length = s)) (by
    intro e; have := (hfil s0).2 ⟨h0, h0'⟩; rw [e] at this; cases this))
  obtain ⟨h1, h2⟩ := longest_spec hs
  obtain ⟨h3, h4⟩ := (hfil s).1 h1
  refine ⟨s, h3, ?_, ?_, fun t ht ht' => h2 t ((hfil t).2 ⟨ht, ht'⟩)⟩
  · unfold matchSplitext; rw [hs]
    obtain ⟨u, rfl⟩ := h4
    simp
  · unfold matchSplitext; rw [hs]
    exact (lastN_eq (fun e => hne (e ▸ h3))).2 h4

/-! ## The tasks of a call -/

theorem gather_spec {α : Type} {f : α → Option Out} {xs : List α} {o : Out} (h : gather f xs = some o) :
    ∃ os : List Out, List.Forall₂ (fun x y => f x = some y) xs os ∧ o = (os.flatMap (·.1), os.flatMap (·.2)) := by
  induction xs generalizing o with
  | nil => simp only [gather, Option.some.injEq] at h; subst h; exact ⟨[], .nil, rfl⟩
  | cons x xs ih =>
    simp only [gather] at h
    split at h
    · cases h
    · rename_i l ps hx
      split at h
      · cases h
      · rename_i l' ps' hxs
        obtain ⟨os, h1, h2⟩ := ih hxs
        simp only [Option.some.injEq] at h
        subst h
        simp only [Prod.mk.injEq] at h2
        exact ⟨(l, ps) :: os, .cons hx h1, by simp [h2.1, h2.2]⟩

theorem execute_inv {T : Table} {vars : List (Text × Text)} {fuel b : Nat} {chdir : Option Text} {target : Option (List Src)} {source : List Src} {o : Out}
    (h : execute T vars fuel b chdir target source = some o) :
    ∃ f B sufs l src, fuel = f + 1 ∧ T b = some B ∧ suffixes T f b = some sufs ∧
      sourcesOf (fun c s => execute T vars f c none none [s]) (handler T f (T.known B.srcBuilders)) B sufs source = some (l, src) ∧
      finish (fun s => execute T vars f b none none [s]) b B sufs chdir vars target l src = some o := by
  cases fuel with
  | zero => simp [execute] at h
  | succ f =>
    unfold execute at h
    split at h
    · cases h
    rename_i B hB
    split at h
    · cases h
    rename_i sufs hs
    split at h
    · cases h
    rename_i l src hl
    exact ⟨f, B, sufs, l, src, rfl, hB, hs, hl, h⟩

/-- A file the caller has supplied as `s`: itself, or with the default suffix that is added to texts without suffix. -/
def Supplied (s : Src) (p : Path) : Prop := p = s.path ∨ ∃ suf, p = s.adjust [] suf false

/-- Every task uses only files in `G` and targets of the tasks before it. -/
def Sound (G : Path → Prop) : List Task → Prop
  | [] => True
  | t :: l => (∀ p ∈ t.sources, G p) ∧ Sound (fun p => G p ∨ p ∈ t.targets) l

theorem Sound.mono {G G' : Path → Prop} (hG : ∀ p, G p → G' p) {l : List Task} (h : Sound G l) : Sound G' l := by
  induction l generalizing G G' with
  | nil => trivial
  | cons t l ih => exact ⟨fun p hp => hG p (h.1 p hp), ih (fun p hp => hp.imp (hG p) id) h.2⟩

theorem Sound.append {G : Path → Prop} {l l' : List Task} (h : Sound G l) (h' : Sound (fun p => G p ∨ ∃ t ∈ l, p ∈ t.targets) l') : Sound G (l ++ l') := by
  induction l generalizing G with
  | nil => exact h'.mono (by simp)
  | cons t l ih =>
    refine ⟨h.1, ih h.2 (h'.mono ?_)⟩
    rintro p (hp | ⟨t', ht', hp⟩)
    · exact Or.inl (Or.inl hp)
    · rcases List.mem_cons.1 ht' with rfl | ht'
      · exact Or.inl (Or.inr hp)
      · exact Or.inr ⟨t', ht', hp⟩

theorem Sound.flatMap {α : Type} {G : Path → Prop} {os : List α} {f : α → List Task} (h : ∀ o ∈ os, Sound G (f o)) : Sound G (os.flatMap f) := by
  induction os with
  | nil => trivial
  | cons o os ih =>
    simp only [List.flatMap_cons]
    exact (h o (by simp)).append ((ih fun o ho => h o (by simp [ho])).mono fun p hp => Or.inl hp)

theorem forall₂_right {α β : Type} {R : α → β → Prop} {xs : List α} {ys : List β} (h : List.Forall₂ R xs ys) {y : β} (hy : y ∈ ys) : ∃ x ∈ xs, R x y := by
  induction h with
  | nil => cases hy
  | cons hr _ ih =>
    rcases List.mem_cons.1 hy with rfl | hy
    · exact ⟨_, by simp, hr⟩
    · obtain ⟨x, hx, h⟩ := ih hy; exact ⟨x, by simp [hx], h⟩

theorem convert_inv {run : Nat → Src → Option Out} {hand : Text → Option Nat} {sufs : List Text} {s : Src} {l : List Task} {ps : List Path}
    (h : convert run hand sufs s = some (l, ps)) :
    (∃ suf bld ts, matchSrc sufs s.path.name = some suf ∧ hand suf = some bld ∧ run bld s = some (l, ts) ∧ (∀ p ∈ ps, p ∈ ts) ∧ (ts.length = 1 → ps = ts)) ∨
    (l = [] ∧ ∃ p, ps = [p] ∧ Supplied s p ∧ ((∀ suf, matchSrc sufs s.path.name = some suf → hand suf = none ∧ p = s.path))) := by
  unfold convert at h
  split at h
  · rename_i suf hm
    split at h
    · rename_i bld hb
      split at h
      · cases h
      · rename_i l' ts hr
        simp only [Option.some.injEq, Prod.mk.injEq] at h
        obtain ⟨rfl, rfl⟩ := h
        refine Or.inl ⟨suf, bld, ts, hm, hb, hr, fun p hp => ?_, fun h1 => by simp [h1]⟩
        split at hp
        · exact (List.mem_filter.1 hp).1
        · exact hp
    · rename_i hb
      simp only [Option.some.injEq, Prod.mk.injEq] at h
      obtain ⟨rfl, rfl⟩ := h
      refine Or.inr ⟨rfl, _, rfl, Or.inl rfl, fun suf' hs' => ?_⟩
      rw [hm] at hs'; cases hs'; exact ⟨hb, rfl⟩
  · rename_i hm
    cases s with
    | str p =>
      simp only [Option.some.injEq, Prod.mk.injEq] at h
      obtain ⟨rfl, rfl⟩ := h
      refine Or.inr ⟨rfl, _, rfl, ?_, fun suf hs => by rw [hm] at hs; cases hs⟩
      split
      · exact Or.inr ⟨firstOr sufs, rfl⟩
      · exact Or.inl rfl
    | node p =>
      simp only [Option.some.injEq, Prod.mk.injEq] at h
      obtain ⟨rfl, rfl⟩ := h
      exact Or.inr ⟨rfl, _, rfl, Or.inl rfl, fun suf hs => by rw [hm] at hs; cases hs⟩

theorem supplied_node {p q : Path} (h : Supplied (.node p) q) : q = p := by
  rcases h with h | ⟨suf, h⟩ <;> exact h

theorem handler_mem {T : Table} {fuel : Nat} {bs : List Nat} {s : Text} {c : Nat} (h : handler T fuel bs s = some c) : c ∈ bs := by
  unfold handler at h
  have := List.mem_of_find?_eq_some h
  simpa using this

/-- **C75, nothing from nowhere.**  Every task of a call uses files the caller has supplied and targets of earlier tasks of the call; what is returned are targets; the tasks are those of the
builder and of builders below it, and have the overrides of the call. -/
theorem C75_tasks_in_order {T : Table} {vars : List (Text × Text)} {fuel b : Nat} {chdir : Option Text} {target : Option (List Src)} {source : List Src} {l : List Task} {ps : List Path}
    (h : execute T vars fuel b chdir target source = some (l, ps)) :
    Sound (fun p => ∃ s ∈ source, Supplied s p) l ∧ (∀ p ∈ ps, ∃ t ∈ l, p ∈ t.targets) ∧
      ∀ t ∈ l, t.vars = vars ∧ Relation.ReflTransGen (Feeds T) b t.builder ∧ (t.chdir ≠ none → t.builder = b ∧ t.chdir = chdir ∧ ∃ l', l = l' ++ [t]) := by
  induction fuel generalizing b chdir target source l ps with
  | zero => simp [execute] at h
  | succ fuel ih =>
    obtain ⟨f, B, sufs, l0, src, hf, hB, hs, hsrc, hfin⟩ := execute_inv h
    obtain rfl : fuel = f := by omega
    -- the conversion
    have hconv : Sound (fun p => ∃ s ∈ source, Supplied s p) l0 ∧
        (∀ t ∈ l0, t.vars = vars ∧ Relation.ReflTransGen (Feeds T) b t.builder ∧ t.chdir = none) ∧
        ∀ s ∈ src, ∀ p, Supplied s p → (∃ s ∈ source, Supplied s p) ∨ ∃ t ∈ l0, p ∈ t.targets := by
      unfold sourcesOf at hsrc
      split at hsrc
      · simp only [Option.some.injEq, Prod.mk.injEq] at hsrc
        obtain ⟨rfl, rfl⟩ := hsrc
        exact ⟨trivial, by simp, fun s hs p hp => Or.inl ⟨s, hs, hp⟩⟩
      · rw [Option.map_eq_some_iff] at hsrc
        obtain ⟨o, ho, e⟩ := hsrc
        simp only [Prod.mk.injEq] at e
        obtain ⟨rfl, rfl⟩ := e
        obtain ⟨os, h1, rfl⟩ := gather_spec ho
        have hone : ∀ o ∈ os, Sound (fun p => ∃ s ∈ source, Supplied s p) o.1 ∧
            (∀ t ∈ o.1, t.vars = vars ∧ Relation.ReflTransGen (Feeds T) b t.builder ∧ t.chdir = none) ∧
            ∀ p ∈ o.2, (∃ s ∈ source, Supplied s p) ∨ ∃ t ∈ o.1, p ∈ t.targets := by
          rintro ⟨lo, po⟩ ho
          obtain ⟨s, hs1, hc⟩ := forall₂_right h1 ho
          rcases convert_inv hc with ⟨suf, bld, ts, h2, h3, h4, h5, -⟩ | ⟨rfl, p, rfl, h2, -⟩
          · obtain ⟨i1, i2, i3⟩ := ih h4
            have hbld : Feeds T b bld := ⟨B, hB, by simpa [Table.known] using handler_mem h3⟩
            refine ⟨i1.mono ?_, fun t ht => ?_, fun p hp => Or.inr (i2 p (h5 p hp))⟩
            · rintro p ⟨s', hs', hp⟩
              simp only [List.mem_singleton] at hs'
              subst hs'
              exact ⟨s', hs1, hp⟩
            · obtain ⟨j1, j2, j3⟩ := i3 t ht
              refine ⟨j1, .head hbld j2, ?_⟩
              by_contra hne
              exact hne (j3 hne).2.1
          · refine ⟨trivial, by simp, fun q hq => ?_⟩
            simp only [List.mem_singleton] at hq
            subst hq
            exact Or.inl ⟨s, hs1, h2⟩
        refine ⟨Sound.flatMap fun o ho => (hone o ho).1, fun t ht => ?_, fun s hs p hp => ?_⟩
        · obtain ⟨o, ho, ht⟩ := List.mem_flatMap.1 ht
          exact (hone o ho).2.1 t ht
        · obtain ⟨q, hq, rfl⟩ := List.mem_map.1 hs
          obtain rfl := supplied_node hp
          obtain ⟨o, ho, hq⟩ := List.mem_flatMap.1 hq
          refine ((hone o ho).2.2 p hq).imp id ?_
          rintro ⟨t, ht, hp⟩
          exact ⟨t, List.mem_flatMap.2 ⟨o, ho, ht⟩, hp⟩
    obtain ⟨c1, c2, c3⟩ := hconv
    unfold finish at hfin
    split at hfin
    · split at hfin
      case isFalse => cases hfin
      rw [Option.map_eq_some_iff] at hfin
      obtain ⟨o, ho, e⟩ := hfin
      simp only [Prod.mk.injEq] at e
      obtain ⟨rfl, rfl⟩ := e
      obtain ⟨os, h1, rfl⟩ := gather_spec ho
      have hone : ∀ o ∈ os, ∃ s ∈ src, execute T vars fuel b none none [s] = some o := by
        intro o ho
        obtain ⟨s, hs1, hc⟩ := forall₂_right h1 ho
        exact ⟨s, hs1, hc⟩
      refine ⟨c1.append (Sound.flatMap ?_), fun p hp => ?_, fun t ht => ?_⟩
      · rintro ⟨lo, po⟩ ho
        obtain ⟨s, hs1, he⟩ := hone _ ho
        refine (ih he).1.mono ?_
        rintro p ⟨s', hs', hp⟩
        simp only [List.mem_singleton] at hs'
        subst hs'
        exact c3 s' hs1 p hp
      · obtain ⟨⟨lo, po⟩, ho, hp⟩ := List.mem_flatMap.1 hp
        obtain ⟨s, hs1, he⟩ := hone _ ho
        obtain ⟨t, ht, hp⟩ := (ih he).2.1 p hp
        exact ⟨t, List.mem_append_right _ (List.mem_flatMap.2 ⟨_, ho, ht⟩), hp⟩
      · rcases List.mem_append.1 ht with ht | ht
        · obtain ⟨d1, d2, d3⟩ := c2 t ht
          exact ⟨d1, d2, fun hne => absurd d3 hne⟩
        · obtain ⟨⟨lo, po⟩, ho, ht⟩ := List.mem_flatMap.1 ht
          obtain ⟨s, hs1, he⟩ := hone _ ho
          obtain ⟨d1, d2, d3⟩ := (ih he).2.2 t ht
          exact ⟨d1, d2, fun hne => absurd (d3 hne).2.1 hne⟩
    · simp only [Option.some.injEq, Prod.mk.injEq] at hfin
      obtain ⟨rfl, rfl⟩ := hfin
      refine ⟨c1.append ⟨fun p hp => ?_, trivial⟩, fun p hp => ⟨_, List.mem_append_right _ (List.mem_singleton.2 rfl), hp⟩, fun t ht => ?_⟩
      · simp only [createNodes] at hp
        obtain ⟨s, hs1, rfl⟩ := List.mem_map.1 hp
        exact c3 s hs1 _ (Or.inr ⟨_, rfl⟩)
      · rcases List.mem_append.1 ht with ht | ht
        · obtain ⟨d1, d2, d3⟩ := c2 t ht
          exact ⟨d1, d2, fun hne => absurd d3 hne⟩
        · simp only [List.mem_singleton] at ht
          subst ht
          exact ⟨rfl, .refl, fun _ => ⟨rfl, rfl, _, rfl⟩⟩

/-! ## One product for each source -/

/-- The builder accepts files with this suffix: it, or a builder below it, lists it. -/
def Accepts (T : Table) (b : Nat) (suf : Text) : Prop := ∃ c C, Relation.ReflTransGen (Feeds T) b c ∧ T c = some C ∧ suf ∈ C.srcSuffix

/-- `suf` is the first element of the list with which the name ends. -/
def First (sufs : List Text) (x suf : Text) : Prop := ∃ u v, sufs = u ++ suf :: v ∧ suf <:+ x ∧ ∀ t ∈ u, ¬ t <:+ x

/-- `c` is the last of the source builders that accepts the suffix. -/
def LastTaking (T : Table) (bs : List Nat) (suf : Text) (c : Nat) : Prop := ∃ u v, bs = u ++ c :: v ∧ Accepts T c suf ∧ ∀ d ∈ v, ¬ Accepts T d suf

/-- The file that the builder makes of the source `q` if no target is given: in the same directory, with another prefix and suffix. -/
def named (B : Builder) (sufs : List Text) (q : Path) : Path := { q with name := B.pre ++ (matchSplitext q.name sufs).1 ++ B.suf }

/-- `Product T b s p`: of the source `s`, the builder `b` uses the file `p`. -/
inductive Product (T : Table) : Nat → Src → Path → Prop
  /-- a builder without source builders uses the file itself, with a default suffix -/
  | plain {b B s sufs fuel} : T b = some B → B.srcBuilders = [] → suffixes T fuel b = some sufs → Product T b s (s.adjust [] (firstOr sufs) false)
  /-- no source builder takes the file -/
  | kept {b B s sufs fuel suf} : T b = some B → B.srcBuilders ≠ [] → suffixes T fuel b = some sufs → First sufs s.path.name suf →
      (∀ c ∈ T.known B.srcBuilders, ¬ Accepts T c suf) → Product T b s s.path
  /-- the suffix is unknown -/
  | unknown {b B s sufs fuel} : T b = some B → B.srcBuilders ≠ [] → suffixes T fuel b = some sufs → (∀ suf ∈ sufs, ¬ suf <:+ s.path.name) →
      Product T b s (if '.' ∉ s.path.dir ∧ '.' ∉ s.path.name then s.adjust [] (firstOr sufs) false else s.path)
  /-- the last source builder that accepts the suffix makes a file of it -/
  | made {b B c C s q sufs csufs fuel fuel' suf} : T b = some B → suffixes T fuel b = some sufs → First sufs s.path.name suf →
      LastTaking T (T.known B.srcBuilders) suf c → T c = some C → suffixes T fuel' c = some csufs → Product T c s q → Product T b s (named C csufs q)

/-- No emitters. -/
def Plain (T : Table) : Prop := ∀ b B, T b = some B → (∀ t s, B.emit t s = t) ∧ [] ∉ B.srcSuffix

theorem Plain.noEmpty {T : Table} (hT : Plain T) {fuel b : Nat} {l : List Text} (h : suffixes T fuel b = some l) : [] ∉ l := by
  intro he
  obtain ⟨c, C, -, h1, h2⟩ := ((C75_accepted_suffixes h).1 []).1 he
  exact (hT c C h1).2 h2

theorem find?_first {sufs : List Text} {x suf : Text} (h : sufs.find? (fun s => decide (s <:+ x)) = some suf) : First sufs x suf := by
  obtain ⟨h1, u, v, h2, h3⟩ := List.find?_eq_some_iff_append.1 h
  refine ⟨u, v, h2, by simpa using h1, fun t ht => ?_⟩
  have := h3 t ht
  simpa using this

theorem handler_some {T : Table} {fuel : Nat} {bs : List Nat} (hall : ∀ b ∈ bs, (suffixes T fuel b).isSome) {suf : Text} {c : Nat} (h : handler T fuel bs suf = some c) :
    LastTaking T bs suf c := by
  unfold handler at h
  obtain ⟨h1, u, v, h2, h3⟩ := List.find?_eq_some_iff_append.1 h
  have hbs : bs = v.reverse ++ c :: u.reverse := by
    have := congrArg List.reverse h2
    simpa using this
  have hacc : ∀ b ∈ bs, (suf ∈ (suffixes T fuel b).getD [] ↔ Accepts T b suf) := by
    intro b hb
    obtain ⟨l, hl⟩ := Option.isSome_iff_exists.1 (hall b hb)
    rw [hl]
    exact (C75_accepted_suffixes hl).1 suf
  refine ⟨v.reverse, u.reverse, hbs, (hacc c (by rw [hbs]; simp)).1 (by simpa using h1), fun d hd ha => ?_⟩
  have := h3 d (by simpa using hd)
  have hd' : d ∈ bs := by rw [hbs]; exact List.mem_append_right _ (List.mem_cons_of_mem _ hd)
  have h4 := (hacc d hd').2 ha
  simp [h4] at this

theorem handler_none {T : Table} {fuel : Nat} {bs : List Nat} (hall : ∀ b ∈ bs, (suffixes T fuel b).isSome) {suf : Text} (h : handler T fuel bs suf = none) :
    ∀ c ∈ bs, ¬ Accepts T c suf := by
  intro c hc ha
  unfold handler at h
  rw [List.find?_eq_none] at h
  have := h c (by simpa using hc)
  obtain ⟨l, hl⟩ := Option.isSome_iff_exists.1 (hall c hc)
  apply this
  simp only [decide_eq_true_eq, hl, Option.getD_some]
  exact ((C75_accepted_suffixes hl).1 suf).2 ha

theorem suffixes_kids {T : Table} {fuel b : Nat} {B : Builder} {l : List Text} (hB : T b = some B) (h : suffixes T fuel b = some l) :
    ∀ c ∈ T.known B.srcBuilders, (suffixes T fuel c).isSome := by
  cases fuel with
  | zero => simp [suffixes] at h
  | succ fuel =>
    rw [suffixes_eq hB] at h
    intro c hc
    obtain ⟨lc, hlc⟩ := Option.isSome_iff_exists.1 (collect_all h c hc)
    rw [suffixes_succ hlc]; rfl

/-- The conversion of one source. -/
theorem convert_product {T : Table} (hT : Plain T) {vars : List (Text × Text)} {f b : Nat} {B : Builder} {sufs : List Text} (hB : T b = some B) (hs : suffixes T f b = some sufs)
    (hne : B.srcBuilders ≠ [])
    (ih : ∀ {c C s l ps}, T c = some C → execute T vars f c none none [s] = some (l, ps) → ∃ csufs f' q, suffixes T f' c = some csufs ∧ Product T c s q ∧ ps = [named C csufs q])
    {s : Src} {l : List Task} {ps : List Path}
    (h : convert (fun c s => execute T vars f c none none [s]) (handler T f (T.known B.srcBuilders)) sufs s = some (l, ps)) :
    ∃ p, ps = [p] ∧ Product T b s p := by
  have hall := suffixes_kids hB hs
  have hm0 := C75_first_listed_suffix (hT.noEmpty hs) s.path.name
  unfold convert at h
  split at h
  · rename_i suf hm
    rw [hm0] at hm
    have hfirst := find?_first hm
    split at h
    · rename_i bld hb
      split at h
      · cases h
      · rename_i l' ts hr
        obtain ⟨C, hC⟩ := Option.isSome_iff_exists.1 (by simpa [Table.known] using (handler_mem hb : bld ∈ T.known B.srcBuilders) |> (List.mem_filter.1 · |>.2) : (T bld).isSome)
        obtain ⟨csufs, f', q, h1, h2, rfl⟩ := ih hC hr
        simp only [Option.some.injEq, Prod.mk.injEq] at h
        obtain ⟨-, rfl⟩ := h
        exact ⟨_, by simp, .made hB hs hfirst (handler_some hall hb) hC h1 h2⟩
    · rename_i hb
      simp only [Option.some.injEq, Prod.mk.injEq] at h
      obtain ⟨-, rfl⟩ := h
      exact ⟨_, rfl, .kept hB hne hs hfirst (handler_none hall hb)⟩
  · rename_i hm
    rw [hm0, List.find?_eq_none] at hm
    have hm' : ∀ suf ∈ sufs, ¬ suf <:+ s.path.name := fun suf h => by simpa using hm suf h
    have hu := Product.unknown hB hne hs hm'
    cases s with
    | str p =>
      simp only [Option.some.injEq, Prod.mk.injEq] at h
      obtain ⟨-, rfl⟩ := h
      exact ⟨_, rfl, hu⟩
    | node p =>
      simp only [Option.some.injEq, Prod.mk.injEq] at h
      obtain ⟨-, rfl⟩ := h
      refine ⟨_, rfl, ?_⟩
      have e : (if '.' ∉ (Src.node p).path.dir ∧ '.' ∉ (Src.node p).path.name then (Src.node p).adjust [] (firstOr sufs) false else (Src.node p).path) = p := ite_self p
      rwa [e] at hu

theorem adjust_node (p : Path) (suf : Text) : (Src.node p).adjust [] suf false = p := rfl

theorem forall₂_self {α : Type} {R : α → α → Prop} {l : List α} (h : ∀ x, R x x) : List.Forall₂ R l l := by
  induction l with
  | nil => exact .nil
  | cons x l ih => exact .cons (h x) ih

theorem forall₂_length {α β : Type} {R : α → β → Prop} {l : List α} {m : List β} (h : List.Forall₂ R l m) : m.length = l.length := by
  induction h with
  | nil => rfl
  | cons _ _ ih => simp [ih]

theorem forall₂_map {α β γ : Type} {R : α → β → Prop} {S : α → γ → Prop} {f : β → γ} {l : List α} {m : List β} (h : List.Forall₂ R l m) (hf : ∀ a b, R a b → S a (f b)) :
    List.Forall₂ S l (m.map f) := by
  induction h with
  | nil => exact .nil
  | cons h _ ih => exact .cons (hf _ _ h) ih

/-- The conversion of all sources; `src` are the sources as they are handed to `_create_nodes`. -/
theorem sourcesOf_product {T : Table} (hT : Plain T) {vars : List (Text × Text)} {f b : Nat} {B : Builder} {sufs : List Text} (hB : T b = some B) (hs : suffixes T f b = some sufs)
    (ih : ∀ {c C s l ps}, T c = some C → execute T vars f c none none [s] = some (l, ps) → ∃ csufs f' q, suffixes T f' c = some csufs ∧ Product T c s q ∧ ps = [named C csufs q])
    {source src : List Src} {l : List Task}
    (h : sourcesOf (fun c s => execute T vars f c none none [s]) (handler T f (T.known B.srcBuilders)) B sufs source = some (l, src)) :
    List.Forall₂ (fun s x => Product T b s (x.adjust [] (firstOr sufs) false) ∧ (B.srcBuilders = [] → x = s) ∧ (B.srcBuilders ≠ [] → ∃ p, x = .node p)) source src := by
  unfold sourcesOf at h
  split at h
  · rename_i he
    simp only [Option.some.injEq, Prod.mk.injEq] at h
    obtain ⟨-, rfl⟩ := h
    exact forall₂_self fun s => ⟨.plain hB he hs, fun _ => rfl, fun h => absurd he h⟩
  · rename_i he
    rw [Option.map_eq_some_iff] at h
    obtain ⟨o, ho, e⟩ := h
    simp only [Prod.mk.injEq] at e
    obtain ⟨-, rfl⟩ := e
    obtain ⟨os, h1, rfl⟩ := gather_spec ho
    simp only
    clear ho
    induction h1 with
    | nil => exact .nil
    | @cons s o xs os hc _ ih2 =>
      obtain ⟨lo, po⟩ := o
      obtain ⟨p, rfl, hp⟩ := convert_product hT hB hs he ih hc
      simp only [List.flatMap_cons, List.map_append, List.map_cons, List.map_nil, List.singleton_append]
      exact .cons ⟨hp, fun h => absurd h he, fun _ => ⟨p, rfl⟩⟩ ih2

theorem forall₂_one {α β : Type} {R : α → β → Prop} {x : α} {ys : List β} (h : List.Forall₂ R [x] ys) : ∃ y, ys = [y] ∧ R x y := by
  cases h with
  | cons h1 h2 => cases h2; exact ⟨_, rfl, h1⟩

theorem execute_one {T : Table} (hT : Plain T) {vars : List (Text × Text)} {fuel b : Nat} {B : Builder} {s : Src} {chdir : Option Text} {l : List Task} {ps : List Path} (hB : T b = some B)
    (h : execute T vars fuel b chdir none [s] = some (l, ps)) : ∃ sufs f' q, suffixes T f' b = some sufs ∧ Product T b s q ∧ ps = [named B sufs q] ∧
      ∃ l', l = l' ++ [{ builder := b, targets := ps, sources := [q], chdir := chdir, vars := vars }] := by
  induction fuel generalizing b B s chdir l ps with
  | zero => simp [execute] at h
  | succ fuel ih =>
    obtain ⟨f, B', sufs, l0, src, hf, hB', hs, hsrc, hfin⟩ := execute_inv h
    obtain rfl : fuel = f := by omega
    rw [hB] at hB'; cases hB'
    obtain ⟨x, rfl, hp, -, -⟩ := forall₂_one (sourcesOf_product hT hB hs (fun hC hx => by
      obtain ⟨a1, a2, a3, a4, a5, a6, -⟩ := ih hC hx
      exact ⟨a1, a2, a3, a4, a5, a6⟩) hsrc)
    unfold finish at hfin
    rw [if_neg (by simp)] at hfin
    simp only [Option.some.injEq, Prod.mk.injEq, createNodes, List.map_cons, List.map_nil, (hT b B hB).1] at hfin
    obtain ⟨rfl, rfl⟩ := hfin
    exact ⟨sufs, fuel, _, hs, hp, rfl, l0, rfl⟩

/-- **C75, one product for each source.**  In a call with given targets of a builder, the sources of the builder's task are, in the given order, one file for each given source: the product of
the chain of builders. -/
theorem C75_one_product_per_source {T : Table} (hT : Plain T) {vars : List (Text × Text)} {fuel b : Nat} {chdir : Option Text} {targets : List Src} {source : List Src} {l : List Task}
    {ps : List Path} (h : execute T vars fuel b chdir (some targets) source = some (l, ps)) :
    ∃ l' t B, T b = some B ∧ l = l' ++ [t] ∧ t.builder = b ∧ t.chdir = chdir ∧ List.Forall₂ (Product T b) source t.sources ∧
      t.targets = targets.map (Src.adjust B.pre B.suf B.ensure) ∧ ps = t.targets := by
  obtain ⟨f, B, sufs, l0, src, hf, hB, hs, hsrc, hfin⟩ := execute_inv h
  have hp := sourcesOf_product hT hB hs (fun hC hx => by
      obtain ⟨a1, a2, a3, a4, a5, a6, -⟩ := execute_one hT hC hx
      exact ⟨a1, a2, a3, a4, a5, a6⟩) hsrc
  unfold finish at hfin
  split at hfin
  · simp at hfin
  · simp only [Option.some.injEq, Prod.mk.injEq, createNodes, (hT b B hB).1] at hfin
    obtain ⟨rfl, rfl⟩ := hfin
    refine ⟨l0, _, B, hB, rfl, rfl, rfl, ?_, rfl, rfl⟩
    simp only
    exact forall₂_map hp fun _ _ h => h.1

/-- **C75, single-source builders.**  A single-source builder that is given several sources and no targets makes one file of each, in order.  The source builders are asked twice. -/
theorem C75_single_source {T : Table} (hT : Plain T) {vars : List (Text × Text)} {fuel b : Nat} {B : Builder} (hB : T b = some B) (hsi : B.single = true) {chdir : Option Text}
    {source : List Src} {l : List Task} {ps : List Path} (h : execute T vars fuel b chdir none source = some (l, ps)) (hlen : source.length ≠ 0) :
    ∃ sufs f', suffixes T f' b = some sufs ∧ List.Forall₂ (fun s p => ∃ q, p = named B sufs q ∧
      (Product T b s q ∨ ∃ q0, B.srcBuilders ≠ [] ∧ Product T b s q0 ∧ Product T b (.node q0) q)) source ps := by
  obtain ⟨f, B', sufs, l0, src, hf, hB', hs, hsrc, hfin⟩ := execute_inv h
  rw [hB] at hB'; cases hB'
  have hp := sourcesOf_product hT hB hs (fun hC hx => by
      obtain ⟨a1, a2, a3, a4, a5, a6, -⟩ := execute_one hT hC hx
      exact ⟨a1, a2, a3, a4, a5, a6⟩) hsrc
  refine ⟨sufs, f, hs, ?_⟩
  unfold finish at hfin
  split at hfin
  · rename_i hcond
    simp only [Option.isNone_none, if_true, Option.map_eq_some_iff] at hfin
    obtain ⟨o, ho, e⟩ := hfin
    simp only [Prod.mk.injEq] at e
    obtain ⟨-, rfl⟩ := e
    obtain ⟨os, h1, rfl⟩ := gather_spec ho
    simp only
    clear hsrc ho h hlen hcond
    induction hp generalizing os with
    | nil => cases h1; exact .nil
    | @cons s x xs ys hx _ ih =>
      cases h1 with
      | cons hc h1 =>
        rename_i o os
        obtain ⟨lo, po⟩ := o
        obtain ⟨sufs', f', q, h2, h3, rfl, -⟩ := execute_one hT hB hc
        obtain rfl := suffixes_unique hs h2
        simp only [List.flatMap_cons, List.singleton_append]
        refine .cons ⟨q, rfl, ?_⟩ (ih os h1)
        · by_cases he : B.srcBuilders = []
          · rw [hx.2.1 he] at h3; exact Or.inl h3
          · obtain ⟨p, rfl⟩ := hx.2.2 he
            exact Or.inr ⟨p, he, hx.1, h3⟩
  · rename_i hc
    have hl : src.length = source.length := forall₂_length hp
    have h1 : src.length ≤ 1 := by simpa [hsi] using hc
    obtain ⟨s, rfl⟩ : ∃ s, source = [s] := by
      rw [← List.length_eq_one_iff]; omega
    obtain ⟨x, rfl, hp, -, -⟩ := forall₂_one hp
    simp only [Option.some.injEq, Prod.mk.injEq, createNodes, List.map_cons, List.map_nil, (hT b B hB).1] at hfin
    obtain ⟨-, rfl⟩ := hfin
    exact .cons ⟨_, rfl, Or.inl hp⟩ .nil

end Verif.Bld.Chain
