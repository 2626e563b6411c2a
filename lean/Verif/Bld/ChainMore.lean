import Verif.Bld.ChainProps

/-!
# C75, continued: determinism, types, termination, memory
-/

namespace Verif.Bld.Chain

/-! ## The product is determined by the source -/

theorem First.unique {sufs : List Text} {x s t : Text} (hs : First sufs x s) (ht : First sufs x t) : s = t := by
  obtain ⟨u, v, e, h1, h2⟩ := hs
  obtain ⟨u', v', e', h1', h2'⟩ := ht
  rw [e] at e'
  rcases List.append_eq_append_iff.1 e' with ⟨w, rfl, h⟩ | ⟨w, rfl, h⟩
  · cases w with
    | nil => simp only [List.nil_append, List.cons.injEq] at h; exact h.1
    | cons a w =>
      simp only [List.cons_append, List.cons.injEq] at h
      exact absurd h1 (h2' s (by simp [h.1]))
  · cases w with
    | nil => simp only [List.nil_append, List.cons.injEq] at h; exact h.1.symm
    | cons a w =>
      simp only [List.cons_append, List.cons.injEq] at h
      exact absurd h1' (h2 t (by simp [h.1]))

theorem LastTaking.mem {T : Table} {bs : List Nat} {suf : Text} {c : Nat} (h : LastTaking T bs suf c) : c ∈ bs ∧ Accepts T c suf := by
  obtain ⟨u, v, rfl, h1, -⟩ := h
  exact ⟨by simp, h1⟩

theorem LastTaking.unique {T : Table} {bs : List Nat} {suf : Text} {c d : Nat} (hc : LastTaking T bs suf c) (hd : LastTaking T bs suf d) : c = d := by
  obtain ⟨u, v, e, h1, h2⟩ := hc
  obtain ⟨u', v', e', h1', h2'⟩ := hd
  rw [e] at e'
  rcases List.append_eq_append_iff.1 e' with ⟨w, rfl, h⟩ | ⟨w, rfl, h⟩
  · cases w with
    | nil => simp only [List.nil_append, List.cons.injEq] at h; exact h.1
    | cons a w =>
      simp only [List.cons_append, List.cons.injEq] at h
      exact absurd h1' (h2 d (by simp [h.2]))
  · cases w with
    | nil => simp only [List.nil_append, List.cons.injEq] at h; exact h.1.symm
    | cons a w =>
      simp only [List.cons_append, List.cons.injEq] at h
      exact absurd h1 (h2' c (by simp [h.2]))

theorem First.mem {sufs : List Text} {x s : Text} (h : First sufs x s) : s ∈ sufs ∧ s <:+ x := by
  obtain ⟨u, v, rfl, h1, -⟩ := h
  exact ⟨by simp, h1⟩

theorem known_nil {T : Table} {B : Builder} (h : B.srcBuilders = []) : T.known B.srcBuilders = [] := by simp [Table.known, h]

/-- **C75, determinism.**  A builder uses only one file for a source. -/
theorem C75_product_unique {T : Table} {b : Nat} {s : Src} {p p' : Path} (h : Product T b s p) (h' : Product T b s p') : p = p' := by
  induction h generalizing p' with
  | plain hB he hs =>
    cases h' with
    | plain hB' he' hs' => rw [hB] at hB'; cases hB'; rw [suffixes_unique hs hs']
    | kept hB' he' => rw [hB] at hB'; cases hB'; exact absurd he he'
    | unknown hB' he' => rw [hB] at hB'; cases hB'; exact absurd he he'
    | made hB' hs' hf hl =>
      rw [hB] at hB'; cases hB'
      have := hl.mem.1
      rw [known_nil he] at this; cases this
  | kept hB he hs hf hno =>
    cases h' with
    | plain hB' he' hs' => rw [hB] at hB'; cases hB'; exact absurd he' he
    | kept hB' he' => rfl
    | unknown hB' he' hs' hun =>
      rw [hB] at hB'; cases hB'
      obtain rfl := suffixes_unique hs hs'
      exact absurd hf.mem.2 (hun _ hf.mem.1)
    | made hB' hs' hf' hl =>
      rw [hB] at hB'; cases hB'
      obtain rfl := suffixes_unique hs hs'
      obtain rfl := hf.unique hf'
      exact absurd hl.mem.2 (hno _ hl.mem.1)
  | unknown hB he hs hun =>
    cases h' with
    | plain hB' he' hs' => rw [hB] at hB'; cases hB'; exact absurd he' he
    | kept hB' he' hs' hf =>
      rw [hB] at hB'; cases hB'
      obtain rfl := suffixes_unique hs hs'
      exact absurd hf.mem.2 (hun _ hf.mem.1)
    | unknown hB' he' hs' =>
      rw [hB] at hB'; cases hB'
      obtain rfl := suffixes_unique hs hs'
      rfl
    | made hB' hs' hf hl =>
      rw [hB] at hB'; cases hB'
      obtain rfl := suffixes_unique hs hs'
      exact absurd hf.mem.2 (hun _ hf.mem.1)
  | made hB hs hf hl hC hcs hp ih =>
    cases h' with
    | plain hB' he' hs' =>
      rw [hB] at hB'; cases hB'
      have := hl.mem.1
      rw [known_nil he'] at this; cases this
    | kept hB' he' hs' hf' hno =>
      rw [hB] at hB'; cases hB'
      obtain rfl := suffixes_unique hs hs'
      obtain rfl := hf.unique hf'
      exact absurd hl.mem.2 (hno _ hl.mem.1)
    | unknown hB' he' hs' hun =>
      rw [hB] at hB'; cases hB'
      obtain rfl := suffixes_unique hs hs'
      exact absurd hf.mem.2 (hun _ hf.mem.1)
    | made hB' hs' hf' hl' hC' hcs' hp' =>
      rw [hB] at hB'; cases hB'
      obtain rfl := suffixes_unique hs hs'
      obtain rfl := hf.unique hf'
      obtain rfl := hl.unique hl'
      rw [hC] at hC'; cases hC'
      obtain rfl := suffixes_unique hcs hcs'
      rw [ih hp']

theorem adjust_dir (s : Src) (pre suf : Text) (e : Bool) : (s.adjust pre suf e).dir = s.path.dir := by cases s <;> rfl

/-- **C75, where the files are.**  Everything a chain makes of a source is in the directory of the source. -/
theorem C75_same_directory {T : Table} {b : Nat} {s : Src} {p : Path} (h : Product T b s p) : p.dir = s.path.dir := by
  induction h with
  | plain => exact adjust_dir _ _ _ _
  | kept => rfl
  | unknown => split; exact adjust_dir _ _ _ _; rfl
  | made _ _ _ _ _ _ _ ih => exact ih

/-! ## Types -/

/-- Every builder lists the suffixes of what its source builders make. -/
def Typed (T : Table) : Prop := ∀ b B c C, T b = some B → c ∈ B.srcBuilders → T c = some C → C.suf ∈ B.srcSuffix

theorem adjust_name {x suf : Text} : adjustixes x [] suf false = x ∨ adjustixes x [] suf false = x ++ suf := by
  unfold adjustixes
  simp only [ne_eq, not_true_eq_false, false_and, if_false]
  split
  · exact Or.inr rfl
  · exact Or.inl rfl

theorem accepts_split {T : Table} {b : Nat} {B : Builder} (hB : T b = some B) {suf : Text} (h : Accepts T b suf) :
    suf ∈ B.srcSuffix ∨ ∃ c ∈ T.known B.srcBuilders, Accepts T c suf := by
  obtain ⟨c, C, h1, h2, h3⟩ := h
  rcases Relation.ReflTransGen.cases_head h1 with rfl | ⟨d, ⟨B', hB', hd, hs⟩, h4⟩
  · rw [hB] at h2; cases h2; exact Or.inl h3
  · rw [hB] at hB'; cases hB'
    exact Or.inr ⟨d, by simp [Table.known, hd, hs], c, C, h4, h2, h3⟩

/-- **C75, types.**  If every builder lists the suffixes of what its source builders make, then each source with a suffix that the chain accepts reaches the builder as a file with one of the
suffixes that the builder itself lists. -/
theorem C75_products_typed {T : Table} (hT : Typed T) {b : Nat} {B : Builder} (hB : T b = some B) {s : Src} {p : Path} (h : Product T b s p)
    (hacc : ∃ suf, Accepts T b suf ∧ suf <:+ s.path.name) : ∃ suf ∈ B.srcSuffix, suf <:+ p.name := by
  obtain ⟨suf0, ha, hx⟩ := hacc
  cases h with
  | @plain _ B' _ sufs fuel hB' he hs =>
    rw [hB] at hB'; cases hB'
    have hown : suf0 ∈ B.srcSuffix := by
      rcases accepts_split hB ha with h | ⟨c, hc, -⟩
      · exact h
      · rw [known_nil he] at hc; cases hc
    cases s with
    | node p => exact ⟨suf0, hown, hx⟩
    | str p =>
      simp only [Src.adjust, Src.path] at hx ⊢
      rcases adjust_name (x := p.name) (suf := firstOr sufs) with e | e
      · rw [e]; exact ⟨suf0, hown, hx⟩
      · rw [e]
        refine ⟨firstOr sufs, ?_, List.suffix_append _ _⟩
        obtain ⟨w, hw⟩ := (C75_accepted_suffixes hs).2 B hB
        cases hb : B.srcSuffix with
        | nil => rw [hb] at hown; cases hown
        | cons a r => rw [hb] at hw; simp [firstOr, ← hw]
  | @kept _ B' _ sufs fuel suf hB' he hs hf hno =>
    rw [hB] at hB'; cases hB'
    rcases accepts_split hB (((C75_accepted_suffixes hs).1 suf).1 hf.mem.1) with h | ⟨c, hc, h⟩
    · exact ⟨suf, h, hf.mem.2⟩
    · exact absurd h (hno c hc)
  | @unknown _ B' _ sufs fuel hB' he hs hun =>
    exact absurd hx (hun suf0 (((C75_accepted_suffixes hs).1 suf0).2 ha))
  | @made _ B' c C _ q sufs csufs fuel fuel' suf hB' hs hf hl hC hcs hq =>
    rw [hB] at hB'; cases hB'
    have hc := (List.mem_filter.1 hl.mem.1).1
    exact ⟨C.suf, hT b B c C hB hc hC, List.suffix_append _ _⟩

/-! ## Termination -/

/-- No builder is below itself: `rank` falls from a builder to its source builders. -/
def Ranked (T : Table) (rank : Nat → Nat) : Prop := ∀ b c, Feeds T b c → rank c < rank b

theorem collect_total {f : Nat → Option (List Text)} {bs : List Nat} (h : ∀ b ∈ bs, (f b).isSome) (acc : List Text) : (collect f bs acc).isSome := by
  induction bs generalizing acc with
  | nil => rfl
  | cons b bs ih =>
    obtain ⟨l, hl⟩ := Option.isSome_iff_exists.1 (h b (by simp))
    simp only [collect, hl]
    exact ih (fun c hc => h c (List.mem_cons_of_mem _ hc)) _

theorem known_feeds {T : Table} {b c : Nat} {B : Builder} (hB : T b = some B) (hc : c ∈ T.known B.srcBuilders) : Feeds T b c := by
  obtain ⟨h1, h2⟩ := List.mem_filter.1 hc
  exact ⟨B, hB, h1, h2⟩

theorem feeds_known {T : Table} {b c : Nat} {B : Builder} (hB : T b = some B) (h : Feeds T b c) : c ∈ T.known B.srcBuilders := by
  obtain ⟨B', hB', h1, h2⟩ := h
  rw [hB] at hB'; cases hB'
  exact List.mem_filter.2 ⟨h1, h2⟩

theorem suffixes_total {T : Table} {rank : Nat → Nat} (hr : Ranked T rank) {fuel b : Nat} (hb : (T b).isSome) (hf : rank b < fuel) : (suffixes T fuel b).isSome := by
  induction fuel generalizing b with
  | zero => omega
  | succ fuel ih =>
    obtain ⟨B, hB⟩ := Option.isSome_iff_exists.1 hb
    rw [suffixes_eq hB]
    refine collect_total (fun c hc => ih (List.mem_filter.1 hc).2 ?_) _
    have := hr b c (known_feeds hB hc)
    omega

theorem gather_total {α : Type} {f : α → Option Out} {xs : List α} (h : ∀ x ∈ xs, (f x).isSome) : (gather f xs).isSome := by
  induction xs with
  | nil => rfl
  | cons x xs ih =>
    obtain ⟨⟨l, ps⟩, hl⟩ := Option.isSome_iff_exists.1 (h x (by simp))
    obtain ⟨⟨l', ps'⟩, hl'⟩ := Option.isSome_iff_exists.1 (ih fun y hy => h y (List.mem_cons_of_mem _ hy))
    simp only [gather, hl, hl']
    rfl

theorem convert_total {run : Nat → Src → Option Out} {hand : Text → Option Nat} {sufs : List Text} {s : Src} (h : ∀ suf c, hand suf = some c → (run c s).isSome) :
    (convert run hand sufs s).isSome := by
  unfold convert
  split
  · rename_i suf hm
    split
    · rename_i c hc
      obtain ⟨⟨l, ts⟩, hr⟩ := Option.isSome_iff_exists.1 (h suf c hc)
      rw [hr]; rfl
    · rfl
  · cases s <;> rfl

theorem sourcesOf_total {run : Nat → Src → Option Out} {hand : Text → Option Nat} {B : Builder} {sufs : List Text} {source : List Src}
    (h : ∀ s ∈ source, ∀ suf c, hand suf = some c → (run c s).isSome) : (sourcesOf run hand B sufs source).isSome := by
  unfold sourcesOf
  split
  · rfl
  · rw [Option.isSome_map]
    exact gather_total fun s hs => convert_total (h s hs)

theorem execute_step {T : Table} {vars : List (Text × Text)} {fuel b : Nat} {B : Builder} {sufs : List Text} {chdir : Option Text} {target : Option (List Src)} {source : List Src}
    (hB : T b = some B) (hs : suffixes T fuel b = some sufs) {l : List Task} {src : List Src}
    (hsrc : sourcesOf (fun c s => execute T vars fuel c none none [s]) (handler T fuel (T.known B.srcBuilders)) B sufs source = some (l, src)) :
    execute T vars (fuel + 1) b chdir target source = finish (fun s => execute T vars fuel b none none [s]) b B sufs chdir vars target l src := by
  conv_lhs => unfold execute
  simp only [hB, hs, hsrc]

theorem execute_one_total {T : Table} (hT : Plain T) {rank : Nat → Nat} (hr : Ranked T rank) {vars : List (Text × Text)} {fuel b : Nat} (hb : (T b).isSome) (hf : rank b + 2 ≤ fuel)
    (chdir : Option Text) (s : Src) : (execute T vars fuel b chdir none [s]).isSome := by
  induction fuel generalizing b chdir s with
  | zero => omega
  | succ fuel ih =>
    obtain ⟨B, hB⟩ := Option.isSome_iff_exists.1 hb
    obtain ⟨sufs, hs⟩ := Option.isSome_iff_exists.1 (suffixes_total hr (fuel := fuel) hb (by omega))
    obtain ⟨⟨l, src⟩, hsrc⟩ := Option.isSome_iff_exists.1 (sourcesOf_total (run := fun c s => execute T vars fuel c none none [s])
      (hand := handler T fuel (T.known B.srcBuilders)) (B := B) (sufs := sufs) (source := [s]) (fun x hx suf c hc => by
        have hk := handler_mem hc
        have := hr b c (known_feeds hB hk)
        exact ih (List.mem_filter.1 hk).2 (by omega) none x))
    rw [execute_step hB hs hsrc]
    obtain ⟨x, rfl, -⟩ := forall₂_one (sourcesOf_product hT hB hs (fun hC hx => by
      obtain ⟨a1, a2, a3, a4, a5, a6, -⟩ := execute_one hT hC hx
      exact ⟨a1, a2, a3, a4, a5, a6⟩) hsrc)
    unfold finish
    rw [if_neg (by simp)]
    rfl

/-- **C75, termination.**  If no builder is below itself in the tree of source builders, every call comes to an end; only a single-source builder that is given targets and several sources refuses. -/
theorem C75_terminates {T : Table} (hT : Plain T) {rank : Nat → Nat} (hr : Ranked T rank) {b : Nat} {B : Builder} (hB : T b = some B) (chdir : Option Text) (kw : List (Text × Text))
    (target : Option (List Src)) (source : List Src) :
    (call T (rank b + 3) b chdir kw target source).isSome ↔ ¬ (B.single = true ∧ source.length > 1 ∧ target.isSome) := by
  have hb : (T b).isSome := by rw [hB]; rfl
  unfold call
  simp only [hB]
  generalize update B.vars kw = vars
  obtain ⟨sufs, hs⟩ := Option.isSome_iff_exists.1 (suffixes_total hr (fuel := rank b + 2) hb (by omega))
  obtain ⟨⟨l, src⟩, hsrc⟩ := Option.isSome_iff_exists.1 (sourcesOf_total (run := fun c s => execute T vars (rank b + 2) c none none [s])
      (hand := handler T (rank b + 2) (T.known B.srcBuilders)) (B := B) (sufs := sufs) (source := source) (fun x hx suf c hc => by
        have hk := handler_mem hc
        have := hr b c (known_feeds hB hk)
        exact execute_one_total hT hr (List.mem_filter.1 hk).2 (by omega) none x))
  rw [execute_step hB hs hsrc]
  have hlen := forall₂_length (sourcesOf_product hT hB hs (fun hC hx => by
      obtain ⟨a1, a2, a3, a4, a5, a6, -⟩ := execute_one hT hC hx
      exact ⟨a1, a2, a3, a4, a5, a6⟩) hsrc)
  unfold finish
  rw [hlen]
  by_cases hc : B.single = true ∧ source.length > 1
  · rw [if_pos hc]
    cases target with
    | none =>
      simp only [Option.isNone_none, if_true, Option.isSome_map, Option.isSome_none, Bool.false_eq_true, and_false, not_false_iff, iff_true]
      exact gather_total fun s _ => execute_one_total hT hr hb (by omega) none s
    | some ts => simp [hc]
  · rw [if_neg hc]
    simp only [Option.isSome_some, true_iff]
    exact fun h => hc ⟨h.1, h.2.1⟩

theorem suffixes_cycle {T : Table} {fuel b : Nat} (h : Relation.TransGen (Feeds T) b b) : suffixes T fuel b = none := by
  induction fuel generalizing b with
  | zero => rfl
  | succ fuel ih =>
    obtain ⟨c, hbc, hcb⟩ := Relation.TransGen.head'_iff.1 h
    obtain ⟨B, hB, h1, h2⟩ := id hbc
    have hcc : Relation.TransGen (Feeds T) c c := Relation.TransGen.tail' hcb hbc
    rw [suffixes_eq hB]
    cases hx : collect (suffixes T fuel) (T.known B.srcBuilders) B.srcSuffix with
    | none => rfl
    | some l =>
      have := collect_all hx c (feeds_known hB hbc)
      rw [ih hcc] at this; cases this

/-- **C75, cycles.**  A builder that is below itself in the tree of source builders cannot be called: whatever the depth of the stack, the recursion is deeper. -/
theorem C75_cycle_overflows {T : Table} {b : Nat} (h : Relation.TransGen (Feeds T) b b) (fuel : Nat) (chdir : Option Text) (kw : List (Text × Text)) (target : Option (List Src))
    (source : List Src) : call T fuel b chdir kw target source = none := by
  unfold call
  split
  · rfl
  · cases hx : execute T (update _ kw) fuel b (chdir.or _) target source with
    | none => rfl
    | some o =>
      obtain ⟨f, B, sufs, l, src, -, -, hs, -⟩ := execute_inv hx
      rw [suffixes_cycle h] at hs; cases hs

/-! ## Overrides and directories -/

/-- **C75, overrides.**  All tasks of a call see the keyword arguments of the call and, for other names, what the called builder was defined with — not what the builder that makes the
intermediate file was defined with. -/
theorem C75_overrides {T : Table} {fuel b : Nat} {B : Builder} (hB : T b = some B) {chdir : Option Text} {kw : List (Text × Text)} {target : Option (List Src)} {source : List Src}
    {l : List Task} {ps : List Path} (h : call T fuel b chdir kw target source = some (l, ps)) {t : Task} (ht : t ∈ l) (k : Text) :
    t.vars.lookup k = (kw.lookup k).or (B.vars.lookup k) := by
  unfold call at h
  simp only [hB] at h
  rw [((C75_tasks_in_order h).2.2 t ht).1, update, List.lookup_append]
  cases hk : kw.lookup k with
  | some v => rfl
  | none =>
    simp only [Option.none_or]
    have hno : k ∉ kw.map (·.1) := by
      intro hm
      obtain ⟨⟨a, v⟩, h1, rfl⟩ := List.mem_map.1 hm
      rw [List.lookup_eq_none_iff] at hk
      have := hk _ h1
      simp at this
    clear h
    generalize B.vars = vs
    induction vs with
    | nil => rfl
    | cons x vs ih =>
      obtain ⟨a, v⟩ := x
      by_cases ha : a ∈ kw.map (·.1)
      · rw [List.filter_cons_of_neg (by simpa using ha), ih, List.lookup_cons]
        have : (k == a) = false := by
          simp only [beq_eq_false_iff_ne, ne_eq]
          rintro rfl; exact hno ha
        rw [this]
      · rw [List.filter_cons_of_pos (by simpa using ha), List.lookup_cons, List.lookup_cons, ih]

/-! ## The memory -/

theorem appendNew_sub {acc new : List Text} (h : ∀ s ∈ new, s ∈ acc) : appendNew acc new = acc := by
  unfold appendNew
  induction new with
  | nil => rfl
  | cons n ns ih =>
    simp only [List.foldl_cons]
    rw [if_pos (h n (by simp))]
    exact ih fun s hs => h s (List.mem_cons_of_mem _ hs)

/-- What may be in the memory: for a builder either nothing or its complete list. -/
def Memo.Fits (T : Table) (m : Memo) : Prop := ∀ x l, m x = some l → ∃ fuel, suffixes T fuel x = some l

/-- Only complete lists of builders in `R` are added. -/
def Grows (T : Table) (R : Nat → Prop) (m m' : Memo) : Prop := ∀ x, m' x = m x ∨ (R x ∧ ∃ fuel l, suffixes T fuel x = some l ∧ m' x = some l)

theorem collectM_spec {T : Table} {fuel : Nat} {R : Nat → Prop} {bs : List Nat}
    (ih : ∀ b ∈ bs, ∀ m, (∀ x, R x → ∀ l, m x = some l → ∃ fuel, suffixes T fuel x = some l) → ∀ l, suffixes T fuel b = some l →
      ∃ m', suffixesM T fuel b m = some (l, m') ∧ Grows T R m m')
    {acc l : List Text} (h : collect (suffixes T fuel) bs acc = some l) {m : Memo} (hm : ∀ x, R x → ∀ l, m x = some l → ∃ fuel, suffixes T fuel x = some l) :
    ∃ m', collectM (suffixesM T fuel) bs acc m = some (l, m') ∧ Grows T R m m' := by
  induction bs generalizing acc m with
  | nil =>
    simp only [collect, Option.some.injEq] at h; subst h
    exact ⟨m, rfl, fun x => Or.inl rfl⟩
  | cons b bs ih2 =>
    simp only [collect] at h
    split at h
    · cases h
    · rename_i lb hb
      obtain ⟨m1, h1, h2⟩ := ih b (by simp) m hm lb hb
      obtain ⟨m2, h3, h4⟩ := ih2 (fun c hc => ih c (List.mem_cons_of_mem _ hc)) h (m := m1) (by
        intro x hx l hl
        rcases h2 x with e | ⟨-, f', l', e1, e2⟩
        · exact hm x hx l (e ▸ hl)
        · rw [e2] at hl; cases hl; exact ⟨f', e1⟩)
      refine ⟨m2, by simp only [collectM, h1, h3], fun x => ?_⟩
      rcases h4 x with e | e
      · rw [e]; exact h2 x
      · exact Or.inr e

theorem suffixesM_spec {T : Table} {fuel b : Nat} {l : List Text} (h : suffixes T fuel b = some l) {m : Memo}
    (hm : ∀ x, Relation.ReflTransGen (Feeds T) b x → ∀ l, m x = some l → ∃ fuel, suffixes T fuel x = some l) :
    ∃ m', suffixesM T fuel b m = some (l, m') ∧ Grows T (Relation.ReflTransGen (Feeds T) b) m m' := by
  induction fuel generalizing b l m with
  | zero => simp [suffixes] at h
  | succ fuel ih =>
    have h0 := h
    simp only [suffixes] at h
    split at h
    · cases h
    rename_i B hB
    -- the list that is extended: what is listed, or what is in the memory
    have hstart : collect (suffixes T fuel) (T.known B.srcBuilders) ((m b).getD B.srcSuffix) = some l := by
      cases hb : m b with
      | none => exact h
      | some l' =>
        obtain ⟨f', hf'⟩ := hm b .refl l' hb
        obtain rfl := suffixes_unique h0 hf'
        simp only [Option.getD_some]
        obtain ⟨h1, -⟩ := collect_spec h
        have h2 := collect_all h
        have h3 : ∀ c ∈ T.known B.srcBuilders, ∀ lc, suffixes T fuel c = some lc → ∀ s ∈ lc, s ∈ l := fun c hc lc hlc s hs => (h1 s).2 (Or.inr ⟨c, hc, lc, hlc, hs⟩)
        clear h h1
        generalize T.known B.srcBuilders = bs at h2 h3
        induction bs with
        | nil => rfl
        | cons c bs ih3 =>
          obtain ⟨lc, hlc⟩ := Option.isSome_iff_exists.1 (h2 c (by simp))
          simp only [collect, hlc]
          rw [appendNew_sub (h3 c (by simp) lc hlc)]
          exact ih3 (fun d hd => h2 d (List.mem_cons_of_mem _ hd)) fun d hd => h3 d (List.mem_cons_of_mem _ hd)
    have hnb : ∀ x, (∃ c ∈ T.known B.srcBuilders, Relation.ReflTransGen (Feeds T) c x) → x ≠ b := by
      rintro x ⟨c, hc, hcx⟩ rfl
      have := suffixes_cycle (T := T) (fuel := fuel + 1) (b := x) (Relation.TransGen.head' (known_feeds hB hc) hcx)
      rw [h0] at this; cases this
    obtain ⟨m1, h1, h2⟩ := collectM_spec (T := T) (R := fun x => ∃ c ∈ T.known B.srcBuilders, Relation.ReflTransGen (Feeds T) c x)
      (m := fun x => if x = b then some ((m b).getD B.srcSuffix) else m x) (fun c hc m' hm' lc hlc => by
        obtain ⟨m'', e1, e2⟩ := ih hlc (m := m') fun x hx => hm' x ⟨c, hc, hx⟩
        refine ⟨m'', e1, fun x => ?_⟩
        rcases e2 x with e | ⟨e3, e4⟩
        · exact Or.inl e
        · exact Or.inr ⟨⟨c, hc, e3⟩, e4⟩) hstart (by
        intro x hx lx hlx
        have hxb := hnb x hx
        obtain ⟨c, hc, hcx⟩ := hx
        simp only [hxb, if_false] at hlx
        exact hm x (.head (known_feeds hB hc) hcx) lx hlx)
    refine ⟨fun x => if x = b then some l else m1 x, by simp only [suffixesM, hB, h1], fun x => ?_⟩
    by_cases hxb : x = b
    · subst hxb
      exact Or.inr ⟨.refl, _, l, h0, by simp⟩
    · simp only [hxb, if_false]
      rcases h2 x with e | ⟨⟨c, hc, hcx⟩, e⟩
      · simp only [hxb, if_false] at e; exact Or.inl e
      · exact Or.inr ⟨.head (known_feeds hB hc) hcx, e⟩

/-- The memories that arise from the empty one by asking for the suffixes of builders. -/
inductive Asked (T : Table) : Memo → Prop
  | empty : Asked T fun _ => none
  | ask {m m' fuel b l} : Asked T m → suffixesM T fuel b m = some (l, m') → Asked T m'

theorem collectM_none {T : Table} {fuel : Nat} (ih : ∀ b m r, suffixesM T fuel b m = some r → (suffixes T fuel b).isSome) {bs : List Nat} {acc : List Text} {m : Memo} {r : List Text × Memo}
    (h : collectM (suffixesM T fuel) bs acc m = some r) : ∀ b ∈ bs, (suffixes T fuel b).isSome := by
  induction bs generalizing acc m with
  | nil => intro b hb; cases hb
  | cons b bs ih2 =>
    simp only [collectM] at h
    split at h
    · cases h
    · rename_i l m' hb
      intro c hc
      rcases List.mem_cons.1 hc with rfl | hc
      · exact ih c m _ hb
      · exact ih2 h c hc

theorem suffixesM_some {T : Table} {fuel b : Nat} {m : Memo} {r : List Text × Memo} (h : suffixesM T fuel b m = some r) : (suffixes T fuel b).isSome := by
  induction fuel generalizing b m r with
  | zero => simp [suffixesM] at h
  | succ fuel ih =>
    simp only [suffixesM] at h
    split at h
    · cases h
    rename_i B hB
    rw [suffixes_eq hB]
    split at h
    · cases h
    · rename_i l m' hc
      exact collect_total (collectM_none (fun b m r h => ih h) hc) _

theorem asked_fits {T : Table} {m : Memo} (h : Asked T m) : m.Fits T := by
  induction h with
  | empty => intro x l h; cases h
  | @ask m m' fuel b l _ hM ih =>
    obtain ⟨l', hl'⟩ := Option.isSome_iff_exists.1 (suffixesM_some hM)
    obtain ⟨m'', h1, h2⟩ := suffixesM_spec hl' (m := m) fun x _ => ih x
    rw [hM] at h1
    simp only [Option.some.injEq, Prod.mk.injEq] at h1
    obtain ⟨-, rfl⟩ := h1
    intro x lx hx
    rcases h2 x with e | ⟨-, f', l'', e1, e2⟩
    · exact ih x lx (e ▸ hx)
    · rw [e2] at hx; cases hx; exact ⟨f', e1⟩

/-- **C75, the memory does not show.**  As long as the builders do not change, whatever was asked before, the list of accepted suffixes is what it would be if nothing were remembered (although
it is appended to in place). -/
theorem C75_memory_invisible {T : Table} {m : Memo} (hm : Asked T m) (fuel b : Nat) : (suffixesM T fuel b m).map (·.1) = suffixes T fuel b := by
  cases hs : suffixes T fuel b with
  | some l =>
    obtain ⟨m', h1, -⟩ := suffixesM_spec hs (m := m) fun x _ => asked_fits hm x
    rw [h1]; rfl
  | none =>
    cases hM : suffixesM T fuel b m with
    | none => rfl
    | some r => have := suffixesM_some hM; rw [hs] at this; cases this

/-! ## Names given by the user -/

/-- The name has a suffix: what follows its last dot is not a number. -/
def HasExt (x : Text) : Prop := ∃ u v, x = u ++ '.' :: v ∧ '.' ∉ v ∧ ¬ (v ≠ [] ∧ ∀ c ∈ v, c.isDigit)

theorem lastDot_unique {u u' v v' : Text} (h0 : u ++ '.' :: v = u' ++ '.' :: v') (hv : '.' ∉ v) (hv' : '.' ∉ v') : u = u' ∧ v = v' := by
  rcases List.append_eq_append_iff.1 h0 with ⟨w, rfl, h⟩ | ⟨w, rfl, h⟩
  · cases w with
    | nil => simp only [List.nil_append, List.cons.injEq, true_and] at h; exact ⟨by simp, h⟩
    | cons a w =>
      simp only [List.cons_append, List.cons.injEq] at h
      exact absurd (by simp [h.2]) hv
  · cases w with
    | nil => simp only [List.nil_append, List.cons.injEq, true_and] at h; exact ⟨by simp, h.symm⟩
    | cons a w =>
      simp only [List.cons_append, List.cons.injEq] at h
      exact absurd (by simp [h.2]) hv'

theorem exists_lastDot {x : Text} (h : '.' ∈ x) : ∃ u v, x = u ++ '.' :: v ∧ '.' ∉ v := by
  induction x with
  | nil => cases h
  | cons a x ih =>
    by_cases hx : '.' ∈ x
    · obtain ⟨u, v, rfl, hv⟩ := ih hx
      exact ⟨a :: u, v, rfl, hv⟩
    · rcases List.mem_cons.1 h with rfl | h
      · exact ⟨[], x, rfl, hx⟩
      · exact absurd h hx

theorem tail_lastDot {u v : Text} (hv : '.' ∉ v) : (((u ++ '.' :: v).reverse.takeWhile (· ≠ '.')).reverse) = v := by
  have e : (u ++ '.' :: v).reverse = v.reverse ++ ('.' :: u.reverse) := by simp
  rw [e, List.takeWhile_append_of_pos (by intro a ha; simp only [List.mem_reverse] at ha; simp only [ne_eq, decide_eq_true_eq]; rintro rfl; exact hv ha)]
  simp

theorem splitext_spec (x : Text) : (splitext x).1 ++ (splitext x).2 = x ∧ ((splitext x).2 ≠ [] ↔ HasExt x) := by
  by_cases hd : '.' ∈ x
  · obtain ⟨u, v, rfl, hv⟩ := exists_lastDot hd
    have ht := tail_lastDot (u := u) hv
    unfold splitext
    simp only [ht]
    have hlen : (u ++ '.' :: v).length - (v.length + 1) = u.length := by simp
    by_cases hx : v ≠ [] ∧ ∀ c ∈ v, c.isDigit
    · rw [if_neg (fun h => h.2 hx)]
      refine ⟨by simp, by simp, ?_⟩
      rintro ⟨u', v', e, hv', hx'⟩
      obtain ⟨-, rfl⟩ := lastDot_unique e hv hv'
      exact absurd hx hx'
    · rw [if_pos ⟨hd, hx⟩, hlen]
      refine ⟨by simp, fun _ => ⟨u, v, rfl, hv, hx⟩, by simp⟩
  · unfold splitext
    simp only [hd, false_and, if_false]
    refine ⟨by simp, by simp, ?_⟩
    rintro ⟨u, v, rfl, -⟩
    exact absurd (by simp) hd

/-- **C75, names given by the user.**  A target name gets the prefix of the builder unless it has it and more, then the suffix unless it has it or (if the builder does not insist) has another. -/
theorem C75_given_names (x pre suf : Text) (ensure : Bool) :
    ∃ y, (pre <+: y ∧ (y = x ∧ x ≠ pre ∨ y = pre ++ x ∧ ¬ (pre <+: x ∧ x ≠ pre)) ∨ pre = [] ∧ y = x) ∧
      (adjustixes x pre suf ensure = y ∧ (suf <:+ y ∨ ensure = false ∧ HasExt y) ∨
       adjustixes x pre suf ensure = y ++ suf ∧ ¬ suf <:+ y ∧ (ensure = true ∨ ¬ HasExt y)) := by
  have hsuf : ∀ y : Text, (if suf ≠ [] ∧ ¬ suf <:+ y ∧ (ensure ∨ (splitext y).2 = []) then y ++ suf else y) = y ∧ (suf <:+ y ∨ ensure = false ∧ HasExt y) ∨
      (if suf ≠ [] ∧ ¬ suf <:+ y ∧ (ensure ∨ (splitext y).2 = []) then y ++ suf else y) = y ++ suf ∧ ¬ suf <:+ y ∧ (ensure = true ∨ ¬ HasExt y) := by
    intro y
    have hs := (splitext_spec y).2
    split
    · rename_i h
      refine Or.inr ⟨rfl, h.2.1, ?_⟩
      rcases h.2.2 with h | h
      · exact Or.inl h
      · exact Or.inr fun he => absurd h (hs.2 he)
    · rename_i h
      refine Or.inl ⟨rfl, ?_⟩
      by_cases h1 : suf <:+ y
      · exact Or.inl h1
      · refine Or.inr ?_
        have h2 : suf ≠ [] := by rintro rfl; exact h1 (List.nil_suffix)
        have h3 : ¬ (ensure = true ∨ (splitext y).2 = []) := fun h4 => h ⟨h2, h1, h4⟩
        rw [not_or] at h3
        exact ⟨by simpa using h3.1, hs.1 h3.2⟩
  unfold adjustixes
  by_cases hp : pre = []
  · subst hp
    refine ⟨x, Or.inr ⟨rfl, rfl⟩, ?_⟩
    simpa using hsuf x
  · by_cases hc : ¬ pre <+: x ∨ x = pre
    · refine ⟨pre ++ x, Or.inl ⟨List.prefix_append _ _, Or.inr ⟨rfl, ?_⟩⟩, ?_⟩
      · rintro ⟨h1, h2⟩
        rcases hc with h | h
        · exact h h1
        · exact h2 h
      · simp only [ne_eq, hp, not_false_eq_true, true_and, if_pos hc]
        exact hsuf _
    · refine ⟨x, Or.inl ⟨?_, Or.inl ⟨rfl, ?_⟩⟩, ?_⟩
      · by_contra h; exact hc (Or.inl h)
      · intro h; exact hc (Or.inr h)
      · simp only [ne_eq, hp, not_false_eq_true, true_and, if_neg hc]
        exact hsuf _

end Verif.Bld.Chain
