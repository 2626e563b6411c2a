import Verif.FS.Lookup

/-!
# C56: one node for each file, however it is named
-/

set_option linter.unusedSimpArgs false

namespace Verif.FS

/-! ## Splitting names -/

theorem not_mem_splitOn (s p : Str) (h : p ∈ s.splitOn '/') : '/' ∉ p := by
  induction s generalizing p with
  | nil => simp at h; subst h; simp
  | cons c s ih =>
    by_cases e : c = '/'
    · subst e
      rw [List.splitOn_cons_eq_if_modifyHead, if_pos (by simp)] at h
      rcases List.mem_cons.1 h with rfl | h
      · simp
      · exact ih p h
    · have hne := List.splitOn_ne_nil '/' s
      cases hs : s.splitOn '/' with
      | nil => exact absurd hs hne
      | cons q qs =>
        rw [List.splitOn_cons_eq_if_modifyHead, if_neg (by simpa using e), hs] at h
        simp only [List.modifyHead_cons] at h
        rcases List.mem_cons.1 h with rfl | h
        · have := ih q (by rw [hs]; exact List.mem_cons_self)
          simp [this, Ne.symm e]
        · exact ih p (by rw [hs]; exact List.mem_cons_of_mem _ h)

theorem intercalate_cons (c : Str) (cs : List Str) : ['/'].intercalate (c :: cs) = c ++ lab cs := by
  induction cs generalizing c with
  | nil => simp [List.intercalate, lab]
  | cons d cs ih =>
    have : ['/'].intercalate (c :: d :: cs) = c ++ '/' :: ['/'].intercalate (d :: cs) := by simp [List.intercalate]
    rw [this, ih]; simp [lab]

theorem intercalate_mid (A : List Str) (c : Str) (B : List Str) :
    ['/'].intercalate (A ++ c :: B) = A.flatMap (· ++ ['/']) ++ c ++ lab B := by
  induction A with
  | nil => simp [intercalate_cons]
  | cons a A ih =>
    cases hA : A ++ c :: B with
    | nil => simp at hA
    | cons x xs =>
      rw [hA] at ih
      have : ['/'].intercalate (a :: x :: xs) = a ++ '/' :: ['/'].intercalate (x :: xs) := by simp [List.intercalate]
      rw [List.cons_append, hA, this, ih]; simp

/-- Where a component is in the name. -/
theorem split_mem {s c : Str} (h : c ∈ s.splitOn '/') :
    ∃ u v, s = u ++ c ++ v ∧ (u = [] ∨ ∃ u', u = u' ++ ['/']) ∧ (v = [] ∨ ∃ v', v = '/' :: v') := by
  obtain ⟨A, B, e⟩ := List.append_of_mem h
  have := List.intercalate_splitOn (xs := s) '/'
  rw [e, intercalate_mid] at this
  refine ⟨_, _, this.symm, ?_, ?_⟩
  · rcases List.eq_nil_or_concat A with rfl | ⟨A', a, rfl⟩
    · exact .inl rfl
    · right; exact ⟨A'.flatMap (· ++ ['/']) ++ a, by simp⟩
  · cases B with
    | nil => exact .inl rfl
    | cons b B => exact .inr ⟨b ++ lab B, by simp [lab]⟩

/-! ## Names that are not normalised -/

/-- A proper name of a file in a directory. -/
def GoodName (c : Str) : Prop := c ≠ [] ∧ c ≠ ['.'] ∧ c ≠ ['.', '.'] ∧ '/' ∉ c

theorem anyRest_append (f : Str → Bool) (u v : Str) (hu : '\n' ∉ u) (h : f v = true) : anyRest f (u ++ v) = true := by
  induction u with
  | nil => cases v <;> simp [anyRest, h]
  | cons c u ih =>
    simp only [List.mem_cons, not_or] at hu
    simp [anyRest, ih hu.2, Ne.symm hu.1]

theorem slashOrEnd_of {v : Str} (h : v = [] ∨ ∃ v', v = '/' :: v') : slashOrEnd v = true := by
  rcases h with rfl | ⟨v', rfl⟩
  · rfl
  · cases v' <;> simp [slashOrEnd]

/-- What the regular expression lets through has proper components only. -/
theorem good_of_not_needsNorm {p : Str} (hn : needsNorm p = false) (hnl : '\n' ∉ p) {u c v : Str} (hp : p = u ++ c ++ v)
    (hu : u = [] ∨ ∃ u', u = u' ++ ['/']) (hv : v = [] ∨ ∃ v', v = '/' :: v') :
    (c = [] → u = [] ∨ v = []) ∧ (c = ['.'] → u = [] ∧ v = []) ∧ c ≠ ['.', '.'] := by
  simp only [needsNorm, Bool.or_eq_false_iff] at hn
  obtain ⟨⟨⟨⟨h1, h2⟩, h3⟩, h4⟩, h5⟩ := hn
  refine ⟨?_, ?_, ?_⟩
  · rintro rfl
    rcases hu with rfl | ⟨u', rfl⟩
    · exact .inl rfl
    rcases hv with rfl | ⟨v', rfl⟩
    · exact .inr rfl
    rw [hp] at h1
    have := anyRest_append twoSlashes u' ('/' :: '/' :: v') (fun h => hnl (by rw [hp]; simp [h])) rfl
    simp only [List.append_assoc, List.cons_append, List.nil_append, List.append_nil] at h1
    rw [h1] at this; cases this
  · rintro rfl
    rcases hu with rfl | ⟨u', rfl⟩
    · refine ⟨rfl, ?_⟩
      rcases hv with rfl | ⟨v', rfl⟩
      · rfl
      · rw [hp] at h4; simp [dotSlash] at h4
    · have := anyRest_append slashDot u' ('/' :: '.' :: v) (fun h => hnl (by rw [hp]; simp [h])) (slashOrEnd_of hv)
      rw [hp] at h5
      simp only [List.append_assoc, List.cons_append, List.nil_append] at h5
      rw [h5] at this; cases this
  · rintro rfl
    rcases hu with rfl | ⟨u', rfl⟩
    · rw [hp] at h2
      simp only [List.nil_append, List.cons_append, dotDot] at h2
      rw [slashOrEnd_of hv] at h2; cases h2
    · have := anyRest_append slashDotDot u' ('/' :: '.' :: '.' :: v) (fun h => hnl (by rw [hp]; simp [h])) (slashOrEnd_of hv)
      rw [hp] at h3
      simp only [List.append_assoc, List.cons_append, List.nil_append] at h3
      rw [h3] at this; cases this

theorem good_relative {p : Str} (hn : needsNorm p = false) (hnl : '\n' ∉ p) (h0 : p ≠ []) (h1 : p ≠ ['.']) (h2 : p.head? ≠ some '/') (h3 : p.getLast? ≠ some '/') :
    ∀ c ∈ p.splitOn '/', GoodName c := by
  intro c hc
  obtain ⟨u, v, hp, hu, hv⟩ := split_mem hc
  obtain ⟨g1, g2, g3⟩ := good_of_not_needsNorm hn hnl hp hu hv
  refine ⟨?_, ?_, g3, not_mem_splitOn _ _ hc⟩
  · rintro rfl
    rcases g1 rfl with rfl | rfl
    · rcases hv with rfl | ⟨v', rfl⟩
      · exact h0 (by simpa using hp)
      · exact h2 (by rw [hp]; rfl)
    · rcases hu with rfl | ⟨u', rfl⟩
      · exact h0 (by simpa using hp)
      · exact h3 (by rw [hp]; simp)
  · rintro rfl
    obtain ⟨rfl, rfl⟩ := g2 rfl
    exact h1 (by simpa using hp)

theorem good_absolute {p : Str} (hn : needsNorm ('/' :: p) = false) (hnl : '\n' ∉ p) (h0 : p ≠ []) (h3 : p.getLast? ≠ some '/') :
    ∀ c ∈ p.splitOn '/', GoodName c := by
  intro c hc
  obtain ⟨u, v, hp, hu, hv⟩ := split_mem hc
  have hu' : ∃ u', '/' :: u = u' ++ ['/'] := by
    rcases hu with rfl | ⟨u', rfl⟩
    · exact ⟨[], rfl⟩
    · exact ⟨'/' :: u', by simp⟩
  obtain ⟨g1, g2, g3⟩ := good_of_not_needsNorm hn (by simp [hnl]) (u := '/' :: u) (c := c) (v := v) (by rw [hp]; simp) (.inr hu') hv
  refine ⟨?_, ?_, g3, not_mem_splitOn _ _ hc⟩
  · rintro rfl
    rcases g1 rfl with h | rfl
    · cases h
    · rcases hu with rfl | ⟨u', rfl⟩
      · exact h0 (by simpa using hp)
      · exact h3 (by rw [hp]; simp)
  · rintro rfl
    obtain ⟨h, -⟩ := g2 rfl
    cases h

/-! ## Walking -/

theorem outs_eq_walk (ds : List Str) : ∀ acc, outs acc ds = walk acc ds := by
  induction ds with
  | nil => intro acc; rfl
  | cons d ds ih =>
    intro acc
    unfold outs walk
    by_cases h1 : d = ['.', '.']
    · subst h1; simp [ih]
    · simp [h1, ih]

theorem walk_good (ds : List Str) : ∀ acc, (∀ c ∈ ds, GoodName c) → walk acc ds = acc ++ ds := by
  induction ds with
  | nil => intro acc _; simp [walk]
  | cons d ds ih =>
    intro acc h
    obtain ⟨h1, h2, h3, -⟩ := h d List.mem_cons_self
    rw [walk]
    simp [h1, h2, h3, ih _ (fun c hc => h c (List.mem_cons_of_mem _ hc))]

theorem walk_append (as bs : List Str) : ∀ acc, walk acc (as ++ bs) = walk (walk acc as) bs := by
  induction as with
  | nil => intro acc; rfl
  | cons a as ih =>
    intro acc
    rw [List.cons_append, walk, walk]
    split <;> (try split) <;> exact ih _

theorem good_walk (ds : List Str) : ∀ acc, (∀ c ∈ acc, GoodName c) → (∀ c ∈ ds, '/' ∉ c) → ∀ c ∈ walk acc ds, GoodName c := by
  induction ds with
  | nil => intro acc h _; exact h
  | cons d ds ih =>
    intro acc h h'
    have h'' : ∀ c ∈ ds, '/' ∉ c := fun c hc => h' c (List.mem_cons_of_mem _ hc)
    rw [walk]
    split
    · exact ih _ h h''
    · split
      · exact ih _ (fun c hc => h c (List.mem_of_mem_dropLast hc)) h''
      · rename_i h1 h2
        refine ih _ (fun c hc => ?_) h''
        rcases List.mem_append.1 hc with hc | hc
        · exact h c hc
        · rw [List.mem_singleton] at hc; subst hc
          exact ⟨fun e => h1 (.inl e), fun e => h1 (.inr e), h2, h' c List.mem_cons_self⟩

theorem walk_replicate (k : Nat) : ∀ acc, walk acc (List.replicate k []) = acc := by
  induction k with
  | zero => intro acc; rfl
  | succ k ih => intro acc; rw [List.replicate_succ, walk]; simp [ih]

theorem split_trailing (s : Str) (k : Nat) : (s ++ List.replicate k '/').splitOn '/' = s.splitOn '/' ++ List.replicate k [] := by
  induction k with
  | zero => simp
  | succ k ih =>
    rw [List.replicate_succ', ← List.append_assoc]
    have := List.splitOn_append_cons_self (a := '/') (s ++ List.replicate k '/') []
    rw [this, ih, List.replicate_succ']
    simp

theorem split_leading (s : Str) (k : Nat) : (List.replicate k '/' ++ s).splitOn '/' = List.replicate k [] ++ s.splitOn '/' := by
  induction k with
  | zero => simp
  | succ k ih =>
    rw [List.replicate_succ, List.cons_append, List.splitOn_cons_eq_if_modifyHead, if_pos (by simp), ih, List.replicate_succ, List.cons_append]

theorem takeWhile_slash (s : Str) : ∃ k, s.takeWhile (· = '/') = List.replicate k '/' := by
  refine ⟨(s.takeWhile (· = '/')).length, List.eq_replicate_iff.2 ⟨rfl, ?_⟩⟩
  induction s with
  | nil => simp
  | cons a s ih =>
    intro c hc
    rw [List.takeWhile_cons] at hc
    split at hc
    · rename_i ha
      rcases List.mem_cons.1 hc with rfl | hc
      · simpa using ha
      · exact ih c hc
    · cases hc

theorem rstrip_spec (p : Str) : (∃ k, p = rstrip p ++ List.replicate k '/') ∧ (rstrip p).getLast? ≠ some '/' := by
  constructor
  · obtain ⟨k, hk⟩ := takeWhile_slash p.reverse
    refine ⟨k, ?_⟩
    have := List.takeWhile_append_dropWhile (p := (fun c => decide (c = '/'))) (l := p.reverse)
    rw [hk] at this
    have := congrArg List.reverse this
    simp only [List.reverse_append, List.reverse_replicate, List.reverse_reverse] at this
    exact this.symm
  · unfold rstrip
    rw [List.getLast?_reverse]
    intro h
    have := List.head?_dropWhile_not (p := (fun c => decide (c = '/'))) p.reverse
    rw [h] at this
    simp at this

theorem strip_spec (p : Str) : (∃ k l, p = List.replicate l '/' ++ strip p ++ List.replicate k '/') ∧ (strip p).getLast? ≠ some '/' ∧ (strip p).head? ≠ some '/' := by
  obtain ⟨l, hl⟩ := takeWhile_slash p
  obtain ⟨⟨k, hk⟩, hlast⟩ := rstrip_spec (p.dropWhile (· = '/'))
  refine ⟨⟨k, l, ?_⟩, hlast, ?_⟩
  · conv_lhs => rw [← List.takeWhile_append_dropWhile (p := (fun c => decide (c = '/'))) (l := p), hl, hk]
    simp [strip]
  · intro h
    have hd := List.head?_dropWhile_not (p := (fun c => decide (c = '/'))) p
    rw [hk] at hd
    have : (strip p ++ List.replicate k '/').head? = some '/' := by
      cases hs : strip p with
      | nil => rw [hs] at h; cases h
      | cons c r => rw [hs] at h; simpa using h
    unfold strip at this
    rw [this] at hd
    simp at hd

theorem walk_rstrip (p : Str) (acc : List Str) : walk acc ((rstrip p).splitOn '/') = walk acc (p.splitOn '/') := by
  obtain ⟨⟨k, hk⟩, -⟩ := rstrip_spec p
  conv_rhs => rw [hk, split_trailing, walk_append, walk_replicate]

theorem walk_strip (p : Str) (acc : List Str) : walk acc ((strip p).splitOn '/') = walk acc (p.splitOn '/') := by
  obtain ⟨⟨k, l, hk⟩, -⟩ := strip_spec p
  conv_rhs => rw [hk, split_trailing, split_leading, walk_append, walk_replicate, walk_append, walk_replicate]

theorem split_lab (cs : List Str) (h : ∀ c ∈ cs, '/' ∉ c) (q : Str) : (lab cs ++ '/' :: q).splitOn '/' = [] :: cs ++ q.splitOn '/' := by
  induction cs with
  | nil =>
    have := List.splitOn_append_cons_self (a := '/') [] q
    simpa [lab] using this
  | cons c cs ih =>
    have e : lab (c :: cs) ++ '/' :: q = [] ++ '/' :: (c ++ (lab cs ++ '/' :: q)) := by simp [lab]
    rw [e, List.splitOn_append_cons_self]
    have h2 : ∃ r, lab cs ++ '/' :: q = '/' :: r := by
      cases cs with
      | nil => exact ⟨q, rfl⟩
      | cons d cs => exact ⟨_, rfl⟩
    obtain ⟨r, hr⟩ := h2
    have ih := ih (fun d hd => h d (List.mem_cons_of_mem _ hd))
    rw [hr] at ih ⊢
    rw [List.splitOn_append_cons_self_of_not_mem (h c List.mem_cons_self)]
    have e2 := List.splitOn_append_cons_self (a := '/') [] r
    simp only [List.nil_append] at e2
    rw [e2] at ih
    simp only [List.splitOn_nil, List.cons_append, List.nil_append, List.cons.injEq, true_and] at ih ⊢
    exact ih

/-- The absolute path is that of the names `cs`; the root has two spellings. -/
def Spells (a : Str) (cs : List Str) : Prop := a = lab cs ∨ (cs = [] ∧ a = ['/'])

theorem normalise_spells (cs : List Str) (hcs : ∀ c ∈ cs, GoodName c) (q : Str) : Spells (normalise (lab cs ++ '/' :: q)) (walk cs (q.splitOn '/')) := by
  unfold normalise
  rw [split_lab cs (fun c hc => (hcs c hc).2.2.2), List.cons_append, List.tail_cons, outs_eq_walk, walk_append, walk_good cs [] hcs, List.nil_append]
  cases h : walk cs (q.splitOn '/') with
  | nil => exact .inr ⟨rfl, by simp [List.intercalate]⟩
  | cons c ds => left; rw [intercalate_cons]; simp [lab]

/-- Names outside the theorems: those with a new line (the regular expression does not look past it), and those of two or more slashes and nothing else. -/
def Sensible (p : Str) : Prop := '\n' ∉ p ∧ (p.head? = some '/' → p ≠ ['/'] → rstrip p ≠ [])

theorem rstrip_head {p : Str} (h : rstrip p ≠ []) : (rstrip p).head? = p.head? := by
  obtain ⟨⟨k, hk⟩, -⟩ := rstrip_spec p
  cases hr : rstrip p with
  | nil => exact absurd hr h
  | cons c r => rw [hr] at hk; rw [hk]; rfl

/-- A relative name. -/
theorem relative_spells (d : List Str) (hd : ∀ c ∈ d, GoodName c) (p : Str) (hnl : '\n' ∉ p) (hh : p.head? ≠ some '/') (hl : p.getLast? ≠ some '/') :
    Spells (if needsNorm p then normalise (if p = [] ∨ p = ['.'] then lab d else lab d ++ '/' :: p) else (if p = [] ∨ p = ['.'] then lab d else lab d ++ '/' :: p))
      (walk d (p.splitOn '/')) := by
  by_cases h0 : p = []
  · subst h0
    rw [show needsNorm [] = false by decide]
    left; simp [walk]
  · by_cases h1 : p = ['.']
    · subst h1
      rw [show needsNorm ['.'] = false by decide, List.splitOn_eq_singleton (by decide)]
      left; simp [walk]
    · simp only [h0, h1, or_self, if_false]
      split
      · exact normalise_spells d hd p
      · rename_i hn
        have hn : needsNorm p = false := by simpa using hn
        have hg := good_relative hn hnl h0 h1 hh hl
        rw [walk_good _ _ hg]
        left
        obtain ⟨q, qs, e⟩ := List.exists_cons_of_ne_nil (List.splitOn_ne_nil '/' p)
        have := List.intercalate_splitOn (xs := p) '/'
        rw [e, intercalate_cons] at this
        rw [e]
        conv_lhs => rw [← this]
        simp [lab]

/-- **C56, names.**  The absolute path worked out for a name is the path the name stands for. -/
theorem absolute_spells (top d : List Str) (htop : ∀ c ∈ top, GoodName c) (hd : ∀ c ∈ d, GoodName c) (p : Str) (hp : Sensible p) :
    Spells (absolute (lab top) (lab d) p) (resolve top d p) := by
  obtain ⟨hnl, hsl⟩ := hp
  have hrn : '\n' ∉ rstrip p := by
    obtain ⟨⟨k, hk⟩, -⟩ := rstrip_spec p
    intro h; apply hnl; rw [hk]; simp [h]
  by_cases hash : p.head? = some '#'
  · -- '#'
    obtain ⟨q, rfl⟩ : ∃ q, p = '#' :: q := by
      cases p with
      | nil => cases hash
      | cons c r => simp at hash; subst hash; exact ⟨r, rfl⟩
    have hq : '\n' ∉ strip q := by
      obtain ⟨⟨k, l, hk⟩, -⟩ := strip_spec q
      intro h; apply hnl; rw [hk]; simp [h]
    have := relative_spells top htop (strip q) hq (strip_spec q).2.2 (strip_spec q).2.1
    rw [walk_strip] at this
    simpa [absolute, resolve] using this
  · have hne : ∀ q, p ≠ '#' :: q := by rintro q rfl; exact hash rfl
    have habsol : absolute (lab top) (lab d) p =
        (let p := if p ≠ ['/'] then rstrip p else p
         let q := if p.head? = some '/' then p else if p = [] ∨ p = ['.'] then lab d else lab d ++ '/' :: p
         if needsNorm p then normalise q else q) := by
      unfold absolute
      split
      · exact absurd rfl (hne _)
      · rfl
    rw [habsol]
    clear habsol
    revert hne hash hrn hsl hnl
    generalize p = q
    intro hnl hsl hrn hash hne
    by_cases habs : q.head? = some '/'
    · obtain ⟨r, rfl⟩ : ∃ r, q = '/' :: r := by
        cases q with
        | nil => cases habs
        | cons c r => simp at habs; subst habs; exact ⟨r, rfl⟩
      by_cases h1 : r = []
      · subst h1
        right
        refine ⟨by simp [resolve, walk], ?_⟩
        simp only [ne_eq, not_true_eq_false, if_false, List.head?_cons, if_true]
        rw [show needsNorm ['/'] = false by decide]; rfl
      · have h2 : ('/' :: r) ≠ ['/'] := by simpa using h1
        have hs := hsl habs h2
        have hhead := rstrip_head hs
        obtain ⟨r', hr'⟩ : ∃ r', rstrip ('/' :: r) = '/' :: r' := by
          cases h : rstrip ('/' :: r) with
          | nil => exact absurd h hs
          | cons c r' => rw [h] at hhead; simp at hhead; subst hhead; exact ⟨r', rfl⟩
        have hlast : r'.getLast? ≠ some '/' := by
          have := (rstrip_spec ('/' :: r)).2
          rw [hr'] at this
          intro h; apply this
          cases r' with
          | nil => cases h
          | cons c r' => simpa [List.getLast?_cons_cons] using h
        have hr0 : r' ≠ [] := by
          rintro rfl
          have := (rstrip_spec ('/' :: r)).2
          rw [hr'] at this; exact this rfl
        have hw : resolve top d ('/' :: r) = walk [] (r'.splitOn '/') := by
          have := walk_rstrip ('/' :: r) []
          rw [hr'] at this
          rw [List.splitOn_cons_eq_if_modifyHead, List.splitOn_cons_eq_if_modifyHead] at this
          simpa [resolve, walk] using this.symm
        simp only [h2, ne_eq, not_false_eq_true, if_true, hr', List.head?_cons]
        rw [hw]
        split
        · have := normalise_spells [] (by simp) r'
          simpa [lab] using this
        · rename_i hn
          have hn : needsNorm ('/' :: r') = false := by simpa using hn
          have hg := good_absolute hn (by intro h; apply hrn; rw [hr']; simp [h]) hr0 hlast
          rw [walk_good _ _ hg]
          left
          obtain ⟨x, xs, e⟩ := List.exists_cons_of_ne_nil (List.splitOn_ne_nil '/' r')
          have := List.intercalate_splitOn (xs := r') '/'
          rw [e, intercalate_cons] at this
          rw [e]
          conv_lhs => rw [← this]
          simp [lab]
    · have h1 : q ≠ ['/'] := by rintro rfl; exact habs rfl
      have hh : (rstrip q).head? ≠ some '/' := by
        by_cases h : rstrip q = []
        · rw [h]; simp
        · rw [rstrip_head h]; exact habs
      have := relative_spells d hd (rstrip q) hrn hh (rstrip_spec q).2
      rw [walk_rstrip] at this
      have hres : resolve top d q = walk d (q.splitOn '/') := by
        unfold resolve
        split
        · exact absurd rfl (hne _)
        · exact absurd rfl habs
        · rfl
      rw [hres]
      simp only [h1, ne_eq, not_false_eq_true, if_true, hh, if_false]
      exact this

end Verif.FS
