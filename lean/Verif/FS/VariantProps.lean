import Verif.FS.Variant

/-! # Variant directories and repositories: theorems (C66) -/

namespace Verif.FS.Variant

theorem isUnder_iff (p d : Path) : isUnder p d = true ↔ d <:+ p := by
  induction p with
  | nil => simp [isUnder]
  | cons n p ih => simp only [isUnder, Bool.or_eq_true, decide_eq_true_eq, ih, List.suffix_cons_iff]; constructor <;> rintro (h | h) <;> simp_all

/-! ## What a history keeps -/

theorem touch_srcdir (C : Conf) (p : Path) : (touch C p).srcdir = C.srcdir ∧ (touch C p).repos = C.repos ∧ (touch C p).variants = C.variants ∧ (touch C p).memoSrc = C.memoSrc ∧ (touch C p).memoR = C.memoR := by
  induction p with
  | nil => simp [touch]
  | cons n d ih => simp only [touch]; split <;> simp [ih]

theorem touchAll_srcdir (C : Conf) (l : List Path) :
    (touchAll C l).srcdir = C.srcdir ∧ (touchAll C l).repos = C.repos ∧ (touchAll C l).variants = C.variants ∧ (touchAll C l).memoSrc = C.memoSrc ∧ (touchAll C l).memoR = C.memoR := by
  induction l generalizing C with
  | nil => simp [touchAll]
  | cons p l ih =>
    have h := ih (touch C p)
    have h2 := touch_srcdir C p
    simp only [touchAll, List.foldl_cons] at h ⊢
    simp [h, h2]

/-- The nodes on the way to a known node are known. -/
def Closed (C : Conf) : Prop := ∀ n d, C.known (n :: d) = true → C.known d = true

theorem touch_known (C : Conf) (h0 : C.known [] = true) (hc : Closed C) (p : Path) :
    (touch C p).known p = true ∧ (touch C p).known [] = true ∧ Closed (touch C p) ∧ (∀ q, C.known q = true → (touch C p).known q = true ∧ (touch C p).dup q = C.dup q) := by
  induction p with
  | nil => exact ⟨h0, h0, hc, fun q hq => ⟨hq, rfl⟩⟩
  | cons n d ih =>
    obtain ⟨h1, h2, h3, h4⟩ := ih
    simp only [touch]
    split
    · exact ⟨by assumption, h2, h3, h4⟩
    · rename_i hn
      refine ⟨by simp, by simp [h2], ?_, ?_⟩
      · intro m e hm
        simp only [Bool.or_eq_true, decide_eq_true_eq, List.cons.injEq] at hm ⊢
        rcases hm with ⟨rfl, rfl⟩ | hm
        · exact Or.inr h1
        · exact Or.inr (h3 _ _ hm)
      · intro q hq
        obtain ⟨ha, hb⟩ := h4 q hq
        have : q ≠ n :: d := by rintro rfl; exact hn ha
        simp [ha, hb, this]

structure Inv (C : Conf) : Prop where
  root : C.known [] = true
  closed : Closed C
  /-- A variant directory is known to its source directory, and only to it. -/
  back : ∀ v s, C.srcdir v = some s ↔ v ∈ C.variants s
  nodup : ∀ s, (C.variants s).Nodup
  /-- The source directory is not inside the variant directory. -/
  out : ∀ v s, C.srcdir v = some s → ¬ v <:+ s
  /-- What `srcdir_list` remembers is right. -/
  memo : ∀ d l, C.memoSrc d = some l → l = srcdirList C d
  vknown : ∀ v s, C.srcdir v = some s → C.known v = true

theorem Inv.touch {C : Conf} (h : Inv C) (p : Path) : Inv (touch C p) := by
  obtain ⟨e1, e2, e3, e4, e5⟩ := touch_srcdir C p
  obtain ⟨k1, k2, k3, k4⟩ := touch_known C h.root h.closed p
  refine ⟨k2, k3, ?_, ?_, ?_, ?_, ?_⟩
  · rw [e1, e3]; exact h.back
  · rw [e3]; exact h.nodup
  · rw [e1]; exact h.out
  · rw [e4]; intro d l hd; rw [h.memo d l hd]; simp [srcdirList, e1]
  · rw [e1]; intro v s hv; exact (k4 v (h.vknown v s hv)).1

theorem Inv.touchAll {C : Conf} (h : Inv C) (l : List Path) : Inv (touchAll C l) := by
  induction l generalizing C with
  | nil => exact h
  | cons p l ih => exact ih (h.touch p)

theorem Inv.init : Inv Conf.init := by
  refine ⟨rfl, ?_, ?_, ?_, ?_, ?_, ?_⟩ <;> simp [Conf.init, Closed]

/-- The list depends only on the directories above. -/
theorem srcClimb_congr {a b : Path → Option Path} {d rel : Path} (h : ∀ v, v <:+ d → a v = b v) : srcClimb a rel d = srcClimb b rel d := by
  induction d generalizing rel with
  | nil => simp [srcClimb, h [] (List.suffix_refl _)]
  | cons n d ih =>
    simp only [srcClimb]
    rw [h (n :: d) (List.suffix_refl _), ih fun v hv => h v (hv.trans (List.suffix_cons n d))]

theorem Inv.clear {C : Conf} (h : Inv C) (v : Path) (b : Bool) : Inv (clearUnder C v b) := by
  refine ⟨h.root, h.closed, h.back, h.nodup, h.out, ?_, h.vknown⟩
  intro d l hd
  simp only [clearUnder] at hd
  split at hd
  · cases hd
  · exact h.memo d l hd

theorem Inv.step {C C' : Conf} (h : Inv C) {top : Path} {op : Op} (hs : step top C op = some C') : Inv C' := by
  cases op with
  | lookup p => simp only [Variant.step, Option.some.injEq] at hs; exact hs ▸ h.touch p
  | repository r =>
    simp only [Variant.step, Option.some.injEq, addRepository] at hs
    have ht := h.touch r
    split at hs
    · subst hs
      refine Inv.clear ?_ _ _
      exact ⟨ht.root, ht.closed, ht.back, ht.nodup, ht.out, ht.memo, ht.vknown⟩
    · exact hs ▸ ht
  | srcdirs d =>
    simp only [Variant.step, Option.some.injEq, srcdirListM] at hs
    split at hs
    · exact hs ▸ h
    · subst hs
      have ht := h.touchAll (srcdirList C d)
      have hm := touchAll_srcdir C (srcdirList C d)
      refine ⟨ht.root, ht.closed, ht.back, ht.nodup, ht.out, ?_, ht.vknown⟩
      intro d' l hl
      dsimp only at hl
      split at hl
      · rename_i he
        simp only [Option.some.injEq] at hl
        subst he
        rw [← hl]
        unfold srcdirList at hm ⊢
        dsimp only
        rw [hm.1]
      · exact ht.memo d' l hl
  | rdirs d k =>
    simp only [Variant.step, allRdirsM] at hs
    split at hs
    · simp only [Option.map_some, Option.some.injEq] at hs; exact hs ▸ h
    · cases hl : allRdirs C k d with
      | none => simp [hl] at hs
      | some l =>
        simp only [hl, Option.bind_eq_bind, Option.bind_some, Option.map_some, Option.some.injEq] at hs
        subst hs
        have ht := h.touchAll l
        exact ⟨ht.root, ht.closed, ht.back, ht.nodup, ht.out, ht.memo, ht.vknown⟩
  | variantDir v s dup =>
    simp only [Variant.step, variantDir] at hs
    have ht := (h.touch s).touch v
    have hk : (Variant.touch (Variant.touch C s) v).known v = true := (touch_known _ (h.touch s).root (h.touch s).closed v).1
    generalize Variant.touch (Variant.touch C s) v = T at ht hs hk
    split at hs
    · cases hs
    · rename_i hu
      split at hs
      · split at hs
        · simp only [Option.some.injEq] at hs; exact hs ▸ ht
        · cases hs
      · rename_i hv
        simp only [Option.some.injEq] at hs
        subst hs
        have hu' : ¬ v <:+ s := by rw [← isUnder_iff]; exact hu
        refine ⟨ht.root, ht.closed, ?_, ?_, ?_, ?_, ?_⟩
        · intro w t
          simp only [link, clearUnder]
          by_cases hw : w = v
          · subst hw
            rw [if_pos rfl]
            by_cases hts : t = s
            · simp [hts]
            · simp only [hts, if_false, Option.some.injEq]
              constructor
              · intro e; exact absurd e.symm hts
              · intro hm; rw [← ht.back, hv] at hm; cases hm
          · rw [if_neg hw, ht.back]
            split
            · rename_i e; subst e; simp [hw]
            · rfl
        · intro t
          simp only [link, clearUnder]
          split
          · rw [List.nodup_append]
            refine ⟨ht.nodup _, by simp, ?_⟩
            intro a ha b hb
            simp only [List.mem_singleton] at hb
            subst hb
            rintro rfl
            rw [← ht.back, hv] at ha; cases ha
          · exact ht.nodup _
        · intro w t hw
          simp only [link, clearUnder] at hw
          split at hw
          · rename_i e
            simp only [Option.some.injEq] at hw
            subst hw e; exact hu'
          · exact ht.out w t hw
        · intro d l hd
          simp only [link, clearUnder] at hd
          split at hd
          · cases hd
          · rename_i hn
            rw [ht.memo d l hd]
            simp only [srcdirList, link, clearUnder]
            refine srcClimb_congr fun w hw => ?_
            rw [if_neg]
            rintro rfl
            rw [isUnder_iff] at hn
            exact hn hw
        · intro w t hw
          simp only [link, clearUnder] at hw ⊢
          split at hw
          · rename_i e; subst e; exact hk
          · exact ht.vknown w t hw

theorem Inv.run {C C' : Conf} (h : Inv C) {top : Path} {ops : List Op} (hr : run top C ops = some C') : Inv C' := by
  induction ops generalizing C with
  | nil => simp only [Variant.run, List.foldlM_nil, Option.pure_def, Option.some.injEq] at hr; exact hr ▸ h
  | cons op ops ih =>
    simp only [Variant.run, List.foldlM_cons, Option.bind_eq_bind, Option.bind_eq_some_iff] at hr
    obtain ⟨C1, h1, h2⟩ := hr
    exact ih (h.step h1) h2

/-- A state some sequence of calls leads to. -/
def Reachable (top : Path) (C : Conf) : Prop := ∃ ops, run top Conf.init ops = some C

theorem Reachable.inv {top : Path} {C : Conf} (h : Reachable top C) : Inv C := by obtain ⟨ops, h⟩ := h; exact Inv.init.run h

/-! ## VariantDir -/

/-- **C66** `VariantDir(v, s)` is refused exactly when the source directory is the variant directory or lies in it, or the variant directory already has another source directory. -/
theorem C66_variantDir_refused (C : Conf) (v s : Path) (dup : Bool) :
    variantDir C v s dup = none ↔ v <:+ s ∨ ∃ s', C.srcdir v = some s' ∧ s' ≠ s := by
  unfold variantDir
  have e : (touch (touch C s) v).srcdir = C.srcdir := by rw [(touch_srcdir _ _).1, (touch_srcdir _ _).1]
  rw [← isUnder_iff]
  dsimp only
  rw [e]
  by_cases hu : isUnder s v = true
  · simp [hu]
  · rw [if_neg hu]
    cases hv : C.srcdir v with
    | none => simp [hu]
    | some s' => by_cases hs : s' = s <;> simp [hs, hu]

/-- **C66** What an accepted call does: `v` has the source directory `s`; the source directories of all others, and the repositories, are as before; and a second call changes neither. -/
theorem C66_variantDir_accepted {C C' : Conf} {v s : Path} {dup : Bool} (h : variantDir C v s dup = some C') :
    C'.srcdir v = some s ∧ (∀ w, w ≠ v → C'.srcdir w = C.srcdir w) ∧ C'.repos = C.repos ∧ (C.srcdir v = none → C'.dup v = dup) := by
  unfold variantDir at h
  have e : (touch (touch C s) v).srcdir = C.srcdir := by rw [(touch_srcdir _ _).1, (touch_srcdir _ _).1]
  have e2 : (touch (touch C s) v).repos = C.repos := by rw [(touch_srcdir _ _).2.1, (touch_srcdir _ _).2.1]
  dsimp only at h
  generalize touch (touch C s) v = T at h e e2
  split at h
  · cases h
  · rw [e] at h
    split at h
    · rename_i s' hs'
      split at h
      · rename_i hss
        simp only [Option.some.injEq] at h
        subst h
        refine ⟨by rw [e, hs', hss], fun w _ => by rw [e], e2, fun h0 => by rw [hs'] at h0; cases h0⟩
      · cases h
    · simp only [Option.some.injEq] at h
      subst h
      refine ⟨by simp [link, clearUnder], fun w hw => by simp [link, clearUnder, hw, e], by simp [link, clearUnder, e2], fun _ => ?_⟩
      simp only [link, clearUnder]
      cases dup <;> simp

/-- **C66** In every state the calls can lead to, no variant directory has its source directory in it, and each is listed exactly once, by its source directory alone. -/
theorem C66_variant_of {top : Path} {C : Conf} (h : Reachable top C) (v s : Path) :
    (C.srcdir v = some s ↔ v ∈ C.variants s) ∧ (C.variants s).Nodup ∧ (C.srcdir v = some s → ¬ v <:+ s) :=
  ⟨h.inv.back v s, h.inv.nodup s, h.inv.out v s⟩

/-! ## Source nodes -/

/-- `v` is the nearest directory at or above `d` that has a source directory, `rel` the way from it to `d`. -/
def Nearest (C : Conf) (d rel v s : Path) : Prop :=
  d = rel ++ v ∧ C.srcdir v = some s ∧ ∀ rel' v', d = rel' ++ v' → C.srcdir v' ≠ none → rel.length ≤ rel'.length

theorem srcClimb_head (sd : Path → Option Path) (rel d : Path) :
    (srcClimb sd rel d = [] ∧ ∀ v, v <:+ d → sd v = none) ∨
    (∃ r v s l, srcClimb sd rel d = (rel ++ r ++ s) :: l ∧ d = r ++ v ∧ sd v = some s ∧ ∀ r' v', d = r' ++ v' → sd v' ≠ none → r.length ≤ r'.length) := by
  induction d generalizing rel with
  | nil =>
    cases hs : sd [] with
    | none => left; simp only [srcClimb, hs, true_and]; intro v hv; rw [List.suffix_nil] at hv; rw [hv, hs]
    | some s => right; exact ⟨[], [], s, [], by simp [srcClimb, hs], rfl, hs, by simp⟩
  | cons n d ih =>
    cases hs : sd (n :: d) with
    | some s => right; exact ⟨[], n :: d, s, srcClimb sd (rel ++ [n]) d, by simp [srcClimb, hs], rfl, hs, by simp⟩
    | none =>
      rcases ih (rel ++ [n]) with ⟨h1, h2⟩ | ⟨r, v, s, l, h1, h2, h3, h4⟩
      · left
        refine ⟨by simp [srcClimb, hs, h1], ?_⟩
        intro v hv
        rw [List.suffix_cons_iff] at hv
        rcases hv with rfl | hv
        · exact hs
        · exact h2 v hv
      · right
        refine ⟨n :: r, v, s, l, by simp [srcClimb, hs, h1], by simp [h2], h3, ?_⟩
        intro r' v' hd hv'
        cases r' with
        | nil => simp only [List.nil_append] at hd; subst hd; exact absurd hs hv'
        | cons m r' =>
          simp only [List.cons_append, List.cons.injEq] at hd
          have := h4 r' v' hd.2 hv'
          simpa using this

/-- **C66** The source node of the file `n` in the directory `d`: the file of the same name and the same relative path under the source directory of the nearest variant directory at or above `d`. -/
theorem C66_srcnode {C : Conf} {n : String} {d rel v s : Path} (h : Nearest C d rel v s) : srcnode C (n :: d) = n :: (rel ++ s) := by
  obtain ⟨h1, h2, h3⟩ := h
  unfold srcnode srcdirList
  rcases srcClimb_head C.srcdir [] d with ⟨_, hb⟩ | ⟨r, v', s', l, ha, hd, hv', hm⟩
  · have := hb v ⟨rel, h1.symm⟩
    rw [this] at h2; cases h2
  · simp only [ha]
    have e1 := h3 r v' hd (by simp [hv'])
    have e2 := hm rel v h1 (by simp [h2])
    have el : rel.length = r.length := by omega
    rw [hd] at h1
    have := List.append_inj h1 el.symm
    obtain ⟨rfl, rfl⟩ := this
    rw [h2] at hv'
    simp only [Option.some.injEq] at hv'
    simp [hv']

/-- **C66** A file that lies in no variant directory is its own source node. -/
theorem C66_srcnode_self {C : Conf} {n : String} {d : Path} (h : ∀ v, v <:+ d → C.srcdir v = none) : srcnode C (n :: d) = n :: d := by
  unfold srcnode srcdirList
  rcases srcClimb_head C.srcdir [] d with ⟨ha, _⟩ | ⟨r, v', s', l, ha, hd, hv', hm⟩
  · simp [ha]
  · have := h v' ⟨r, hd.symm⟩
    rw [this] at hv'; cases hv'

/-- One of the two always applies. -/
theorem C66_srcnode_cases (C : Conf) (d : Path) : (∃ rel v s, Nearest C d rel v s) ∨ ∀ v, v <:+ d → C.srcdir v = none := by
  rcases srcClimb_head C.srcdir [] d with ⟨_, h⟩ | ⟨r, v, s, _, _, h1, h2, h3⟩
  · exact Or.inr h
  · exact Or.inl ⟨r, v, s, h1, h2, h3⟩

/-- **C66** A directory follows the same rule, itself included. -/
theorem C66_srcnode_dir {C : Conf} {d rel v s : Path} (h : Nearest C d rel v s) : srcnodeDir C d = rel ++ s := by
  unfold srcnodeDir
  obtain ⟨h1, h2, h3⟩ := h
  cases rel with
  | nil => simp only [List.nil_append] at h1; subst h1; simp [h2]
  | cons n rel =>
    cases hd : C.srcdir d with
    | some s' => have := h3 [] d rfl (by simp [hd]); simp at this
    | none =>
      simp only
      rw [h1, List.cons_append]
      rw [List.cons_append]
      refine C66_srcnode (v := v) ⟨rfl, h2, ?_⟩
      intro r' v' he hv'
      have := h3 (n :: r') v' (by rw [h1]; simp [he]) hv'
      simpa using this

/-- **C66** `srcdir_list` remembers its answers across calls, and in every reachable state what it remembers is what it would work out now. -/
theorem C66_srcdirs_memo {top : Path} {C : Conf} (h : Reachable top C) (d : Path) : (srcdirListM C d).2 = srcdirList C d := by
  unfold srcdirListM
  split
  · rename_i l hl; exact h.inv.memo d l hl
  · rfl

/-! ## Repositories -/

/-- Where the files of a directory may be found: in it; under a repository of a directory at or above it, by the same relative path; and, when a directory at or above it is a variant directory that does not duplicate, wherever the
files of its source directory may be found, by the same relative path. -/
inductive Sees (C : Conf) : Path → Path → Prop
  | here (d) : Sees C d d
  | repo (rel v r) : r ∈ C.repos v → Sees C (rel ++ v) (rel ++ r)
  | src (rel v s r) : C.srcdir v = some s → C.dup v = false → Sees C s r → Sees C (rel ++ v) (rel ++ r)

/-- `getRepositories()` at depth `k`. -/
def getRepos (C : Conf) (k : Nat) (v : Path) : Option (List Path) :=
  match C.srcdir v, C.dup v with
  | some s, false => (allRdirs C k s).map (· ++ C.repos v)
  | _, _ => some (C.repos v)

theorem allRdirs_succ (C : Conf) (k : Nat) (d : Path) : allRdirs C (k + 1) d = (rClimb (getRepos C k) [] d).map (d :: ·) := rfl

theorem mem_rClimb {g : Path → Option (List Path)} {rel d : Path} {l : List Path} (h : rClimb g rel d = some l) (x : Path) :
    x ∈ l ↔ ∃ r v lv y, d = r ++ v ∧ g v = some lv ∧ y ∈ lv ∧ x = rel ++ r ++ y := by
  induction d generalizing rel l with
  | nil =>
    simp only [rClimb, Option.map_eq_some_iff] at h
    obtain ⟨lv, h1, h2⟩ := h
    subst h2
    constructor
    · rw [List.mem_map]; rintro ⟨y, hy, rfl⟩; exact ⟨[], [], lv, y, rfl, h1, hy, by simp⟩
    · rintro ⟨r, v, lv', y, hd, hg, hy, rfl⟩
      have hd' := hd.symm
      simp only [List.append_eq_nil_iff] at hd'
      obtain ⟨rfl, rfl⟩ := hd'
      rw [h1] at hg; cases hg
      rw [List.mem_map]; exact ⟨y, hy, by simp⟩
  | cons n d ih =>
    simp only [rClimb, Option.bind_eq_bind, Option.bind_eq_some_iff, Option.some.injEq] at h
    obtain ⟨lv, h1, l', h2, rfl⟩ := h
    rw [List.mem_append, ih h2]
    constructor
    · rintro (hx | ⟨r, v, lw, y, rfl, hg, hy, rfl⟩)
      · rw [List.mem_map] at hx
        obtain ⟨y, hy, rfl⟩ := hx
        exact ⟨[], n :: d, lv, y, rfl, h1, hy, by simp⟩
      · exact ⟨n :: r, v, lw, y, rfl, hg, hy, by simp⟩
    · rintro ⟨r, v, lw, y, hd, hg, hy, rfl⟩
      cases r with
      | nil =>
        left
        simp only [List.nil_append] at hd
        subst hd
        rw [h1] at hg; cases hg
        rw [List.mem_map]; exact ⟨y, hy, by simp⟩
      | cons m r =>
        right
        simp only [List.cons_append, List.cons.injEq] at hd
        obtain ⟨rfl, rfl⟩ := hd
        exact ⟨r, v, lw, y, rfl, hg, hy, by simp⟩

theorem rClimb_some {g : Path → Option (List Path)} {rel d : Path} {l : List Path} (h : rClimb g rel d = some l) {v : Path} (hv : v <:+ d) : ∃ lv, g v = some lv := by
  induction d generalizing rel l with
  | nil =>
    rw [List.suffix_nil] at hv
    subst hv
    simp only [rClimb, Option.map_eq_some_iff] at h
    obtain ⟨lv, h1, _⟩ := h
    exact ⟨lv, h1⟩
  | cons n d ih =>
    simp only [rClimb, Option.bind_eq_bind, Option.bind_eq_some_iff, Option.some.injEq] at h
    obtain ⟨lv, h1, l', h2, rfl⟩ := h
    rw [List.suffix_cons_iff] at hv
    rcases hv with rfl | hv
    · exact ⟨lv, h1⟩
    · exact ih h2 hv

theorem rClimb_total {g : Path → Option (List Path)} {rel d : Path} (h : ∀ v, v <:+ d → ∃ lv, g v = some lv) : ∃ l, rClimb g rel d = some l := by
  induction d generalizing rel with
  | nil => obtain ⟨lv, hlv⟩ := h [] (List.suffix_refl _); simp [rClimb, hlv]
  | cons n d ih =>
    obtain ⟨lv, hlv⟩ := h (n :: d) (List.suffix_refl _)
    obtain ⟨l', hl'⟩ := ih (rel := rel ++ [n]) fun v hv => h v (hv.trans (List.suffix_cons n d))
    exact ⟨_, by simp [rClimb, hlv, hl']; rfl⟩

theorem Sees.under {C : Conf} {d r : Path} (h : Sees C d r) : ∀ k l, allRdirs C k d = some l → r ∈ l := by
  induction h with
  | here d =>
    intro k l hl
    cases k with
    | zero => cases hl
    | succ k => rw [allRdirs_succ, Option.map_eq_some_iff] at hl; obtain ⟨m, _, rfl⟩ := hl; simp
  | repo rel v r hr =>
    intro k l hl
    cases k with
    | zero => cases hl
    | succ k =>
      rw [allRdirs_succ, Option.map_eq_some_iff] at hl
      obtain ⟨m, hm, rfl⟩ := hl
      obtain ⟨lv, hlv⟩ := rClimb_some hm (v := v) ⟨rel, rfl⟩
      refine List.mem_cons_of_mem _ ((mem_rClimb hm _).2 ⟨rel, v, lv, r, rfl, hlv, ?_, by simp⟩)
      unfold getRepos at hlv
      split at hlv
      · rw [Option.map_eq_some_iff] at hlv; obtain ⟨x, _, rfl⟩ := hlv; exact List.mem_append_right _ hr
      · simp only [Option.some.injEq] at hlv; exact hlv ▸ hr
  | src rel v s r hs hd _ ih =>
    intro k l hl
    cases k with
    | zero => cases hl
    | succ k =>
      rw [allRdirs_succ, Option.map_eq_some_iff] at hl
      obtain ⟨m, hm, rfl⟩ := hl
      obtain ⟨lv, hlv⟩ := rClimb_some hm (v := v) ⟨rel, rfl⟩
      refine List.mem_cons_of_mem _ ((mem_rClimb hm _).2 ⟨rel, v, lv, r, rfl, hlv, ?_, by simp⟩)
      simp only [getRepos, hs, hd, Option.map_eq_some_iff] at hlv
      obtain ⟨x, hx, rfl⟩ := hlv
      exact List.mem_append_left _ (ih k x hx)

/-- **C66** The directories searched for a directory's files are exactly those it sees. -/
theorem C66_rdirs_mem {C : Conf} {k : Nat} {d : Path} {l : List Path} (h : allRdirs C k d = some l) (r : Path) : r ∈ l ↔ Sees C d r := by
  refine ⟨?_, fun hs => hs.under k l h⟩
  induction k generalizing d l r with
  | zero => cases h
  | succ k ih =>
    intro hr
    rw [allRdirs_succ, Option.map_eq_some_iff] at h
    obtain ⟨m, hm, rfl⟩ := h
    rw [List.mem_cons] at hr
    rcases hr with rfl | hr
    · exact .here _
    · obtain ⟨rel, v, lv, y, rfl, hg, hy, rfl⟩ := (mem_rClimb hm _).1 hr
      simp only [List.nil_append]
      unfold getRepos at hg
      split at hg
      · rename_i s hs hd
        rw [Option.map_eq_some_iff] at hg
        obtain ⟨x, hx, rfl⟩ := hg
        rw [List.mem_append] at hy
        rcases hy with hy | hy
        · exact .src rel v s y hs hd (ih hx y hy)
        · exact .repo rel v y hy
      · simp only [Option.some.injEq] at hg
        exact .repo rel v y (hg ▸ hy)

/-- The part of `d` below its ancestor `v`. -/
def below (d v : Path) : Path := d.take (d.length - v.length)

theorem rClimb_eq (g : Path → List Path) (rel d : Path) :
    rClimb (fun v => some (g v)) rel d = some (d.tails.flatMap fun v => (g v).map (rel ++ below d v ++ ·)) := by
  induction d generalizing rel with
  | nil => simp [rClimb, below]
  | cons n d ih =>
    simp only [rClimb, ih, Option.bind_eq_bind, Option.bind_some, List.tails_cons, List.flatMap_cons]
    congr 1
    congr 1
    · simp [below]
    · rw [List.flatMap_def, List.flatMap_def]
      congr 1
      refine List.map_congr_left fun v hv => ?_
      rw [List.mem_tails] at hv
      have hl := hv.length_le
      congr 1
      funext x
      unfold below
      rw [List.length_cons, show d.length + 1 - v.length = (d.length - v.length) + 1 by omega, List.take_succ_cons]
      simp

theorem rClimb_map {g : Path → Option (List Path)} {rel d : Path} {l : List Path} (h : rClimb g rel d = some l) : rClimb (fun v => some ((g v).getD [])) rel d = some l := by
  induction d generalizing rel l with
  | nil =>
    simp only [rClimb, Option.map_eq_some_iff] at h ⊢
    obtain ⟨lv, h1, h2⟩ := h
    exact ⟨lv, by simp [h1], h2⟩
  | cons n d ih =>
    simp only [rClimb, Option.bind_eq_bind, Option.bind_eq_some_iff, Option.some.injEq] at h ⊢
    obtain ⟨lv, h1, l', h2, rfl⟩ := h
    exact ⟨lv, by simp [h1], l', ih h2, rfl⟩

/-- **C66** The order of the search: the directory itself first; then, for each directory at or above it, from the nearest to the root, what the source directory sees (when there is one and it is not duplicated), then the
repositories in the order in which they were given, each with the same relative path. -/
theorem C66_rdirs_order {C : Conf} {k : Nat} {d : Path} {l : List Path} (h : allRdirs C (k + 1) d = some l) :
    l = d :: d.tails.flatMap fun v =>
      ((match C.srcdir v, C.dup v with
        | some s, false => (allRdirs C k s).getD []
        | _, _ => []) ++ C.repos v).map (below d v ++ ·) := by
  rw [allRdirs_succ, Option.map_eq_some_iff] at h
  obtain ⟨m, hm, rfl⟩ := h
  have hm' := rClimb_map hm
  rw [rClimb_eq] at hm'
  simp only [Option.some.injEq, List.nil_append] at hm'
  rw [← hm']
  congr 1
  rw [List.flatMap_def, List.flatMap_def]
  congr 1
  refine List.map_congr_left fun v hv => ?_
  rw [List.mem_tails] at hv
  obtain ⟨lv, hlv⟩ := rClimb_some hm hv
  congr 1
  unfold getRepos at hlv ⊢
  cases hs : C.srcdir v with
  | none => simp
  | some s =>
    cases hd : C.dup v with
    | true => simp
    | false =>
      simp only [hs, hd, Option.map_eq_some_iff] at hlv
      obtain ⟨x, hx, -⟩ := hlv
      simp [hx]

/-- The search of `d` goes on to the source directory `s`. -/
def Jump (C : Conf) (d s : Path) : Prop := ∃ v, v <:+ d ∧ C.srcdir v = some s ∧ C.dup v = false

theorem allRdirs_mono {C : Conf} {k : Nat} {d : Path} {l : List Path} (h : allRdirs C k d = some l) : allRdirs C (k + 1) d = some l := by
  induction k generalizing d l with
  | zero => cases h
  | succ k ih =>
    rw [allRdirs_succ, Option.map_eq_some_iff] at h
    obtain ⟨m, hm, rfl⟩ := h
    rw [allRdirs_succ, Option.map_eq_some_iff]
    refine ⟨m, ?_, rfl⟩
    have key : ∀ rel e m, rClimb (getRepos C k) rel e = some m → rClimb (getRepos C (k + 1)) rel e = some m := by
      have hg : ∀ v lv, getRepos C k v = some lv → getRepos C (k + 1) v = some lv := by
        intro v lv hv
        unfold getRepos at hv ⊢
        split at hv
        · rw [Option.map_eq_some_iff] at hv
          obtain ⟨x, hx, rfl⟩ := hv
          simp [ih hx]
        · exact hv
      intro rel e
      induction e generalizing rel with
      | nil =>
        intro m h
        simp only [rClimb, Option.map_eq_some_iff] at h ⊢
        obtain ⟨lv, h1, h2⟩ := h
        exact ⟨lv, hg _ _ h1, h2⟩
      | cons n e ihe =>
        intro m h
        simp only [rClimb, Option.bind_eq_bind, Option.bind_eq_some_iff, Option.some.injEq] at h ⊢
        obtain ⟨lv, h1, l', h2, rfl⟩ := h
        exact ⟨lv, hg _ _ h1, l', ihe _ _ h2, rfl⟩
    exact key _ _ _ hm

theorem allRdirs_mono' {C : Conf} {k j : Nat} {d : Path} {l : List Path} (h : allRdirs C k d = some l) (hj : k ≤ j) : allRdirs C j d = some l := by
  induction hj with
  | refl => exact h
  | step _ ih => exact allRdirs_mono ih

/-- **C66** The answer does not depend on how deep the recursion may go, if it is deep enough. -/
theorem C66_rdirs_det {C : Conf} {j k : Nat} {d : Path} {l l' : List Path} (h : allRdirs C j d = some l) (h' : allRdirs C k d = some l') : l = l' := by
  have a := allRdirs_mono' h (Nat.le_max_left j k)
  have b := allRdirs_mono' h' (Nat.le_max_right j k)
  rw [a] at b; exact Option.some.inj b

/-- **C66** The search ends exactly when following source directories that are not duplicated, from any directory at or above, does not go on for ever. -/
theorem C66_rdirs_ends (C : Conf) (d : Path) : (∃ k l, allRdirs C k d = some l) ↔ Acc (fun s d => Jump C d s) d := by
  constructor
  · rintro ⟨k, l, h⟩
    induction k generalizing d l with
    | zero => cases h
    | succ k ih =>
      refine ⟨_, fun s ⟨v, hv, hs, hd⟩ => ?_⟩
      rw [allRdirs_succ, Option.map_eq_some_iff] at h
      obtain ⟨m, hm, rfl⟩ := h
      obtain ⟨lv, hlv⟩ := rClimb_some hm hv
      simp only [getRepos, hs, hd, Option.map_eq_some_iff] at hlv
      obtain ⟨x, hx, -⟩ := hlv
      exact ih s x hx
  · intro h
    induction h with
    | intro d _ ih =>
      have hb : ∀ e, e <:+ d → ∃ k, ∀ v, v <:+ e → ∃ lv, getRepos C k v = some lv := by
        have one : ∀ v, v <:+ d → ∃ k lv, getRepos C k v = some lv := by
          intro v hv
          cases hs : C.srcdir v with
          | none => exact ⟨0, _, by simp [getRepos, hs]; rfl⟩
          | some s =>
            cases hd : C.dup v with
            | true => exact ⟨0, _, by simp [getRepos, hs, hd]; rfl⟩
            | false =>
              obtain ⟨k, l, hl⟩ := ih s ⟨v, hv, hs, hd⟩
              exact ⟨k, _, by simp [getRepos, hs, hd, hl]; rfl⟩
        have up : ∀ v j k lv, getRepos C j v = some lv → j ≤ k → getRepos C k v = some lv := by
          intro v j k lv hv hj
          unfold getRepos at hv ⊢
          split at hv
          · rw [Option.map_eq_some_iff] at hv
            obtain ⟨x, hx, rfl⟩ := hv
            simp [allRdirs_mono' hx hj]
          · exact hv
        intro e
        induction e with
        | nil => intro he; obtain ⟨k, lv, h⟩ := one [] he; exact ⟨k, fun v hv => by rw [List.suffix_nil] at hv; exact ⟨lv, hv ▸ h⟩⟩
        | cons n e ihe =>
          intro he
          obtain ⟨k1, h1⟩ := ihe ((List.suffix_cons n e).trans he)
          obtain ⟨k2, lv2, h2⟩ := one (n :: e) he
          refine ⟨max k1 k2, fun v hv => ?_⟩
          rw [List.suffix_cons_iff] at hv
          rcases hv with rfl | hv
          · exact ⟨lv2, up _ _ _ _ h2 (Nat.le_max_right _ _)⟩
          · obtain ⟨lv, h⟩ := h1 v hv; exact ⟨lv, up _ _ _ _ h (Nat.le_max_left _ _)⟩
      obtain ⟨k, hk⟩ := hb d (List.suffix_refl d)
      obtain ⟨l, hl⟩ := rClimb_total (rel := []) hk
      exact ⟨k + 1, d :: l, by rw [allRdirs_succ, hl]; rfl⟩

/-- **C66** With repositories only, or with variant directories that duplicate, the search always ends. -/
theorem C66_rdirs_ends_dup {C : Conf} (h : ∀ v s, C.srcdir v = some s → C.dup v = true) (d : Path) : ∃ l, allRdirs C 1 d = some l := by
  have : ∃ l, rClimb (getRepos C 0) [] d = some l := by
    refine rClimb_total fun v _ => ?_
    unfold getRepos
    split
    · rename_i s hs hd; rw [h v s hs] at hd; cases hd
    · exact ⟨_, rfl⟩
  obtain ⟨l, hl⟩ := this
  exact ⟨d :: l, by rw [allRdirs_succ, hl]; rfl⟩

/-- **C66, counterexample** Two directories may each be made the variant directory of the other without an error; with `duplicate=0` the search for a file in either never ends (RecursionError), whatever the depth. -/
theorem C66_cycle : ∃ C, Reachable [] C ∧ ∀ k, allRdirs C k ["a"] = none := by
  refine ⟨_, ⟨[.variantDir ["a"] ["b"] false, .variantDir ["b"] ["a"] false], rfl⟩, fun k => ?_⟩
  generalize hC : link _ ["b"] ["a"] false = C
  have ha : C.srcdir ["a"] = some ["b"] := by rw [← hC]; decide
  have hb : C.srcdir ["b"] = some ["a"] := by rw [← hC]; decide
  have da : C.dup ["a"] = false := by rw [← hC]; decide
  have db : C.dup ["b"] = false := by rw [← hC]; decide
  clear hC
  have key : ∀ k, allRdirs C k ["a"] = none ∧ allRdirs C k ["b"] = none := by
    intro k
    induction k with
    | zero => exact ⟨rfl, rfl⟩
    | succ k ih => constructor <;> simp [allRdirs_succ, rClimb, getRepos, ha, hb, da, db, ih]
  exact (key k).1

/-! ## The memo of `get_all_rdirs` -/

/-- What the search remembers is what it would find now. -/
def MemoRight (C : Conf) : Prop := ∀ d l, C.memoR d = some l → ∃ k, allRdirs C k d = some l

/-- No variant directory does without duplication. -/
def AllDup (C : Conf) : Prop := ∀ v s, C.srcdir v = some s → C.dup v = true

theorem allRdirs_dup {C : Conf} (h : AllDup C) (k : Nat) (d : Path) : allRdirs C (k + 1) d = some (d :: d.tails.flatMap fun v => (C.repos v).map (below d v ++ ·)) := by
  obtain ⟨l, hl⟩ := C66_rdirs_ends_dup h d
  rw [allRdirs_mono' hl (by omega : 1 ≤ k + 1), C66_rdirs_order hl]
  congr 2
  rw [List.flatMap_def, List.flatMap_def]
  congr 1
  refine List.map_congr_left fun v _ => ?_
  cases hs : C.srcdir v with
  | none => simp
  | some s => simp [h v s hs]

/-- The calls that ask for duplication (the default). -/
def Op.dups : Op → Prop
  | .variantDir _ _ dup => dup = true
  | _ => True

structure InvD (C : Conf) : Prop extends Inv C where
  alldup : AllDup C
  memoR : ∀ d l, C.memoR d = some l → l = d :: d.tails.flatMap fun v => (C.repos v).map (below d v ++ ·)

theorem InvD.touch {C : Conf} (h : InvD C) (p : Path) : InvD (touch C p) := by
  obtain ⟨e1, e2, e3, e4, e5⟩ := touch_srcdir C p
  obtain ⟨k1, k2, k3, k4⟩ := touch_known C h.root h.closed p
  refine ⟨h.toInv.touch p, ?_, by rw [e2, e5]; exact h.memoR⟩
  intro v s hv
  rw [e1] at hv
  rw [(k4 v (h.vknown v s hv)).2]
  exact h.alldup v s hv

theorem InvD.touchAll {C : Conf} (h : InvD C) (l : List Path) : InvD (touchAll C l) := by
  induction l generalizing C with
  | nil => exact h
  | cons p l ih => exact ih (h.touch p)

theorem InvD.clear {C : Conf} (h : InvD C) (v : Path) (b : Bool) : InvD (clearUnder C v b) := by
  refine ⟨h.toInv.clear v b, ?_, ?_⟩
  · intro w s hw
    simp only [clearUnder] at hw ⊢
    split
    · rfl
    · exact h.alldup w s hw
  · intro d l hd
    simp only [clearUnder] at hd ⊢
    split at hd
    · cases hd
    · exact h.memoR d l hd

theorem InvD.step {C C' : Conf} (h : InvD C) {top : Path} {op : Op} (ho : op.dups) (hs : step top C op = some C') : InvD C' := by
  have hi := h.toInv.step hs
  cases op with
  | lookup p => simp only [Variant.step, Option.some.injEq] at hs; exact hs ▸ h.touch p
  | repository r =>
    simp only [Variant.step, Option.some.injEq, addRepository] at hs
    have ht := h.touch r
    generalize Variant.touch C r = T at ht hs
    split at hs
    · subst hs
      refine ⟨hi, ?_, ?_⟩
      · intro w s hw
        simp only [clearUnder] at hw ⊢
        split
        · rfl
        · exact ht.alldup w s hw
      · intro d l hd
        simp only [clearUnder] at hd ⊢
        split at hd
        · cases hd
        · rename_i hn
          rw [isUnder_iff] at hn
          rw [ht.memoR d l hd]
          congr 1
          rw [List.flatMap_def, List.flatMap_def]
          congr 1
          refine List.map_congr_left fun v hv => ?_
          rw [List.mem_tails] at hv
          rw [if_neg]
          rintro rfl
          exact hn hv
    · exact hs ▸ ht
  | srcdirs d =>
    simp only [Variant.step, Option.some.injEq, srcdirListM] at hs
    split at hs
    · exact hs ▸ h
    · subst hs
      have ht := h.touchAll (srcdirList C d)
      exact ⟨hi, ht.alldup, ht.memoR⟩
  | rdirs d k =>
    simp only [Variant.step, allRdirsM] at hs
    split at hs
    · simp only [Option.map_some, Option.some.injEq] at hs; exact hs ▸ h
    · cases hl : allRdirs C k d with
      | none => simp [hl] at hs
      | some l =>
        simp only [hl, Option.bind_eq_bind, Option.bind_some, Option.map_some, Option.some.injEq] at hs
        subst hs
        have ht := h.touchAll l
        have hm := touchAll_srcdir C l
        refine ⟨hi, ht.alldup, ?_⟩
        intro d' l' hl'
        dsimp only at hl' ⊢
        split at hl'
        · rename_i he
          simp only [Option.some.injEq] at hl'
          subst he hl'
          cases k with
          | zero => cases hl
          | succ k => rw [allRdirs_dup h.alldup k d'] at hl; rw [hm.2.1]; exact (Option.some.inj hl).symm
        · exact ht.memoR d' l' hl'
  | variantDir v s dup =>
    simp only [Op.dups] at ho
    subst ho
    simp only [Variant.step, variantDir] at hs
    have ht := (h.touch s).touch v
    generalize Variant.touch (Variant.touch C s) v = T at ht hs
    split at hs
    · cases hs
    · split at hs
      · split at hs
        · simp only [Option.some.injEq] at hs; exact hs ▸ ht
        · cases hs
      · simp only [Option.some.injEq] at hs
        subst hs
        refine ⟨hi, ?_, ?_⟩
        · intro w t hw
          simp only [link, clearUnder] at hw ⊢
          by_cases hwv : w = v
          · simp [hwv]
          · rw [if_neg hwv] at hw
            simp [hwv, ht.alldup w t hw]
        · intro d l hd
          simp only [link, clearUnder] at hd ⊢
          split at hd
          · cases hd
          · exact ht.memoR d l hd

/-- **C66** When every variant directory duplicates (the default), the directories a search remembers, in whatever state the calls have led to, are those it would find now: itself, then the repositories of each directory at or
above, nearest first, with the same relative path. -/
theorem C66_memo_right_partial {top : Path} {C : Conf} {ops : List Op} (hr : run top Conf.init ops = some C) (ho : ∀ o ∈ ops, o.dups) (d : Path) (k : Nat) :
    (allRdirsM C (k + 1) d).map (·.2) = some (d :: d.tails.flatMap fun v => (C.repos v).map (below d v ++ ·)) := by
  have key : ∀ (ops : List Op) (C0 : Conf), InvD C0 → (∀ o ∈ ops, o.dups) → run top C0 ops = some C → InvD C := by
    intro ops
    induction ops with
    | nil => intro C0 h0 _ hr; simp only [Variant.run, List.foldlM_nil, Option.pure_def, Option.some.injEq] at hr; exact hr ▸ h0
    | cons op ops ih =>
      intro C0 h0 ho hr
      simp only [Variant.run, List.foldlM_cons, Option.bind_eq_bind, Option.bind_eq_some_iff] at hr
      obtain ⟨C1, h1, h2⟩ := hr
      exact ih C1 (h0.step (ho op (by simp)) h1) (fun o h => ho o (by simp [h])) h2
  have h0 : InvD Conf.init := ⟨Inv.init, by intro v s h; simp [Conf.init] at h, by intro d l h; simp [Conf.init] at h⟩
  have h := key ops _ h0 ho hr
  unfold allRdirsM
  split
  · rename_i l hl; simp [h.memoR d l hl]
  · rw [allRdirs_dup h.alldup]; rfl

/-- **C66, counterexample** A search that has been done is not done again after its outcome has changed: the answer remembered for `build` misses the directory that `src` is, since then, the variant directory of. -/
theorem C66_memo_stale : ∃ C, Reachable [] C ∧ ∃ l, C.memoR ["build"] = some l ∧ ["orig"] ∉ l ∧ Sees C ["build"] ["orig"] := by
  refine ⟨_, ⟨[.variantDir ["build"] ["src"] false, .rdirs ["build"] 5, .variantDir ["src"] ["orig"] false], rfl⟩, [["build"], ["src"]], by decide +kernel, by decide, ?_⟩
  refine .src [] ["build"] ["src"] ["orig"] (by decide +kernel) (by decide +kernel) ?_
  exact .src [] ["src"] ["orig"] ["orig"] (by decide +kernel) (by decide +kernel) (.here _)

/-! ## The flag `duplicate` -/

/-- **C66** A node made after the call takes `duplicate` from its directory; with `duplicate=1` so do the nodes that were there already. -/
theorem C66_duplicate_on {C : Conf} {v s : Path} (hi : Inv C) (hn : C.srcdir v = none) (hv : ¬ v <:+ s) {C' : Conf} (h : variantDir C v s true = some C') {p : Path} (hp : v <:+ p) (hk : C'.known p = true) : C'.dup p = true := by
  unfold variantDir at h
  have e : (touch (touch C s) v).srcdir = C.srcdir := by rw [(touch_srcdir _ _).1, (touch_srcdir _ _).1]
  dsimp only at h
  generalize touch (touch C s) v = T at h e
  rw [if_neg (by rw [isUnder_iff]; exact hv), e, hn] at h
  simp only [Option.some.injEq] at h
  subst h
  simp only [link, clearUnder] at hk ⊢
  rw [if_pos]
  simp [(isUnder_iff p v).2 hp, hk]

theorem touch_dup_new {C : Conf} (h0 : C.known [] = true) (hc : Closed C) {p v : Path} (hv : v <:+ p) (hk : C.known v = true) (hn : ∀ q, v <:+ q → q ≠ v → C.known q = false) : (touch C p).dup p = C.dup v := by
  induction p with
  | nil => rw [List.suffix_nil] at hv; subst hv; rfl
  | cons n d ih =>
    rw [List.suffix_cons_iff] at hv
    rcases hv with rfl | hv
    · exact ((touch_known C h0 hc (n :: d)).2.2.2 _ hk).2
    · have hne : n :: d ≠ v := by rintro rfl; have := hv.length_le; simp only [List.length_cons] at this; omega
      have hkn : C.known (n :: d) = false := hn (n :: d) (hv.trans (List.suffix_cons n d)) hne
      have hd := ih hv
      have hun : ∀ e, (touch C e).known (n :: d) = true → C.known (n :: d) = true ∨ (n :: d) <:+ e := by
        intro e
        induction e with
        | nil => intro h; exact Or.inl h
        | cons m e ihe =>
          simp only [touch]
          split
          · intro h; rcases ihe h with h | h
            · exact Or.inl h
            · exact Or.inr (h.trans (List.suffix_cons m e))
          · intro h
            simp only [Bool.or_eq_true, decide_eq_true_eq] at h
            rcases h with h | h
            · right; rw [h]
            · rcases ihe h with h | h
              · exact Or.inl h
              · exact Or.inr (h.trans (List.suffix_cons m e))
      simp only [touch]
      have hf : (touch C d).known (n :: d) = false := by
        cases hb : (touch C d).known (n :: d) with
        | false => rfl
        | true =>
          rcases hun d hb with h | h
          · rw [hkn] at h; cases h
          · have := h.length_le; simp only [List.length_cons] at this; omega
      simp [hf, hd]

/-- **C66** A node made under the variant directory, none having been there before, has the directory's `duplicate`. -/
theorem C66_duplicate_new {C : Conf} (hi : Inv C) {p v s : Path} (hs : C.srcdir v = some s) (hv : v <:+ p) (hn : ∀ q, v <:+ q → q ≠ v → C.known q = false) : (touch C p).dup p = C.dup v :=
  touch_dup_new hi.root hi.closed hv (hi.vknown v s hs) hn

/-- **C66, counterexample** `duplicate=0` for a directory inside a duplicated one does not survive a later call for the outer directory: the same two calls in the two orders end with different flags. -/
theorem C66_duplicate_order :
    (∃ C, run [] Conf.init [.variantDir ["b"] ["src"] true, .variantDir ["sub", "b"] ["other"] false] = some C ∧ C.dup ["sub", "b"] = false) ∧
    (∃ C, run [] Conf.init [.variantDir ["sub", "b"] ["other"] false, .variantDir ["b"] ["src"] true] = some C ∧ C.dup ["sub", "b"] = true) :=
  ⟨⟨_, rfl, by decide +kernel⟩, ⟨_, rfl, by decide +kernel⟩⟩

/-- **C66, counterexample** And `duplicate=0` does not reach a node that was there before: the file goes on being duplicated. -/
theorem C66_duplicate_old : ∃ C, run [] Conf.init [.variantDir ["b"] ["src"] true, .lookup ["f.c", "sub", "b"], .variantDir ["sub", "b"] ["other"] false] = some C ∧ C.dup ["sub", "b"] = false ∧ C.dup ["f.c", "sub", "b"] = true :=
  ⟨_, rfl, by decide +kernel, by decide +kernel⟩

/-! ## Targets named by their source -/

open Classical in
theorem climbTargets_eq (vs : Path → List Path) (start tail d : Path) :
    climbTargets vs start tail d =
      if (∃ a, a <:+ d ∧ ∃ b ∈ vs a, b <:+ start) then none else some (d.tails.flatMap fun a => (vs a).map (tail ++ below d a ++ ·)) := by
  have hany : ∀ l : List Path, l.any (isUnder start) = true ↔ ∃ b ∈ l, b <:+ start := by intro l; simp only [List.any_eq_true, isUnder_iff]
  induction d generalizing tail with
  | nil =>
    simp only [climbTargets, hany]
    by_cases h : ∃ b ∈ vs [], b <:+ start
    · rw [if_pos h, if_pos ⟨[], List.suffix_refl _, h⟩]
    · rw [if_neg h, if_neg]
      · simp [below]
      · rintro ⟨a, ha, hb⟩; rw [List.suffix_nil] at ha; subst ha; exact h hb
  | cons n d ih =>
    simp only [climbTargets, hany]
    by_cases h : ∃ b ∈ vs (n :: d), b <:+ start
    · rw [if_pos h, if_pos ⟨n :: d, List.suffix_refl _, h⟩]
    · rw [if_neg h, ih]
      by_cases h2 : ∃ a, a <:+ d ∧ ∃ b ∈ vs a, b <:+ start
      · obtain ⟨a, ha, hb⟩ := h2
        rw [if_pos ⟨a, ha, hb⟩, if_pos ⟨a, ha.trans (List.suffix_cons n d), hb⟩]
        rfl
      · rw [if_neg h2, if_neg]
        · simp only [Option.map_some, Option.some.injEq, List.tails_cons, List.flatMap_cons]
          congr 1
          · simp [below]
          · rw [List.flatMap_def, List.flatMap_def]
            congr 1
            refine List.map_congr_left fun v hv => ?_
            rw [List.mem_tails] at hv
            have hl := hv.length_le
            congr 1
            funext x
            unfold below
            rw [List.length_cons, show d.length + 1 - v.length = (d.length - v.length) + 1 by omega, List.take_succ_cons]
            simp
        · rintro ⟨a, ha, hb⟩
          rw [List.suffix_cons_iff] at ha
          rcases ha with rfl | ha
          · exact h hb
          · exact h2 ⟨a, ha, hb⟩

/-- **C66** A source file named as a target stands for the files of the same relative path in every variant directory of every directory above it, nearest first, in the order of the calls. -/
theorem C66_alter_file {C : Conf} {top : Path} (hr : Reachable top C) {n : String} {d : Path} (h : ∀ v s, C.srcdir v = some s → s <:+ d → ¬ v <:+ d) :
    alterFile C n d = d.tails.flatMap fun a => (C.variants a).map (n :: below d a ++ ·) := by
  unfold alterFile
  rw [climbTargets_eq, if_neg]
  · simp
  · rintro ⟨a, ha, b, hb, hbd⟩; exact h b a ((hr.inv.back b a).2 hb) ha hbd

/-- **C66** A file that already lies in a variant directory of a directory above it stands for itself. -/
theorem C66_alter_file_inside {C : Conf} {top : Path} (hr : Reachable top C) {n : String} {d v s : Path} (hv : C.srcdir v = some s) (hs : s <:+ d) (hd : v <:+ d) : alterFile C n d = [n :: d] := by
  unfold alterFile
  rw [climbTargets_eq, if_pos]
  · rfl
  · exact ⟨s, hs, v, (hr.inv.back v s).1 hv, hd⟩

/-- **C66** Naming a source and naming its variants agree: each target a source file stands for has, when its variant directory is the nearest, that file as its source node. -/
theorem C66_alter_srcnode {C : Conf} {top : Path} (hr : Reachable top C) {n : String} {rel v s : Path} (hv : C.srcdir v = some s)
    (hin : ∀ v' s', C.srcdir v' = some s' → s' <:+ rel ++ s → ¬ v' <:+ rel ++ s) (hnear : ∀ w, w <:+ rel ++ v → C.srcdir w ≠ none → w <:+ v) :
    n :: (rel ++ v) ∈ alterFile C n (rel ++ s) ∧ srcnode C (n :: (rel ++ v)) = n :: (rel ++ s) := by
  constructor
  · rw [C66_alter_file hr hin, List.mem_flatMap]
    refine ⟨s, by rw [List.mem_tails]; exact ⟨rel, rfl⟩, ?_⟩
    rw [List.mem_map]
    exact ⟨v, (hr.inv.back v s).1 hv, by simp [below]⟩
  · refine C66_srcnode ⟨rfl, hv, fun r' v' he hv' => ?_⟩
    have h1 := (hnear v' ⟨r', he.symm⟩ hv').length_le
    have h2 := congrArg List.length he
    simp only [List.length_append] at h2
    omega

/-- A state that meets the hypotheses above: a project with a variant directory of `src`, another of the top directory, and a repository. -/
theorem C66_conf_nonvacuous : ∃ C, Reachable ["top"] C ∧
    srcnode C ["f.c", "sub", "build", "top"] = ["f.c", "sub", "src", "top"] ∧
    alterFile C "f.c" ["sub", "src", "top"] = [["f.c", "sub", "build", "top"], ["f.c", "sub", "v0", "top"]] ∧
    allRdirs C 3 ["sub", "v0", "top"] = some [["sub", "v0", "top"], ["sub", "src", "top"], ["sub", "src", "rep"], ["sub", "v0", "rep"]] := by
  refine ⟨_, ⟨[.variantDir ["build", "top"] ["src", "top"] true, .repository ["rep"], .variantDir ["v0", "top"] ["src", "top"] false], rfl⟩, ?_, ?_, ?_⟩ <;> decide +kernel

end Verif.FS.Variant
