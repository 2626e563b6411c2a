import Verif.FileAct.Model

/-!
# `Delete`, `Mkdir` and `Touch` do what they say (C103)
-/

namespace Verif.FileAct

/-- Everything is in a directory. -/
def FS.WF (fs : FS) : Prop := ∀ p x o, fs.get (p ++ [x]) = some o → fs.get p = some .dir

/-- There are no write-protected directories. -/
def FS.Open (fs : FS) : Prop := fs.prot = []

theorem may_open {fs : FS} (h : fs.Open) (p : Path) : fs.may p = true := by
  unfold FS.may; rw [h]; simp

theorem get_filter (l : List (Path × Obj)) (pr : List Path) (k : Path → Bool) (q : Path) :
    (FS.mk (l.filter fun x => k x.1) pr).get q = if k q then (FS.mk l pr).get q else none := by
  unfold FS.get
  simp only
  induction l with
  | nil => simp
  | cons x l ih =>
    by_cases hk : k x.1 = true
    · rw [List.filter_cons, if_pos hk]
      by_cases hq : x.1 = q
      · subst hq; simp [hk]
      · simp only [List.find?_cons, hq, decide_false]; exact ih
    · rw [List.filter_cons, if_neg hk]
      by_cases hq : x.1 = q
      · subst hq
        rw [ih]
        simp [hk]
      · rw [ih]
        simp only [List.find?_cons, hq, decide_false]

theorem get_drop (fs : FS) (p q : Path) : (fs.drop p).get q = if q = p then none else fs.get q := by
  have := get_filter fs.objs fs.prot (fun x => decide (x ≠ p)) q
  unfold FS.drop
  rw [this]
  by_cases h : q = p <;> simp [h]

theorem get_put (fs : FS) (p : Path) (o : Obj) (q : Path) : (fs.put p o).get q = if q = p then some o else fs.get q := by
  by_cases h : q = p
  · subst h; simp [FS.put, FS.get]
  · have h' : ¬ p = q := fun e => h e.symm
    rw [if_neg h, ← (show (fs.drop p).get q = fs.get q by rw [get_drop, if_neg h])]
    simp [FS.put, FS.get, FS.drop, h']

theorem get_mem {fs : FS} {p : Path} {o : Obj} (h : fs.get p = some o) : (p, o) ∈ fs.objs := by
  unfold FS.get at h
  rcases hf : fs.objs.find? (fun x => decide (x.1 = p)) with _ | x
  · rw [hf] at h; simp at h
  · rw [hf] at h
    have h1 := List.find?_some hf
    have h2 := List.mem_of_find?_eq_some hf
    simp at h h1
    rw [← h, ← h1]; exact h2

theorem get_none_iff {fs : FS} {p : Path} : fs.get p = none ↔ ∀ x ∈ fs.objs, x.1 ≠ p := by
  unfold FS.get
  simp [List.find?_eq_none]

theorem get_rmtree {fs : FS} (ho : fs.Open) (p q : Path) : (fs.rmtree p).get q = if p <+: q then none else fs.get q := by
  have := get_filter fs.objs fs.prot (fun x => decide ¬ (p <+: x ∧ fs.objs.all fun y => decide (x <+: y.1 → fs.may y.1))) q
  unfold FS.rmtree
  rw [this]
  have ha : (fs.objs.all fun y => decide (q <+: y.1 → fs.may y.1)) = true := by
    simp [may_open ho]
  rw [ha]
  by_cases h : p <+: q <;> simp [h]

/-- Below something that is not a directory there is nothing. -/
theorem below_nothing {fs : FS} (h : fs.WF) {p q : Path} (hp : p <+: q) (hne : p ≠ q) (hd : fs.get p ≠ some .dir) : fs.get q = none := by
  obtain ⟨r, rfl⟩ := hp
  have hr : r ≠ [] := by rintro rfl; simp at hne
  clear hne
  have : ∀ n (r : Path), r.length = n → r ≠ [] → fs.get (p ++ r) = none := by
    intro n
    induction n with
    | zero => intro r hl hr; exact absurd (List.length_eq_zero_iff.1 hl) hr
    | succ n ih =>
      intro r hl hr
      rcases List.eq_nil_or_concat r with h' | ⟨r', x, rfl⟩ <;> try rw [List.concat_eq_append] at *
      · exact absurd h' hr
      · rcases hg : fs.get (p ++ (r' ++ [x])) with _ | o
        · rfl
        · exfalso
          rw [← List.append_assoc] at hg
          have h1 := h _ _ _ hg
          by_cases hr' : r' = []
          · subst hr'; simp at h1; exact hd h1
          · rw [ih r' (by simp at hl; omega) hr'] at h1
            cases h1
  exact this _ r rfl hr

theorem stat_of_get {fs : FS} {p : Path} {o : Obj} (h : fs.get p = some o) (hl : ∀ t, o ≠ .link t) : fs.stat p = some o := by
  have : fs.follow 40 p = p := by
    rw [show (40 : Nat) = 39 + 1 from rfl, FS.follow, h]
    cases o <;> simp_all
  unfold FS.stat
  rw [this, h]
  cases o <;> simp_all

theorem stat_of_none {fs : FS} {p : Path} (h : fs.get p = none) : fs.stat p = none := by
  have : fs.follow 40 p = p := by
    rw [show (40 : Nat) = 39 + 1 from rfl, FS.follow, h]
  unfold FS.stat
  rw [this, h]

/-- What one round of `Delete` does. -/
theorem delete1_spec {fs : FS} (hw : fs.WF) (ho : fs.Open) (m : Bool) (p : Path) :
    if m = true ∧ fs.get p = none then delete1 m fs p = (fs, some .notFound)
    else (delete1 m fs p).2 = none ∧ (∀ q, (delete1 m fs p).1.get q = if p <+: q then none else fs.get q) ∧
      (delete1 m fs p).1.prot = fs.prot := by
  have hfile : ∀ o, fs.get p = some o → o ≠ .dir → ∀ q, (fs.drop p).get q = if p <+: q then none else fs.get q := by
    intro o hg hd q
    rw [get_drop]
    by_cases h : p <+: q
    · rw [if_pos h]
      split
      · rfl
      · rename_i hne
        exact below_nothing hw h (fun e => hne e.symm) (by rw [hg]; simpa using hd)
    · rw [if_neg h, if_neg]
      rintro rfl; exact h (List.prefix_refl _)
  rcases hg : fs.get p with _ | o
  · have he : fs.exists? p = false := by unfold FS.exists?; rw [stat_of_none hg]; rfl
    have hl : fs.isLink p = false := by unfold FS.isLink; rw [hg]
    have hd : fs.isDir p = false := by unfold FS.isDir; rw [stat_of_none hg]; rfl
    cases m with
    | true => simp [delete1, he, hl, hd, FS.unlink, hg]
    | false =>
      simp only [Bool.false_eq_true, false_and, if_false]
      simp only [delete1, he, hl, Bool.or_false, Bool.not_false, Bool.and_self, if_true, true_and, and_true]
      intro q
      by_cases h : p <+: q
      · rw [if_pos h]
        by_cases hq : p = q
        · rw [← hq]; exact hg
        · exact below_nothing hw h hq (by rw [hg]; simp)
      · rw [if_neg h]
  · simp only [reduceCtorEq, and_false, if_false]
    cases o with
    | file c t =>
      have hs := stat_of_get hg (by simp)
      have he : fs.exists? p = true := by unfold FS.exists?; rw [hs]; rfl
      have hd : fs.isDir p = false := by unfold FS.isDir; rw [hs]; rfl
      simp only [delete1, he, hd, Bool.true_or, Bool.not_true, Bool.false_and, Bool.false_eq_true, if_false, FS.unlink, hg, may_open ho, if_true, true_and]
      exact ⟨hfile _ hg (by simp), rfl⟩
    | link t =>
      have hl : fs.isLink p = true := by unfold FS.isLink; rw [hg]
      simp only [delete1, hl, Bool.or_true, Bool.not_true, Bool.false_and, Bool.and_false, Bool.false_eq_true, if_false, FS.unlink, hg, may_open ho, if_true, true_and]
      exact ⟨hfile _ hg (by simp), rfl⟩
    | dir =>
      have hs := stat_of_get hg (by simp)
      have he : fs.exists? p = true := by unfold FS.exists?; rw [hs]; rfl
      have hl : fs.isLink p = false := by unfold FS.isLink; rw [hg]
      have hd : fs.isDir p = true := by unfold FS.isDir; rw [hs]; rfl
      simp only [delete1, he, hl, hd, Bool.true_or, Bool.not_true, Bool.false_and, Bool.false_eq_true, if_false, Bool.not_false, Bool.and_self, if_true, true_and]
      exact ⟨get_rmtree ho p, rfl⟩

theorem wf_cut {fs fs' : FS} (hw : fs.WF) {p : Path} (h : ∀ q, fs'.get q = if p <+: q then none else fs.get q) : fs'.WF := by
  intro a x o hg
  rw [h] at hg
  by_cases hp : p <+: a ++ [x]
  · rw [if_pos hp] at hg; cases hg
  · rw [if_neg hp] at hg
    rw [h, if_neg (fun hh => hp (List.IsPrefix.trans hh ⟨[x], rfl⟩))]
    exact hw _ _ _ hg

/-- **C103, Delete.** `Delete(l)` removes what is there under each name, files, links and whole directories, and
nothing else: in particular not what a link leads to. It never fails. -/
theorem C103_delete_partial {fs : FS} (hw : fs.WF) (ho : fs.Open) (dest : List Path) :
    (delete false fs dest).2 = none ∧
    ∀ q, (delete false fs dest).1.get q = if ∃ d ∈ dest, d <+: q then none else fs.get q := by
  unfold delete
  induction dest generalizing fs with
  | nil => simp [each]
  | cons d l ih =>
    have h := delete1_spec hw ho false d
    simp only [Bool.false_eq_true, false_and, if_false] at h
    obtain ⟨h1, h2, h3⟩ := h
    rcases hr : delete1 false fs d with ⟨fs', e⟩
    rw [hr] at h1 h2 h3
    simp only at h1 h2 h3
    subst h1
    have := ih (wf_cut hw h2) (show fs'.Open by unfold FS.Open; rw [h3]; exact ho)
    simp only [each, hr]
    refine ⟨this.1, fun q => ?_⟩
    rw [this.2, h2]
    by_cases ha : ∃ d ∈ l, d <+: q
    · obtain ⟨x, hx, hq⟩ := ha
      rw [if_pos ⟨x, hx, hq⟩, if_pos ⟨x, List.mem_cons_of_mem _ hx, hq⟩]
    · rw [if_neg ha]
      by_cases hd : d <+: q
      · rw [if_pos hd, if_pos ⟨d, List.mem_cons_self, hd⟩]
      · rw [if_neg hd, if_neg]
        rintro ⟨x, hx, hq⟩
        rcases List.mem_cons.1 hx with rfl | hx
        · exact hd hq
        · exact ha ⟨x, hx, hq⟩

/-- With `must_exist` it succeeds if and only if everything is there when its turn comes: nothing given twice, nothing given after
a directory it is in. -/
theorem C103_delete_must_exist_partial {fs : FS} (hw : fs.WF) (ho : fs.Open) (dest : List Path) :
    (delete true fs dest).2 = none ↔ (∀ d ∈ dest, fs.get d ≠ none) ∧ dest.Pairwise fun a b => ¬ a <+: b := by
  unfold delete
  induction dest generalizing fs with
  | nil => simp [each]
  | cons d l ih =>
    have h := delete1_spec hw ho true d
    by_cases hg : fs.get d = none
    · rw [if_pos ⟨rfl, hg⟩] at h
      simp only [each, h]
      simp [hg]
    · rw [if_neg (fun x => hg x.2)] at h
      obtain ⟨h1, h2, h3⟩ := h
      rcases hr : delete1 true fs d with ⟨fs', e⟩
      rw [hr] at h1 h2 h3
      simp only at h1 h2 h3
      subst h1
      have := ih (wf_cut hw h2) (show fs'.Open by unfold FS.Open; rw [h3]; exact ho)
      simp only [each, hr]
      rw [this, List.pairwise_cons]
      constructor
      · rintro ⟨ha, hb⟩
        have hc : ∀ x ∈ l, ¬ d <+: x ∧ fs.get x ≠ none := by
          intro x hx
          have := ha x hx
          rw [h2] at this
          by_cases hp : d <+: x
          · rw [if_pos hp] at this; exact absurd rfl this
          · rw [if_neg hp] at this; exact ⟨hp, this⟩
        refine ⟨?_, fun x hx => (hc x hx).1, hb⟩
        intro x hx
        rcases List.mem_cons.1 hx with rfl | hx
        · exact hg
        · exact (hc x hx).2
      · rintro ⟨ha, hb, hc⟩
        refine ⟨?_, hc⟩
        intro x hx
        rw [h2, if_neg (hb x hx)]
        exact ha x (List.mem_cons_of_mem _ hx)

/-! ## Mkdir -/

/-- The names on the way to `p`, and `p` itself, are free or directories. -/
def FS.Clear (fs : FS) (p : Path) : Prop := ∀ q, q <+: p → fs.get q = none ∨ fs.get q = some .dir

/-- `fs'` is `fs` with the missing directories on the way to `p`, and `p`. -/
def FS.Made (fs : FS) (p : Path) (fs' : FS) : Prop :=
  fs'.prot = fs.prot ∧ ∀ q, fs'.get q = if q <+: p ∧ fs.get q = none then some .dir else fs.get q

theorem prefix_snoc {q p : Path} {x : String} : q <+: p ++ [x] ↔ q = p ++ [x] ∨ q <+: p := by
  constructor
  · intro h
    obtain ⟨r, hr⟩ := h
    rcases List.eq_nil_or_concat r with rfl | ⟨r', y, rfl⟩
    · left; simpa using hr
    · right
      rw [List.concat_eq_append, ← List.append_assoc] at hr
      have := List.append_inj' hr rfl
      exact ⟨r', this.1⟩
  · rintro (rfl | h)
    · exact List.prefix_refl _
    · exact List.IsPrefix.trans h ⟨[x], rfl⟩

theorem exists_of_dir {fs : FS} {p : Path} (h : fs.get p = some .dir) : fs.exists? p = true := by
  unfold FS.exists?; rw [stat_of_get h (by simp)]; rfl

theorem isDir_of_dir {fs : FS} {p : Path} (h : fs.get p = some .dir) : fs.isDir p = true := by
  unfold FS.isDir; rw [stat_of_get h (by simp)]; rfl

theorem not_exists_of_none {fs : FS} {p : Path} (h : fs.get p = none) : fs.exists? p = false := by
  unfold FS.exists?; rw [stat_of_none h]; rfl

theorem not_isDir_of_none {fs : FS} {p : Path} (h : fs.get p = none) : fs.isDir p = false := by
  unfold FS.isDir; rw [stat_of_none h]; rfl

theorem self_not_prefix (p : Path) (x : String) : ¬ p ++ [x] <+: p := by
  intro h
  have := h.length_le
  simp at this
  omega

theorem makedirsRev_ok {fs : FS} (hw : fs.WF) (ho : fs.Open) (hroot : fs.get [] = some .dir) :
    ∀ r : List String, fs.Clear r.reverse → (fs.makedirsRev r).2 = none ∧ fs.Made r.reverse (fs.makedirsRev r).1
  | [], _ => by
    refine ⟨by simp [FS.makedirsRev, isDir_of_dir hroot], rfl, fun q => ?_⟩
    simp only [FS.makedirsRev, List.reverse_nil, List.prefix_nil]
    rw [if_neg]
    rintro ⟨rfl, h⟩; rw [hroot] at h; cases h
  | x :: r, hc => by
    rw [List.reverse_cons] at hc ⊢
    have hcr : fs.Clear r.reverse := fun q hq => hc q (prefix_snoc.2 (Or.inr hq))
    have ih := makedirsRev_ok hw ho hroot r hcr
    unfold FS.makedirsRev
    rcases hcr r.reverse (List.prefix_refl _) with hp | hp
    · -- the directory above has to be made
      rw [not_exists_of_none hp]
      simp only [Bool.false_eq_true, if_false]
      rcases hu : fs.makedirsRev r with ⟨u, e⟩
      rw [hu] at ih
      obtain ⟨rfl, hpr, hg⟩ := ih
      simp only at hpr hg ⊢
      have hx : fs.get (r.reverse ++ [x]) = none := below_nothing hw ⟨[x], rfl⟩ (by simp) (by rw [hp]; simp)
      have hux : u.get (r.reverse ++ [x]) = none := by
        rw [hg, if_neg]
        · exact hx
        · exact fun h => self_not_prefix _ _ h.1
      have hup : u.get r.reverse = some .dir := by rw [hg, if_pos ⟨List.prefix_refl _, hp⟩]
      have huo : u.Open := by unfold FS.Open; rw [hpr]; exact ho
      simp only [FS.mkdir, List.reverse_cons, hux, List.dropLast_concat, hup, may_open huo, if_true]
      refine ⟨trivial, hpr, fun q => ?_⟩
      rw [get_put, hg]
      by_cases hq : q = r.reverse ++ [x]
      · subst hq; simp [hx]
      · rw [if_neg hq]
        have : (q <+: r.reverse ++ [x]) ↔ q <+: r.reverse := by rw [prefix_snoc]; simp [hq]
        simp only [this]
    · rw [exists_of_dir hp]
      simp only [if_true]
      have hsub : ∀ q, q <+: r.reverse → fs.get q ≠ none := by
        intro q hq h
        by_cases hqq : q = r.reverse
        · subst hqq; rw [hp] at h; cases h
        · have := below_nothing hw hq hqq (by rw [h]; simp)
          rw [hp] at this; cases this
      rcases hc _ (List.prefix_refl _) with hx | hx
      · simp only [FS.mkdir, List.reverse_cons, hx, List.dropLast_concat, hp, may_open ho, if_true]
        refine ⟨trivial, rfl, fun q => ?_⟩
        rw [get_put]
        by_cases hq : q = r.reverse ++ [x]
        · subst hq; simp [hx]
        · rw [if_neg hq, if_neg]
          rintro ⟨h1, h2⟩
          rcases prefix_snoc.1 h1 with h | h
          · exact hq h
          · exact hsub q h h2
      · simp only [FS.mkdir, List.reverse_cons, hx, isDir_of_dir hx, if_true]
        refine ⟨trivial, rfl, fun q => ?_⟩
        rw [if_neg]
        rintro ⟨h1, h2⟩
        rcases prefix_snoc.1 h1 with h | h
        · subst h; rw [hx] at h2; cases h2
        · exact hsub q h h2

theorem makedirs_ok {fs : FS} (hw : fs.WF) (ho : fs.Open) (hroot : fs.get [] = some .dir) {p : Path} (hc : fs.Clear p) :
    (fs.makedirs p).2 = none ∧ fs.Made p (fs.makedirs p).1 := by
  have := makedirsRev_ok hw ho hroot p.reverse (by rw [List.reverse_reverse]; exact hc)
  rw [List.reverse_reverse] at this
  exact this

theorem made_wf {fs fs' : FS} (hw : fs.WF) {p : Path} (hc : fs.Clear p) (h : fs.Made p fs') : fs'.WF := by
  intro a x o hg
  rw [h.2] at hg
  rw [h.2]
  by_cases hx : a ++ [x] <+: p ∧ fs.get (a ++ [x]) = none
  · have ha : a <+: p := List.IsPrefix.trans ⟨[x], rfl⟩ hx.1
    rcases hc a ha with h1 | h1
    · rw [if_pos ⟨ha, h1⟩]
    · rw [if_neg (by rw [h1]; simp)]; exact h1
  · rw [if_neg hx] at hg
    have := hw _ _ _ hg
    rw [if_neg (by rw [this]; simp)]; exact this

/-- **C103, Mkdir.** If nothing is in the way, `Mkdir(l)` makes the directories, and the missing ones above them, and changes nothing
else; directories that are there already are left alone, with all they contain. -/
theorem C103_mkdir_partial {fs : FS} (hw : fs.WF) (ho : fs.Open) (hroot : fs.get [] = some .dir) (dest : List Path)
    (hc : ∀ d ∈ dest, fs.Clear d) :
    (mkdirs fs dest).2 = none ∧
    ∀ q, (mkdirs fs dest).1.get q = if (∃ d ∈ dest, q <+: d) ∧ fs.get q = none then some .dir else fs.get q := by
  unfold mkdirs
  induction dest generalizing fs with
  | nil => simp [each]
  | cons d l ih =>
    have h := makedirs_ok hw ho hroot (hc d List.mem_cons_self)
    rcases hr : fs.makedirs d with ⟨fs', e⟩
    rw [hr] at h
    obtain ⟨rfl, hm⟩ := h
    have hkeep : ∀ q, fs.get q = some .dir → fs'.get q = some .dir := by
      intro q hq
      have := hm.2 q
      simp only at this
      rw [this, if_neg (by rw [hq]; simp)]; exact hq
    have := ih (fs := fs') (made_wf hw (hc d List.mem_cons_self) hm) (show fs'.Open by unfold FS.Open; rw [hm.1]; exact ho)
      (hkeep _ hroot) (fun x hx q hq => by
        have := hm.2 q
        simp only at this
        rw [this]
        split
        · exact Or.inr rfl
        · exact hc x (List.mem_cons_of_mem _ hx) q hq)
    simp only [each, hr]
    refine ⟨this.1, fun q => ?_⟩
    rw [this.2, show fs'.get q = _ from hm.2 q]
    by_cases hq : fs.get q = none
    · by_cases hd : q <+: d
      · simp [hq, hd]
      · simp [hq, hd]
    · simp [hq]

theorem makedirsRev_fails {fs : FS} (hw : fs.WF) {q : Path} {c m : Nat} (hq : fs.get q = some (.file c m)) :
    ∀ r : List String, q <+: r.reverse → (fs.makedirsRev r).2 ≠ none ∧ (fs.makedirsRev r).1 = fs
  | [], h => by
    simp only [List.reverse_nil, List.prefix_nil] at h
    subst h
    simp [FS.makedirsRev, FS.isDir, stat_of_get hq (by simp)]
  | x :: r, h => by
    rw [List.reverse_cons] at h
    have hbelow : ∀ p, q <+: p → q ≠ p → fs.get p = none := fun p h1 h2 => below_nothing hw h1 h2 (by rw [hq]; simp)
    rcases prefix_snoc.1 h with h | h
    · have hp := hw _ _ _ (h ▸ hq)
      unfold FS.makedirsRev
      rw [exists_of_dir hp]
      simp only [if_true, FS.mkdir, List.reverse_cons, ← h, hq]
      simp [FS.isDir, stat_of_get hq (by simp)]
    · have hx : fs.get (r.reverse ++ [x]) = none := hbelow _ (prefix_snoc.2 (Or.inr h)) (by
        rintro rfl; exact self_not_prefix _ _ h)
      have hp : fs.get r.reverse ≠ some .dir := by
        by_cases hqr : q = r.reverse
        · rw [← hqr, hq]; simp
        · rw [hbelow _ h hqr]; simp
      have hmk : (fs.mkdir (r.reverse ++ [x])).2 ≠ none ∧ (fs.mkdir (r.reverse ++ [x])).1 = fs := by
        simp only [FS.mkdir, hx, List.dropLast_concat]
        rcases hg : fs.get r.reverse with _ | o
        · simp
        · cases o <;> simp_all
      have hlast : ∀ u : Out, u.1 = fs → (u.2 = none ∨ u.2 ≠ none) →
          (match u.2 with
            | some .exists | none =>
              let m := u.1.mkdir (x :: r).reverse
              match m.2 with
              | none => m
              | some e => (m.1, if m.1.isDir (x :: r).reverse then none else some e)
            | some e => (u.1, some e) : Out).2 ≠ none ∧
          (match u.2 with
            | some .exists | none =>
              let m := u.1.mkdir (x :: r).reverse
              match m.2 with
              | none => m
              | some e => (m.1, if m.1.isDir (x :: r).reverse then none else some e)
            | some e => (u.1, some e) : Out).1 = fs := by
        rintro ⟨u, e⟩ hu -
        simp only at hu
        subst hu
        simp only [List.reverse_cons]
        rcases hm : u.mkdir (r.reverse ++ [x]) with ⟨v, _ | e'⟩
        · rw [hm] at hmk; simp at hmk
        · rw [hm] at hmk
          obtain ⟨-, hv⟩ := hmk
          simp only at hv
          subst hv
          split <;> simp [not_isDir_of_none hx]
      unfold FS.makedirsRev
      by_cases he : fs.exists? r.reverse = true
      · simp only [he, if_true]
        exact hlast (fs, none) rfl (Or.inl rfl)
      · simp only [he]
        have ih := makedirsRev_fails hw hq r h
        exact hlast (fs.makedirsRev r) ih.2 (Or.inr ih.1)

/-- If a file is in the way of a directory, `Mkdir` fails, and changes nothing. -/
theorem C103_mkdir_in_the_way {fs : FS} (hw : fs.WF) {d q : Path} (h : q <+: d) {c m : Nat} (hq : fs.get q = some (.file c m)) :
    (mkdirs fs [d]).2 ≠ none ∧ (mkdirs fs [d]).1 = fs := by
  have := makedirsRev_fails hw hq d.reverse (by rw [List.reverse_reverse]; exact h)
  simp only [mkdirs, each, FS.makedirs]
  rcases hr : fs.makedirsRev d.reverse with ⟨u, _ | e⟩
  · rw [hr] at this; simp at this
  · rw [hr] at this; exact this

/-! ## Touch -/

theorem follow_congr {fs fs' : FS} (h : ∀ p, (∃ t, fs.get p = some (.link t)) ∨ (∃ t, fs'.get p = some (.link t)) → fs'.get p = fs.get p) :
    ∀ n p, fs'.follow n p = fs.follow n p
  | 0, _ => rfl
  | n + 1, p => by
    simp only [FS.follow]
    rcases hg : fs.get p with _ | o
    · rcases hg' : fs'.get p with _ | o'
      · rfl
      · cases o' with
        | link t => have := h p (Or.inr ⟨t, hg'⟩); rw [hg, hg'] at this; cases this
        | _ => rfl
    · cases o with
      | link t => rw [h p (Or.inl ⟨t, hg⟩), hg]; exact follow_congr h n t
      | _ =>
        rcases hg' : fs'.get p with _ | o'
        · rfl
        · cases o' with
          | link t => have := h p (Or.inr ⟨t, hg'⟩); rw [hg, hg'] at this; cases this
          | _ => rfl

theorem follow_put {fs : FS} {t : Path} (ht : ∀ u, fs.get t ≠ some (.link u)) (c m : Nat) (n : Nat) (p : Path) :
    (fs.put t (.file c m)).follow n p = fs.follow n p := by
  apply follow_congr
  rintro q (⟨u, hu⟩ | ⟨u, hu⟩)
  · rw [get_put, if_neg]
    rintro rfl; exact ht u hu
  · rw [get_put] at hu ⊢
    by_cases hq : q = t
    · rw [if_pos hq] at hu; cases hu
    · rw [if_neg hq]

/-- Where `Touch` is no use: a link in a circle, or no directory for the new file. -/
def FS.Touchable (fs : FS) (p : Path) : Prop :=
  (∃ c m, fs.get (fs.follow 40 p) = some (.file c m)) ∨ fs.get (fs.follow 40 p) = some .dir ∨
  (fs.get (fs.follow 40 p) = none ∧ fs.get (fs.follow 40 p).dropLast = some .dir)

/-- The contents of what is at a path: those of the file, or none. -/
def contents : Option Obj → Nat
  | some (.file c _) => c
  | _ => 0

/-- **C103, Touch.** `Touch(l)` makes the files that are missing, sets the time of those that are there to the second it
is, keeps their contents and changes nothing else. -/
theorem C103_touch_partial {fs : FS} (ho : fs.Open) (now : Nat) (dest : List Path) (ht : ∀ d ∈ dest, fs.Touchable d) :
    (touch now fs dest).2 = none ∧
    ∀ q, (touch now fs dest).1.get q =
      if (∃ d ∈ dest, fs.follow 40 d = q) ∧ fs.get q ≠ some .dir then some (.file (contents (fs.get q)) (now / second * second))
      else fs.get q := by
  unfold touch
  induction dest generalizing fs with
  | nil => simp [each]
  | cons d l ih =>
    -- what is written for `d`
    have hput : ∀ c, (∀ u, fs.get (fs.follow 40 d) ≠ some (.link u)) → fs.get (fs.follow 40 d) ≠ some .dir → c = contents (fs.get (fs.follow 40 d)) →
        touch1 now fs d = (fs.put (fs.follow 40 d) (.file c (now / second * second)), none) →
        (each (touch1 now) fs (d :: l)).2 = none ∧ ∀ q, (each (touch1 now) fs (d :: l)).1.get q =
          if (∃ d' ∈ d :: l, fs.follow 40 d' = q) ∧ fs.get q ≠ some .dir then some (.file (contents (fs.get q)) (now / second * second))
          else fs.get q := by
      intro c hnl hnd hcc he
      have hfol := fun p => follow_put hnl c (now / second * second) 40 p
      have := ih (fs := fs.put (fs.follow 40 d) (.file c (now / second * second))) ho (by
        intro x hx
        unfold FS.Touchable
        rw [hfol]
        simp only [get_put]
        by_cases hxd : fs.follow 40 x = fs.follow 40 d
        · left; exact ⟨c, _, if_pos hxd⟩
        · simp only [if_neg hxd]
          rcases ht x (List.mem_cons_of_mem _ hx) with h | h | ⟨h1, h2⟩
          · exact Or.inl h
          · exact Or.inr (Or.inl h)
          · refine Or.inr (Or.inr ⟨h1, ?_⟩)
            rw [if_neg]
            · exact h2
            · intro e; rw [e] at h2; exact hnd h2)
      simp only [each, he]
      refine ⟨this.1, fun q => ?_⟩
      rw [this.2]
      simp only [hfol, get_put]
      by_cases hq : q = fs.follow 40 d
      · subst hq
        simp only [if_true]
        have : (∃ d' ∈ d :: l, fs.follow 40 d' = fs.follow 40 d) ∧ fs.get (fs.follow 40 d) ≠ some .dir := ⟨⟨d, List.mem_cons_self, rfl⟩, hnd⟩
        rw [if_pos this]
        split <;> simp [contents, hcc]
      · simp only [if_neg hq]
        have : (∃ d' ∈ d :: l, fs.follow 40 d' = q) ↔ ∃ d' ∈ l, fs.follow 40 d' = q := by
          constructor
          · rintro ⟨x, hx, h'⟩
            rcases List.mem_cons.1 hx with rfl | hx
            · exact absurd h'.symm hq
            · exact ⟨x, hx, h'⟩
          · rintro ⟨x, hx, h⟩; exact ⟨x, List.mem_cons_of_mem _ hx, h⟩
        simp only [this]
    rcases ht d List.mem_cons_self with ⟨c, m, h⟩ | h | ⟨h1, h2⟩
    · have hs : fs.stat d = some (.file c m) := by unfold FS.stat; rw [h]
      refine hput c (by rw [h]; simp) (by rw [h]; simp) (by rw [h]; rfl) ?_
      simp only [touch1, FS.exists?, hs, Option.isSome_some, if_true, FS.write, h]
    · have hs : fs.stat d = some .dir := by unfold FS.stat; rw [h]
      have he : touch1 now fs d = (fs, none) := by
        simp only [touch1, FS.exists?, hs, Option.isSome_some, if_true]
      have := ih ho (fun x hx => ht x (List.mem_cons_of_mem _ hx))
      simp only [each, he]
      refine ⟨this.1, fun q => ?_⟩
      rw [this.2]
      by_cases hq : q = fs.follow 40 d
      · subst hq; simp [h]
      · have : (∃ d' ∈ d :: l, fs.follow 40 d' = q) ↔ ∃ d' ∈ l, fs.follow 40 d' = q := by
          constructor
          · rintro ⟨x, hx, h'⟩
            rcases List.mem_cons.1 hx with rfl | hx
            · exact absurd h'.symm hq
            · exact ⟨x, hx, h'⟩
          · rintro ⟨x, hx, h⟩; exact ⟨x, List.mem_cons_of_mem _ hx, h⟩
        simp only [this]
    · have hs : fs.stat d = none := by unfold FS.stat; rw [h1]
      refine hput 0 (by rw [h1]; simp) (by rw [h1]; simp) (by rw [h1]; rfl) ?_
      simp only [touch1, FS.exists?, hs, Option.isSome_none, Bool.false_eq_true, if_false, FS.write, h1, h2, may_open ho, if_true]

end Verif.FileAct
