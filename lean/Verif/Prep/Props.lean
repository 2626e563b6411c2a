import Verif.Prep.Spec

/-!
# What is done before a command is run (C116): proofs
-/

namespace Verif.Prep

theorem upd_same {α} (f : Path → α) (p : Path) (v : α) : upd f p v p = v := by simp [upd]
theorem upd_ne {α} (f : Path → α) {p q : Path} (v : α) (h : q ≠ p) : upd f p v q = f q := by simp [upd, h]

theorem above_tail {c : String} {q p : Path} (h : Above (c :: q) p) : Above q p := by
  obtain ⟨l, _, rfl⟩ := h
  exact ⟨l ++ [c], by simp, by simp⟩

theorem above_self (c : String) (q : Path) : Above q (c :: q) := ⟨[c], by simp, rfl⟩

theorem need_tail {N : Path → Prop} {c : String} {q : Path} (h : NeedDir N (c :: q)) : NeedDir N q := by
  obtain ⟨p, hp, ha⟩ := h
  exact ⟨p, hp, above_tail ha⟩

theorem stat_dir {d : Disk} {p : Path} (h : d p = some .dir) : stat d p = true := by simp [stat, h]

structure Inv (N T : Path → Prop) (s : St) : Prop where
  tree : Tree N s.disk
  fresh : Fresh N T s

theorem dirs_of {N : Path → Prop} {d : Disk} (h : Tree N d) {q : Path} (hq : NeedDir N q) (hd : d q = some .dir) : ∀ l r, q = l ++ r → d r = some .dir := by
  intro l
  induction l generalizing q with
  | nil => intro r hr; subst hr; exact hd
  | cons c l ih =>
    intro r hr
    subst hr
    exact ih (need_tail hq) (h.up c _ (.inr hq) (by simp at hd ⊢; rw [hd]; simp)) r rfl

/-- The directories of a file are there if the innermost is. -/
theorem dirsThere_of {N : Path → Prop} {d : Disk} (h : Tree N d) {c : String} {q : Path} (hp : N (c :: q)) (hd : d q = some .dir) : DirsThere d (c :: q) := by
  rintro r ⟨l, hl, hr⟩
  cases l with
  | nil => exact absurd rfl hl
  | cons x l =>
    simp only [List.cons_append, List.cons.injEq] at hr
    exact dirs_of h ⟨_, hp, above_self c q⟩ hd l r hr.2

/-! ## Looking -/

/-- Two states with the same disk and the same directories made, of which the second remembers more, and rightly. -/
structure Looked (s s' : St) : Prop where
  disk : s'.disk = s.disk
  made : s'.made = s.made
  memo : ∀ p, s'.memo p = s.memo p ∨ s'.memo p = some (stat s.disk p)

theorem Looked.refl (s : St) : Looked s s := ⟨rfl, rfl, fun _ => .inl rfl⟩

theorem Looked.trans {a b c : St} (h1 : Looked a b) (h2 : Looked b c) : Looked a c := by
  refine ⟨h2.disk.trans h1.disk, h2.made.trans h1.made, fun p => ?_⟩
  rcases h2.memo p with h | h
  · rw [h]; exact h1.memo p
  · right; rw [h, h1.disk]

theorem Looked.inv {N T : Path → Prop} {s s' : St} (h : Looked s s') (hi : Inv N T s) : Inv N T s' := by
  refine ⟨by rw [h.disk]; exact hi.tree, ?_, ?_, ?_, ?_, ?_⟩
  · rcases h.memo [] with hm | hm <;> rw [hm]
    · exact hi.fresh.rootMemo
    · rw [stat_dir hi.tree.root]; simp
  · intro q hq hm'
    rw [h.disk]
    rcases h.memo q with hm | hm <;> rw [hm] at hm'
    · exact hi.fresh.dirs q hq hm'
    · simp only [Option.some.injEq] at hm'
      rcases hi.tree.need q hq with hn | hn
      · rw [stat, hn] at hm'; simp at hm'
      · exact hn
  · rw [h.made, h.disk]; exact hi.fresh.made
  · intro c q hq hm'
    rw [h.disk]
    rcases h.memo (c :: q) with hm | hm <;> rw [hm] at hm'
    · exact hi.fresh.seen c q hq hm'
    · simp only [Option.some.injEq] at hm'
      refine hi.tree.up c q (.inl hq) fun hn => ?_
      rw [stat, hn] at hm'; simp at hm'
  · intro p b hp hm'
    rw [h.disk]
    rcases h.memo p with hm | hm <;> rw [hm] at hm'
    · exact hi.fresh.files p b hp hm'
    · simp only [Option.some.injEq] at hm'; exact hm'.symm

theorem Looked.present {G : Graph} {s s' : St} (h : Looked s s') {p : Path} (hp : Present G s p) : Present G s' p := by
  rcases hp with hp | hp | hp | ⟨h1, h2⟩
  · exact .inl hp
  · exact .inr (.inl hp)
  · exact .inr (.inr (.inl hp))
  · refine .inr (.inr (.inr ⟨by rw [h.disk]; exact h1, ?_⟩))
    rcases h.memo p with hm | hm <;> rw [hm]
    · exact h2
    · rw [h1]; simp

theorem Looked.absent {G : Graph} {s s' : St} (h : Looked s s') {p : Path} (hp : Absent G s p) : Absent G s' p := by
  obtain ⟨h1, h2, h3, h4, h5⟩ := hp
  refine ⟨h1, h2, h3, by rw [h.disk]; exact h4, ?_⟩
  rcases h.memo p with hm | hm <;> rw [hm]
  · exact h5
  · rw [h4]; simp

theorem exists_looked (s : St) (p : Path) : Looked s (exists? s p).2 := by
  unfold exists?
  split
  · exact .refl s
  · refine ⟨rfl, rfl, fun q => ?_⟩
    by_cases hq : q = p
    · subst hq; right; exact upd_same ..
    · left; exact upd_ne _ _ hq

theorem exists_eq (s : St) (p : Path) : (exists? s p).1 = (s.memo p).getD (stat s.disk p) := by
  unfold exists?
  split <;> simp_all

theorem missing_looked (G : Graph) (s : St) (p : Path) : Looked s (missing G s p).2 := by
  unfold missing
  split
  · exact .refl s
  · split
    · exact .refl s
    · exact exists_looked s p

theorem missing_present {G : Graph} {s : St} {p : Path} (h : Present G s p) : (missing G s p).1 = false := by
  unfold missing
  by_cases h1 : G.derived p = true
  · rw [if_pos h1]
  · rw [if_neg h1]
    by_cases h2 : G.linked p = true
    · rw [if_pos h2]
    · rw [if_neg h2]
      simp only [exists_eq]
      rcases h with h | h | h | ⟨h3, h4⟩
      · exact absurd h h1
      · exact absurd h h2
      · simp [h]
      · rcases hm : s.memo p with _ | b
        · simp [h3]
        · cases b with
          | true => simp
          | false => exact absurd hm h4

theorem missing_absent {G : Graph} {s : St} {p : Path} (h : Absent G s p) : (missing G s p).1 = true := by
  obtain ⟨h1, h2, h3, h4, h5⟩ := h
  simp only [missing, h1, h2, Bool.false_eq_true, if_false, exists_eq]
  rcases hm : s.memo p with _ | b
  · simp [h3, h4]
  · cases b with
    | true => exact absurd hm h5
    | false => simp [h3]

theorem checkAll_looked (G : Graph) (err : Path → Err) (l : List Path) (s : St) : Looked s (checkAll G err s l).2 := by
  induction l generalizing s with
  | nil => exact .refl s
  | cons p l ih =>
    simp only [checkAll]
    split
    · exact missing_looked G s p
    · exact (missing_looked G s p).trans (ih _)

theorem checkAll_ok (G : Graph) (err : Path → Err) (l : List Path) (s : St) (h : ∀ p ∈ l, Present G s p) : (checkAll G err s l).1 = .ok () := by
  induction l generalizing s with
  | nil => rfl
  | cons p l ih =>
    simp only [checkAll, missing_present (h p (by simp)), Bool.false_eq_true, if_false]
    exact ih _ fun q hq => (missing_looked G s p).present (h q (by simp [hq]))

theorem checkAll_bad (G : Graph) (err : Path → Err) (l : List Path) (s : St) (h : ∃ p ∈ l, Absent G s p) : ∃ q ∈ l, (checkAll G err s l).1 = .error (err q) := by
  induction l generalizing s with
  | nil => obtain ⟨p, hp, _⟩ := h; simp at hp
  | cons p l ih =>
    simp only [checkAll]
    split
    · exact ⟨p, by simp, rfl⟩
    · rename_i hm
      obtain ⟨q, hq, ha⟩ := h
      rcases List.mem_cons.1 hq with rfl | hq
      · exact absurd (missing_absent ha) hm
      · obtain ⟨r, hr, he⟩ := ih _ ⟨q, hq, (missing_looked G s p).absent ha⟩
        exact ⟨r, by simp [hr], he⟩

/-! ## Making directories -/

/-- Only directories above or at `p` were made. -/
structure Made (p : Path) (s s' : St) : Prop where
  disk : ∀ q, s'.disk q = s.disk q ∨ (s.disk q = none ∧ s'.disk q = some .dir ∧ ∃ l, p = l ++ q)

theorem Made.of_looked {p : Path} {s s' : St} (h : Looked s s') : Made p s s' := ⟨fun q => .inl (by rw [h.disk])⟩

theorem Made.trans {p : Path} {a b c : St} (h1 : Made p a b) (h2 : Made p b c) : Made p a c := by
  refine ⟨fun q => ?_⟩
  rcases h1.disk q with h | ⟨h, h', h''⟩ <;> rcases h2.disk q with k | ⟨k, k', k''⟩
  · left; rw [k, h]
  · right; exact ⟨by rw [← h]; exact k, k', k''⟩
  · right; exact ⟨h, by rw [k]; exact h', h''⟩
  · rw [h'] at k; cases k

theorem Made.cons {p : Path} {a b : St} (c : String) (h : Made p a b) : Made (c :: p) a b := by
  refine ⟨fun q => ?_⟩
  rcases h.disk q with h | ⟨h, h', l, hl⟩
  · exact .inl h
  · exact .inr ⟨h, h', c :: l, by simp [hl]⟩

/-- Nothing present becomes less present. -/
def Keeps (s s' : St) : Prop := ∀ p, stat s.disk p = true → s.memo p ≠ some false → stat s'.disk p = true ∧ s'.memo p ≠ some false

theorem Keeps.trans {a b c : St} (h1 : Keeps a b) (h2 : Keeps b c) : Keeps a c := fun p h h' => h2 p (h1 p h h').1 (h1 p h h').2

theorem Keeps.of_looked {s s' : St} (h : Looked s s') : Keeps s s' := by
  intro p h1 h2
  refine ⟨by rw [h.disk]; exact h1, ?_⟩
  rcases h.memo p with hm | hm <;> rw [hm]
  · exact h2
  · rw [h1]; simp

theorem buildDir_spec {N T : Path → Prop} (hTN : ∀ p, T p → N p) {s : St} (hi : Inv N T s) {c : String} {r : Path} (hn : NeedDir N (c :: r)) (hr : s.disk r = some .dir) :
    ∃ s', buildDir true s (c :: r) = (.ok (), s') ∧ Inv N T s' ∧ s'.disk (c :: r) = some .dir ∧ Made (c :: r) s s' ∧ Keeps s s' := by
  have hT : ∀ p, T p → p ≠ c :: r := fun p hp he => (hi.tree.files p (hTN p hp)).2.1 (he ▸ hn)
  -- forgetting what is remembered of the directory
  have forget : ∀ s : St, Inv N T s → s.disk (c :: r) = some .dir → Inv N T { s with made := upd s.made (c :: r) true, memo := upd s.memo (c :: r) none } := by
    intro s hi hd
    refine ⟨hi.tree, ?_, ?_, ?_, ?_, ?_⟩
    · show upd s.memo (c :: r) none [] ≠ _
      rw [upd_ne _ _ (by simp)]; exact hi.fresh.rootMemo
    · intro q hq hm
      by_cases he : q = c :: r
      · subst he; simp [upd] at hm
      · dsimp only at hm; rw [show upd s.memo (c :: r) none q = s.memo q from upd_ne _ _ he] at hm; exact hi.fresh.dirs q hq hm
    · intro q hq hm
      by_cases he : q = c :: r
      · subst he; exact hd
      · dsimp only at hm; rw [show upd s.made (c :: r) true q = s.made q from upd_ne _ _ he] at hm; exact hi.fresh.made q hq hm
    · intro x q hq hm
      by_cases he : x :: q = c :: r
      · rw [he] at hm; simp [upd] at hm
      · dsimp only at hm; rw [upd_ne _ _ he] at hm; exact hi.fresh.seen x q hq hm
    · intro p b hp hm
      by_cases he : p = c :: r
      · subst he; simp [upd] at hm
      · dsimp only at hm; rw [show upd s.memo (c :: r) none p = s.memo p from upd_ne _ _ he] at hm; exact hi.fresh.files p b hp hm
  have keepF : ∀ s : St, Keeps s { s with made := upd s.made (c :: r) true, memo := upd s.memo (c :: r) none } := by
    intro s p h1 h2
    refine ⟨h1, ?_⟩
    show upd s.memo (c :: r) none p ≠ _
    by_cases he : p = c :: r
    · subst he; simp [upd]
    · rw [upd_ne _ _ he]; exact h2
  unfold buildDir
  by_cases hm : s.made (c :: r) = true
  · rw [if_pos (by simp [hm])]
    exact ⟨_, rfl, forget s hi (hi.fresh.made _ hn hm), hi.fresh.made _ hn hm, ⟨fun q => .inl rfl⟩, keepF s⟩
  · rw [if_neg (by simp [hm])]
    have hl := exists_looked s (c :: r)
    rcases hx : exists? s (c :: r) with ⟨b, s1⟩
    rw [hx] at hl
    replace hl : Looked s s1 := hl
    have hi1 := hl.inv hi
    simp only
    by_cases hb : b = true
    · rw [if_pos hb]
      have hd : s1.disk (c :: r) = some .dir := by
        rw [hl.disk]
        have he := exists_eq s (c :: r)
        rw [hx] at he
        simp only [hb] at he
        rcases hmm : s.memo (c :: r) with _ | b'
        · rw [hmm] at he
          rcases hi.tree.need _ hn with h | h
          · simp [stat, h] at he
          · exact h
        · rw [hmm] at he
          simp only [Option.getD_some] at he
          subst he
          exact hi.fresh.dirs _ hn hmm
      exact ⟨_, rfl, forget s1 hi1 hd, hd, ⟨fun q => .inl (by rw [← hl.disk])⟩, (Keeps.of_looked hl).trans (keepF s1)⟩
    · rw [if_neg hb]
      rcases hi1.tree.need _ hn with hd | hd
      · have hmk : mkdir s1.disk (c :: r) = some (upd s1.disk (c :: r) (some .dir)) := by
          rw [mkdir, if_neg (by rw [hd]; simp), if_pos (by rw [hl.disk]; exact hr)]
        rw [hmk]
        -- the directory is added
        have hi2 : Inv N T { s1 with disk := upd s1.disk (c :: r) (some .dir) } := by
          have hne : ∀ q, s1.disk q = some .dir → upd s1.disk (c :: r) (some .dir) q = some .dir := by
            intro q hq; unfold upd; split <;> simp_all
          refine ⟨⟨?_, ?_, ?_, ?_⟩, hi1.fresh.rootMemo, fun q hq hm => hne q (hi1.fresh.dirs q hq hm), fun q hq hm => hne q (hi1.fresh.made q hq hm), fun x q hq hm => hne q (hi1.fresh.seen x q hq hm), ?_⟩
          · exact hne _ hi1.tree.root
          · intro q hq
            by_cases he : q = c :: r
            · right; subst he; exact upd_same ..
            · show upd s1.disk _ _ q = none ∨ upd s1.disk _ _ q = _
              rw [upd_ne _ _ he]; exact hi1.tree.need q hq
          · intro x q hq hx'
            by_cases he : x :: q = c :: r
            · injection he with he1 he2
              subst he2
              exact hne _ (by rw [hl.disk]; exact hr)
            · exact hne _ (hi1.tree.up x q hq (by dsimp only at hx'; rw [show upd s1.disk (c :: r) (some .dir) (x :: q) = s1.disk (x :: q) from upd_ne _ _ he] at hx'; exact hx'))
          · intro p hp
            have hpne : p ≠ c :: r := fun he => (hi1.tree.files p hp).2.1 (he ▸ hn)
            refine ⟨(hi1.tree.files p hp).1, (hi1.tree.files p hp).2.1, ?_⟩
            show upd s1.disk (c :: r) (some .dir) p ≠ _
            rw [upd_ne _ _ hpne]; exact (hi1.tree.files p hp).2.2
          · intro p b hp hm
            rw [hi1.fresh.files p b hp hm, stat, stat]; dsimp only; rw [show upd s1.disk (c :: r) (some .dir) p = s1.disk p from upd_ne _ _ (hT p hp)]
        refine ⟨_, rfl, forget _ hi2 (upd_same ..), upd_same .., ⟨fun q => ?_⟩, ?_⟩
        · by_cases he : q = c :: r
          · subst he; right; exact ⟨by rw [← hl.disk]; exact hd, upd_same .., [], rfl⟩
          · left; rw [← hl.disk]; exact upd_ne _ _ he
        · refine ((Keeps.of_looked hl).trans ?_).trans (keepF { s1 with disk := upd s1.disk (c :: r) (some .dir) })
          intro p h1 h2
          refine ⟨?_, h2⟩
          by_cases he : p = c :: r
          · subst he; exact stat_dir (upd_same ..)
          · rw [stat]; dsimp only; rw [show upd s1.disk (c :: r) (some .dir) p = s1.disk p from upd_ne _ _ he]; exact h1
      · have hmk : mkdir s1.disk (c :: r) = some s1.disk := by rw [mkdir, if_pos (by rw [hd]; simp)]
        rw [hmk]
        exact ⟨_, rfl, forget s1 hi1 hd, hd, ⟨fun q => .inl (by rw [← hl.disk])⟩, (Keeps.of_looked hl).trans (keepF s1)⟩

theorem buildDirs_append (ex : Bool) (l l' : List Path) (s s' : St) (h : buildDirs ex s l = (.ok (), s')) : buildDirs ex s (l ++ l') = buildDirs ex s' l' := by
  induction l generalizing s with
  | nil => simp [buildDirs] at h; subst h; rfl
  | cons p l ih =>
    rw [buildDirs] at h
    rw [List.cons_append, buildDirs]
    rcases hb : buildDir ex s p with ⟨e | u, s1⟩
    · rw [hb] at h; simp at h
    · rw [hb] at h; exact ih _ h

theorem create_spec {N T : Path → Prop} (hTN : ∀ p, T p → N p) (p : Path) : ∀ {s : St}, Inv N T s → NeedDir N p →
    ∃ s', create true s p = (.ok (), s') ∧ Inv N T s' ∧ s'.disk p = some .dir ∧ Made p s s' ∧ Keeps s s' := by
  induction p with
  | nil =>
    intro s hi hn
    have hl := exists_looked s []
    have he := exists_eq s []
    rcases hx : exists? s [] with ⟨b, s1⟩
    rw [hx] at hl he
    replace hl : Looked s s1 := hl
    have hb : b = true := by
      simp only at he
      rw [he]
      rcases hm : s.memo [] with _ | b'
      · exact stat_dir hi.tree.root
      · cases b' with
        | true => rfl
        | false => exact absurd hm hi.fresh.rootMemo
    refine ⟨s1, ?_, hl.inv hi, by rw [hl.disk]; exact hi.tree.root, .of_looked hl, .of_looked hl⟩
    simp [create, climb, hx, hb, buildDirs]
  | cons c r ih =>
    intro s hi hn
    have hl := exists_looked s (c :: r)
    have he := exists_eq s (c :: r)
    rcases hx : exists? s (c :: r) with ⟨b, s1⟩
    rw [hx] at hl he
    replace hl : Looked s s1 := hl
    simp only at he
    by_cases hb : b = true
    · have hd : s.disk (c :: r) = some .dir := by
        rw [hb] at he
        rcases hmm : s.memo (c :: r) with _ | b'
        · rw [hmm] at he
          rcases hi.tree.need _ hn with h | h
          · simp [stat, h] at he
          · exact h
        · rw [hmm] at he
          simp only [Option.getD_some] at he
          subst he
          exact hi.fresh.dirs _ hn hmm
      refine ⟨s1, ?_, hl.inv hi, by rw [hl.disk]; exact hd, .of_looked hl, .of_looked hl⟩
      simp [create, climb, hx, hb, buildDirs]
    · obtain ⟨s2, h1, h2, h3, h4, h5⟩ := ih (hl.inv hi) (need_tail hn)
      rw [create] at h1
      rcases hc : climb s1 r with ⟨e | l, s1'⟩
      · rw [hc] at h1; simp at h1
      · rw [hc] at h1
        obtain ⟨s3, k1, k2, k3, k4, k5⟩ := buildDir_spec hTN h2 hn h3
        refine ⟨s3, ?_, k2, k3, ((Made.of_looked hl).trans (h4.cons c)).trans k4, ((Keeps.of_looked hl).trans h5).trans k5⟩
        rw [create, climb]
        simp only [hx, hb, Bool.false_eq_true, if_false, hc, List.reverse_cons]
        rw [buildDirs_append true _ _ _ _ h1, buildDirs, k1]
        rfl

end Verif.Prep
