import Verif.FS.Dup

/-! # Finding and copying files: theorems (C66, C67) -/

namespace Verif.FS.Variant

/-! ## Links -/

/-- Following the links from `p` meets no relative one. -/
inductive AbsChain (D : Disk) : Path → Prop
  | fin (p) : (∀ a t, D.obj p ≠ some (.link a t)) → AbsChain D p
  | step (p t) : D.obj p = some (.link true t) → AbsChain D t → AbsChain D p

theorem follow_not_link {D : Disk} {k : Nat} {p q : Path} (h : follow D k p = some q) : D.obj q ≠ none ∧ ∀ a t, D.obj q ≠ some (.link a t) := by
  induction k generalizing p with
  | zero => cases h
  | succ k ih =>
    simp only [follow] at h
    split at h
    · cases h
    · exact ih h
    · exact ih h
    · rename_i o h1 h2 hn
      simp only [Option.some.injEq] at h
      subst h
      rw [hn]
      refine ⟨by simp, fun a t he => ?_⟩
      simp only [Option.some.injEq] at he
      subst he
      cases a
      · exact h2 t rfl
      · exact h1 t rfl

theorem disambig_eq {D : Disk} {k : Nat} {p q : Path} (hc : AbsChain D p) (h : follow D k p = some q) : disambig D k p = some q := by
  induction k generalizing p with
  | zero => cases h
  | succ k ih =>
    cases hc with
    | fin _ hn =>
      simp only [follow] at h
      simp only [disambig]
      cases ho : D.obj p with
      | none => simp [ho] at h
      | some o =>
        cases o with
        | file i => simp only [ho] at h ⊢; exact h
        | dir => simp only [ho] at h ⊢; exact h
        | link a t => exact absurd ho (hn a t)
    | step _ t ht hc' =>
      simp only [follow, ht] at h
      simp only [disambig, ht]
      exact ih hc' h

theorem follow_mono {D : Disk} {k : Nat} {p q : Path} (h : follow D k p = some q) : follow D (k + 1) p = some q := by
  induction k generalizing p with
  | zero => cases h
  | succ k ih =>
    rw [follow] at h ⊢
    split at h
    · cases h
    · simp_all
    · simp_all
    · simp_all

theorem follow_mono' {D : Disk} {k j : Nat} {p q : Path} (h : follow D k p = some q) (hj : k ≤ j) : follow D j p = some q := by
  induction hj with
  | refl => exact h
  | step _ ih => exact follow_mono ih

/-- Putting something where nothing was does not change where the other paths lead. -/
theorem follow_put {D : Disk} {k : Nat} {p q dst : Path} {o : Option Obj} (h : follow D k p = some q) (hd : D.obj dst = none) : follow (D.put dst o) k p = some q ∧ q ≠ dst := by
  induction k generalizing p with
  | zero => cases h
  | succ k ih =>
    have hne : p ≠ dst := by rintro rfl; simp [follow, hd] at h
    have ho : (D.put dst o).obj p = D.obj p := by simp [Disk.put, hne]
    rw [follow] at h ⊢
    rw [ho]
    split at h
    · cases h
    · rename_i t ht; exact ih h
    · rename_i t ht; exact ih h
    · rename_i h0 h1 h2
      simp only [Option.some.injEq] at h
      subst h
      exact ⟨rfl, hne⟩

/-- All inodes in use have a number below `next`. -/
def Disk.WF (D : Disk) : Prop := ∀ p i, D.obj p = some (.file i) → i < D.next

/-- What a link or a copy may change: the destination alone, and no contents of a file that was there. -/
structure OnlyAt (D D' : Disk) (dst : Path) : Prop where
  obj : ∀ q, q ≠ dst → D'.obj q = D.obj q
  data : ∀ i, i < D.next → D'.data i = D.data i
  next : D.next ≤ D'.next
  cwd : D'.cwd = D.cwd

theorem OnlyAt.read {D D' : Disk} {dst p : Path} (h : OnlyAt D D' dst) (hw : D.WF) (hd : D.obj dst = none) {c : String} (hr : read D p = some c) : Variant.read D' p = some c := by
  unfold Variant.read stat at hr ⊢
  cases hf : follow D eloop p with
  | none => simp [hf] at hr
  | some q =>
    have key : ∀ k p q, follow D k p = some q → follow D' k p = some q ∧ q ≠ dst := by
      intro k
      induction k with
      | zero => intro p q hq; cases hq
      | succ k ih =>
        intro p q hq
        have hne : p ≠ dst := fun e => by rw [follow, e, hd] at hq; cases hq
        rw [follow] at hq ⊢
        rw [h_obj hne]
        split at hq
        · cases hq
        · exact ih _ _ hq
        · exact ih _ _ hq
        · simp only [Option.some.injEq] at hq; exact ⟨by rw [hq], hq ▸ hne⟩
    obtain ⟨h1, h2⟩ := key _ _ _ hf
    simp only [hf, Option.bind_some] at hr
    simp only [h1, Option.bind_some, h.obj q h2]
    split at hr
    · rename_i i hi
      simp only [Option.some.injEq] at hr
      simp [hi, h.data i (hw q i hi), hr]
    · cases hr
where h_obj {p : Path} (hne : p ≠ dst) : D'.obj p = D.obj p := h.obj p hne

/-- **C67** Whichever way of linking succeeds, the destination has the contents of the source, nothing else on disk has changed and no file's contents have changed — provided no relative symbolic link leads to the source. -/
theorem C67_link_contents {D D' : Disk} {F : Faults} {k : Nat} {src dst q : Path} {fs : List LinkHow} {c : String} (hw : D.WF) (hd : D.obj dst = none) (hf : follow D 40 src = some q) (hc : read D src = some c)
    (ha : AbsChain D src) (hk : 41 ≤ k) (hfs : fs ≠ []) (h : linkFunc D F k src dst fs = some (some D')) : read D' dst = some c ∧ OnlyAt D D' dst ∧ D'.WF := by
  have hi : ∃ i, D.obj q = some (.file i) ∧ D.data i = c := by
    unfold read stat at hc
    have hf' : follow D eloop src = some q := follow_mono hf
    rw [hf'] at hc
    simp only [Option.bind_some] at hc
    split at hc
    · rename_i i hi; exact ⟨i, hi, Option.some.inj hc⟩
    · cases hc
  obtain ⟨i, hi, hic⟩ := hi
  induction fs with
  | nil => exact absurd rfl hfs
  | cons f fs ih =>
    simp only [linkFunc] at h
    have hnd : q ≠ dst := by rintro rfl; rw [hd] at hi; cases hi
    split at h
    · cases h
    · rename_i D1 hr
      simp only [Option.some.injEq] at h
      subst h
      cases f with
      | hard =>
        simp only [hardlink, disambig_eq ha (follow_mono' hf (by omega : 40 ≤ k)), hi] at hr
        split at hr
        · cases hr
        · simp only [Option.some.injEq] at hr
          subst hr
          refine ⟨?_, ⟨fun p hp => by simp [Disk.put, hp], fun _ _ => rfl, le_refl _, rfl⟩, ?_⟩
          · have : follow (D.put dst (some (.file i))) eloop dst = some dst := by simp [eloop, follow, Disk.put]
            unfold read stat
            rw [this]
            simp [Disk.put, hic]
          · intro p j hp
            simp only [Disk.put] at hp ⊢
            split at hp
            · simp only [Option.some.injEq, Obj.file.injEq] at hp; subst hp; exact hw q i hi
            · exact hw p j hp
      | soft =>
        simp only [softlink, Option.some.injEq] at hr
        split at hr
        · cases hr
        · simp only [Option.some.injEq] at hr
          subst hr
          refine ⟨?_, ⟨fun p hp => by simp [Disk.put, hp], fun _ _ => rfl, le_refl _, rfl⟩, ?_⟩
          · have h1 := (follow_put (o := some (.link true src)) hf hd).1
            have : follow (D.put dst (some (.link true src))) eloop dst = some q := by
              rw [eloop, follow]
              have : (D.put dst (some (.link true src))).obj dst = some (.link true src) := by simp [Disk.put]
              rw [this]
              exact h1
            unfold read stat
            rw [this]
            have : (D.put dst (some (.link true src))).obj q = some (.file i) := by simp [Disk.put, hnd, hi]
            rw [Option.bind_some, this]
            simp [Disk.put, hic]
          · intro p j hp
            simp only [Disk.put] at hp ⊢
            split at hp
            · simp at hp
            · exact hw p j hp
      | copy =>
        simp only [copyfile, hc, Option.some.injEq] at hr
        split at hr
        · cases hr
        · simp only [Option.some.injEq] at hr
          subst hr
          refine ⟨?_, ⟨fun p hp => by simp [Disk.put, hp], fun j hj => ?_, Nat.le_succ _, rfl⟩, ?_⟩
          · unfold read stat
            simp [eloop, follow, Disk.put]
          · dsimp only; rw [if_neg (by omega)]
          · intro p j hp
            simp only [Disk.put] at hp ⊢
            split at hp
            · simp only [Option.some.injEq, Obj.file.injEq] at hp; omega
            · have := hw p j hp; omega
    · split at h
      · cases h
      · rename_i hne; exact ih hne h

/-- **C67, counterexample** The branch for relative and absolute links is the wrong way round in the code: a source that is a relative symbolic link is taken relative to the current directory.  Here `src/a.c` is a link to `b.c`, the file
next to it, the duplicate of it has the contents of another file, the `b.c` of the directory SCons was started in. -/
theorem C67_relative_link_wrong : ∃ (D D' : Disk) (src dst : Path), D.WF ∧ D.obj dst = none ∧ read D src = some "right" ∧
    linkFunc D ⟨fun _ _ => false, fun _ _ => false, fun _ _ => false⟩ 41 src dst [.hard, .soft, .copy] = some (some D') ∧ read D' dst = some "wrong" := by
  refine ⟨⟨fun p => if p = ["a.c", "src", "top"] then some (.link false ["b.c"]) else if p = ["b.c", "src", "top"] then some (.file 0) else if p = ["b.c", "top"] then some (.file 1) else none,
    fun i => if i = 0 then "right" else "wrong", 2, ["top"]⟩, _, ["a.c", "src", "top"], ["a.c", "build", "top"], ?_, ?_, ?_, rfl, ?_⟩
  · intro p i h
    dsimp only at h ⊢
    split at h
    · cases h
    · split at h
      · cases h; omega
      · split at h
        · cases h; omega
        · cases h
  · decide
  · decide +kernel
  · decide +kernel

/-- **C67, counterexample** And the loop need not end: here the `b.c` of the current directory is a link to itself. -/
theorem C67_relative_link_hangs : ∃ (D : Disk) (src : Path), read D src = some "right" ∧ ∀ k, disambig D k src = none := by
  refine ⟨⟨fun p => if p = ["a.c", "src", "top"] then some (.link false ["b.c"]) else if p = ["b.c", "src", "top"] then some (.file 0) else if p = ["b.c", "top"] then some (.link false ["b.c"]) else none,
    fun _ => "right", 1, ["top"]⟩, ["a.c", "src", "top"], by decide +kernel, fun k => ?_⟩
  generalize hD : Disk.mk _ _ _ _ = D
  have h1 : D.obj ["a.c", "src", "top"] = some (.link false ["b.c"]) := by rw [← hD]; decide
  have h2 : D.obj ["b.c", "top"] = some (.link false ["b.c"]) := by rw [← hD]; decide
  have h3 : D.cwd = ["top"] := by rw [← hD]
  have key : ∀ k, disambig D k ["b.c", "top"] = none := by
    intro k
    induction k with
    | zero => rfl
    | succ k ih => simp [disambig, h2, h3, ih]
  cases k with
  | zero => rfl
  | succ k => simp [disambig, h1, h3, key]

end Verif.FS.Variant
