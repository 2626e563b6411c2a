import Verif.FS.DupProps

/-! # What asking for a file does: theorems (C66, C67) -/

namespace Verif.FS.Variant

/-! ## Nothing but variant copies is touched -/

/-- The path lies in a variant directory. -/
def InVariant (C : Conf) (q : Path) : Prop := ∃ v s, v <:+ q.tail ∧ C.srcdir v = some s

/-- `X'` differs from `X` on disk only in variant directories, not at a target, and not in the contents of any file that was there. -/
structure Frame (U : Setup) (X X' : S) : Prop where
  src : X'.conf.srcdir = X.conf.srcdir
  derived : X'.derived = X.derived
  known : ∀ q, X.conf.known q = true → X'.conf.known q = true
  next : X.disk.next ≤ X'.disk.next
  data : ∀ i, i < X.disk.next → X'.disk.data i = X.disk.data i
  disk : ∀ q, X'.disk.obj q ≠ X.disk.obj q → InVariant X.conf q ∧ X.derived q = false
  dry : U.noExec = true → ∀ q, X'.disk.obj q ≠ X.disk.obj q → X'.disk.obj q = none

theorem Frame.refl {U : Setup} (X : S) : Frame U X X := ⟨rfl, rfl, fun _ h => h, le_refl _, fun _ _ => rfl, fun _ h => absurd rfl h, fun _ _ h => absurd rfl h⟩

theorem Frame.trans {U : Setup} {X Y Z : S} (h : Frame U X Y) (h' : Frame U Y Z) : Frame U X Z := by
  refine ⟨h'.src.trans h.src, h'.derived.trans h.derived, fun q hq => h'.known q (h.known q hq), h.next.trans h'.next, fun i hi => (h'.data i (lt_of_lt_of_le hi h.next)).trans (h.data i hi), fun q hq => ?_, fun hd q hq => ?_⟩
  · by_cases h1 : Y.disk.obj q = X.disk.obj q
    · have h2 := h'.disk q (by rw [h1]; exact hq)
      unfold InVariant at h2 ⊢
      rw [h.src, h.derived] at h2; exact h2
    · exact h.disk q h1
  · by_cases h1 : Z.disk.obj q = Y.disk.obj q
    · rw [h1]; exact h.dry hd q (by rw [← h1]; exact hq)
    · exact h'.dry hd q h1

theorem touch_known_mono (C : Conf) (p q : Path) (h : C.known q = true) : (touch C p).known q = true := by
  induction p with
  | nil => exact h
  | cons n d ih => simp only [touch]; split <;> simp [ih]

theorem Frame.touch {U : Setup} (X : S) (p : Path) : Frame U X { X with conf := touch X.conf p } :=
  ⟨(touch_srcdir _ _).1, rfl, fun q h => touch_known_mono _ p q h, le_refl _, fun _ _ => rfl, fun _ h => absurd rfl h, fun _ _ h => absurd rfl h⟩

theorem Frame.look {U : Setup} (X : S) (p : Path) (b : Bool) : Frame U X (X.look p b) := by
  have h := Frame.touch (U := U) X p
  exact ⟨h.src, h.derived, h.known, h.next, h.data, h.disk, h.dry⟩

theorem Frame.lookAll {U : Setup} (X : S) (l : List Path) : Frame U X (l.foldl (fun X r => X.look r true) X) := by
  induction l generalizing X with
  | nil => exact .refl _
  | cons p l ih => exact (Frame.look (U := U) X p true).trans (ih _)

theorem linkFunc_frame {D D' : Disk} {F : Faults} {k : Nat} {src dst : Path} {fs : List LinkHow} (h : linkFunc D F k src dst fs = some (some D')) : OnlyAt D D' dst := by
  induction fs with
  | nil => simp only [linkFunc, Option.some.injEq] at h; subst h; exact ⟨fun _ _ => rfl, fun _ _ => rfl, le_refl _, rfl⟩
  | cons f fs ih =>
    simp only [linkFunc] at h
    split at h
    · cases h
    · rename_i D1 hr
      simp only [Option.some.injEq] at h
      subst h
      cases f with
      | hard =>
        simp only [hardlink] at hr
        split at hr
        · cases hr
        · split at hr
          · split at hr
            · cases hr
            · simp only [Option.some.injEq] at hr
              subst hr
              exact ⟨fun p hp => by simp [Disk.put, hp], fun _ _ => rfl, le_refl _, rfl⟩
          · cases hr
      | soft =>
        simp only [softlink, Option.some.injEq] at hr
        split at hr
        · cases hr
        · simp only [Option.some.injEq] at hr
          subst hr
          exact ⟨fun p hp => by simp [Disk.put, hp], fun _ _ => rfl, le_refl _, rfl⟩
      | copy =>
        simp only [copyfile, Option.some.injEq] at hr
        split at hr
        · cases hr
        · split at hr
          · cases hr
          · simp only [Option.some.injEq] at hr
            subst hr
            exact ⟨fun p hp => by simp [Disk.put, hp], fun j hj => by dsimp only; rw [if_neg (by omega)], Nat.le_succ _, rfl⟩
    · split at h
      · cases h
      · exact ih h

theorem doDuplicate_frame {U : Setup} {k : Nat} {X X' : S} {p src : Path} (hv : InVariant X.conf p) (hd : X.derived p = false) (h : doDuplicate U k X p src = some X') : Frame U X X' := by
  unfold doDuplicate at h
  split at h
  · simp only [Option.some.injEq] at h; subst h; exact ⟨rfl, rfl, fun _ h => h, le_refl _, fun _ _ => rfl, fun _ h => absurd rfl h, fun _ _ h => absurd rfl h⟩
  · split at h
    · rename_i D hD
      simp only [Option.some.injEq] at h
      subst h
      have ho := linkFunc_frame hD
      refine ⟨rfl, rfl, fun _ h => h, ho.next, ho.data, fun q hq => ?_, fun hdr => absurd hdr (by assumption)⟩
      by_cases hqp : q = p
      · subst hqp; exact ⟨hv, hd⟩
      · exfalso; apply hq; dsimp only; rw [ho.obj q hqp]; simp [Disk.put, hqp]
    · cases h

theorem srcdirList_variant {C : Conf} {d s : Path} (h : s ∈ srcdirList C d) : ∃ v t, v <:+ d ∧ C.srcdir v = some t := by
  unfold srcdirList at h
  rcases srcClimb_head C.srcdir [] d with ⟨ha, _⟩ | ⟨r, v', s', l, ha, hd, hv', _⟩
  · rw [ha] at h; cases h
  · exact ⟨v', s', ⟨r, hd.symm⟩, hv'⟩

/-- The targets are known nodes. -/
def Targets (X : S) : Prop := ∀ q, X.derived q = true → X.conf.known q = true

theorem Frame.targets {U : Setup} {X X' : S} (h : Frame U X X') (ht : Targets X) : Targets X' := fun q hq => h.known q (ht q (by rw [← h.derived]; exact hq))

theorem duplicateNode_frame {U : Setup} {k : Nat} {X X' : S} {p src : Path} (hv : InVariant X.conf p) (hd : X.derived p = false) (h : duplicateNode U k X p src = some X') : Frame U X X' := by
  unfold duplicateNode at h
  split at h
  · simp only [Option.some.injEq] at h; exact h ▸ .refl _
  · exact doDuplicate_frame hv hd h

theorem srcdirDuplicate_frame {U : Setup} {k : Nat} {X X' : S} {d : Path} {n : String} {l : List Path} {o : Option Path} (hl : ∀ s ∈ l, ∃ v t, v <:+ d ∧ X.conf.srcdir v = some t)
    (ht : X.derived (n :: d) = false) (h : srcdirDuplicate U k X d n l = some (X', o)) : Frame U X X' := by
  induction l with
  | nil => simp only [srcdirDuplicate, Option.some.injEq, Prod.mk.injEq] at h; rw [← h.1]; exact .refl _
  | cons s ss ih =>
    simp only [srcdirDuplicate] at h
    split at h
    · simp only [Option.some.injEq, Prod.mk.injEq] at h; rw [← h.1]; exact .refl _
    · split at h
      · have h1 := Frame.look (U := U) X (n :: s) (decide (stat X.disk (n :: s) = some .dir))
        generalize X.look (n :: s) (decide (stat X.disk (n :: s) = some .dir)) = X1 at h h1
        split at h
        · rw [Option.map_eq_some_iff] at h
          obtain ⟨X3, hX, h⟩ := h
          simp only [Prod.mk.injEq] at h
          rw [← h.1]
          have h2 := h1.trans (Frame.look (U := U) X1 (n :: d) (decide (stat X.disk (n :: s) = some .dir)))
          obtain ⟨v, t, hv, hvt⟩ := hl s (by simp)
          refine h2.trans (duplicateNode_frame (p := n :: d) ⟨v, t, hv, ?_⟩ ?_ hX)
          · rw [h2.src]; exact hvt
          · rw [h2.derived]; exact ht
        · simp only [Option.some.injEq, Prod.mk.injEq] at h
          rw [← h.1]
          exact h1
      · exact ih (fun s' hs' => hl s' (by simp [hs'])) h

theorem fileOnDisk_frame {U : Setup} {k : Nat} {X X' : S} {d : Path} {n : String} {o : Option Path} (ht : Targets X) (hk : X.conf.known (n :: d) = false) (h : fileOnDisk U k X d n = some (X', o)) : Frame U X X' := by
  have hd : X.derived (n :: d) = false := by
    cases hb : X.derived (n :: d) with
    | false => rfl
    | true => rw [ht _ hb] at hk; cases hk
  unfold fileOnDisk at h
  split at h
  · simp only [Option.some.injEq, Prod.mk.injEq] at h; rw [← h.1]; exact .look _ _ _
  · cases hs : srcdirDuplicate U k X d n (srcdirList X.conf d) with
    | none => simp [hs] at h
    | some r =>
      obtain ⟨X1, o1⟩ := r
      have hf := srcdirDuplicate_frame (fun s hs => srcdirList_variant hs) hd hs
      rw [hs] at h
      cases o1 with
      | none => simp only [Option.some.injEq, Prod.mk.injEq] at h; rw [← h.1]; exact hf
      | some q =>
        dsimp only at h
        split at h <;> (simp only [Option.some.injEq, Prod.mk.injEq] at h; rw [← h.1]; exact hf)

theorem candidate_frame {U : Setup} {k : Nat} {X X' : S} {d : Path} {n : String} {o : Option Path} (ht : Targets X) (h : candidate U k X d n = some (X', o)) : Frame U X X' := by
  unfold candidate at h
  split at h
  · simp only [Option.some.injEq, Prod.mk.injEq] at h; rw [← h.1]; exact .refl _
  · rename_i hk; exact fileOnDisk_frame ht (by cases hb : X.conf.known (n :: d) <;> simp_all) h

theorem rfileLoop_frame {U : Setup} {k : Nat} {ex : S → Path → Option (S × Bool)} (hex : ∀ X p X' b, Targets X → ex X p = some (X', b) → Frame U X X') {n : String} {rs : List Path} {X X' : S} {o : Option Path} (ht : Targets X)
    (h : rfileLoop U k ex n X rs = some (X', o)) : Frame U X X' := by
  induction rs generalizing X with
  | nil => simp only [rfileLoop, Option.some.injEq, Prod.mk.injEq] at h; rw [← h.1]; exact .refl _
  | cons r rs ih =>
    simp only [rfileLoop] at h
    cases h1 : candidate U k X r n with
    | none => simp [h1] at h
    | some c =>
      obtain ⟨X1, node⟩ := c
      have f1 := candidate_frame ht h1
      rw [h1] at h
      cases node with
      | none => exact f1.trans (ih (f1.targets ht) h)
      | some q =>
        dsimp only at h
        cases h3 : ex X1 q with
        | none => simp [h3] at h
        | some e =>
          obtain ⟨X2, e⟩ := e
          have f2 := hex X1 q X2 e (f1.targets ht) h3
          rw [h3] at h
          dsimp only at h
          split at h
          · simp only [Option.some.injEq, Prod.mk.injEq] at h; rw [← h.1]; exact f1.trans f2
          · exact (f1.trans f2).trans (ih ((f1.trans f2).targets ht) h)

theorem query_frame (U : Setup) (k : Nat) : (∀ X p X' b, Targets X → (query U k).1 X p = some (X', b) → Frame U X X') ∧ (∀ X p X' q, Targets X → (query U k).2 X p = some (X', q) → Frame U X X') := by
  induction k with
  | zero => constructor <;> intro X p X' _ _ h <;> cases h
  | succ k ih =>
    obtain ⟨ie, ir⟩ := ih
    constructor
    · intro X p X' b ht h
      simp only [query] at h
      split at h
      · simp only [Option.some.injEq, Prod.mk.injEq] at h; rw [← h.1]; exact .refl _
      · split at h
        · rename_i hc
          split at h
          · simp only [Option.some.injEq, Prod.mk.injEq] at h; rw [← h.1]; exact .refl _
          · rename_i hne
            have f0 := Frame.look (U := U) X (srcnode X.conf p) false
            cases hr : (query U k).2 (X.look (srcnode X.conf p) false) (srcnode X.conf p) with
            | none => simp [hr] at h
            | some r =>
              obtain ⟨X1, r⟩ := r
              have f1 := f0.trans (ir _ _ _ _ (f0.targets ht) hr)
              rw [hr] at h
              dsimp only at h
              have hv : InVariant X.conf p := by
                cases p with
                | nil => exact absurd rfl hne
                | cons n d =>
                  rcases C66_srcnode_cases X.conf d with ⟨rel, v, s, hn⟩ | hn
                  · exact ⟨v, s, ⟨rel, hn.1.symm⟩, hn.2.1⟩
                  · exact absurd (C66_srcnode_self hn) hne
              have hd : X.derived p = false := by simp only [Bool.and_eq_true, Bool.not_eq_true'] at hc; exact hc.1.2
              split at h
              · simp only [Option.some.injEq, Prod.mk.injEq] at h; rw [← h.1]; exact f1
              · cases he : (query U k).1 X1 r with
                | none => simp [he] at h
                | some e =>
                  obtain ⟨X2, b2⟩ := e
                  have f2 := f1.trans (ie _ _ _ _ (f1.targets ht) he)
                  rw [he] at h
                  have hv2 : InVariant X2.conf p := by unfold InVariant; rw [f2.src]; exact hv
                  have hd2 : X2.derived p = false := by rw [f2.derived]; exact hd
                  cases b2 with
                  | true =>
                    rw [Option.map_eq_some_iff] at h
                    obtain ⟨X3, hX, h⟩ := h
                    simp only [Prod.mk.injEq] at h
                    rw [← h.1]
                    exact f2.trans (doDuplicate_frame hv2 hd2 hX)
                  | false =>
                    simp only [Option.some.injEq, Prod.mk.injEq] at h
                    rw [← h.1]
                    refine f2.trans ⟨rfl, rfl, fun _ h => h, le_refl _, fun _ _ => rfl, fun q hq => ?_, fun _ q hq => ?_⟩
                    · by_cases hqp : q = p
                      · subst hqp; exact ⟨hv2, hd2⟩
                      · exfalso; apply hq; simp [Disk.put, hqp]
                    · by_cases hqp : q = p
                      · simp [Disk.put, hqp]
                      · exfalso; apply hq; simp [Disk.put, hqp]
        · simp only [Option.some.injEq, Prod.mk.injEq] at h; rw [← h.1]; exact .refl _
    · intro X p X' q ht h
      simp only [query] at h
      cases he : (query U k).1 X p with
      | none => simp [he] at h
      | some e =>
        obtain ⟨X1, b⟩ := e
        have f1 := ie _ _ _ _ ht he
        rw [he] at h
        cases b with
        | true => simp only [Option.some.injEq, Prod.mk.injEq] at h; rw [← h.1]; exact f1
        | false =>
          dsimp only at h
          cases p with
          | nil => simp only [Option.some.injEq, Prod.mk.injEq] at h; rw [← h.1]; exact f1
          | cons n d =>
            dsimp only at h
            split at h
            · cases h
            · rename_i rs hrs
              have f2 := f1.trans (Frame.lookAll (U := U) X1 rs)
              cases hl : rfileLoop U k (query U k).1 n (rs.foldl (fun X r => X.look r true) X1) rs with
              | none => simp [hl] at h
              | some r =>
                obtain ⟨X2, o⟩ := r
                have f3 := f2.trans (rfileLoop_frame ie (f2.targets ht) hl)
                rw [hl] at h
                cases o <;> (simp only [Option.some.injEq, Prod.mk.injEq] at h; rw [← h.1]; exact f3)

/-- **C67** Asking whether a node exists, or where its file is, changes nothing on disk outside variant directories, changes no target, and changes the contents of no file that was there. -/
theorem C67_lookup_frame {U : Setup} {k : Nat} {X X' : S} {p : Path} (ht : Targets X) (h : (∃ b, exists' U k X p = some (X', b)) ∨ ∃ q, rfile U k X p = some (X', q)) :
    (∀ q, X'.disk.obj q ≠ X.disk.obj q → (∃ v s, v <:+ q.tail ∧ X.conf.srcdir v = some s) ∧ X.derived q = false) ∧ ∀ i, i < X.disk.next → X'.disk.data i = X.disk.data i := by
  rcases h with ⟨b, h⟩ | ⟨q, h⟩
  · have := (query_frame U k).1 X p X' b ht h; exact ⟨this.disk, this.data⟩
  · have := (query_frame U k).2 X p X' q ht h; exact ⟨this.disk, this.data⟩

/-- **C67** With `-n`, asking for files makes no file and changes none: all it may do on disk is remove. -/
theorem C67_dry_run_partial {U : Setup} (hn : U.noExec = true) {k : Nat} {X X' : S} {p : Path} (ht : Targets X) (h : (∃ b, exists' U k X p = some (X', b)) ∨ ∃ q, rfile U k X p = some (X', q)) (q : Path) (hq : X'.disk.obj q ≠ none) :
    X'.disk.obj q = X.disk.obj q := by
  have f : Frame U X X' := by
    rcases h with ⟨b, h⟩ | ⟨q, h⟩
    · exact (query_frame U k).1 X p X' b ht h
    · exact (query_frame U k).2 X p X' q ht h
  by_contra hne
  exact hq (f.dry hn q hne)

end Verif.FS.Variant
