import Verif.Hash.Spec

/-!
# C113: proofs
-/

namespace Verif.Hash

/-! ## What is hashed -/

theorem readLoop_all (chunk : Int) (h : chunk ≠ 0) : ∀ (k : Nat) (c : Bytes), c.length < k → readLoop chunk k c = c := by
  intro k
  induction k with
  | zero => intro c h; omega
  | succ k ih =>
    intro c hc
    rw [readLoop]
    by_cases hn : chunk < 0
    · simp only [if_pos hn]
      by_cases he : c = []
      · simp [he]
      · have : readLoop chunk k [] = [] := by
          cases k with
          | zero => rfl
          | succ k => simp [readLoop]
        simp [he, this]
    · simp only [if_neg hn]
      have hp : 0 < chunk.toNat := by omega
      by_cases he : c.take chunk.toNat = []
      · have : c = [] := by
          rcases List.take_eq_nil_iff.1 he with h | h
          · omega
          · exact h
        simp [this]
      · rw [if_neg he, ih, List.take_append_drop]
        have : c ≠ [] := by rintro rfl; simp at he
        have := List.length_pos_iff.2 this
        rw [List.length_drop]; omega

/-- **C113**: the signature of a file is the digest of its contents, whatever `--hash-chunksize` is, zero and negative numbers included. -/
theorem C113_chunks (opt : Int) (c : Bytes) : hashed (chunkSize opt) c = c := by
  have h : chunkSize opt ≠ 0 := by rw [chunkSize]; split <;> omega
  rw [hashed]
  split
  · rfl
  · exact readLoop_all _ h _ _ (by omega)

theorem hashed_eq {chunk : Int} (h : chunk ≠ 0) (c : Bytes) : hashed chunk c = c := by
  rw [hashed]
  split
  · rfl
  · exact readLoop_all _ h _ _ (by omega)

variable {F D : Type} [DecidableEq F] [DecidableEq D] {P : Project F D}

/-! ## Invariants -/

/-- The recorded signatures are true. -/
structure Inv (P : Project F D) (W : World F D) : Prop where
  stamps : ∀ X f m, (W.db X f).stamp = some m → m ≤ W.clock
  mtimes : ∀ f, W.mtime f ≤ W.clock
  csig : ∀ X f k, (W.db X f).csig = some k → (W.db X f).stamp = some (W.mtime f) → ∃ a c, W.files f = some c ∧ k = P.dig a c
  deps : ∀ t X ds, W.last t = some X → (W.db X t).deps = some ds →
    ∃ cs, W.files t = some (P.act t cs) ∧ ds.map Prod.fst = P.deps t ∧ List.Forall₂ (fun p c => ∃ a, p.2 = P.dig a c) ds cs ∧ ∀ c ∈ cs, W.seen c
  seen : ∀ f c, W.files f = some c → W.seen c

/-- The signatures in memory are true. -/
structure MInv (P : Project F D) (W : World F D) (M : Mem F D) : Prop where
  csig : ∀ f k, M.csigs f = some k → ∃ a c, W.files f = some c ∧ k = P.dig a c
  chunk : M.chunk ≠ 0

/-- The databases of directories stay the same. -/
def Keeps (M M' : Mem F D) : Prop := ∀ d x, M.sconsigns d = some x → M'.sconsigns d = some x

theorem Keeps.trans {M M' M'' : Mem F D} (h : Keeps M M') (h' : Keeps M' M'') : Keeps M M'' := fun d x hx => h' d x (h d x hx)

theorem sconsign_spec (M : Mem F D) (d : D) : Keeps M (sconsign M d).1 ∧ (sconsign M d).1.sconsigns d = some (sconsign M d).2 ∧ (sconsign M d).1.csigs = M.csigs ∧ (sconsign M d).1.chunk = M.chunk ∧
    (sconsign M d).1.g = M.g := by
  rw [sconsign]
  rcases h : M.sconsigns d with _ | x
  · simp only
    split
    · refine ⟨?_, by simp, rfl, rfl, rfl⟩
      intro e x hx
      by_cases he : e = d
      · subst he; rw [h] at hx; cases hx
      · simpa [Function.update_of_ne he] using hx
    · refine ⟨?_, by simp, rfl, rfl, rfl⟩
      intro e x hx
      by_cases he : e = d
      · subst he; rw [h] at hx; cases hx
      · simpa [Function.update_of_ne he] using hx
  · exact ⟨fun _ _ h => h, by simpa using h, rfl, rfl, rfl⟩

theorem getCsig_spec {W : World F D} {M : Mem F D} {old : F → Bool} {f : F} {c : Bytes} (hI : Inv P W) (hM : MInv P W M) (hf : W.files f = some c) :
    Keeps M (getCsig P W old M f c).1 ∧ MInv P W (getCsig P W old M f c).1 ∧ ∃ a, (getCsig P W old M f c).2 = P.dig a c := by
  rw [getCsig]
  rcases h : M.csigs f with _ | k
  · obtain ⟨s1, s2, s3, s4, s5⟩ := sconsign_spec M (P.dirOf f)
    rcases hs : sconsign M (P.dirOf f) with ⟨M1, x⟩
    rw [hs] at s1 s2 s3 s4 s5
    simp only at s1 s2 s3 s4 s5 ⊢
    have hh : hashed M1.chunk c = c := hashed_eq (by rw [s4]; exact hM.chunk) c
    have hk : ∃ a, (driftCsig (W.db x f) (old f) (W.mtime f)).getD (P.dig M1.g.func (hashed M1.chunk c)) = P.dig a c := by
      rw [hh]
      rcases hd : driftCsig (W.db x f) (old f) (W.mtime f) with _ | k
      · exact ⟨_, rfl⟩
      · rw [driftCsig] at hd
        rcases he : (W.db x f).csig with _ | k' <;> rw [he] at hd
        · cases hd
        · simp only at hd
          split at hd
          · rename_i hc
            simp only [Option.some.injEq] at hd
            subst hd
            obtain ⟨a, c', h1, h2⟩ := hI.csig x f k' he hc.2.1
            rw [hf] at h1; cases h1
            exact ⟨a, h2⟩
          · cases hd
    refine ⟨s1, ⟨?_, by simp only [s4]; exact hM.chunk⟩, hk⟩
    intro g k hg
    by_cases e : g = f
    · subst e
      simp only [Function.update_self, Option.some.injEq] at hg
      obtain ⟨a, ha⟩ := hk
      exact ⟨a, c, hf, by rw [← hg, ha]⟩
    · simp only [Function.update_of_ne e, s3] at hg
      exact hM.csig g k hg
  · obtain ⟨a, c', h1, h2⟩ := hM.csig f k h
    rw [hf] at h1; cases h1
    exact ⟨fun _ _ h => h, hM, a, h2⟩

/-- What stays the same while files are visited. -/
structure Same (W W' : World F D) : Prop where
  files : W'.files = W.files
  mtime : W'.mtime = W.mtime
  clock : W'.clock = W.clock
  last : W'.last = W.last
  seen : W'.seen = W.seen
  deps : ∀ X f, (W'.db X f).deps = (W.db X f).deps

theorem record_same (W : World F D) (x : DbId D) (f : F) (k : Str) :
    Same W { W with db := Function.update W.db x (Function.update (W.db x) f { W.db x f with csig := some k, stamp := some (W.mtime f) }) } := by
  refine ⟨rfl, rfl, rfl, rfl, rfl, ?_⟩
  intro X g
  by_cases hX : X = x
  · subst hX
    by_cases hg : g = f
    · subst hg; simp
    · simp [Function.update_of_ne hg]
  · simp [Function.update_of_ne hX]

theorem record_inv {W : World F D} (hI : Inv P W) (x : DbId D) (f : F) (k : Str) (c : Bytes) (a : Alg) (hf : W.files f = some c) (hk : k = P.dig a c) :
    Inv P { W with db := Function.update W.db x (Function.update (W.db x) f { W.db x f with csig := some k, stamp := some (W.mtime f) }) } := by
  have S := record_same W x f k
  refine ⟨?_, hI.mtimes, ?_, ?_, hI.seen⟩
  · intro X g m hm
    by_cases hX : X = x
    · subst hX
      by_cases hg : g = f
      · subst hg
        simp only [Function.update_self, Option.some.injEq] at hm
        rw [← hm]; exact hI.mtimes g
      · simp only [Function.update_self, Function.update_of_ne hg] at hm
        exact hI.stamps _ _ _ hm
    · simp only [Function.update_of_ne hX] at hm
      exact hI.stamps _ _ _ hm
  · intro X g k' h1 h2
    by_cases hX : X = x
    · subst hX
      by_cases hg : g = f
      · subst hg
        simp only [Function.update_self, Option.some.injEq] at h1
        exact ⟨a, c, hf, by rw [← h1, hk]⟩
      · simp only [Function.update_self, Function.update_of_ne hg] at h1 h2
        exact hI.csig _ _ _ h1 h2
    · simp only [Function.update_of_ne hX] at h1 h2
      exact hI.csig _ _ _ h1 h2
  · intro t X ds h1 h2
    rw [S.deps] at h2
    exact hI.deps t X ds h1 h2

theorem Same.trans {W W1 W2 : World F D} (h : Same W W1) (h' : Same W1 W2) : Same W W2 :=
  ⟨h'.files.trans h.files, h'.mtime.trans h.mtime, h'.clock.trans h.clock, h'.last.trans h.last, h'.seen.trans h.seen, fun X f => (h'.deps X f).trans (h.deps X f)⟩

theorem MInv.same {W W' : World F D} {M : Mem F D} (h : MInv P W M) (hs : Same W W') : MInv P W' M :=
  ⟨fun f k hk => by rw [hs.files]; exact h.csig f k hk, h.chunk⟩

theorem visit_spec (old : F → Bool) (fs : List F) : ∀ (W : World F D) (M : Mem F D) (W' : World F D) (M' : Mem F D) (ks : List (F × Str)) (cs : List Bytes),
    Inv P W → MInv P W M → visit P old W M fs = some (W', M', ks, cs) →
    Inv P W' ∧ MInv P W' M' ∧ Same W W' ∧ Keeps M M' ∧ ks.map Prod.fst = fs ∧ fs.map W.files = cs.map some ∧ List.Forall₂ (fun p c => ∃ a, p.2 = P.dig a c) ks cs := by
  induction fs with
  | nil =>
    intro W M W' M' ks cs hI hM h
    simp only [visit, Option.some.injEq, Prod.mk.injEq] at h
    obtain ⟨rfl, rfl, rfl, rfl⟩ := h
    exact ⟨hI, hM, ⟨rfl, rfl, rfl, rfl, rfl, fun _ _ => rfl⟩, fun _ _ h => h, rfl, rfl, .nil⟩
  | cons f fs ih =>
    intro W M W' M' ks cs hI hM h
    rw [visit] at h
    rcases hf : W.files f with _ | c <;> rw [hf] at h
    · cases h
    · simp only at h
      obtain ⟨g1, g2, a, g3⟩ := getCsig_spec (old := old) hI hM hf
      rcases hg : getCsig P W old M f c with ⟨M1, k⟩
      rw [hg] at g1 g2 g3 h
      simp only at g1 g2 g3 h
      obtain ⟨s1, s2, s3, s4, s5⟩ := sconsign_spec M1 (P.dirOf f)
      rcases hs : sconsign M1 (P.dirOf f) with ⟨M2, x⟩
      rw [hs] at s1 s2 s3 s4 s5 h
      simp only at s1 s2 s3 s4 s5 h
      have S := record_same W x f k
      have I1 := record_inv hI x f k c a hf g3
      generalize { W with db := Function.update W.db x (Function.update (W.db x) f { W.db x f with csig := some k, stamp := some (W.mtime f) }) } = W1 at *
      have M2i : MInv P W1 M2 := ⟨fun f' k' hk => by rw [S.files]; rw [s3] at hk; exact g2.csig f' k' hk, by rw [s4]; exact g2.chunk⟩
      rcases hv : visit P old W1 M2 fs with _ | ⟨W2, M3, ks', cs'⟩ <;> rw [hv] at h
      · cases h
      · simp only [Option.some.injEq, Prod.mk.injEq] at h
        obtain ⟨rfl, rfl, rfl, rfl⟩ := h
        obtain ⟨i1, i2, i3, i4, i5, i6, i7⟩ := ih _ _ _ _ _ _ I1 M2i hv
        refine ⟨i1, i2, S.trans i3, (g1.trans s1).trans i4, by simp [i5], ?_, .cons ⟨a, g3⟩ i7⟩
        rw [S.files] at i6
        simp [hf, i6]

theorem eq_or_collision (hL : Lengths P) {W : World F D} (hC : ¬ Collision P W) {ks : List (F × Str)} {cs cs' : List Bytes} (h : List.Forall₂ (fun p c => ∃ a, p.2 = P.dig a c) ks cs)
    (h' : List.Forall₂ (fun p c => ∃ a, p.2 = P.dig a c) ks cs') (hs : ∀ c ∈ cs, W.seen c) (hs' : ∀ c ∈ cs', W.seen c) : cs = cs' := by
  induction h generalizing cs' with
  | nil => cases h'; rfl
  | cons hx _ ih =>
    cases h' with
    | cons hy ht =>
      obtain ⟨a, ha⟩ := hx
      obtain ⟨b, hb⟩ := hy
      have e := ha.symm.trans hb
      have : a = b := by
        have l := congrArg List.length e
        rw [hL, hL] at l
        cases a <;> cases b <;> simp at l <;> rfl
      subst this
      congr 1
      · exact Classical.byContradiction fun hn => hC ⟨a, _, _, hs _ List.mem_cons_self, hs' _ List.mem_cons_self, hn, e⟩
      · exact ih ht (fun c hc => hs c (List.mem_cons_of_mem _ hc)) (fun c hc => hs' c (List.mem_cons_of_mem _ hc))

/-- What a task does. -/
theorem task_spec {old : F → Bool} {W W' : World F D} {M M' : Mem F D} {t : F} {b : Bool} (hI : Inv P W) (hM : MInv P W M) (ht : t ∉ P.deps t)
    (h : task P old W M t = some (W', M', b)) :
    Inv P W' ∧ MInv P W' M' ∧ Keeps M M' ∧ (∀ f, f ≠ t → W'.files f = W.files f ∧ W'.last f = W.last f) ∧ (∀ c, W.seen c → W'.seen c) ∧
      ∃ x, M'.sconsigns (P.dirOf t) = some x ∧ (Lengths P → ¬ Collision P W' → W'.last t = some x → Right P W' t) := by
  rw [task] at h
  rcases hv : visit P old W M (P.deps t) with _ | ⟨W1, M1, ks, cs⟩ <;> rw [hv] at h
  · cases h
  obtain ⟨v1, v2, v3, v4, v5, v6, v7⟩ := visit_spec old _ _ _ _ _ _ _ hI hM hv
  simp only at h
  obtain ⟨s1, s2, s3, s4, s5⟩ := sconsign_spec M1 (P.dirOf t)
  rcases hs : sconsign M1 (P.dirOf t) with ⟨M2, x⟩
  rw [hs] at s1 s2 s3 s4 s5 h
  simp only at s1 s2 s3 s4 s5 h
  have hd : (P.deps t).map W1.files = cs.map some := by rw [v3.files]; exact v6
  have hsn : ∀ c ∈ cs, W1.seen c := by
    intro c hc
    have : some c ∈ (P.deps t).map W1.files := by rw [hd]; exact List.mem_map_of_mem hc
    obtain ⟨d, _, hd'⟩ := List.mem_map.1 this
    exact v1.seen d c hd'
  split at h
  · rename_i hu
    simp only [Option.some.injEq, Prod.mk.injEq] at h
    obtain ⟨rfl, rfl, rfl⟩ := h
    refine ⟨v1, ⟨fun f k hk => v2.csig f k (by rw [← s3]; exact hk), by rw [s4]; exact v2.chunk⟩, v4.trans s1, fun f _ => ⟨by rw [v3.files], by rw [v3.last]⟩, fun c hc => by rw [v3.seen]; exact hc, x, s2, ?_⟩
    intro hL hC hl
    obtain ⟨cs', e1, e2, e3, e4⟩ := v1.deps t x ks hl hu.2
    have := eq_or_collision hL hC v7 e3 hsn e4
    subst this
    exact ⟨cs, hd, e1⟩
  · simp only [Option.some.injEq, Prod.mk.injEq] at h
    obtain ⟨rfl, rfl, rfl⟩ := h
    have hh : hashed M2.chunk (P.act t cs) = P.act t cs := hashed_eq (by rw [s4]; exact v2.chunk) _
    refine ⟨⟨?_, ?_, ?_, ?_, ?_⟩, ⟨?_, by simp only [s4]; exact v2.chunk⟩, v4.trans s1, ?_, fun c hc => .inl (by rw [v3.seen]; exact hc), x, s2, ?_⟩
    · intro X f m hm
      by_cases hX : X = x
      · subst hX
        by_cases hf : f = t
        · subst hf; simp at hm; simp [← hm]
        · simp only [Function.update_self, Function.update_of_ne hf] at hm
          have := v1.stamps _ _ _ hm; simp only; omega
      · simp only [Function.update_of_ne hX] at hm
        have := v1.stamps _ _ _ hm; simp only; omega
    · intro f
      by_cases hf : f = t
      · subst hf; simp
      · simp only [Function.update_of_ne hf]; have := v1.mtimes f; omega
    · intro X f k h1 h2
      by_cases hf : f = t
      · subst hf
        by_cases hX : X = x
        · subst hX
          simp only [Function.update_self, Option.some.injEq] at h1
          exact ⟨M2.g.func, P.act f cs, by simp, by rw [← h1, hh]⟩
        · simp only [Function.update_of_ne hX, Function.update_self] at h1 h2
          have := v1.stamps _ _ _ h2; omega
      · by_cases hX : X = x
        · subst hX
          simp only [Function.update_self, Function.update_of_ne hf] at h1 h2
          obtain ⟨a, c, e1, e2⟩ := v1.csig _ _ _ h1 h2
          exact ⟨a, c, by simpa [Function.update_of_ne hf] using e1, e2⟩
        · simp only [Function.update_of_ne hX, Function.update_of_ne hf] at h1 h2
          obtain ⟨a, c, e1, e2⟩ := v1.csig _ _ _ h1 h2
          exact ⟨a, c, by simpa [Function.update_of_ne hf] using e1, e2⟩
    · intro u X ds h1 h2
      by_cases hu : u = t
      · subst hu
        simp only [Function.update_self, Option.some.injEq] at h1
        subst h1
        simp only [Function.update_self, Option.some.injEq] at h2
        subst h2
        exact ⟨cs, by simp, v5, v7, fun c hc => .inl (hsn c hc)⟩
      · simp only [Function.update_of_ne hu] at h1
        have h2' : (W1.db X u).deps = some ds := by
          by_cases hX : X = x
          · subst hX; simpa [Function.update_of_ne hu] using h2
          · simpa [Function.update_of_ne hX] using h2
        obtain ⟨cs', e1, e2, e3, e4⟩ := v1.deps u X ds h1 h2'
        exact ⟨cs', by simpa [Function.update_of_ne hu] using e1, e2, e3, fun c hc => .inl (e4 c hc)⟩
    · intro f c hc
      by_cases hf : f = t
      · subst hf; simp at hc; exact .inr hc.symm
      · simp only [Function.update_of_ne hf] at hc; exact .inl (v1.seen f c hc)
    · intro f k hk
      by_cases hf : f = t
      · subst hf
        simp only [Function.update_self, Option.some.injEq] at hk
        exact ⟨M2.g.func, P.act f cs, by simp, by rw [← hk, hh]⟩
      · simp only [Function.update_of_ne hf, s3] at hk
        obtain ⟨a, c, e1, e2⟩ := v2.csig f k hk
        exact ⟨a, c, by simpa [Function.update_of_ne hf] using e1, e2⟩
    · intro f hf
      simp [Function.update_of_ne hf, v3.files, v3.last]
    · intro _ _ _
      refine ⟨cs, ?_, by simp⟩
      rw [← hd]
      refine List.map_congr_left fun d hd' => ?_
      have : d ≠ t := by rintro rfl; exact ht hd'
      simp [Function.update_of_ne this]

theorem tasks_spec {old : F → Bool} (ts : List F) : ∀ (W W' : World F D) (M M' : Mem F D) (done ex : List F), Inv P W → MInv P W M → Ordered P ts →
    tasks P old W M ts = (W', M', done, ex) →
    Inv P W' ∧ Keeps M M' ∧ (∀ f, f ∉ ts → W'.files f = W.files f ∧ W'.last f = W.last f) ∧ (∀ c, W.seen c → W'.seen c) ∧
      ∀ t ∈ done, ∃ x, M'.sconsigns (P.dirOf t) = some x ∧ (Lengths P → ¬ Collision P W' → W'.last t = some x → Right P W' t) := by
  induction ts with
  | nil =>
    intro W W' M M' done ex hI hM ho h
    simp only [tasks, Prod.mk.injEq] at h
    obtain ⟨rfl, rfl, rfl, rfl⟩ := h
    exact ⟨hI, fun _ _ h => h, fun _ _ => ⟨rfl, rfl⟩, fun _ h => h, by simp⟩
  | cons t ts ih =>
    intro W W' M M' done ex hI hM ho h
    rw [tasks] at h
    obtain ⟨o1, o2, o3⟩ := ho [] t ts rfl
    rcases hT : task P old W M t with _ | ⟨W1, M1, b⟩ <;> rw [hT] at h
    · simp only [Prod.mk.injEq] at h
      obtain ⟨rfl, rfl, rfl, rfl⟩ := h
      exact ⟨hI, fun _ _ h => h, fun _ _ => ⟨rfl, rfl⟩, fun _ h => h, by simp⟩
    · obtain ⟨t1, t2, t3, t4, ts', x, t5, t6⟩ := task_spec hI hM o3 hT
      rcases hR : tasks P old W1 M1 ts with ⟨W2, M2, done', ex'⟩
      simp only [hR, Prod.mk.injEq] at h
      obtain ⟨rfl, rfl, rfl, rfl⟩ := h
      obtain ⟨r1, r2, r3, rs, r4⟩ := ih _ _ _ _ _ _ t1 t2 (fun a u b e => ho (t :: a) u b (by simp [e])) hR
      refine ⟨r1, t3.trans r2, ?_, fun c hc => rs c (ts' c hc), ?_⟩
      · intro f hf
        simp only [List.mem_cons, not_or] at hf
        obtain ⟨e1, e2⟩ := r3 f hf.2
        obtain ⟨e3, e4⟩ := t4 f hf.1
        exact ⟨e1.trans e3, e2.trans e4⟩
      · intro u hu
        rcases List.mem_cons.1 hu with rfl | hu
        · refine ⟨x, r2 _ _ t5, fun hL hC hl => ?_⟩
          obtain ⟨e1, e2⟩ := r3 u o1
          rw [e2] at hl
          obtain ⟨cs, c1, c2⟩ := t6 hL (fun ⟨a, x, y, q1, q2, q3⟩ => hC ⟨a, x, y, rs _ q1, rs _ q2, q3⟩) hl
          refine ⟨cs, ?_, by rw [e1]; exact c2⟩
          rw [← c1]
          exact List.map_congr_left fun d hd => (r3 d (o2 d hd)).1
        · exact r4 u hu

theorem script_spec {old : F → Bool} (es : List (Ev F)) : ∀ (W : World F D) (M : Mem F D), Inv P W → MInv P W M →
    Inv P (script P old W M es).1 ∧ MInv P (script P old W M es).1 (script P old W M es).2 ∧ Same W (script P old W M es).1 := by
  induction es with
  | nil => intro W M hI hM; exact ⟨hI, hM, ⟨rfl, rfl, rfl, rfl, rfl, fun _ _ => rfl⟩⟩
  | cons e es ih =>
    intro W M hI hM
    cases e with
    | setOption s => exact ih _ _ hI ⟨hM.csig, hM.chunk⟩
    | sconsignFile n =>
      cases n with
      | none => exact ih _ _ hI ⟨hM.csig, hM.chunk⟩
      | some n => exact ih _ _ hI ⟨hM.csig, hM.chunk⟩
    | check fs =>
      rw [script]
      rcases hv : visit P old W M fs with _ | ⟨W1, M1, ks, cs⟩
      · exact ih _ _ hI hM
      · obtain ⟨v1, v2, v3, _⟩ := visit_spec old _ _ _ _ _ _ _ hI hM hv
        obtain ⟨i1, i2, i3⟩ := ih _ _ v1 v2
        exact ⟨i1, i2, v3.trans i3⟩

theorem ready_spec {W W1 : World F D} {M : Mem F D} {r : Run F} (hI : Inv P W) (h : ready P W r = some (W1, M)) : Inv P W1 ∧ MInv P W1 M ∧ Same W W1 := by
  rw [ready] at h
  rcases hs : start P with _ | M0 <;> rw [hs] at h
  · cases h
  · have hM0 : MInv P W M0 := by
      rw [start] at hs
      rcases hg : setHashFormat P.avail none with _ | g <;> rw [hg] at hs
      · cases hs
      · simp only [Option.map_some, Option.some.injEq] at hs
        subst hs
        exact ⟨by simp, by simp⟩
    obtain ⟨s1, s2, s3⟩ := script_spec (old := r.old) r.events W M0 hI hM0
    simp only at h
    rcases he : script P r.old W M0 r.events with ⟨W2, M2⟩
    rw [he] at s1 s2 s3 h
    simp only [Option.map_eq_some_iff, Prod.mk.injEq] at h
    obtain ⟨g, _, rfl, rfl⟩ := h
    refine ⟨s1, ⟨s2.csig, ?_⟩, s3⟩
    simp only [chunkSize]
    split <;> omega

theorem run_spec {W W' : World F D} {M' : Mem F D} {r : Run F} {done ex : List F} (hI : Inv P W) (ho : Ordered P r.targets) (h : run P W r = some (W', M', done, ex)) :
    Inv P W' ∧ ∀ t ∈ done, ∃ x, M'.sconsigns (P.dirOf t) = some x ∧ (Lengths P → ¬ Collision P W' → W'.last t = some x → Right P W' t) := by
  rw [run] at h
  simp only [Option.map_eq_some_iff] at h
  obtain ⟨⟨W1, M1⟩, h1, h2⟩ := h
  obtain ⟨r1, r2, _⟩ := ready_spec hI h1
  obtain ⟨t1, _, _, _, t4⟩ := tasks_spec _ _ _ _ _ _ _ r1 r2 ho h2
  exact ⟨t1, t4⟩

theorem hist_inv {ok : World F D → Run F → Prop} (hok : ∀ W r, ok W r → Ordered P r.targets) {W : World F D} (h : Hist P ok W) : Inv P W := by
  induction h with
  | new files mtime clock hm => exact ⟨by simp, hm, by simp, by simp, fun f c h => ⟨f, h⟩⟩
  | @edit W f c _ ih =>
    refine ⟨?_, ?_, ?_, ?_, ?_⟩
    · intro X g m hm; have := ih.stamps X g m hm; simp only [edit]; omega
    · intro g
      by_cases hg : g = f
      · subst hg; simp [edit]
      · simp only [edit, Function.update_of_ne hg]; have := ih.mtimes g; omega
    · intro X g k h1 h2
      by_cases hg : g = f
      · subst hg
        simp only [edit, Function.update_self] at h2
        have := ih.stamps X g _ h2; omega
      · simp only [edit, Function.update_of_ne hg] at h1 h2 ⊢
        exact ih.csig X g k h1 h2
    · intro t X ds h1 h2
      by_cases hg : t = f
      · subst hg; simp [edit] at h1
      · simp only [edit, Function.update_of_ne hg] at h1 h2 ⊢
        obtain ⟨cs, e1, e2, e3, e4⟩ := ih.deps t X ds h1 h2
        exact ⟨cs, e1, e2, e3, fun c hc => .inl (e4 c hc)⟩
    · intro g c' hc
      by_cases hg : g = f
      · subst hg; simp only [edit, Function.update_self] at hc; exact .inr hc
      · simp only [edit, Function.update_of_ne hg] at hc; exact .inl (ih.seen g c' hc)
  | run r _ ho hr ih => exact (run_spec ih (hok _ _ ho) hr).1

/-- **C113**: whatever hash formats, databases and chunk sizes the runs of the past used, and however they were mixed: a target that is visited is what its command makes of its dependencies as they are now,
if it was last made by a run that used the same database as this one (or by this one). -/
theorem C113_right (hL : Lengths P) {W W' : World F D} {M' : Mem F D} {done ex : List F} (h : Hist P (fun _ r => Ordered P r.targets) W) (r : Run F) (ho : Ordered P r.targets)
    (hr : run P W r = some (W', M', done, ex)) : Collision P W' ∨ ∀ t ∈ done, W'.last t = M'.sconsigns (P.dirOf t) → Right P W' t := by
  by_cases hC : Collision P W'
  · exact .inl hC
  · refine .inr fun t ht hl => ?_
    obtain ⟨x, h1, h2⟩ := (run_spec (hist_inv (fun _ _ h => h) h) ho hr).2 t ht
    exact h2 hL hC (hl.trans h1)

/-! ## One database -/

/-- All databases that are or will be used are the database `n` of the project. -/
structure Only (n : Str) (M : Mem F D) : Prop where
  per : M.perDir = false
  name : M.dbName.getD (filename M.g) = n
  opened : M.opened = none ∨ M.opened = some n
  sc : ∀ d x, M.sconsigns d = some x → x = .project n

theorem sconsign_only {n : Str} {M : Mem F D} (h : Only n M) (d : D) : Only n (sconsign M d).1 ∧ (sconsign M d).2 = .project n := by
  rw [sconsign]
  rcases hs : M.sconsigns d with _ | x
  · simp only [h.per, Bool.false_eq_true, ↓reduceIte]
    have e : M.opened.getD (M.dbName.getD (filename M.g)) = n := by
      rcases h.opened with h1 | h1 <;> rw [h1]
      · exact h.name
      · rfl
    rw [e, h.name]
    refine ⟨⟨rfl, rfl, .inr rfl, ?_⟩, rfl⟩
    intro d' x hx
    by_cases hd : d' = d
    · subst hd; simp at hx; exact hx.symm
    · simp only [Function.update_of_ne hd] at hx; exact h.sc d' x hx
  · exact ⟨h, h.sc d x hs⟩

theorem getCsig_only {n : Str} {M : Mem F D} (h : Only n M) (W : World F D) (old : F → Bool) (f : F) (c : Bytes) : Only n (getCsig P W old M f c).1 := by
  rw [getCsig]
  rcases hk : M.csigs f with _ | k
  · have := (sconsign_only h (P.dirOf f)).1
    rcases hs : sconsign M (P.dirOf f) with ⟨M1, x⟩
    rw [hs] at this
    exact ⟨this.per, this.name, this.opened, this.sc⟩
  · exact h

theorem visit_only {n : Str} {old : F → Bool} (fs : List F) : ∀ (W : World F D) (M : Mem F D) (W' : World F D) (M' : Mem F D) (ks : List (F × Str)) (cs : List Bytes), Only n M →
    visit P old W M fs = some (W', M', ks, cs) → Only n M' ∧ W'.last = W.last := by
  induction fs with
  | nil =>
    intro W M W' M' ks cs h e
    simp only [visit, Option.some.injEq, Prod.mk.injEq] at e
    obtain ⟨rfl, rfl, rfl, rfl⟩ := e
    exact ⟨h, rfl⟩
  | cons f fs ih =>
    intro W M W' M' ks cs h e
    rw [visit] at e
    rcases hf : W.files f with _ | c <;> rw [hf] at e
    · cases e
    · simp only at e
      have h1 := getCsig_only (P := P) h W old f c
      rcases hg : getCsig P W old M f c with ⟨M1, k⟩
      rw [hg] at h1 e
      simp only at e
      have h2 := (sconsign_only h1 (P.dirOf f)).1
      rcases hs : sconsign M1 (P.dirOf f) with ⟨M2, x⟩
      rw [hs] at h2 e
      simp only at e h2
      generalize hW : { W with db := Function.update W.db x (Function.update (W.db x) f { W.db x f with csig := some k, stamp := some (W.mtime f) }) } = W1 at e
      rcases hv : visit P old W1 M2 fs with _ | ⟨W2, M3, ks', cs'⟩ <;> rw [hv] at e
      · cases e
      · simp only [Option.some.injEq, Prod.mk.injEq] at e
        obtain ⟨rfl, rfl, rfl, rfl⟩ := e
        obtain ⟨i1, i2⟩ := ih _ _ _ _ _ _ h2 hv
        exact ⟨i1, by rw [i2, ← hW]⟩

/-- Everything that a run of SCons made was made with the database `n`. -/
def Made (n : Str) (W : World F D) : Prop := ∀ t, W.last t = none ∨ W.last t = some (.project n)

theorem task_only {n : Str} {old : F → Bool} {W W' : World F D} {M M' : Mem F D} {t : F} {b : Bool} (h : Only n M) (hW : Made n W) (e : task P old W M t = some (W', M', b)) :
    Only n M' ∧ Made n W' ∧ (W.last t = none → W'.last t = none → b = false) := by
  rw [task] at e
  rcases hv : visit P old W M (P.deps t) with _ | ⟨W1, M1, ks, cs⟩ <;> rw [hv] at e
  · cases e
  obtain ⟨v1, v2⟩ := visit_only _ _ _ _ _ _ _ h hv
  simp only at e
  obtain ⟨s1, s2⟩ := sconsign_only v1 (P.dirOf t)
  rcases hs : sconsign M1 (P.dirOf t) with ⟨M2, x⟩
  rw [hs] at s1 s2 e
  simp only at s1 s2 e
  split at e
  · simp only [Option.some.injEq, Prod.mk.injEq] at e
    obtain ⟨rfl, rfl, rfl⟩ := e
    exact ⟨s1, fun u => by rw [v2]; exact hW u, fun _ _ => rfl⟩
  · simp only [Option.some.injEq, Prod.mk.injEq] at e
    obtain ⟨rfl, rfl, rfl⟩ := e
    refine ⟨⟨s1.per, s1.name, s1.opened, s1.sc⟩, fun u => ?_, fun _ h => by simp at h⟩
    by_cases hu : u = t
    · subst hu; right; simp [s2]
    · simp only [Function.update_of_ne hu, v2]; exact hW u

theorem tasks_only {n : Str} {old : F → Bool} (ts : List F) : ∀ (W W' : World F D) (M M' : Mem F D) (done ex : List F), Only n M → Made n W → tasks P old W M ts = (W', M', done, ex) → Only n M' ∧ Made n W' := by
  induction ts with
  | nil =>
    intro W W' M M' done ex h hW e
    simp only [tasks, Prod.mk.injEq] at e
    obtain ⟨rfl, rfl, rfl, rfl⟩ := e
    exact ⟨h, hW⟩
  | cons t ts ih =>
    intro W W' M M' done ex h hW e
    rw [tasks] at e
    rcases hT : task P old W M t with _ | ⟨W1, M1, b⟩ <;> rw [hT] at e
    · simp only [Prod.mk.injEq] at e
      obtain ⟨rfl, rfl, rfl, rfl⟩ := e
      exact ⟨h, hW⟩
    · obtain ⟨t1, t2, _⟩ := task_only h hW hT
      rcases hR : tasks P old W1 M1 ts with ⟨W2, M2, done', ex'⟩
      simp only [hR, Prod.mk.injEq] at e
      obtain ⟨rfl, rfl, rfl, rfl⟩ := e
      exact ih _ _ _ _ _ _ t1 t2 hR

end Verif.Hash
