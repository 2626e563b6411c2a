import Verif.Scan.Dirs

/-!
# Directories as sources: C72
-/

namespace Verif.Scan.Dirs

variable {Sig : Type} [DecidableEq Sig]

/-! ## Specification -/

/-- What is below the directory `d`: the files and directories that are there, and those SCons knows in directories that are there,
except its own signature files. -/
inductive Visible (w : World Sig) (d : Path) : Path → Prop
  | child {l n} (hl : w.listing d = some l) (hn : n ∈ l ∨ n ∈ w.known d) (hs : n ∉ skipped) : Visible w d (n :: d)
  | step {p l n} (hp : Visible w d p) (hd : w.isDir p = true) (hl : w.listing p = some l) (hn : n ∈ l ∨ n ∈ w.known p)
      (hs : n ∉ skipped) : Visible w d (n :: p)

/-- The paths there are, are finitely many; `known` are the keys of a dictionary, and a directory's listing has no name twice. -/
structure Finite (w : World Sig) (U : List Path) : Prop where
  listed : ∀ p l n, w.listing p = some l → n ∈ l → n :: p ∈ U
  known : ∀ p, ∀ n ∈ w.known p, n :: p ∈ U
  keys : ∀ p, (w.known p).Nodup
  names : ∀ p l, w.listing p = some l → l.Nodup

/-- The directory `d` and what is below it look the same: the same directories with the same names in them, whatever the order in
which they are listed. -/
structure SameShape (w w' : World Sig) (d : Path) : Prop where
  isDir : ∀ p, p = d ∨ Visible w d p → w.isDir p = w'.isDir p
  readable : ∀ p, p = d ∨ Visible w d p → (w.listing p).isSome = (w'.listing p).isSome
  names : ∀ p l l', p = d ∨ Visible w d p → w.listing p = some l → w'.listing p = some l' →
    ∀ n, (n ∈ l ∨ n ∈ w.known p) ↔ (n ∈ l' ∨ n ∈ w'.known p)

/-! ## Lemmas -/

theorem lookup_mem (keys : List Name) (f n : Name) : n ∈ lookup keys f ↔ n ∈ keys ∨ n = f := by
  unfold lookup
  split
  · constructor
    · exact .inl
    · rintro (h | rfl) <;> assumption
  · simp

theorem lookup_nodup {keys : List Name} (h : keys.Nodup) (f : Name) : (lookup keys f).Nodup := by
  unfold lookup
  split
  · exact h
  · rw [List.nodup_append]
    refine ⟨h, by simp, ?_⟩
    intro a ha b hb e
    simp at hb
    subst hb; subst e
    contradiction

theorem foldl_mem (l : List Name) : ∀ (keys : List Name) (n : Name), n ∈ l.foldl lookup keys ↔ n ∈ keys ∨ n ∈ l := by
  induction l with
  | nil => simp
  | cons f l ih =>
    intro keys n
    simp only [List.foldl_cons, ih, lookup_mem, List.mem_cons]
    grind

theorem foldl_nodup (l : List Name) : ∀ (keys : List Name), keys.Nodup → (l.foldl lookup keys).Nodup := by
  induction l with
  | nil => exact fun _ h => h
  | cons f l ih => exact fun keys h => ih _ (lookup_nodup h f)

theorem doScan_iff (n : Name) : doScan n = true ↔ n ∉ skipped := by simp [doScan]

theorem scanInMemory_mem (keys : List Name) (n : Name) : n ∈ scanInMemory keys ↔ n ∈ keys ∧ n ∉ skipped := by
  unfold scanInMemory
  rw [(List.perm_insertionSort _ _).mem_iff, List.mem_filter, doScan_iff]

theorem scanInMemory_nodup {keys : List Name} (h : keys.Nodup) : (scanInMemory keys).Nodup := by
  unfold scanInMemory
  rw [(List.perm_insertionSort _ _).nodup_iff]
  exact h.filter _

theorem scanInMemory_sorted (keys : List Name) : (scanInMemory keys).Pairwise (· ≤ ·) := by
  unfold scanInMemory
  exact List.pairwise_insertionSort _ _

theorem sorted_ext {l l' : List Name} (h : l.Pairwise (· ≤ ·)) (h' : l'.Pairwise (· ≤ ·)) (hn : l.Nodup) (hn' : l'.Nodup)
    (hm : ∀ n, n ∈ l ↔ n ∈ l') : l = l' := by
  refine List.Perm.eq_of_pairwise (le := fun a b : String => a ≤ b) ?_ h h' ((List.perm_ext_iff_of_nodup hn hn').2 hm)
  intro a b _ _ h1 h2
  exact String.le_antisymm h1 h2

theorem scanOnDisk_mem (keys : List Name) (l : Option (List Name)) (n : Name) :
    n ∈ scanOnDisk keys l ↔ ∃ ls, l = some ls ∧ (n ∈ ls ∨ n ∈ keys) ∧ n ∉ skipped := by
  cases l with
  | none => simp [scanOnDisk]
  | some ls =>
    simp only [scanOnDisk, scanInMemory_mem, foldl_mem, List.mem_filter, doScan_iff, Option.some.injEq, exists_eq_left']
    grind

theorem scanOnDisk_nodup {keys : List Name} (h : keys.Nodup) (l : Option (List Name)) : (scanOnDisk keys l).Nodup := by
  cases l with
  | none => exact List.nodup_nil
  | some ls => exact scanInMemory_nodup (foldl_nodup _ _ h)

theorem scanOnDisk_sorted (keys : List Name) (l : Option (List Name)) : (scanOnDisk keys l).Pairwise (· ≤ ·) := by
  cases l with
  | none => exact List.Pairwise.nil
  | some ls => exact scanInMemory_sorted _

/-- The result of a finished scan does not depend on how long one waits. -/
theorem loop_fuel {V S : Type} [DecidableEq V] (E : Env V S) (scanner : V → Option S) :
    ∀ n m (s : State V) a b, loop E scanner n s = some a → loop E scanner m s = some b → a = b := by
  intro n
  induction n with
  | zero =>
    intro m s a b ha hb
    rw [loop.eq_def] at ha hb
    simp only at ha hb
    split at ha
    · rename_i h
      rw [if_pos h] at hb
      cases ha; cases hb; rfl
    · cases ha
  | succ n ih =>
    intro m s a b ha hb
    rw [loop.eq_def] at ha hb
    simp only at ha hb
    split at ha
    · rename_i h
      rw [if_pos h] at hb
      cases ha; cases hb; rfl
    · rename_i h
      rw [if_neg h] at hb
      cases m with
      | zero => cases hb
      | succ m => exact ih m _ a b ha hb

theorem scannerOf_disk (w : World Sig) (d p : Path) : scannerOf (env w) (some .disk) d p = some .disk := rfl

def go (w : World Sig) : Scanner → Path → Bool
  | .disk, p => w.isDir p
  | .memory, _ => false

theorem filters (w : World Sig) : Filters (env w) (go w) := by
  intro sc l
  cases sc
  · rfl
  · simp [env, go]

theorem findsIn {w : World Sig} {U : List Path} (h : Finite w U) : FindsIn (env w) U := by
  intro p sc x hx
  cases sc
  · simp only [env, List.mem_map, scanOnDisk_mem] at hx
    obtain ⟨n, ⟨ls, hl, hn | hn, _⟩, rfl⟩ := hx
    · exact h.listed _ _ _ hl hn
    · exact h.known _ _ hn
  · simp only [env, List.mem_map, scanInMemory_mem] at hx
    obtain ⟨n, ⟨hn, _⟩, rfl⟩ := hx
    exact h.known _ _ hn

theorem mem_found {w : World Sig} {p x : Path} :
    x ∈ (env w).found p .disk ↔ ∃ n l, x = n :: p ∧ w.listing p = some l ∧ (n ∈ l ∨ n ∈ w.known p) ∧ n ∉ skipped := by
  simp only [env, List.mem_map, scanOnDisk_mem]
  constructor
  · rintro ⟨n, ⟨l, h1, h2, h3⟩, rfl⟩
    exact ⟨n, l, rfl, h1, h2, h3⟩
  · rintro ⟨n, l, rfl, h1, h2, h3⟩
    exact ⟨n, ⟨l, h1, h2, h3⟩, rfl⟩

theorem visible_longer {w : World Sig} {d p : Path} (h : Visible w d p) : d.length < p.length := by
  induction h with
  | child => simp
  | step _ _ _ _ _ ih => simp; omega

theorem scanned_iff {w : World Sig} {d p : Path} :
    Scanned (env w) (scannerOf (env w) (some .disk) d) (fun sc x => go w sc x = true) d p ↔
      p = d ∨ (Visible w d p ∧ w.isDir p = true) := by
  constructor
  · intro h
    induction h with
    | start => exact .inl rfl
    | @step q sc x hq hs hx hr ih =>
      rw [scannerOf_disk] at hs
      cases hs
      obtain ⟨n, l, rfl, h1, h2, h3⟩ := mem_found.1 hx
      refine .inr ⟨?_, hr⟩
      rcases ih with rfl | ⟨hv, hd⟩
      · exact .child h1 h2 h3
      · exact .step hv hd h1 h2 h3
  · rintro (rfl | ⟨hv, hd⟩)
    · exact .start
    · induction hv with
      | child hl hn hs => exact .step .start (scannerOf_disk _ _ _) (mem_found.2 ⟨_, _, rfl, hl, hn, hs⟩) hd
      | step _ hd' hl hn hs ih => exact .step (ih hd') (scannerOf_disk _ _ _) (mem_found.2 ⟨_, _, rfl, hl, hn, hs⟩) hd

theorem dep_iff {w : World Sig} {d x : Path} :
    Dep (env w) (scannerOf (env w) (some .disk) d) (fun sc x => go w sc x = true) d x ↔ Visible w d x := by
  unfold Dep
  constructor
  · rintro ⟨_, p, sc, hp, hs, hx⟩
    rw [scannerOf_disk] at hs
    cases hs
    obtain ⟨n, l, rfl, h1, h2, h3⟩ := mem_found.1 hx
    rcases scanned_iff.1 hp with rfl | ⟨hv, hd⟩
    · exact .child h1 h2 h3
    · exact .step hv hd h1 h2 h3
  · intro h
    refine ⟨fun e => by have := visible_longer h; rw [e] at this; omega, ?_⟩
    cases h with
    | child hl hn hs => exact ⟨d, .disk, .start, scannerOf_disk _ _ _, mem_found.2 ⟨_, _, rfl, hl, hn, hs⟩⟩
    | step hp hd hl hn hs => exact ⟨_, .disk, scanned_iff.2 (.inr ⟨hp, hd⟩), scannerOf_disk _ _ _, mem_found.2 ⟨_, _, rfl, hl, hn, hs⟩⟩

/-! ## C72 -/

/-- **C72, what a target made from a directory depends on**: with `DirScanner` (`Tar`, `Zip`, `Package`) on everything below the directory, at
any depth, each once; the scan ends. -/
theorem C72_dependencies (w : World Sig) (U : List Path) (hU : Finite w U) (d : Path) :
    ∃ n0 l, (∀ n, n0 ≤ n → deps w (some .disk) d n = some l) ∧ l.Nodup ∧ ∀ p, p ∈ l ↔ Visible w d p := by
  obtain ⟨n0, l, h1, h2, _⟩ := C38_transitive_closure_partial (env w) (go w) (filters w) U (findsIn hU) (some .disk) d
    (by intro p p' sc sc' x h h' _ _; rw [scannerOf_disk] at h h'; cases h; cases h'; rfl)
  refine ⟨n0, l, h1, ?_, fun p => (h2 p).trans dep_iff⟩
  refine C38_each_once (env w) ?_ (some .disk) d n0 l (h1 n0 (Nat.le_refl _))
  intro p sc
  have hinj : Function.Injective (fun n : Name => n :: p) := fun a b h => by simpa using h
  cases sc
  · exact (scanOnDisk_nodup (hU.keys p) _).map hinj
  · exact (scanInMemory_nodup (hU.keys p)).map hinj

theorem deps_spec {w : World Sig} {U : List Path} (hU : Finite w U) {d : Path} {n : Nat} {l : List Path}
    (h : deps w (some .disk) d n = some l) : l.Nodup ∧ ∀ p, p ∈ l ↔ Visible w d p := by
  obtain ⟨n0, l0, h1, h2, h3⟩ := C72_dependencies w U hU d
  have : l = l0 := loop_fuel _ _ _ _ _ _ _ h (h1 n0 (Nat.le_refl _))
  exact this ▸ ⟨h2, h3⟩

theorem env_eq {w w' : World Sig} {U U' : List Path} {d : Path} (hU : Finite w U) (hU' : Finite w' U') (h : SameShape w w' d)
    (p : Path) (hp : p = d ∨ Visible w d p) : (env w).found p .disk = (env w').found p .disk := by
  simp only [env]
  refine congrArg _ (sorted_ext (scanOnDisk_sorted _ _) (scanOnDisk_sorted _ _) (scanOnDisk_nodup (hU.keys p) _)
    (scanOnDisk_nodup (hU'.keys p) _) fun n => ?_)
  rw [scanOnDisk_mem, scanOnDisk_mem]
  have hr := h.readable p hp
  cases e : w.listing p with
  | none =>
    rw [e] at hr
    cases e' : w'.listing p with
    | none => simp
    | some l' => rw [e'] at hr; cases hr
  | some l =>
    rw [e] at hr
    cases e' : w'.listing p with
    | none => rw [e'] at hr; cases hr
    | some l' => simp only [Option.some.injEq, exists_eq_left', h.names p l l' hp e e' n]

theorem loop_congr {V S : Type} [DecidableEq V] {E E' : Env V S} {sc : S} {f f' : V → Option S} (Q : V → Prop)
    (hf : ∀ v, f v = some sc) (hf' : ∀ v, f' v = some sc) (hfound : ∀ v, Q v → E.found v sc = E'.found v sc)
    (hrec : ∀ v, Q v → ∀ l, (∀ x ∈ l, x ∈ E.found v sc) → E.recurse sc l = E'.recurse sc l ∧ ∀ x ∈ E.recurse sc l, Q x) :
    ∀ n s, (∀ v ∈ s.nodes, Q v) → loop E f n s = loop E' f' n s := by
  have hiter : ∀ s, (∀ v ∈ s.nodes, Q v) → iter E f s = iter E' f' s ∧ ∀ v ∈ (iter E f s).nodes, Q v := by
    intro s hs
    unfold iter
    split
    · exact ⟨rfl, hs⟩
    · rename_i v rest e
      have hv : Q v := hs v (e ▸ List.mem_cons_self)
      have hrest : ∀ x ∈ rest, Q x := fun x hx => hs x (e ▸ List.mem_cons_of_mem _ hx)
      obtain ⟨h1, h2⟩ := hrec v hv ((E.found v sc).filter fun x => decide (x ∉ s.seen)) (fun x hx => (List.mem_filter.1 hx).1)
      simp only [hf, hf', ← hfound v hv, ← h1]
      refine ⟨trivial, ?_⟩
      split
      · exact hrest
      · intro x hx
        rcases List.mem_append.1 hx with hx | hx
        · exact hrest x hx
        · exact h2 x hx
  intro n
  induction n with
  | zero => intro s _; rw [loop.eq_def, loop.eq_def]
  | succ n ih =>
    intro s hs
    obtain ⟨h1, h2⟩ := hiter s hs
    rw [loop.eq_def, loop.eq_def E']
    simp only [← h1, ih _ h2]

/-- **C72, the order**: the dependencies and their order do not depend on the order in which the operating system lists
directories, on whether SCons knows a file already or finds it on the disk, or on anything outside the directory. -/
theorem C72_order (w w' : World Sig) (U U' : List Path) (hU : Finite w U) (hU' : Finite w' U') (d : Path) (h : SameShape w w' d)
    (n : Nat) : deps w (some .disk) d n = deps w' (some .disk) d n := by
  unfold deps getImplicitDeps
  refine loop_congr (sc := Scanner.disk) (fun p => p = d ∨ (Visible w d p ∧ w.isDir p = true)) (fun _ => rfl) (fun _ => rfl)
    (fun p hp => env_eq hU hU' h p (hp.imp_right And.left)) ?_ n _ (by simp)
  intro v hv l hl
  have hvis : ∀ x ∈ l, Visible w d x := by
    intro x hx
    obtain ⟨n, ls, rfl, h1, h2, h3⟩ := mem_found.1 (hl x hx)
    rcases hv with rfl | ⟨hv, hd⟩
    · exact .child h1 h2 h3
    · exact .step hv hd h1 h2 h3
  simp only [env]
  exact ⟨List.filter_congr fun p hp => h.isDir p (.inr (hvis p hp)),
    fun x hx => .inr ⟨hvis x (List.mem_filter.1 hx).1, (List.mem_filter.1 hx).2⟩⟩

omit [DecidableEq Sig] in
theorem visible_same {w w' : World Sig} {d p : Path} (h : SameShape w w' d) (hp : Visible w' d p) : Visible w d p := by
  induction hp with
  | @child l n hl hn hs =>
    have hr := h.readable d (.inl rfl)
    rw [hl] at hr
    obtain ⟨l0, h0⟩ := Option.isSome_iff_exists.1 hr
    exact .child h0 ((h.names d l0 l (.inl rfl) h0 hl n).2 hn) hs
  | @step p l n hp hd hl hn hs ih =>
    have hr := h.readable p (.inr ih)
    rw [hl] at hr
    obtain ⟨l0, h0⟩ := Option.isSome_iff_exists.1 hr
    exact .step ih ((h.isDir p (.inr ih)).trans hd) h0 ((h.names p l0 l (.inr ih) h0 hl n).2 hn) hs

omit [DecidableEq Sig] in
theorem zip_record {w : World Sig} : ∀ kids : List Path,
    kids.zip (record w kids) = kids.map fun p => (p, if w.isDir p then none else some (w.csig p)) := by
  intro kids
  induction kids with
  | nil => rfl
  | cons k ks ih =>
    simp only [record, List.map_cons, List.zip_cons_cons]
    rw [← ih]
    rfl

omit [DecidableEq Sig] in
theorem record_length (w : World Sig) (kids : List Path) : (record w kids).length = kids.length := by simp [record]

/-- **C72, an edit is noticed**: if the target was built from `d` in `w` and now, in `w'`, the same files and directories are there but one
file below `d` has other contents, the target is out of date. -/
theorem C72_edit (w w' : World Sig) (U U' : List Path) (hU : Finite w U) (hU' : Finite w' U') (d : Path) (h : SameShape w w' d)
    (n n' : Nat) (l l' : List Path) (hl : deps w (some .disk) d n = some l) (hl' : deps w' (some .disk) d n' = some l')
    (p : Path) (hp : Visible w' d p) (hf : w'.isDir p = false) (hc : w'.csig p ≠ w.csig p) :
    changed w' (d :: l') (record w (d :: l)) = true := by
  rw [C72_order w w' U U' hU hU' d h] at hl
  have e : l = l' := loop_fuel _ _ _ _ _ _ _ hl hl'
  subst e
  unfold changed
  rw [zip_record]
  simp only [Bool.or_eq_true, List.any_map, List.any_eq_true]
  refine .inr ⟨p, List.mem_cons_of_mem _ ((deps_spec hU' hl').2 p |>.2 hp), ?_⟩
  simp only [Function.comp, childChanged, hf, h.isDir p (.inr (visible_same h hp))]
  simpa using fun e => hc e.symm

/-- **C72, additions are noticed**: if everything that was below `d` still is, and there is something more. -/
theorem C72_added (w w' : World Sig) (U U' : List Path) (hU : Finite w U) (hU' : Finite w' U') (d : Path)
    (n n' : Nat) (l l' : List Path) (hl : deps w (some .disk) d n = some l) (hl' : deps w' (some .disk) d n' = some l')
    (hsub : ∀ p, Visible w d p → Visible w' d p) (p : Path) (hp : Visible w' d p) (hnew : ¬ Visible w d p) :
    changed w' (d :: l') (record w (d :: l)) = true := by
  obtain ⟨h1, h2⟩ := deps_spec hU hl
  obtain ⟨h1', h2'⟩ := deps_spec hU' hl'
  have : (p :: l).length ≤ l'.length := by
    refine (List.subperm_of_subset (List.nodup_cons.2 ⟨fun h => hnew ((h2 p).1 h), h1⟩) ?_).length_le
    intro q hq
    rcases List.mem_cons.1 hq with rfl | hq
    · exact (h2' _).2 hp
    · exact (h2' _).2 (hsub _ ((h2 _).1 hq))
  unfold changed
  simp only [record_length, List.length_cons, Bool.or_eq_true, decide_eq_true_eq] at this ⊢
  exact .inl (by omega)

/-- **C72, removals are noticed**: if nothing new is below `d`, and something that was is not any more. -/
theorem C72_removed (w w' : World Sig) (U U' : List Path) (hU : Finite w U) (hU' : Finite w' U') (d : Path)
    (n n' : Nat) (l l' : List Path) (hl : deps w (some .disk) d n = some l) (hl' : deps w' (some .disk) d n' = some l')
    (hsub : ∀ p, Visible w' d p → Visible w d p) (p : Path) (hp : Visible w d p) (hgone : ¬ Visible w' d p) :
    changed w' (d :: l') (record w (d :: l)) = true := by
  obtain ⟨h1, h2⟩ := deps_spec hU hl
  obtain ⟨h1', h2'⟩ := deps_spec hU' hl'
  have : (p :: l').length ≤ l.length := by
    refine (List.subperm_of_subset (List.nodup_cons.2 ⟨fun h => hgone ((h2' p).1 h), h1'⟩) ?_).length_le
    intro q hq
    rcases List.mem_cons.1 hq with rfl | hq
    · exact (h2 _).2 hp
    · exact (h2 _).2 (hsub _ ((h2' _).1 hq))
  unfold changed
  simp only [record_length, List.length_cons, Bool.or_eq_true, decide_eq_true_eq] at this ⊢
  exact .inl (by omega)

/-- **C72, nothing else**: if the same is there with the same contents and nothing in `d` was rebuilt, the target is not out of
date. -/
theorem C72_quiet (w w' : World Sig) (U U' : List Path) (hU : Finite w U) (hU' : Finite w' U') (d : Path) (h : SameShape w w' d)
    (n n' : Nat) (l l' : List Path) (hl : deps w (some .disk) d n = some l) (hl' : deps w' (some .disk) d n' = some l')
    (hd : w'.isDir d = true)
    (hc : ∀ p, Visible w' d p → w'.isDir p = false → w'.csig p = w.csig p) (hs : ∀ p, w'.stale p = false) :
    changed w' (d :: l') (record w (d :: l)) = false := by
  rw [C72_order w w' U U' hU hU' d h] at hl
  have e : l = l' := loop_fuel _ _ _ _ _ _ _ hl hl'
  subst e
  unfold changed
  rw [zip_record]
  simp only [record_length, ne_eq, not_true_eq_false, decide_false, Bool.false_or, List.any_map]
  rw [List.any_eq_false]
  intro p hp
  have hp' : p = d ∨ Visible w d p := by
    rcases List.mem_cons.1 hp with rfl | hp
    · exact .inl rfl
    · exact .inr (visible_same h ((deps_spec hU' hl').2 p |>.1 hp))
  simp only [Function.comp, childChanged, h.isDir p hp']
  cases e : w'.isDir p with
  | true => simp [hs]
  | false =>
    rcases List.mem_cons.1 hp with rfl | hp
    · rw [hd] at e; cases e
    · simp [hc p ((deps_spec hU' hl').2 p |>.1 hp) e]

/-- **C72, whatever is unnoticed**: if the target is not out of date there are as many files and directories below `d` as there were, and every file that is
there now has the contents the entry at the same place in the order had. -/
theorem C72_unnoticed (w w' : World Sig) (d : Path) (l l' : List Path)
    (h : changed w' (d :: l') (record w (d :: l)) = false) :
    l'.length = l.length ∧ ∀ (i : Nat) (p : Path), l'[i]? = some p → w'.isDir p = false →
      ∃ q, l[i]? = some q ∧ w.isDir q = false ∧ w.csig q = w'.csig p := by
  unfold changed at h
  simp only [Bool.or_eq_false_iff, decide_eq_false_iff_not, ne_eq, not_not, record_length, List.length_cons,
    Nat.add_right_cancel_iff] at h
  refine ⟨h.1, fun i p hp hf => ?_⟩
  have h2 := h.2
  rw [List.any_eq_false] at h2
  have hi : i < l'.length := by
    rcases Nat.lt_or_ge i l'.length with hlt | hge
    · exact hlt
    · rw [List.getElem?_eq_none hge] at hp; cases hp
  have hq : l[i]? = some (l[i]'(h.1 ▸ hi)) := List.getElem?_eq_getElem _
  refine ⟨_, hq, ?_⟩
  have hz : (p, if w.isDir (l[i]'(h.1 ▸ hi)) then none else some (w.csig (l[i]'(h.1 ▸ hi)))) ∈
      (d :: l').zip (record w (d :: l)) := by
    refine List.mem_of_getElem? (i := i + 1) ?_
    rw [List.getElem?_zip_eq_some]
    simp only [List.getElem?_cons_succ, hp, record, List.map_cons, List.getElem?_map, hq, Option.map_some, and_self]
  have := h2 _ hz
  simp only [childChanged, hf, Bool.false_eq_true, if_false, decide_eq_true_eq, ne_eq, not_not] at this
  split at this
  · cases this
  · rename_i hnd
    exact ⟨by simpa using hnd, by simpa using this⟩

/-! ## Where the claim is false -/

/-- A world in which only the directory `d` and its parts matter. -/
def world (dirs : List (Path × List Name)) (known : Path → List Name) (csig : Path → Nat) : World Nat where
  isDir p := (dirs.lookup p).isSome
  listing p := dirs.lookup p
  known := known
  csig := csig
  stale _ := false

/-- **C72** is false of renaming: `d/a` is now called `d/b`. -/
theorem C72_renamed :
    ∃ (w w' : World Nat) (l l' : List Path), deps w (some .disk) ["d"] 9 = some l ∧ deps w' (some .disk) ["d"] 9 = some l' ∧
      (["a", "d"] ∈ l ∧ ["a", "d"] ∉ l' ∧ ["b", "d"] ∈ l') ∧ changed w' (["d"] :: l') (record w (["d"] :: l)) = false := by
  refine ⟨world [(["d"], ["a", "z"])] (fun _ => []) (fun _ => 7), world [(["d"], ["z", "b"])] (fun _ => []) (fun _ => 7),
    [["a", "d"], ["z", "d"]], [["b", "d"], ["z", "d"]], ?_, ?_, ?_, ?_⟩ <;> decide +kernel

/-- **C72** is false of a file that is replaced by an empty directory. -/
theorem C72_file_to_directory :
    ∃ (w w' : World Nat) (l l' : List Path), deps w (some .disk) ["d"] 9 = some l ∧ deps w' (some .disk) ["d"] 9 = some l' ∧
      (w.isDir ["a", "d"] = false ∧ w'.isDir ["a", "d"] = true ∧ ["a", "d"] ∈ l ∧ ["a", "d"] ∈ l') ∧
      changed w' (["d"] :: l') (record w (["d"] :: l)) = false := by
  refine ⟨world [(["d"], ["a"])] (fun _ => []) (fun _ => 7), world [(["d"], ["a"]), (["a", "d"], [])] (fun _ => []) (fun _ => 7),
    [["a", "d"]], [["a", "d"]], ?_, ?_, ?_, ?_⟩ <;> decide +kernel

/-- The names the directory scanner passes over are `.`, `..` and those of signature databases: `.sconsign`, or `.sconsign_` and the name of a hash, alone or with a suffix
of a database library.  Everything else in a directory counts. -/
theorem C72_skipped_names (n : Name) :
    n ∈ skipped ↔ n = "." ∨ n = ".." ∨
      ∃ h ∈ ["", "_md5", "_sha1", "_sha256"], ∃ e ∈ ["", ".dblite", ".dir", ".pag", ".dat", ".bak", ".db"], n = ".sconsign" ++ h ++ e := by
  constructor
  · intro h
    have : ∀ n ∈ skipped, n = "." ∨ n = ".." ∨
        ∃ h ∈ ["", "_md5", "_sha1", "_sha256"], ∃ e ∈ ["", ".dblite", ".dir", ".pag", ".dat", ".bak", ".db"], n = ".sconsign" ++ h ++ e := by
      decide +kernel
    exact this n h
  · rintro (rfl | rfl | ⟨h, hh, e, he, rfl⟩)
    · decide +kernel
    · decide +kernel
    · have : ∀ h ∈ ["", "_md5", "_sha1", "_sha256"], ∀ e ∈ ["", ".dblite", ".dir", ".pag", ".dat", ".bak", ".db"], ".sconsign" ++ h ++ e ∈ skipped := by
        decide +kernel
      exact this h hh e he

/-- **C72** is false of files with the names of signature files, which archives contain like any other. -/
theorem C72_skipped :
    ∃ (w w' : World Nat) (l l' : List Path), deps w (some .disk) ["d"] 9 = some l ∧ deps w' (some .disk) ["d"] 9 = some l' ∧
      (w.listing ["d"] = some [".sconsign", "a"] ∧ w'.listing ["d"] = some [".sconsign", "a"] ∧
        w.csig [".sconsign", "d"] ≠ w'.csig [".sconsign", "d"]) ∧
      changed w' (["d"] :: l') (record w (["d"] :: l)) = false := by
  refine ⟨world [(["d"], [".sconsign", "a"])] (fun _ => []) (fun _ => 7),
    world [(["d"], [".sconsign", "a"])] (fun _ => []) (fun p => if p = [".sconsign", "d"] then 8 else 7),
    [["a", "d"]], [["a", "d"]], ?_, ?_, ?_, ?_⟩ <;> decide +kernel

/-- A null build that is not: the directory `d` with the target `d/a` is not there in the first run, when the dependencies are
determined; they are recorded as none.  In the second run, with nothing changed, `d/a` is new. -/
theorem C72_first_build :
    ∃ (w w' : World Nat) (l l' : List Path), deps w (some .disk) ["d"] 9 = some l ∧ deps w' (some .disk) ["d"] 9 = some l' ∧
      (w.listing ["d"] = none ∧ w.known ["d"] = ["a"] ∧ w'.listing ["d"] = some ["a"] ∧ w.csig = w'.csig) ∧
      changed w' (["d"] :: l') (record w (["d"] :: l)) = true := by
  refine ⟨{ world [] (fun p => if p = ["d"] then ["a"] else []) (fun _ => 7) with isDir := fun p => p = ["d"] },
    world [(["d"], ["a"])] (fun p => if p = ["d"] then ["a"] else []) (fun _ => 7),
    [], [["a", "d"]], ?_, ?_, ⟨?_, ?_, ?_, ?_⟩, ?_⟩ <;> first | decide +kernel | rfl

/-- **C72** is false of `Command` and other builders without a directory scanner: what SCons has no node of is not looked at ... -/
theorem C72_command_unknown :
    ∃ (w w' : World Nat) (l l' : List Path), deps w none ["d"] 9 = some l ∧ deps w' none ["d"] 9 = some l' ∧
      (Visible w' ["d"] ["a", "d"] ∧ w.csig ["a", "d"] ≠ w'.csig ["a", "d"]) ∧
      changed w' (["d"] :: l') (record w (["d"] :: l)) = false := by
  refine ⟨world [(["d"], ["a"])] (fun _ => []) (fun _ => 7), world [(["d"], ["a"])] (fun _ => []) (fun _ => 8),
    [], [], ?_, ?_, ⟨.child (l := ["a"]) ?_ (.inl ?_) ?_, ?_⟩, ?_⟩ <;> decide +kernel

/-- ... and neither is a file in a subdirectory, even if SCons has a node of it. -/
theorem C72_command_subdirectory :
    ∃ (w w' : World Nat) (l l' : List Path), deps w none ["d"] 9 = some l ∧ deps w' none ["d"] 9 = some l' ∧
      (w.known ["s", "d"] = ["a"] ∧ w'.known ["s", "d"] = ["a"] ∧ w.csig ["a", "s", "d"] ≠ w'.csig ["a", "s", "d"]) ∧
      changed w' (["d"] :: l') (record w (["d"] :: l)) = false := by
  refine ⟨world [(["d"], ["s"]), (["s", "d"], ["a"])] (fun p => if p = ["d"] then ["s"] else if p = ["s", "d"] then ["a"] else []) (fun _ => 7),
    world [(["d"], ["s"]), (["s", "d"], ["a"])] (fun p => if p = ["d"] then ["s"] else if p = ["s", "d"] then ["a"] else []) (fun _ => 8),
    [["s", "d"]], [["s", "d"]], ?_, ?_, ?_, ?_⟩ <;> decide +kernel

/-! ## A case -/

def exBefore : World Nat :=
  world [(["d"], ["s", "b", ".sconsign"]), (["s", "d"], ["y", "x"])] (fun p => if p = ["d"] then ["b", "t"] else []) (fun p => p.length)

def exAfter : World Nat :=
  world [(["d"], [".sconsign", "b", "s"]), (["s", "d"], ["x", "y"])] (fun p => if p = ["d"] then ["t"] else [])
    (fun p => if p = ["x", "s", "d"] then 9 else p.length)

def exPaths : List Path :=
  [["s", "d"], ["b", "d"], [".sconsign", "d"], ["y", "s", "d"], ["x", "s", "d"], ["t", "d"]]

theorem lookup_world {dirs : List (Path × List Name)} {p : Path} {l : List Name} (h : dirs.lookup p = some l) : (p, l) ∈ dirs := by
  induction dirs with
  | nil => cases h
  | cons a ds ih =>
    obtain ⟨q, k⟩ := a
    rw [List.lookup_cons] at h
    split at h
    · rename_i e; cases h
      have : p = q := by simpa using e
      subst this; exact List.mem_cons_self
    · exact List.mem_cons_of_mem _ (ih h)

theorem C72_nonvacuous :
    Finite exBefore exPaths ∧ Finite exAfter exPaths ∧ SameShape exBefore exAfter ["d"] ∧
      deps exBefore (some .disk) ["d"] 9 = some [["b", "d"], ["s", "d"], ["t", "d"], ["x", "s", "d"], ["y", "s", "d"]] ∧
      deps exAfter (some .disk) ["d"] 9 = some [["b", "d"], ["s", "d"], ["t", "d"], ["x", "s", "d"], ["y", "s", "d"]] ∧
      Visible exAfter ["d"] ["x", "s", "d"] ∧ exAfter.csig ["x", "s", "d"] ≠ exBefore.csig ["x", "s", "d"] := by
  have kb : ∀ p, exBefore.known p = if p = ["d"] then ["b", "t"] else [] := fun _ => rfl
  have ka : ∀ p, exAfter.known p = if p = ["d"] then ["t"] else [] := fun _ => rfl
  have lb : ∀ p l, exBefore.listing p = some l → (p = ["d"] ∧ l = ["s", "b", ".sconsign"]) ∨ (p = ["s", "d"] ∧ l = ["y", "x"]) := by
    intro p l h
    have := lookup_world h
    simpa using this
  have la : ∀ p l, exAfter.listing p = some l → (p = ["d"] ∧ l = [".sconsign", "b", "s"]) ∨ (p = ["s", "d"] ∧ l = ["x", "y"]) := by
    intro p l h
    have := lookup_world h
    simpa using this
  have shape : ∀ p, exBefore.isDir p = exAfter.isDir p := by
    intro p
    simp only [exBefore, exAfter, world, List.lookup]
    cases p == ["d"] <;> cases p == ["s", "d"] <;> rfl
  refine ⟨⟨?_, ?_, ?_, ?_⟩, ⟨?_, ?_, ?_, ?_⟩, ⟨fun p _ => shape p, fun p _ => shape p, ?_⟩, by decide +kernel, by decide +kernel, ?_, by decide +kernel⟩
  · intro p l n h hn
    rcases lb p l h with ⟨rfl, rfl⟩ | ⟨rfl, rfl⟩ <;> revert n <;> decide
  · intro p n hn
    rw [kb] at hn
    split at hn
    · rename_i e; subst e; revert n; decide
    · cases hn
  · intro p; rw [kb]; split <;> decide
  · intro p l h
    rcases lb p l h with ⟨rfl, rfl⟩ | ⟨rfl, rfl⟩ <;> decide
  · intro p l n h hn
    rcases la p l h with ⟨rfl, rfl⟩ | ⟨rfl, rfl⟩ <;> revert n <;> decide
  · intro p n hn
    rw [ka] at hn
    split at hn
    · rename_i e; subst e; revert n; decide
    · cases hn
  · intro p; rw [ka]; split <;> decide
  · intro p l h
    rcases la p l h with ⟨rfl, rfl⟩ | ⟨rfl, rfl⟩ <;> decide
  · intro p l l' _ h h' n
    rw [kb, ka]
    rcases lb p l h with ⟨rfl, rfl⟩ | ⟨rfl, rfl⟩ <;> rcases la _ l' h' with ⟨e, rfl⟩ | ⟨e, rfl⟩
    · simp; grind
    · simp at e
    · simp at e
    · simp; grind
  · exact .step (.child (l := [".sconsign", "b", "s"]) (by decide +kernel) (.inl (by decide)) (by decide)) (by decide +kernel)
      (l := ["x", "y"]) (by decide +kernel) (.inl (by decide)) (by decide)

end Verif.Scan.Dirs
