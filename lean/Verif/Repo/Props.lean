import Verif.Repo.Model
import Mathlib.Data.List.Map2

/-! # Repositories: theorems (C76) -/

namespace Verif.Repo

variable {C A S : Type} [DecidableEq S]

/-- Every recorded file is what the action makes of the recorded dependencies. -/
def Truthful (X : Tools C A S) (T : Tree C S) : Prop :=
  ∀ n r c, T.db n = some r → T.files n = some c → ∃ a cs f, X.hA a = r.act ∧ cs.map X.h = r.sigs ∧ X.exec a cs = some f ∧ c = f n

/-- Signatures do not clash. -/
structure NoClash (X : Tools C A S) : Prop where
  h : Function.Injective X.h
  hA : Function.Injective X.hA

/-- No file is the target of two tasks, and what the scanners find depends only on the sources and on what they find. -/
structure WellFormed (P : Project C A) : Prop where
  one : ∀ n g g', n ∈ P.targets g → n ∈ P.targets g' → g = g'
  scan : ∀ g (v v' : Node → Option C), (∀ n, (∀ g', n ∉ P.targets g') → v n = v' n) → (∀ k ∈ P.deps g v, v k = v' k) → P.deps g v' = P.deps g v

/-- Local copies are copies, or nothing is precious and only targets of actions with one target are copied. -/
def Guarded (X : Tools C A S) (P : Project C A) : Prop :=
  X.hard = false ∨ ((∀ n, P.precious n = false) ∧ ∀ g t, t ∈ P.targets g → P.isLocal t = true → P.targets g = [t])

/-- What holds between runs. -/
structure Inv (X : Tools C A S) (W : World C S) : Prop where
  loc : Truthful X W.loc
  reps : ∀ T ∈ W.reps, Truthful X T
  share : ∀ n, W.loc.files n = none → W.share n = none
  soft : X.hard = false → ∀ n, W.share n = none

/-- The target is there and was made of what there is now (`r`), locally or in the first repository that has it. -/
def Holds (P : Project C A) (r : Rec S) (n : Node) (W : World C S) : Prop :=
  ((∃ c, W.loc.files n = some c) ∧ W.loc.db n = some r) ∨
  (W.loc.files n = none ∧ P.isLocal n = false ∧ ∃ i c T, firstWith W.reps 0 n = some (i, c) ∧ W.reps[i]? = some T ∧ T.db n = some r)

theorem firstWith_spec {Ts : List (Tree C S)} {i n j : Nat} {c : C} (h : firstWith Ts i n = some (j, c)) : i ≤ j ∧ ∃ T, Ts[j - i]? = some T ∧ T.files n = some c := by
  induction Ts generalizing i with
  | nil => cases h
  | cons T Ts ih =>
    simp only [firstWith] at h
    split at h
    · rename_i c' hc
      simp only [Option.some.injEq, Prod.mk.injEq] at h
      obtain ⟨rfl, rfl⟩ := h
      exact ⟨Nat.le_refl _, T, by simp, hc⟩
    · obtain ⟨h1, T', h2, h3⟩ := ih h
      refine ⟨by omega, T', ?_, h3⟩
      have : j - i = (j - (i + 1)) + 1 := by omega
      rw [this]; simpa using h2

theorem firstWith_zero {Ts : List (Tree C S)} {n j : Nat} {c : C} (h : firstWith Ts 0 n = some (j, c)) : ∃ T, Ts[j]? = some T ∧ T.files n = some c := by
  simpa using (firstWith_spec h).2

/-- The world after `copy` looks the same. -/
theorem view_copy {X : Tools C A S} {W : World C S} {n i : Nat} {c : C} {r : Rec S} (hn : W.loc.files n = none) (hf : firstWith W.reps 0 n = some (i, c)) : (W.copy X n i c r).view = W.view := by
  funext m
  unfold World.view World.copy
  by_cases hm : m = n
  · subst hm; simp [hn, hf]
  · simp [Function.update_of_ne hm]

/-- What asking for one target does. -/
structure Asked (X : Tools C A S) (P : Project C A) (r : Rec S) (n : Node) (W W' : World C S) : Prop where
  reps : W'.reps = W.reps
  view : W'.view = W.view
  files : ∀ m, m ≠ n → W'.loc.files m = W.loc.files m
  db : ∀ m, m ≠ n → W'.loc.db m = W.loc.db m
  keep : ∀ m c, W.loc.files m = some c → W'.loc.files m = some c ∧ W'.loc.db m = W.loc.db m
  inv : Inv X W → Inv X W'

theorem check_asked (X : Tools C A S) (P : Project C A) (r : Rec S) (n : Node) (W : World C S) : Asked X P r n W (check X P r n W).2 := by
  have hrefl : Asked X P r n W W := ⟨rfl, rfl, fun _ _ => rfl, fun _ _ => rfl, fun _ _ h => ⟨h, rfl⟩, id⟩
  unfold check
  split
  · exact hrefl
  · rename_i hn
    split
    · exact hrefl
    · rename_i i c hf
      split
      · rename_i hdb
        simp only
        split
        · refine ⟨rfl, view_copy hn hf, fun m hm => ?_, fun m hm => ?_, fun m c' h => ?_, fun hI => ?_⟩
          · simp [World.copy, Function.update_of_ne hm]
          · simp [World.copy, Function.update_of_ne hm]
          · have hm : m ≠ n := by rintro rfl; rw [hn] at h; cases h
            simp [World.copy, Function.update_of_ne hm, h]
          · obtain ⟨T, hT, hc⟩ := firstWith_zero hf
            rw [hT] at hdb
            simp only [Option.bind_some] at hdb
            refine ⟨?_, hI.reps, ?_, ?_⟩
            · intro m r' c' h1 h2
              by_cases hm : m = n
              · subst hm
                simp only [World.copy, Function.update_self, Option.some.injEq] at h1 h2
                subst h1; subst h2
                exact hI.reps T (List.mem_of_getElem? hT) m r c hdb hc
              · simp only [World.copy, Function.update_of_ne hm] at h1 h2
                exact hI.loc m r' c' h1 h2
            · intro m h
              by_cases hm : m = n
              · subst hm; simp [World.copy] at h
              · simp only [World.copy, Function.update_of_ne hm] at h ⊢
                exact hI.share m h
            · intro hh m
              by_cases hm : m = n
              · subst hm; simp [World.copy, hh]
              · simp only [World.copy, Function.update_of_ne hm]
                exact hI.soft hh m
        · exact hrefl
      · exact hrefl

theorem check_true {X : Tools C A S} {P : Project C A} {r : Rec S} {n : Node} {W : World C S} (h : (check X P r n W).1 = true) : Holds P r n (check X P r n W).2 := by
  unfold check at h ⊢
  split at h
  · rename_i c hn
    simp only [decide_eq_true_eq] at h
    exact Or.inl ⟨⟨c, hn⟩, h⟩
  · rename_i hn
    split at h
    · cases h
    · rename_i i c hf
      split at h
      · rename_i hdb
        obtain ⟨T, hT, hc⟩ := firstWith_zero hf
        simp only [hdb, if_true]
        by_cases hl : P.isLocal n = true
        · rw [if_pos hl]
          exact Or.inl ⟨⟨c, by simp [World.copy]⟩, by simp [World.copy]⟩
        · rw [if_neg hl]
          rw [hT] at hdb
          exact Or.inr ⟨hn, by simpa using hl, i, c, T, hf, hT, hdb⟩
      · cases h

/-- A target that is current is left alone. -/
theorem check_holds {X : Tools C A S} {P : Project C A} {r : Rec S} {n : Node} {W : World C S} (h : Holds P r n W) : check X P r n W = (true, W) := by
  unfold check
  rcases h with ⟨⟨c, h1⟩, h2⟩ | ⟨h1, h2, i, c, T, h3, h4, h5⟩
  · simp [h1, h2]
  · simp [h1, h2, h3, h4, h5]

theorem Holds.frame {P : Project C A} {r : Rec S} {n : Node} {W W' : World C S} (h : Holds P r n W) (h1 : W'.loc.files n = W.loc.files n) (h2 : W'.loc.db n = W.loc.db n)
    (h3 : W'.reps = W.reps) : Holds P r n W' := by
  unfold Holds; rw [h1, h2, h3]; exact h

theorem Holds.check {X : Tools C A S} {P : Project C A} {r : Rec S} {n m : Node} {W : World C S} (h : Holds P r n W) : Holds P r n (check X P r m W).2 := by
  by_cases hm : m = n
  · subst hm; rw [check_holds h]; exact h
  · have := check_asked X P r m W
    exact h.frame (this.files n (Ne.symm hm)) (this.db n (Ne.symm hm)) this.reps

theorem Holds.checkAll {X : Tools C A S} {P : Project C A} {r : Rec S} {n : Node} {ns : List Node} {W : World C S} (h : Holds P r n W) : Holds P r n (checkAll X P r ns W).2 := by
  induction ns generalizing W with
  | nil => exact h
  | cons m ns ih => exact ih h.check

/-- What asking for several targets does. -/
structure AskedAll (X : Tools C A S) (P : Project C A) (r : Rec S) (ns : List Node) (W W' : World C S) : Prop where
  reps : W'.reps = W.reps
  view : W'.view = W.view
  files : ∀ m, m ∉ ns → W'.loc.files m = W.loc.files m
  db : ∀ m, m ∉ ns → W'.loc.db m = W.loc.db m
  keep : ∀ m c, W.loc.files m = some c → W'.loc.files m = some c ∧ W'.loc.db m = W.loc.db m
  inv : Inv X W → Inv X W'

theorem checkAll_asked (X : Tools C A S) (P : Project C A) (r : Rec S) (ns : List Node) (W : World C S) : AskedAll X P r ns W (checkAll X P r ns W).2 := by
  induction ns generalizing W with
  | nil => exact ⟨rfl, rfl, fun _ _ => rfl, fun _ _ => rfl, fun _ _ h => ⟨h, rfl⟩, id⟩
  | cons n ns ih =>
    have h1 := check_asked X P r n W
    have h2 := ih (check X P r n W).2
    refine ⟨h2.reps.trans h1.reps, h2.view.trans h1.view, fun m hm => ?_, fun m hm => ?_, fun m c h => ?_, fun h => h2.inv (h1.inv h)⟩
    · rw [List.mem_cons, not_or] at hm
      exact (h2.files m hm.2).trans (h1.files m hm.1)
    · rw [List.mem_cons, not_or] at hm
      exact (h2.db m hm.2).trans (h1.db m hm.1)
    · obtain ⟨a, b⟩ := h1.keep m c h
      obtain ⟨a', b'⟩ := h2.keep m c a
      exact ⟨a', b'.trans b⟩

theorem checkAll_true {X : Tools C A S} {P : Project C A} {r : Rec S} {ns : List Node} {W : World C S} (h : (checkAll X P r ns W).1 = true) : ∀ n ∈ ns, Holds P r n (checkAll X P r ns W).2 := by
  induction ns generalizing W with
  | nil => intro n hn; cases hn
  | cons m ns ih =>
    simp only [checkAll, Bool.and_eq_true] at h
    intro n hn
    rcases List.mem_cons.1 hn with rfl | hn
    · exact (check_true h.1).checkAll
    · exact ih h.2 n hn

theorem checkAll_holds {X : Tools C A S} {P : Project C A} {r : Rec S} {ns : List Node} {W : World C S} (h : ∀ n ∈ ns, Holds P r n W) : checkAll X P r ns W = (true, W) := by
  induction ns with
  | nil => rfl
  | cons m ns ih =>
    simp only [checkAll, check_holds (h m (by simp)), ih fun n hn => h n (List.mem_cons_of_mem _ hn), Bool.and_self]

theorem check_notLocal {X : Tools C A S} {P : Project C A} {r : Rec S} {n : Node} {W : World C S} (h : P.isLocal n = false) : (check X P r n W).2 = W := by
  unfold check
  split
  · rfl
  · split
    · rfl
    · split <;> simp [h]

theorem checkAll_notLocal {X : Tools C A S} {P : Project C A} {r : Rec S} {ns : List Node} {W : World C S} (h : ∀ n ∈ ns, P.isLocal n = false) : (checkAll X P r ns W).2 = W := by
  induction ns generalizing W with
  | nil => rfl
  | cons m ns ih =>
    simp only [checkAll]
    rw [check_notLocal (h m (by simp))]
    exact ih fun n hn => h n (List.mem_cons_of_mem _ hn)

/-- If the action is to be executed, nothing that could be written through has been copied. -/
theorem checkAll_false {X : Tools C A S} {P : Project C A} (hP : Guarded X P) (hh : X.hard = true) {r : Rec S} {g : Nat} {W : World C S} (h : (checkAll X P r (P.targets g) W).1 = false) :
    (checkAll X P r (P.targets g) W).2 = W := by
  rcases hP with hP | ⟨-, hP⟩
  · rw [hP] at hh; cases hh
  by_cases hl : ∃ t ∈ P.targets g, P.isLocal t = true
  · obtain ⟨t, ht, hl⟩ := hl
    rw [hP g t ht hl] at h ⊢
    simp only [checkAll, Bool.and_true] at h ⊢
    unfold check at h ⊢
    split
    · rfl
    · rename_i hn
      simp only [hn] at h
      split
      · rfl
      · rename_i i c hf
        simp only [hf] at h
        split
        · rename_i hdb
          rw [if_pos hdb] at h; cases h
        · rfl
  · apply checkAll_notLocal
    intro n hn
    by_contra hx
    exact hl ⟨n, hn, by simpa using hx⟩

/-! ## The action -/

/-- What `prepare` leaves alone. -/
structure Prepared (X : Tools C A S) (ns : List Node) (W W' : World C S) : Prop where
  reps : W'.reps = W.reps
  files : ∀ m, m ∉ ns → W'.loc.files m = W.loc.files m
  db : W'.loc.db = W.loc.db
  inv : Inv X W → Inv X W'
  share : ∀ m, W.share m = none → W'.share m = none

theorem prepare_prepared (X : Tools C A S) (P : Project C A) (e : Bool) (n : Node) (W : World C S) : Prepared X [n] W (prepare P e n W) := by
  unfold prepare
  split
  · refine ⟨rfl, fun m hm => ?_, rfl, fun hI => ⟨?_, hI.reps, ?_, ?_⟩, ?_⟩
    · simp only [List.mem_singleton] at hm
      simp [Function.update_of_ne hm]
    · intro m r c h1 h2
      by_cases hm : m = n
      · subst hm; simp at h2
      · simp only [Function.update_of_ne hm] at h2
        exact hI.loc m r c h1 h2
    · intro m h
      by_cases hm : m = n
      · subst hm; simp
      · simp only [Function.update_of_ne hm] at h ⊢
        exact hI.share m h
    · intro hh m
      by_cases hm : m = n
      · subst hm; simp
      · simp only [Function.update_of_ne hm]; exact hI.soft hh m
    · intro m h
      by_cases hm : m = n
      · subst hm; simp
      · simpa only [Function.update_of_ne hm] using h
  · exact ⟨rfl, fun _ _ => rfl, rfl, id, fun _ h => h⟩

theorem prepareAll_prepared (X : Tools C A S) (P : Project C A) (ex : Node → Bool) (ns : List Node) (W : World C S) :
    Prepared X ns W (ns.foldl (fun W' n => prepare P (ex n) n W') W) := by
  induction ns generalizing W with
  | nil => exact ⟨rfl, fun _ _ => rfl, rfl, id, fun _ h => h⟩
  | cons n ns ih =>
    have h1 := prepare_prepared X P (ex n) n W
    have h2 := ih (prepare P (ex n) n W)
    refine ⟨h2.reps.trans h1.reps, fun m hm => ?_, h2.db.trans h1.db, fun h => h2.inv (h1.inv h), fun m h => h2.share m (h1.share m h)⟩
    rw [List.mem_cons, not_or] at hm
    exact (h2.files m hm.2).trans (h1.files m (by simpa using hm.1))

theorem prepareAll_share {X : Tools C A S} {P : Project C A} (hp : ∀ n, P.precious n = false) {ex : Node → Bool} {ns : List Node} {W : World C S} {n : Node} (hn : n ∈ ns)
    (h : ex n = true ∨ W.share n = none) : (ns.foldl (fun W' n => prepare P (ex n) n W') W).share n = none := by
  induction ns generalizing W with
  | nil => cases hn
  | cons m ns ih =>
    simp only [List.foldl_cons]
    by_cases hm : m = n
    · subst hm
      refine (prepareAll_prepared X P ex ns _).share m ?_
      rcases h with h | h
      · simp [prepare, h, hp]
      · exact (prepare_prepared X P (ex m) m W).share m h
    · refine ih (by rcases List.mem_cons.1 hn with h | h; exact absurd h.symm hm; exact h) ?_
      rcases h with h | h
      · exact Or.inl h
      · exact Or.inr ((prepare_prepared X P (ex m) m W).share n h)

theorem write_reps {n : Node} {c : C} {W : World C S} (h : W.share n = none) : (write n c W).reps = W.reps := by
  unfold write
  simp only [h]
  split
  · rename_i h2; cases h2
  · rfl

theorem writeAll {f : Node → C} {ns : List Node} {W : World C S} (h : ∀ n ∈ ns, W.share n = none) :
    ns.foldl (fun W' n => write n (f n) W') W = { W with loc := { W.loc with files := fun n => if n ∈ ns then some (f n) else W.loc.files n } } := by
  induction ns generalizing W with
  | nil => simp
  | cons m ns ih =>
    simp only [List.foldl_cons]
    have h0 : write m (f m) W = { W with loc := { W.loc with files := Function.update W.loc.files m (some (f m)) } } := by
      have := write_reps (c := f m) (h m (by simp))
      unfold write at this ⊢
      simp only at this
      rw [this]
    rw [h0, ih (by intro n hn; exact h n (List.mem_cons_of_mem _ hn))]
    simp only [World.mk.injEq, Tree.mk.injEq, and_true]
    funext n
    by_cases hn : n ∈ ns
    · simp [hn]
    · by_cases hm : n = m
      · subst hm; simp [hn]
      · simp [hn, hm, Function.update_of_ne hm]

/-! ## One task -/

/-- What one task does, for guarded projects. -/
structure Did (X : Tools C A S) (P : Project C A) (g : Nat) (W W' : World C S) (b : Option Bool) : Prop where
  reps : W'.reps = W.reps
  files : ∀ m, m ∉ P.targets g → W'.loc.files m = W.loc.files m
  db : ∀ m, m ∉ P.targets g → W'.loc.db m = W.loc.db m
  inv : Inv X W'
  same : b = some false → W'.view = W.view
  holds : b.isSome → ∀ t ∈ P.targets g, Holds P (recOf X P W g) t W'

theorem runTask_did {X : Tools C A S} {P : Project C A} (hP : Guarded X P) {g : Nat} {W W' : World C S} {b : Option Bool} (hI : Inv X W) (h : runTask X P g W = (W', b)) :
    Did X P g W W' b := by
  unfold runTask at h
  simp only at h
  have hq := checkAll_asked X P (recOf X P W g) (P.targets g) W
  split at h
  · rename_i hc
    simp only [Prod.mk.injEq] at h
    obtain ⟨rfl, rfl⟩ := h
    have hall := checkAll_true hc
    have hI' := hq.inv hI
    refine ⟨hq.reps, hq.files, fun m hm => ?_, ⟨?_, hI'.reps, hI'.share, hI'.soft⟩, fun _ => hq.view, fun _ t ht => ?_⟩
    · simp only [World.store, if_neg hm]; exact hq.db m hm
    · intro m r c h1 h2
      simp only [World.store] at h1 h2
      split at h1
      · rename_i hm
        simp only [Option.some.injEq] at h1
        subst h1
        rcases hall m hm with ⟨-, h3⟩ | ⟨h3, -⟩
        · exact hI'.loc m _ c h3 h2
        · rw [h3] at h2; cases h2
      · exact hI'.loc m r c h1 h2
    · rcases hall t ht with ⟨h1, h2⟩ | h1
      · exact Or.inl ⟨h1, by simp [World.store, ht]⟩
      · exact Or.inr h1
  · rename_i hc
    have hc' : (checkAll X P (recOf X P W g) (P.targets g) W).1 = false := by simpa using hc
    have hI1 := hq.inv hI
    generalize hW1 : (checkAll X P (recOf X P W g) (P.targets g) W).2 = W1 at h hq hI1
    have hp := prepareAll_prepared X P (fun n => (W.loc.files n).isSome) (P.targets g) W1
    have hshare : ∀ n ∈ P.targets g, ((P.targets g).foldl (fun W' n => prepare P (W.loc.files n).isSome n W') W1).share n = none := by
      intro n hn
      rcases hh : X.hard with _ | _
      · exact (hp.inv hI1).soft hh n
      · have e := checkAll_false hP hh hc'
        rw [hW1] at e
        subst e
        rcases hP with hP | ⟨hP, -⟩
        · rw [hP] at hh; cases hh
        · refine prepareAll_share (X := X) hP (ex := fun n => (W1.loc.files n).isSome) hn ?_
          cases hf : W1.loc.files n with
          | none => exact Or.inr (hI.share n hf)
          | some c => simp
    generalize hW2 : (P.targets g).foldl (fun W' n => prepare P (W.loc.files n).isSome n W') W1 = W2 at h hp hshare
    have hI2 := hp.inv hI1
    split at h
    · simp only [Prod.mk.injEq] at h
      obtain ⟨rfl, rfl⟩ := h
      exact ⟨hp.reps.trans hq.reps, fun m hm => (hp.files m hm).trans (hq.files m hm), fun m hm => by rw [hp.db]; exact hq.db m hm, hI2, nofun, nofun⟩
    · rename_i f hf
      simp only [Prod.mk.injEq] at h
      obtain ⟨rfl, rfl⟩ := h
      rw [writeAll hshare]
      refine ⟨hp.reps.trans hq.reps, fun m hm => ?_, fun m hm => ?_, ⟨?_, hI2.reps, ?_, hI2.soft⟩, nofun, fun _ t ht => Or.inl ⟨⟨f t, by simp [World.store, ht]⟩, by simp [World.store, ht]⟩⟩
      · simp only [World.store, if_neg hm]; exact (hp.files m hm).trans (hq.files m hm)
      · simp only [World.store, if_neg hm]; rw [hp.db]; exact hq.db m hm
      · intro m r c h1 h2
        simp only [World.store] at h1 h2
        by_cases hm : m ∈ P.targets g
        · simp only [hm, if_true, Option.some.injEq] at h1 h2
          subst h1; subst h2
          exact ⟨P.act g, (P.deps g W.view).map W.view, f, rfl, by simp [recOf], hf, rfl⟩
        · simp only [hm, if_false] at h1 h2
          exact hI2.loc m r c h1 h2
      · intro m h
        simp only [World.store] at h ⊢
        by_cases hm : m ∈ P.targets g
        · simp [hm] at h
        · simp only [hm, if_false] at h
          exact hI2.share m h

theorem Did.view {X : Tools C A S} {P : Project C A} {g : Nat} {W W' : World C S} {b : Option Bool} (h : Did X P g W W' b) {m : Node} (hm : m ∉ P.targets g) : W'.view m = W.view m := by
  unfold World.view
  rw [h.files m hm, h.reps]

/-- What `Holds` says about the content. -/
theorem Holds.content {X : Tools C A S} (hX : NoClash X) {P : Project C A} {W : World C S} (hI : Inv X W) {g : Nat} {t : Node} (h : Holds P (recOf X P W g) t W) :
    ∃ f, X.exec (P.act g) ((P.deps g W.view).map W.view) = some f ∧ W.view t = some (f t) := by
  have key : ∀ T : Tree C S, Truthful X T → ∀ c, T.db t = some (recOf X P W g) → T.files t = some c → ∃ f, X.exec (P.act g) ((P.deps g W.view).map W.view) = some f ∧ c = f t := by
    intro T hT c h1 h2
    obtain ⟨a, cs, f, h3, h4, h5, h6⟩ := hT t _ c h1 h2
    have ha : a = P.act g := hX.hA h3
    have hcs : cs = (P.deps g W.view).map W.view := by
      have : cs.map X.h = ((P.deps g W.view).map W.view).map X.h := by rw [h4]; simp [recOf]
      exact (List.map_injective_iff.2 hX.h) this
    subst ha; subst hcs
    exact ⟨f, h5, h6⟩
  rcases h with ⟨⟨c, h1⟩, h2⟩ | ⟨h1, h2, i, c, T, h3, h4, h5⟩
  · obtain ⟨f, h3, h4⟩ := key W.loc hI.loc c h2 h1
    exact ⟨f, h3, by simp [World.view, h1, h4]⟩
  · obtain ⟨T', h6, h7⟩ := firstWith_zero h3
    rw [h4] at h6; cases h6
    obtain ⟨f, h8, h9⟩ := key T (hI.reps T (List.mem_of_getElem? h4)) c h5 h7
    exact ⟨f, h8, by simp [World.view, h1, h3, h9]⟩

/-! ## Runs -/

/-- The tasks are current, in an order in which dependencies come first. -/
def Settled (X : Tools C A S) (P : Project C A) (W : World C S) : List Nat → Prop
  | [] => True
  | g :: d => Settled X P W d ∧ (∀ k ∈ P.deps g W.view, ∀ g', k ∈ P.targets g' → g' ∈ d) ∧ ∀ t ∈ P.targets g, Holds P (recOf X P W g) t W

/-- Nothing about the tasks in `d` changes if only targets of another task change. -/
theorem Settled.frame {X : Tools C A S} {P : Project C A} (hW : WellFormed P) {W W' : World C S} {d : List Nat} (h : Settled X P W d) (hr : W'.reps = W.reps)
    (hs : ∀ n, (∀ g, n ∉ P.targets g) → W'.view n = W.view n) (hv : ∀ g ∈ d, ∀ n ∈ P.targets g, W'.loc.files n = W.loc.files n ∧ W'.loc.db n = W.loc.db n) : Settled X P W' d := by
  induction d with
  | nil => trivial
  | cons g d ih =>
    obtain ⟨h1, h2, h3⟩ := h
    have hview : ∀ k ∈ P.deps g W.view, W.view k = W'.view k := by
      intro k hk
      by_cases hx : ∃ g', k ∈ P.targets g'
      · obtain ⟨g', hg'⟩ := hx
        have := (hv g' (List.mem_cons_of_mem _ (h2 k hk g' hg')) k hg').1
        unfold World.view; rw [this, hr]
      · exact (hs k fun g' hg' => hx ⟨g', hg'⟩).symm
    have hd : P.deps g W'.view = P.deps g W.view := hW.scan g W.view W'.view (fun n hn => (hs n hn).symm) hview
    have hrec : recOf X P W' g = recOf X P W g := by
      unfold recOf
      rw [hd]
      congr 1
      exact List.map_congr_left fun k hk => by rw [hview k hk]
    refine ⟨ih h1 fun g' hg' => hv g' (List.mem_cons_of_mem _ hg'), by rw [hd]; exact h2, fun t ht => ?_⟩
    rw [hrec]
    obtain ⟨a, b⟩ := hv g (by simp) t ht
    exact (h3 t ht).frame a b hr

/-- What a run does. -/
structure Ran (X : Tools C A S) (P : Project C A) (W : World C S) (d : List Nat) (W' : World C S) : Prop where
  inv : Inv X W'
  reps : W'.reps = W.reps
  sources : ∀ n, (∀ g, n ∉ P.targets g) → W'.loc.files n = W.loc.files n
  settled : Settled X P W' d

theorem Ran.view {X : Tools C A S} {P : Project C A} {W W' : World C S} {d : List Nat} (h : Ran X P W d W') {n : Node} (hn : ∀ g, n ∉ P.targets g) : W'.view n = W.view n := by
  unfold World.view; rw [h.reps, h.sources n hn]

theorem run_ran {X : Tools C A S} {P : Project C A} (hW : WellFormed P) (hP : Guarded X P) {W W' : World C S} {d e : List Nat} (hI : Inv X W) (h : Run X P W d e W') : Ran X P W d W' := by
  induction h with
  | start => exact ⟨hI, rfl, fun _ _ => rfl, trivial⟩
  | @ok d e W1 W2 g b _ hg hd ht ih =>
    have hD := runTask_did hP ih.inv ht
    have hout : ∀ g' ∈ d, ∀ n ∈ P.targets g', n ∉ P.targets g := fun g' hg' n hn hn' => hg (hW.one n g' g hn hn' ▸ hg')
    have hview : ∀ k ∈ P.deps g W1.view, W1.view k = W2.view k := fun k hk => (hD.view fun hk' => hg (hd k hk g hk')).symm
    have hdeps : P.deps g W2.view = P.deps g W1.view := hW.scan g W1.view W2.view (fun n hn => (hD.view (hn g)).symm) hview
    have hrec : recOf X P W2 g = recOf X P W1 g := by
      unfold recOf
      rw [hdeps]
      congr 1
      exact List.map_congr_left fun k hk => by rw [hview k hk]
    refine ⟨hD.inv, hD.reps.trans ih.reps, fun n hn => (hD.files n (hn g)).trans (ih.sources n hn), ?_, ?_, ?_⟩
    · exact ih.settled.frame hW hD.reps (fun n hn => hD.view (hn g)) fun g' hg' n hn => ⟨hD.files n (hout g' hg' n hn), hD.db n (hout g' hg' n hn)⟩
    · rw [hdeps]; exact hd
    · rw [hrec]; exact hD.holds rfl
  | @fail d e W1 W2 g _ hg hd ht ih =>
    have hD := runTask_did hP ih.inv ht
    have hout : ∀ g' ∈ d, ∀ n ∈ P.targets g', n ∉ P.targets g := fun g' hg' n hn hn' => hg (hW.one n g' g hn hn' ▸ hg')
    exact ⟨hD.inv, hD.reps.trans ih.reps, fun n hn => (hD.files n (hn g)).trans (ih.sources n hn),
      ih.settled.frame hW hD.reps (fun n hn => hD.view (hn g)) fun g' hg' n hn => ⟨hD.files n (hout g' hg' n hn), hD.db n (hout g' hg' n hn)⟩⟩

/-! ## Histories -/

/-- Trees that come about by editing files (not those a build has recorded), deleting files, adding the trees of other histories as repositories, taking repositories away, and runs of any
guarded projects. -/
inductive Hist (X : Tools C A S) : World C S → Prop
  | init : Hist X ⟨⟨fun _ => none, fun _ => none⟩, [], fun _ => none⟩
  | edit {W} (n : Node) (c : C) : Hist X W → W.loc.db n = none → Hist X { W with loc := { W.loc with files := Function.update W.loc.files n (some c) }, share := Function.update W.share n none }
  | delete {W} (n : Node) : Hist X W → Hist X { W with loc := { W.loc with files := Function.update W.loc.files n none }, share := Function.update W.share n none }
  | repository {W V} : Hist X W → Hist X V → Hist X { W with reps := W.reps ++ [V.loc] }
  | withdraw {W} : Hist X W → Hist X { W with reps := [], share := fun _ => none }
  | build {W W' P d e} : Hist X W → WellFormed P → Guarded X P → Run X P W d e W' → Hist X W'

theorem Hist.inv {X : Tools C A S} {W : World C S} (h : Hist X W) : Inv X W := by
  induction h with
  | init => exact ⟨nofun, nofun, fun _ _ => rfl, fun _ _ => rfl⟩
  | @edit W n c _ hdb ih =>
    refine ⟨fun m r c' h1 h2 => ?_, ih.reps, fun m h => ?_, fun hh m => ?_⟩
    · by_cases hm : m = n
      · subst hm; simp only at h1; rw [hdb] at h1; cases h1
      · simp only [Function.update_of_ne hm] at h2; exact ih.loc m r c' h1 h2
    · by_cases hm : m = n
      · subst hm; simp
      · simp only [Function.update_of_ne hm] at h ⊢; exact ih.share m h
    · by_cases hm : m = n
      · subst hm; simp
      · simp only [Function.update_of_ne hm]; exact ih.soft hh m
  | @delete W n _ ih =>
    refine ⟨fun m r c' h1 h2 => ?_, ih.reps, fun m h => ?_, fun hh m => ?_⟩
    · by_cases hm : m = n
      · subst hm; simp at h2
      · simp only [Function.update_of_ne hm] at h2; exact ih.loc m r c' h1 h2
    · by_cases hm : m = n
      · subst hm; simp
      · simp only [Function.update_of_ne hm] at h ⊢; exact ih.share m h
    · by_cases hm : m = n
      · subst hm; simp
      · simp only [Function.update_of_ne hm]; exact ih.soft hh m
  | @repository W V _ _ ih ih' =>
    refine ⟨ih.loc, fun T hT => ?_, ih.share, ih.soft⟩
    rcases List.mem_append.1 hT with hT | hT
    · exact ih.reps T hT
    · simp only [List.mem_singleton] at hT; subst hT; exact ih'.loc
  | withdraw _ ih => exact ⟨ih.loc, nofun, fun _ _ => rfl, fun _ _ => rfl⟩
  | build _ hW hP hr ih => exact (run_ran hW hP ih hr).inv

/-- **C76, the result is correct.**  After a run over any repositories, every target of the tasks done has the content that the action makes of the contents of the dependencies, where a file is
looked for locally and then in the repositories; sources are as before. -/
theorem C76_correct {X : Tools C A S} (hX : NoClash X) {P : Project C A} (hW : WellFormed P) (hP : Guarded X P) {W W' : World C S} (hH : Hist X W) {d e : List Nat} (h : Run X P W d e W') :
    (∀ n, (∀ g, n ∉ P.targets g) → W'.view n = W.view n) ∧
    ∀ g ∈ d, ∀ t ∈ P.targets g, ∃ f, X.exec (P.act g) ((P.deps g W'.view).map W'.view) = some f ∧ W'.view t = some (f t) := by
  have hR := run_ran hW hP hH.inv h
  refine ⟨fun n hn => hR.view hn, fun g hg t ht => ?_⟩
  have hs := hR.settled
  have : ∀ d, Settled X P W' d → g ∈ d → Holds P (recOf X P W' g) t W' := by
    intro d hd hg
    induction d with
    | nil => cases hg
    | cons g' d ih =>
      rcases List.mem_cons.1 hg with rfl | hg
      · exact hd.2.2 t ht
      · exact ih hd.1 hg
  exact (this d hs hg).content hX hR.inv

/-- **C76, repositories are read only.**  A run changes neither the files nor the signatures of a repository, and no local source. -/
theorem C76_repositories_untouched {X : Tools C A S} {P : Project C A} (hW : WellFormed P) (hP : Guarded X P) {W W' : World C S} (hH : Hist X W) {d e : List Nat} (h : Run X P W d e W') :
    W'.reps = W.reps ∧ ∀ n, (∀ g, n ∉ P.targets g) → W'.loc.files n = W.loc.files n :=
  ⟨(run_ran hW hP hH.inv h).reps, (run_ran hW hP hH.inv h).sources⟩

theorem settled_agree {X : Tools C A S} (hX : NoClash X) {P : Project C A} (hW : WellFormed P) {W V : World C S} (hIW : Inv X W) (hIV : Inv X V) {d d' : List Nat}
    (hd : Settled X P W d) (hd' : Settled X P V d') (hsub : ∀ g ∈ d, g ∈ d') (hsrc : ∀ n, (∀ g, n ∉ P.targets g) → W.view n = V.view n) :
    ∀ g ∈ d, ∀ t ∈ P.targets g, W.view t = V.view t := by
  induction d with
  | nil => nofun
  | cons g d ih =>
    obtain ⟨h1, h2, h3⟩ := hd
    have ih' := ih h1 fun g' hg' => hsub g' (List.mem_cons_of_mem _ hg')
    intro g' hg' t ht
    rcases List.mem_cons.1 hg' with rfl | hg'
    · have hk : ∀ k ∈ P.deps g' W.view, W.view k = V.view k := by
        intro k hk
        by_cases hx : ∃ g'', k ∈ P.targets g''
        · obtain ⟨g'', hg''⟩ := hx
          exact ih' g'' (h2 k hk g'' hg'') k hg''
        · exact hsrc k fun g'' hg'' => hx ⟨g'', hg''⟩
      have hdeps := hW.scan g' W.view V.view hsrc hk
      have hV : Holds P (recOf X P V g') t V := by
        have : ∀ d, Settled X P V d → g' ∈ d → Holds P (recOf X P V g') t V := by
          intro d hd hg
          induction d with
          | nil => cases hg
          | cons g'' d ih =>
            rcases List.mem_cons.1 hg with rfl | hg
            · exact hd.2.2 t ht
            · exact ih hd.1 hg
        exact this d' hd' (hsub g' (by simp))
      obtain ⟨f, e1, e2⟩ := (h3 t ht).content hX hIW
      obtain ⟨f', e3, e4⟩ := hV.content hX hIV
      rw [hdeps, List.map_congr_left fun k hk' => (hk k hk').symm, e1] at e3
      cases e3
      rw [e2, e4]
    · exact ih' g' hg' t ht

/-- **C76, the same as one tree.**  Two runs of a project over worlds with the same visible sources — whatever is local and whatever comes from which repository, for example a run in one tree
without repositories that has all the sources — agree on all targets. -/
theorem C76_same_as_one_tree {X : Tools C A S} (hX : NoClash X) {P : Project C A} (hW : WellFormed P) (hP : Guarded X P) {W W' V V' : World C S} (hHW : Hist X W) (hHV : Hist X V)
    {d e d' e' : List Nat} (h : Run X P W d e W') (h' : Run X P V d' e' V') (hsub : ∀ g ∈ d, g ∈ d') (hsrc : ∀ n, (∀ g, n ∉ P.targets g) → W.view n = V.view n) :
    ∀ g ∈ d, ∀ t ∈ P.targets g, W'.view t = V'.view t := by
  have hR := run_ran hW hP hHW.inv h
  have hR' := run_ran hW hP hHV.inv h'
  exact settled_agree hX hW hR.inv hR'.inv hR.settled hR'.settled hsub fun n hn => by rw [hR.view hn, hR'.view hn, hsrc n hn]

/-! ## What is not built again -/

theorem settled_mem {X : Tools C A S} {P : Project C A} {W : World C S} {d : List Nat} (h : Settled X P W d) {g : Nat} (hg : g ∈ d) : ∀ t ∈ P.targets g, Holds P (recOf X P W g) t W := by
  induction d with
  | nil => cases hg
  | cons g' d ih =>
    rcases List.mem_cons.1 hg with rfl | hg
    · exact h.2.2
    · exact ih h.1 hg

theorem runTask_holds {X : Tools C A S} {P : Project C A} {W : World C S} {g : Nat} (h : ∀ t ∈ P.targets g, Holds P (recOf X P W g) t W) :
    runTask X P g W = (W.store (recOf X P W g) (P.targets g), some false) := by
  unfold runTask
  simp only [checkAll_holds h, if_true]

theorem store_view (W : World C S) (r : Rec S) (ns : List Node) : (W.store r ns).view = W.view := rfl

theorem Settled.store {X : Tools C A S} {P : Project C A} (hW : WellFormed P) {W : World C S} {D : List Nat} (hD : Settled X P W D) {g : Nat} :
    Settled X P (W.store (recOf X P W g) (P.targets g)) D := by
  induction D with
  | nil => trivial
  | cons g' D ih =>
    obtain ⟨h1, h2, h3⟩ := hD
    refine ⟨ih h1, h2, fun t ht => ?_⟩
    have hr : recOf X P (W.store (recOf X P W g) (P.targets g)) g' = recOf X P W g' := rfl
    rw [hr]
    rcases h3 t ht with ⟨h4, h5⟩ | h4
    · refine Or.inl ⟨h4, ?_⟩
      simp only [World.store]
      split
      · rename_i hx
        rw [hW.one t g' g ht hx]
      · exact h5
    · exact Or.inr h4

/-- A run leaves alone what is settled. -/
theorem run_settled {X : Tools C A S} {P : Project C A} (hW : WellFormed P) (hP : Guarded X P) {W : World C S} (hI : Inv X W) {D : List Nat} (hD : Settled X P W D) {d e : List Nat}
    {W' : World C S} (h : Run X P W d e W') :
    Inv X W' ∧ Settled X P W' D ∧ ∀ g ∈ D, g ∉ e ∧ ∀ t ∈ P.targets g, W'.loc.files t = W.loc.files t := by
  induction h with
  | start => exact ⟨hI, hD, fun _ _ => ⟨List.not_mem_nil, fun _ _ => rfl⟩⟩
  | @ok d e W1 W2 g b _ hg hd ht ih =>
    obtain ⟨i1, i2, i3⟩ := ih
    have hDid := runTask_did hP i1 ht
    by_cases hgD : g ∈ D
    · rw [runTask_holds (settled_mem i2 hgD)] at ht
      simp only [Prod.mk.injEq, Option.some.injEq] at ht
      obtain ⟨rfl, rfl⟩ := ht
      exact ⟨hDid.inv, i2.store hW, i3⟩
    · have hout : ∀ g' ∈ D, ∀ n ∈ P.targets g', n ∉ P.targets g := fun g' hg' n hn hn' => hgD (hW.one n g' g hn hn' ▸ hg')
      refine ⟨hDid.inv, i2.frame hW hDid.reps (fun n hn => hDid.view (hn g)) fun g' hg' n hn => ⟨hDid.files n (hout g' hg' n hn), hDid.db n (hout g' hg' n hn)⟩, fun g' hg' => ⟨?_, fun t ht' => ?_⟩⟩
      · have := (i3 g' hg').1
        split
        · rw [List.mem_cons, not_or]
          exact ⟨fun e => hgD (e ▸ hg'), this⟩
        · exact this
      · rw [hDid.files t (hout g' hg' t ht'), (i3 g' hg').2 t ht']
  | @fail d e W1 W2 g _ hg hd ht ih =>
    obtain ⟨i1, i2, i3⟩ := ih
    have hDid := runTask_did hP i1 ht
    have hgD : g ∉ D := by
      intro hgD
      rw [runTask_holds (settled_mem i2 hgD)] at ht
      simp at ht
    have hout : ∀ g' ∈ D, ∀ n ∈ P.targets g', n ∉ P.targets g := fun g' hg' n hn hn' => hgD (hW.one n g' g hn hn' ▸ hg')
    exact ⟨hDid.inv, i2.frame hW hDid.reps (fun n hn => hDid.view (hn g)) fun g' hg' n hn => ⟨hDid.files n (hout g' hg' n hn), hDid.db n (hout g' hg' n hn)⟩,
      fun g' hg' => ⟨(i3 g' hg').1, fun t ht' => by rw [hDid.files t (hout g' hg' t ht'), (i3 g' hg').2 t ht']⟩⟩

/-- **C76, null build.**  After a run, a second run executes no action of a task done by the first and changes none of its targets. -/
theorem C76_null_build {X : Tools C A S} {P : Project C A} (hW : WellFormed P) (hP : Guarded X P) {W W1 W2 : World C S} (hH : Hist X W) {D e d e2 : List Nat} (h : Run X P W D e W1)
    (h2 : Run X P W1 d e2 W2) : ∀ g ∈ D, g ∉ e2 ∧ ∀ t ∈ P.targets g, W2.loc.files t = W1.loc.files t := by
  have hR := run_ran hW hP hH.inv h
  exact (run_settled hW hP hR.inv hR.settled h2).2.2

/-- **C76, built elsewhere.**  In an empty tree over a repository in which the project was built, nothing is built again and no target appears locally (unless a local copy is asked for). -/
theorem C76_built_elsewhere {X : Tools C A S} {P : Project C A} (hW : WellFormed P) (hP : Guarded X P) {V V1 W W2 : World C S} (hHV : Hist X V) (hV : V.reps = []) {D e d e2 : List Nat}
    (h : Run X P V D e V1) (hHW : Hist X W) (hloc : ∀ n, W.loc.files n = none) (hrep : W.reps = [V1.loc]) (hl : ∀ n, P.isLocal n = false) (h2 : Run X P W d e2 W2) :
    ∀ g ∈ D, g ∉ e2 ∧ ∀ t ∈ P.targets g, W2.loc.files t = none := by
  have hR := run_ran hW hP hHV.inv h
  have hr1 : V1.reps = [] := hR.reps.trans hV
  have hfw : ∀ n, firstWith W.reps 0 n = (V1.loc.files n).map fun c => (0, c) := by
    intro n
    rw [hrep]
    simp only [firstWith]
    cases V1.loc.files n <;> rfl
  have hview : W.view = V1.view := by
    funext n
    unfold World.view
    rw [hloc n, hfw n, hr1]
    cases V1.loc.files n <;> rfl
  have hrec : ∀ g, recOf X P W g = recOf X P V1 g := by
    intro g; unfold recOf; rw [hview]
  have hS : Settled X P W D := by
    have := hR.settled
    revert this
    generalize D = D'
    intro hD
    induction D' with
    | nil => trivial
    | cons g D ih =>
      obtain ⟨h1, h2, h3⟩ := hD
      refine ⟨ih h1, by rw [hview]; exact h2, fun t ht => ?_⟩
      rw [hrec]
      rcases h3 t ht with ⟨⟨c, h4⟩, h5⟩ | ⟨h4, h5, i, c, T, h6, -⟩
      · exact Or.inr ⟨hloc t, hl t, 0, c, V1.loc, by rw [hfw, h4]; rfl, by rw [hrep]; rfl, h5⟩
      · rw [hr1] at h6; cases h6
  intro g hg
  obtain ⟨a, b⟩ := (run_settled hW hP hHW.inv hS h2).2.2 g hg
  exact ⟨a, fun t ht => (b t ht).trans (hloc t)⟩

/-- **C76, local copies.**  A target marked with `Local` that is done is there locally. -/
theorem C76_local_copy {X : Tools C A S} {P : Project C A} (hW : WellFormed P) (hP : Guarded X P) {W W' : World C S} (hH : Hist X W) {d e : List Nat} (h : Run X P W d e W') {g t : Nat}
    (hg : g ∈ d) (ht : t ∈ P.targets g) (hl : P.isLocal t = true) : ∃ c, W'.loc.files t = some c ∧ W'.view t = some c := by
  have hR := run_ran hW hP hH.inv h
  rcases settled_mem hR.settled hg t ht with ⟨⟨c, h1⟩, -⟩ | ⟨-, h1, -⟩
  · exact ⟨c, h1, by simp [World.view, h1]⟩
  · rw [hl] at h1; cases h1

end Verif.Repo
