import Verif.Cpp.Total
/-!
# C37: DumbPreProcessor finds at least the files the evaluating preprocessor finds
-/
namespace Verif.Cpp

variable {N F C O I : Type} [DecidableEq F]

/-- The `#include` lines still to come, with the file each belongs to. -/
def pend : F → List (Line F C O I) → List (F × I)
  | _, [] => []
  | _, .cur g :: r => pend g r
  | f, .inc i :: r => (f, i) :: pend f r
  | f, _ :: r => pend f r

/-- The `#include` lines of a text. -/
def incs : List (Line F C O I) → List I
  | [] => []
  | .inc i :: r => i :: incs r
  | _ :: r => incs r

/-- Files do not contain the internal line `scons_current_file`. -/
def NoCur (l : List (Line F C O I)) : Prop := ∀ f, Line.cur f ∉ l

omit [DecidableEq F] in
theorem pend_append (g : F) (l : List (Line F C O I)) (r : List (Line F C O I)) (h : NoCur l) :
    pend g (l ++ r) = (incs l).map (fun i => (g, i)) ++ pend g r := by
  induction l with
  | nil => rfl
  | cons x l ih =>
    have ih := ih (fun f hf => h f (List.mem_cons_of_mem _ hf))
    cases x with
    | cur f => exact absurd List.mem_cons_self (h f)
    | _ => simp [pend, incs, ih]

omit [DecidableEq F] in
theorem pend_new (f cur : F) (l r : List (Line F C O I)) (h : NoCur l) (c0 : F) :
    pend c0 (.cur f :: (l ++ .cur cur :: r)) = (incs l).map (fun i => (f, i)) ++ pend cur r := by
  simp only [pend]
  rw [pend_append f l _ h]
  simp [pend]

/-- What an `#include` line of `f` refers to, if that does not depend on macros:
all `#include`s name their file by `"..."` or `<...>`. -/
def Literal (W : World N F C O I) (ref : F → I → Option F) : Prop :=
  ∀ i f n, (W.find i f n).1 = ref f i

/-- `f` is the file scanned, or named by some `#include` line, in any branch, of such a file. -/
inductive Reach (W : World N F C O I) (ref : F → I → Option F) (root : F) : F → Prop
  | root : Reach W ref root root
  | inc {f g i} (h : Reach W ref root f) (hi : i ∈ incs (W.read f)) (hg : ref f i = some g) :
      Reach W ref root g

section
variable {W : World N F C O I} {ref : F → I → Option F} (hn : ∀ f, NoCur (W.read f))
  (hl : Literal W ref) (root : F)
include hn hl

/-- Smart: everything found is reachable. -/
def SmartInv (W : World N F C O I) (ref : F → I → Option F) (root : F) (st : St N F C O I) : Prop :=
  (∀ f ∈ st.obs.result, Reach W ref root f) ∧
  ∀ p ∈ pend st.obs.cur st.tuples, Reach W ref root p.1 ∧ p.2 ∈ incs (W.read p.1)

theorem smart_step (st st' : St N F C O I) (h : SmartInv W ref root st) (hs : step W st = some st') :
    SmartInv W ref root st' := by
  obtain ⟨stack, tbl, obs, tuples⟩ := st
  obtain ⟨h1, h2⟩ := h
  cases tuples with
  | nil => simp [step] at hs; subst hs; exact ⟨h1, h2⟩
  | cons x r =>
    cases x with
    | ifc c =>
      simp only [step] at hs
      split at hs <;> simp at hs <;> subst hs <;> exact ⟨h1, h2⟩
    | elif c =>
      simp only [step] at hs
      split at hs
      · simp at hs; subst hs; exact ⟨h1, h2⟩
      · split at hs <;> simp at hs <;> subst hs <;> exact ⟨h1, h2⟩
    | els =>
      simp only [step] at hs
      split at hs <;> simp at hs <;> subst hs <;> exact ⟨h1, h2⟩
    | endif =>
      simp only [step] at hs
      split at hs <;> simp at hs <;> subst hs <;> exact ⟨h1, h2⟩
    | op o =>
      simp only [step] at hs
      split at hs <;> simp at hs <;> subst hs <;> exact ⟨h1, h2⟩
    | cur f => simp [step] at hs; subst hs; exact ⟨h1, h2⟩
    | inc i =>
      have h2' : ∀ p ∈ pend obs.cur r, Reach W ref root p.1 ∧ p.2 ∈ incs (W.read p.1) :=
        fun p hp => h2 p (by simp [pend, hp])
      have hc := h2 (obs.cur, i) (by simp [pend])
      simp only [step] at hs
      split at hs
      · split at hs
        · simp at hs; subst hs; exact ⟨h1, h2'⟩
        · rename_i f n hf
          have hr : ref obs.cur i = some f := by rw [← hl i obs.cur obs.ns, hf]
          have hR : Reach W ref root f := .inc hc.1 hc.2 hr
          split at hs
          · simp at hs; subst hs; exact ⟨h1, h2'⟩
          · simp at hs; subst hs
            refine ⟨?_, ?_⟩
            · intro g hg
              simp at hg
              rcases hg with hg | rfl
              · exact h1 g hg
              · exact hR
            · intro p hp
              simp only at hp
              rw [pend_new f obs.cur _ r (hn f)] at hp
              simp only [List.mem_append, List.mem_map] at hp
              rcases hp with ⟨j, hj, rfl⟩ | hp
              · exact ⟨hR, hj⟩
              · exact h2' p hp
      · simp at hs; subst hs; exact ⟨h1, h2'⟩

theorem smart_run (n : Nat) (st : St N F C O I) (h : SmartInv W ref root st) (s : Obs N F)
    (hr : run W n st = .done s) : ∀ f ∈ s.result, Reach W ref root f := by
  induction n generalizing st with
  | zero =>
    rw [run.eq_def] at hr
    simp only at hr
    split at hr
    · cases hr; exact h.1
    · cases hr
  | succ n ih =>
    rw [run.eq_def] at hr
    simp only at hr
    split at hr
    · cases hr; exact h.1
    · split at hr
      · cases hr
      · exact ih _ (smart_step hn hl root _ _ h (by assumption)) hr

/-- Dumb: what the lines of the files found refer to is found, or still to come. -/
def DumbInv (W : World N F C O I) (ref : F → I → Option F) (st : St N F C O I) : Prop :=
  ∀ f ∈ st.obs.result, ∀ i ∈ incs (W.read f), ∀ g, ref f i = some g →
    g ∈ st.obs.result ∨ (f, i) ∈ pend st.obs.cur st.tuples

theorem dumb_step (st : St N F C O I) (h : DumbInv W ref st) : DumbInv W ref (dumbStep W st) := by
  obtain ⟨stack, tbl, obs, tuples⟩ := st
  cases tuples with
  | nil => exact h
  | cons x r =>
    cases x with
    | ifc c => exact h
    | elif c => exact h
    | els => exact h
    | endif => exact h
    | op o => exact h
    | cur f => exact h
    | inc i =>
      have hk := hl i obs.cur obs.ns
      simp only [dumbStep]
      split
      · rename_i n hf
        intro f hfr j hj g hg
        rcases h f hfr j hj g hg with h' | h'
        · exact .inl h'
        · simp only [pend, List.mem_cons] at h'
          rcases h' with h' | h'
          · injection h' with e1 e2
            rw [hf] at hk
            rw [e1, e2, ← hk] at hg
            cases hg
          · exact .inr h'
      · rename_i f' n hf
        rw [hf] at hk
        split
        · rename_i hm
          intro f hfr j hj g hg
          rcases h f hfr j hj g hg with h' | h'
          · exact .inl h'
          · simp only [pend, List.mem_cons] at h'
            rcases h' with h' | h'
            · injection h' with e1 e2
              rw [e1, e2, ← hk] at hg
              cases hg
              exact .inl hm
            · exact .inr h'
        · intro f hfr j hj g hg
          simp only [List.mem_append, List.mem_singleton] at hfr ⊢
          rw [pend_new f' obs.cur _ r (hn f')]
          simp only [List.mem_append, List.mem_map]
          rcases hfr with hfr | rfl
          · rcases h f hfr j hj g hg with h' | h'
            · exact .inl (.inl h')
            · simp only [pend, List.mem_cons] at h'
              rcases h' with h' | h'
              · injection h' with e1 e2
                rw [e1, e2, ← hk] at hg
                cases hg
                exact .inl (.inr rfl)
              · exact .inr (.inr h')
          · exact .inr (.inl ⟨j, hj, rfl⟩)

theorem dumb_sound_step (st : St N F C O I) (h : SmartInv W ref root st) :
    SmartInv W ref root (dumbStep W st) := by
  obtain ⟨stack, tbl, obs, tuples⟩ := st
  obtain ⟨h1, h2⟩ := h
  cases tuples with
  | nil => exact ⟨h1, h2⟩
  | cons x r =>
    cases x with
    | inc i =>
      have h2' : ∀ p ∈ pend obs.cur r, Reach W ref root p.1 ∧ p.2 ∈ incs (W.read p.1) :=
        fun p hp => h2 p (by simp [pend, hp])
      have hc := h2 (obs.cur, i) (by simp [pend])
      simp only [dumbStep]
      split
      · exact ⟨h1, h2'⟩
      · rename_i f n hf
        have hr : ref obs.cur i = some f := by rw [← hl i obs.cur obs.ns, hf]
        have hR : Reach W ref root f := .inc hc.1 hc.2 hr
        split
        · exact ⟨h1, h2'⟩
        · refine ⟨?_, ?_⟩
          · intro g hg
            simp at hg
            rcases hg with hg | rfl
            · exact h1 g hg
            · exact hR
          · intro p hp
            simp only at hp
            rw [pend_new f obs.cur _ r (hn f)] at hp
            simp only [List.mem_append, List.mem_map] at hp
            rcases hp with ⟨j, hj, rfl⟩ | hp
            · exact ⟨hR, hj⟩
            · exact h2' p hp
    | _ => exact ⟨h1, h2⟩

theorem dumb_sound_run (n : Nat) (st : St N F C O I) (h : SmartInv W ref root st) (s : Obs N F)
    (hr : dumbRun W n st = .done s) : ∀ f ∈ s.result, Reach W ref root f := by
  induction n generalizing st with
  | zero =>
    rw [dumbRun.eq_def] at hr
    simp only at hr
    split at hr
    · cases hr; exact h.1
    · cases hr
  | succ n ih =>
    rw [dumbRun.eq_def] at hr
    simp only at hr
    split at hr
    · cases hr; exact h.1
    · exact ih _ (dumb_sound_step hn hl root _ h) hr

omit hn hl in
theorem dumb_keeps (st : St N F C O I) : st.obs.result ⊆ (dumbStep W st).obs.result := by
  obtain ⟨stack, tbl, obs, tuples⟩ := st
  cases tuples with
  | nil => exact List.Subset.refl _
  | cons x r =>
    cases x with
    | inc i =>
      simp only [dumbStep]
      split
      · exact List.Subset.refl _
      · split
        · exact List.Subset.refl _
        · exact fun x hx => List.mem_append_left _ hx
    | _ => exact List.Subset.refl _

theorem dumb_run (n : Nat) (st : St N F C O I) (h : DumbInv W ref st) (s : Obs N F)
    (hr : dumbRun W n st = .done s) :
    st.obs.result ⊆ s.result ∧
    ∀ f ∈ s.result, ∀ i ∈ incs (W.read f), ∀ g, ref f i = some g → g ∈ s.result := by
  induction n generalizing st with
  | zero =>
    rw [dumbRun.eq_def] at hr
    simp only at hr
    split at hr
    · rename_i he
      cases hr
      refine ⟨List.Subset.refl _, fun f hf i hi g hg => ?_⟩
      rcases h f hf i hi g hg with h' | h'
      · exact h'
      · rw [List.isEmpty_iff.1 he] at h'; simp [pend] at h'
    · cases hr
  | succ n ih =>
    rw [dumbRun.eq_def] at hr
    simp only at hr
    split at hr
    · rename_i he
      cases hr
      refine ⟨List.Subset.refl _, fun f hf i hi g hg => ?_⟩
      rcases h f hf i hi g hg with h' | h'
      · exact h'
      · rw [List.isEmpty_iff.1 he] at h'; simp [pend] at h'
    · obtain ⟨h1, h2⟩ := ih _ (dumb_step hn hl _ h) hr
      exact ⟨fun x hx => h1 (dumb_keeps _ hx), h2⟩

end

/-- `DumbPreProcessor` terminates, whatever the files contain. -/
theorem dumb_terminates (W : World N F C O I) (U : List F) (hU : FindsIn W U) (st : St N F C O I) :
    ∃ n0 s, ∀ n, n0 ≤ n → dumbRun W n st = .done s := by
  suffices ∀ k (st : St N F C O I), left U st.obs.result < k →
      ∃ n0 s, ∀ n, n0 ≤ n → dumbRun W n st = .done s from this _ st (Nat.lt_succ_self _)
  intro k
  induction k with
  | zero => intro st h; omega
  | succ k IH =>
    intro st
    obtain ⟨stack, tbl, obs, tuples⟩ := st
    induction tuples generalizing stack tbl obs with
    | nil => intro _; exact ⟨0, obs, fun n _ => by rw [dumbRun.eq_def]; simp⟩
    | cons x r ih =>
      intro hk
      have lift : ∀ st' : St N F C O I, dumbStep W ⟨stack, tbl, obs, x :: r⟩ = st' →
          (∃ n0 s, ∀ n, n0 ≤ n → dumbRun W n st' = .done s) →
          ∃ n0 s, ∀ n, n0 ≤ n → dumbRun W n ⟨stack, tbl, obs, x :: r⟩ = .done s := by
        rintro st' he ⟨n0, s, h⟩
        refine ⟨n0 + 1, s, fun n hn => ?_⟩
        obtain ⟨n, rfl⟩ : ∃ k, n = k + 1 := ⟨n - 1, by omega⟩
        rw [dumbRun.eq_def]
        simp only [List.isEmpty_cons, Bool.false_eq_true, ↓reduceIte]
        rw [he]
        exact h n (by omega)
      cases x with
      | ifc c => exact lift _ rfl (ih _ _ _ hk)
      | elif c => exact lift _ rfl (ih _ _ _ hk)
      | els => exact lift _ rfl (ih _ _ _ hk)
      | endif => exact lift _ rfl (ih _ _ _ hk)
      | op o => exact lift _ rfl (ih _ _ _ hk)
      | cur f => exact lift _ rfl (ih _ _ _ hk)
      | inc i =>
        match hf : W.find i obs.cur obs.ns with
        | (none, n) => exact lift ⟨stack, tbl, { obs with ns := n }, r⟩ (by simp [dumbStep, hf]) (ih _ _ _ hk)
        | (some f, n) =>
          by_cases hm : f ∈ obs.result
          · exact lift ⟨stack, tbl, { obs with ns := n }, r⟩ (by simp [dumbStep, hf, hm]) (ih _ _ _ hk)
          · refine lift _ (by simp [dumbStep, hf, hm]; exact rfl) (IH _ ?_)
            have := left_append (hU _ _ _ _ _ hf) hm
            have hk' : left U obs.result < k + 1 := hk
            show left U (obs.result ++ [f]) < k
            omega

theorem start_smartInv (W : World N F C O I) (ref : F → I → Option F) (hn : ∀ f, NoCur (W.read f))
    (n0 : N) (root : F) : SmartInv W ref root (start W n0 root) := by
  refine ⟨fun f hf => ?_, fun p hp => ?_⟩
  · simp [start] at hf; subst hf; exact .root
  · have := pend_append root (W.read root) [] (hn root)
    simp only [List.append_nil] at this
    simp only [start] at hp
    rw [this] at hp
    simp [pend] at hp
    obtain ⟨i, hi, rfl⟩ := hp
    exact ⟨.root, hi⟩

/-- **C37 (what it finds)** If `#include` lines name their file literally, the
preprocessor that ignores conditions terminates and finds exactly the files
reachable through `#include` lines, in whatever branch they are; circular includes
included. -/
theorem C37_exact (W : World N F C O I) (U : List F) (ref : F → I → Option F)
    (hn : ∀ f, NoCur (W.read f)) (hl : Literal W ref) (hU : FindsIn W U) (n0 : N) (root : F) :
    ∃ n1 d, (∀ n, n1 ≤ n → dumbRun W n (start W n0 root) = .done d) ∧
      ∀ f, f ∈ d.result ↔ Reach W ref root f := by
  obtain ⟨n1, d, hd⟩ := dumb_terminates W U hU (start W n0 root)
  refine ⟨n1, d, hd, fun f => ⟨dumb_sound_run hn hl root n1 _ (start_smartInv W ref hn n0 root) d
    (hd n1 (Nat.le_refl _)) f, fun hR => ?_⟩⟩
  have hi : DumbInv W ref (start W n0 root) := by
    intro f hf i hi g _
    simp [start] at hf
    subst hf
    right
    have := pend_append f (W.read f) [] (hn f)
    simp only [List.append_nil] at this
    simp only [start]
    rw [this]
    simp [hi]
  obtain ⟨hroot, hclosed⟩ := dumb_run hn hl n1 _ hi d (hd n1 (Nat.le_refl _))
  induction hR with
  | root => exact hroot (by simp [start])
  | inc _ hi' hg ih => exact hclosed _ ih _ hi' _ hg

/-- **C37** If `#include` lines name their file literally (`"..."` or `<...>`), the
preprocessor that ignores conditions terminates and finds every file the
evaluating preprocessor finds: for all files, any nesting, balanced or not, any
macros. Partial: `#include MACRO` is not covered;
`C37_counterexample_computed_include` shows that there it is false. -/
theorem C37_superset_partial (W : World N F C O I) (U : List F) (ref : F → I → Option F)
    (hn : ∀ f, NoCur (W.read f)) (hl : Literal W ref) (hU : FindsIn W U) (n0 : N) (root : F) :
    ∃ n1 d, (∀ n, n1 ≤ n → dumbRun W n (start W n0 root) = .done d) ∧
      ∀ n s, run W n (start W n0 root) = .done s → ∀ f ∈ s.result, f ∈ d.result := by
  obtain ⟨n1, d, hd, he⟩ := C37_exact W U ref hn hl hU n0 root
  exact ⟨n1, d, hd, fun n s hs f hf =>
    (he f).2 (smart_run hn hl root n _ (start_smartInv W ref hn n0 root) s hs f hf)⟩

end Verif.Cpp
