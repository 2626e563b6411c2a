import Verif.Bld.PrePost
/-!
# C88: the actions around a target's own are run, in order, once
-/
namespace Verif.PrePost

variable {V A : Type} [DecidableEq V]

/-! ### Specification -/

/-- The statement names one of these nodes. -/
def Stmt.names : Stmt V A → List V
  | .call l _ _ => l
  | .pre l _ => l
  | .post l _ => l

/-- The pre-actions asked for, for one of the targets `ts`, in order: one for each
statement that names at least one of them. -/
def askedPre (ts : List V) : List (Stmt V A) → List A
  | [] => []
  | .pre l a :: p => (if ts.any (fun t => decide (t ∈ l)) then [a] else []) ++ askedPre ts p
  | _ :: p => askedPre ts p

def askedPost (ts : List V) : List (Stmt V A) → List A
  | [] => []
  | .post l a :: p => (if ts.any (fun t => decide (t ∈ l)) then [a] else []) ++ askedPost ts p
  | _ :: p => askedPost ts p

/-- Later calls for these targets only add sources: they are calls of a builder that allows
several calls, for the same list of targets; other calls have other targets. -/
def KeepsExecutor (ts : List V) : List (Stmt V A) → Prop
  | [] => True
  | .call l _ multi :: p => (multi = true ∧ l = ts ∨ ∀ t ∈ ts, t ∉ l) ∧ KeepsExecutor ts p
  | _ :: p => KeepsExecutor ts p

/-! ### Executors are found and kept -/

/-- Executors that exist have numbers below `next`. -/
def Fresh (S : St V A) : Prop := ∀ v i, S.exec v = some i → i < S.next

theorem getExec_spec (S : St V A) (v : V) :
    (S.getExec v).1.exec v = some (S.getExec v).2 ∧
    (∀ x i, S.exec x = some i → (S.getExec v).1.exec x = some i) ∧
    (∀ i, i < S.next → (S.getExec v).1.obj i = S.obj i) ∧ S.next ≤ (S.getExec v).1.next ∧
    (∀ x, x ≠ v → (S.getExec v).1.exec x = S.exec x) ∧
    (S.exec v = none → (S.getExec v).2 = S.next) ∧
    (∀ i, S.exec v = some i → (S.getExec v).2 = i) ∧
    (Fresh S → Fresh (S.getExec v).1) := by
  unfold St.getExec
  cases h : S.exec v with
  | some i =>
    refine ⟨h, fun x j hj => hj, fun _ _ => rfl, Nat.le_refl _, fun _ _ => rfl, fun h' => (by cases h'), fun j hj => (by cases hj; rfl), id⟩
  | none =>
    refine ⟨by simp, ?_, ?_, by simp, ?_, by simp, by simp, ?_⟩
    · intro x j hj
      dsimp only
      split
      · rename_i hx; rw [hx, h] at hj; cases hj
      · exact hj
    · intro i hi
      dsimp only
      rw [if_neg (by omega)]
    · intro x hx; simp [hx]
    · intro hf x i hi
      dsimp only at hi ⊢
      split at hi
      · cases hi; omega
      · have := hf x i hi; omega

theorem getExecs_spec (S : St V A) (vs : List V) (hf : Fresh S) :
    (∀ x i, S.exec x = some i → (S.getExecs vs).1.exec x = some i) ∧
    (∀ i, i < S.next → (S.getExecs vs).1.obj i = S.obj i) ∧ S.next ≤ (S.getExecs vs).1.next ∧
    Fresh (S.getExecs vs).1 ∧
    (∀ i, i < S.next → (i ∈ (S.getExecs vs).2 ↔ ∃ v ∈ vs, S.exec v = some i)) := by
  induction vs generalizing S with
  | nil => exact ⟨fun _ _ h => h, fun _ _ => rfl, Nat.le_refl _, hf, fun i _ => by simp [St.getExecs]⟩
  | cons v vs ih =>
    obtain ⟨g1, g2, g3, g4, g5, g6, g7, g8⟩ := getExec_spec S v
    obtain ⟨h1, h2, h3, h4, h5⟩ := ih (S.getExec v).1 (g8 hf)
    simp only [St.getExecs]
    refine ⟨fun x i hx => h1 x i (g2 x i hx), fun i hi => ?_, Nat.le_trans g4 h3, h4, fun i hi => ?_⟩
    · rw [h2 i (by omega), g3 i hi]
    · rw [List.mem_cons, h5 i (by omega)]
      constructor
      · rintro (rfl | ⟨w, hw, e⟩)
        · cases hv : S.exec v with
          | none => have := g6 hv; omega
          | some j => exact ⟨v, by simp, by rw [g7 j hv]; exact hv⟩
        · by_cases hwv : w = v
          · subst hwv
            cases hv : S.exec w with
            | none => rw [g1, g6 hv] at e; cases e; omega
            | some j =>
              rw [g2 w j hv] at e
              cases e
              exact ⟨w, by simp, hv⟩
          · rw [g5 w hwv] at e
            exact ⟨w, by simp [hw], e⟩
      · rintro ⟨w, hw, e⟩
        rcases List.mem_cons.1 hw with rfl | hw
        · exact Or.inl (g7 i e).symm
        · exact Or.inr ⟨w, hw, g2 w i e⟩

theorem uniq_spec (l : List Nat) : (∀ i, i ∈ uniq l ↔ i ∈ l) ∧ (uniq l).Nodup := by
  suffices ∀ acc : List Nat, acc.Nodup →
      (∀ i, i ∈ l.foldl (fun acc i => if i ∈ acc then acc else acc ++ [i]) acc ↔ i ∈ acc ∨ i ∈ l) ∧
      (l.foldl (fun acc i => if i ∈ acc then acc else acc ++ [i]) acc).Nodup by
    have := this [] (by simp)
    simpa [uniq] using this
  induction l with
  | nil => intro acc h; simpa using h
  | cons a l ih =>
    intro acc h
    rw [List.foldl_cons]
    by_cases ha : a ∈ acc
    · rw [if_pos ha]
      obtain ⟨h1, h2⟩ := ih acc h
      refine ⟨fun i => ?_, h2⟩
      rw [h1, List.mem_cons]
      constructor
      · rintro (h | h)
        · exact Or.inl h
        · exact Or.inr (Or.inr h)
      · rintro (h | rfl | h)
        · exact Or.inl h
        · exact Or.inl ha
        · exact Or.inr h
    · rw [if_neg ha]
      obtain ⟨h1, h2⟩ := ih (acc ++ [a]) (by
        rw [List.nodup_append]
        exact ⟨h, by simp, by intro x hx y hy; simp at hy; subst hy; rintro rfl; exact ha hx⟩)
      refine ⟨fun i => ?_, h2⟩
      rw [h1]
      simp [or_assoc]

theorem foldl_upd (f : Exec A → Exec A) (l : List Nat) (S : St V A) :
    let S' := l.foldl (fun S i => S.upd f i) S
    S'.exec = S.exec ∧ S'.next = S.next ∧ S'.built = S.built ∧
    (∀ i, i ∉ l → S'.obj i = S.obj i) ∧ (l.Nodup → ∀ i ∈ l, S'.obj i = f (S.obj i)) := by
  induction l generalizing S with
  | nil => exact ⟨rfl, rfl, rfl, fun _ _ => rfl, fun _ i hi => by cases hi⟩
  | cons a l ih =>
    obtain ⟨h1, h2, h3, h4, h5⟩ := ih (S.upd f a)
    rw [List.foldl_cons]
    refine ⟨h1, h2, h3, fun i hi => ?_, fun hn i hi => ?_⟩
    · rw [List.mem_cons, not_or] at hi
      rw [h4 i hi.2]
      simp [St.upd, hi.1]
    · rw [List.nodup_cons] at hn
      rcases List.mem_cons.1 hi with e | hi'
      · subst e; rw [h4 i hn.1]; simp [St.upd]
      · rw [h5 hn.2 i hi']
        have : i ≠ a := by intro e; subst e; exact hn.1 hi'
        simp [St.upd, this]

/-- The state of the executor `i` of the targets `ts`. -/
structure Has (S : St V A) (ts : List V) (i : Nat) (pre : List A) (a : A) (post : List A) : Prop where
  fresh : Fresh S
  lt : i < S.next
  own : ∀ v, S.exec v = some i ↔ v ∈ ts
  obj : S.obj i = ⟨false, pre, [a], post⟩

theorem step_fresh (S : St V A) (h : Fresh S) (s : Stmt V A) : Fresh (S.step s) := by
  cases s with
  | call l a multi =>
    simp only [St.step]
    split
    · rename_i i hi
      intro v j hj
      dsimp only at hj ⊢
      split at hj
      · cases hj
        cases multi with
        | false => cases hi
        | true =>
          simp only [if_true] at hi
          cases hl : l.head? with
          | none => rw [hl] at hi; cases hi
          | some w => rw [hl] at hi; exact h w _ hi
      · exact h v j hj
    · intro v j hj
      dsimp only at hj ⊢
      split at hj
      · cases hj; omega
      · have := h v j hj; omega
  | pre l a =>
    obtain ⟨_, _, _, h4, _⟩ := getExecs_spec S l h
    obtain ⟨g1, g2, _⟩ := foldl_upd (·.addPre a) (uniq (S.getExecs l).2) (S.getExecs l).1
    simp only [St.step]
    intro v j hj
    rw [g1] at hj; rw [g2]
    exact h4 v j hj
  | post l a =>
    obtain ⟨_, _, _, h4, _⟩ := getExecs_spec S l h
    obtain ⟨g1, g2, _⟩ := foldl_upd (·.addPost a) (uniq (S.getExecs l).2) (S.getExecs l).1
    simp only [St.step]
    intro v j hj
    rw [g1] at hj; rw [g2]
    exact h4 v j hj

theorem getExecs_own (S : St V A) (l : List V) (hf : Fresh S) (i : Nat) (hi : i < S.next) (ts : List V)
    (own : ∀ v, S.exec v = some i ↔ v ∈ ts) (v : V) : (S.getExecs l).1.exec v = some i ↔ v ∈ ts := by
  induction l generalizing S with
  | nil => exact own v
  | cons w l ih =>
    obtain ⟨g1, g2, g3, g4, g5, g6, g7, g8⟩ := getExec_spec S w
    simp only [St.getExecs]
    refine ih _ (g8 hf) (by omega) fun x => ?_
    by_cases hx : x = w
    · subst hx
      cases hs : S.exec x with
      | none =>
        rw [g1, g6 hs]
        constructor
        · intro e; cases e; omega
        · intro hm; rw [(own x).2 hm] at hs; cases hs
      | some j => rw [g1, g7 j hs, ← hs]; exact own x
    · rw [g5 x hx]; exact own x

theorem any_iff (ts l : List V) (S : St V A) (i : Nat) (own : ∀ v, S.exec v = some i ↔ v ∈ ts) :
    (ts.any (fun t => decide (t ∈ l)) = true) ↔ ∃ v ∈ l, S.exec v = some i := by
  simp only [List.any_eq_true, decide_eq_true_eq]
  constructor
  · rintro ⟨t, ht, hl⟩; exact ⟨t, hl, (own t).2 ht⟩
  · rintro ⟨t, hl, ht⟩; exact ⟨t, (own t).1 ht, hl⟩

theorem Has.step {S : St V A} {ts : List V} {i : Nat} {pre : List A} {a : A} {post : List A} (h : Has S ts i pre a post)
    (hne : ts ≠ []) (s : Stmt V A) (hk : KeepsExecutor ts [s]) :
    Has (S.step s) ts i (pre ++ askedPre ts [s]) a (post ++ askedPost ts [s]) := by
  cases s with
  | call l b multi =>
    have hk := hk.1
    simp only [askedPre, askedPost, List.append_nil]
    simp only [St.step]
    rcases hk with ⟨rfl, rfl⟩ | hdis
    · obtain ⟨t, ts', rfl⟩ : ∃ t ts', l = t :: ts' := by cases l with | nil => exact absurd rfl hne | cons t ts' => exact ⟨t, ts', rfl⟩
      have ht : S.exec t = some i := (h.own t).2 (by simp)
      simp only [if_true, List.head?_cons, Option.bind_some, ht]
      refine ⟨?_, h.lt, ?_, h.obj⟩
      · have := step_fresh S h.fresh (.call (t :: ts') b true)
        simpa [St.step, ht] using this
      · intro v
        dsimp only
        by_cases hv : v ∈ t :: ts'
        · rw [if_pos hv]; simp [hv]
        · rw [if_neg hv]; exact h.own v
    · have hfr := step_fresh S h.fresh (.call l b multi)
      simp only [St.step] at hfr
      split
      · rename_i j hj
        rw [hj] at hfr
        refine ⟨hfr, h.lt, fun v => ?_, h.obj⟩
        dsimp only
        have hji : j ≠ i := by
          rintro rfl
          cases multi with
          | false => cases hj
          | true =>
            simp only [if_true] at hj
            cases hl : l.head? with
            | none => rw [hl] at hj; cases hj
            | some w =>
              rw [hl] at hj
              exact hdis w ((h.own w).1 hj) (List.mem_of_head? hl)
        by_cases hv : v ∈ l
        · rw [if_pos hv]
          constructor
          · intro e; cases e; exact absurd rfl hji
          · intro hm; exact absurd hv (hdis v hm)
        · rw [if_neg hv]; exact h.own v
      · rename_i hj
        rw [hj] at hfr
        refine ⟨hfr, by have := h.lt; dsimp only; omega, fun v => ?_, ?_⟩
        · dsimp only
          by_cases hv : v ∈ l
          · rw [if_pos hv]
            constructor
            · intro e; cases e; exact absurd h.lt (by omega)
            · intro hm; exact absurd hv (hdis v hm)
          · rw [if_neg hv]; exact h.own v
        · have := h.lt
          dsimp only
          rw [if_neg (by omega)]
          exact h.obj
  | pre l b =>
    obtain ⟨g1, g2, g3, g4, g5⟩ := getExecs_spec S l h.fresh
    obtain ⟨u1, u2, _, u4, u5⟩ := foldl_upd (·.addPre b) (uniq (S.getExecs l).2) (S.getExecs l).1
    obtain ⟨q1, q2⟩ := uniq_spec (S.getExecs l).2
    refine ⟨step_fresh S h.fresh _, ?_, fun v => ?_, ?_⟩
    · simp only [St.step]; rw [u2]; have := h.lt; omega
    · simp only [St.step]; rw [u1]; exact getExecs_own S l h.fresh i h.lt ts h.own v
    · simp only [St.step, askedPre, askedPost, List.append_nil]
      have hm : i ∈ uniq (S.getExecs l).2 ↔ (ts.any (fun t => decide (t ∈ l)) = true) := by
        rw [q1, g5 i h.lt, any_iff ts l S i h.own]
      by_cases hin : i ∈ uniq (S.getExecs l).2
      · rw [u5 q2 i hin, g2 i h.lt, h.obj, if_pos (hm.1 hin)]
        simp [Exec.addPre, Exec.morph]
      · rw [u4 i hin, g2 i h.lt, h.obj, if_neg fun hc => hin (hm.2 hc)]
        simp
  | post l b =>
    obtain ⟨g1, g2, g3, g4, g5⟩ := getExecs_spec S l h.fresh
    obtain ⟨u1, u2, _, u4, u5⟩ := foldl_upd (·.addPost b) (uniq (S.getExecs l).2) (S.getExecs l).1
    obtain ⟨q1, q2⟩ := uniq_spec (S.getExecs l).2
    refine ⟨step_fresh S h.fresh _, ?_, fun v => ?_, ?_⟩
    · simp only [St.step]; rw [u2]; have := h.lt; omega
    · simp only [St.step]; rw [u1]; exact getExecs_own S l h.fresh i h.lt ts h.own v
    · simp only [St.step, askedPre, askedPost, List.append_nil]
      have hm : i ∈ uniq (S.getExecs l).2 ↔ (ts.any (fun t => decide (t ∈ l)) = true) := by
        rw [q1, g5 i h.lt, any_iff ts l S i h.own]
      by_cases hin : i ∈ uniq (S.getExecs l).2
      · rw [u5 q2 i hin, g2 i h.lt, h.obj, if_pos (hm.1 hin)]
        simp [Exec.addPost, Exec.morph]
      · rw [u4 i hin, g2 i h.lt, h.obj, if_neg fun hc => hin (hm.2 hc)]
        simp

theorem asked_cons (ts : List V) (s : Stmt V A) (p : List (Stmt V A)) :
    askedPre ts (s :: p) = askedPre ts [s] ++ askedPre ts p ∧ askedPost ts (s :: p) = askedPost ts [s] ++ askedPost ts p := by
  cases s <;> simp [askedPre, askedPost]

theorem keeps_cons (ts : List V) (s : Stmt V A) (p : List (Stmt V A)) (h : KeepsExecutor ts (s :: p)) :
    KeepsExecutor ts [s] ∧ KeepsExecutor ts p := by
  cases s with
  | call l a m => exact ⟨⟨h.1, trivial⟩, h.2⟩
  | pre l a => exact ⟨trivial, h⟩
  | post l a => exact ⟨trivial, h⟩

theorem Has.run {ts : List V} {i : Nat} {a : A} (hne : ts ≠ []) (p : List (Stmt V A)) :
    ∀ {S : St V A} {pre post : List A}, Has S ts i pre a post → KeepsExecutor ts p →
      Has (S.run p) ts i (pre ++ askedPre ts p) a (post ++ askedPost ts p) := by
  induction p with
  | nil => intro S pre post h _; simpa [askedPre, askedPost, St.run] using h
  | cons s p ih =>
    intro S pre post h hk
    obtain ⟨k1, k2⟩ := keeps_cons ts s p hk
    have := ih (h.step hne s k1) k2
    rw [(asked_cons ts s p).1, (asked_cons ts s p).2, ← List.append_assoc, ← List.append_assoc]
    exact this

theorem run_fresh (p : List (Stmt V A)) : ∀ S : St V A, Fresh S → Fresh (S.run p) := by
  induction p with
  | nil => intro S h; exact h
  | cons s p ih => intro S h; exact ih _ (step_fresh S h s)

theorem getExecs_other (v : V) (l : List V) : ∀ S : St V A, v ∉ l → (S.getExecs l).1.exec v = S.exec v := by
  induction l with
  | nil => intro S _; rfl
  | cons w l ih =>
    intro S hv
    rw [List.mem_cons, not_or] at hv
    obtain ⟨g1, g2, g3, g4, g5, g6, g7, g8⟩ := getExec_spec S w
    simp only [St.getExecs]
    rw [ih _ hv.2, g5 v hv.1]

/-- A node that no statement names has no executor. -/
theorem unnamed (v : V) (p : List (Stmt V A)) : ∀ S : St V A, S.exec v = none → (∀ s ∈ p, v ∉ s.names) →
    (S.run p).exec v = none := by
  induction p with
  | nil => intro S h _; exact h
  | cons s p ih =>
    intro S h hp
    have hs : v ∉ s.names := hp s (by simp)
    refine ih (S.step s) ?_ fun s' hs' => hp s' (by simp [hs'])
    cases s with
    | call l b m =>
      have hs : v ∉ l := hs
      simp only [St.step]
      split
      · simp [hs, h]
      · simp [hs, h]
    | pre l b =>
      obtain ⟨g1, _⟩ := foldl_upd (·.addPre b) (uniq (S.getExecs l).2) (S.getExecs l).1
      simp only [St.step]
      rw [g1, getExecs_other v l S hs, h]
    | post l b =>
      obtain ⟨g1, _⟩ := foldl_upd (·.addPost b) (uniq (S.getExecs l).2) (S.getExecs l).1
      simp only [St.step]
      rw [g1, getExecs_other v l S hs, h]

/-- **C88** After the builder call for the targets `ts` (whatever was said before) and any
statements that do not give them another executor: building any of them runs the
pre-actions asked for since, in order, then the action of the builder, then the
post-actions asked for since, in order; each once for each statement that names one or
more of the targets. (If the builder allows several calls, this is the first one and
nothing named the targets before.) (Missing: statements before the builder call, and a second call of
an ordinary builder for the same targets; see the counterexamples.) -/
theorem C88_before_and_after_partial (p q : List (Stmt V A)) (ts : List V) (a : A) (multi : Bool)
    (hnew : multi = true → ∀ t ∈ ts, ∀ s ∈ p, t ∉ s.names)
    (hq : KeepsExecutor ts q) (t : V) (ht : t ∈ ts) :
    (St.init.run (p ++ .call ts a multi :: q)).actions t = askedPre ts q ++ [a] ++ askedPost ts q := by
  have hrun : (St.init.run (p ++ .call ts a multi :: q) : St V A) = ((St.init.run p).step (.call ts a multi)).run q := by
    simp [St.run]
  have hf : Fresh (St.init.run p : St V A) := run_fresh p _ fun v i h => by cases h
  have hnew : multi = true → ∀ t, ts.head? = some t → (St.init.run p : St V A).exec t = none :=
    fun hm w hw => unnamed w p _ rfl (hnew hm w (List.mem_of_head? hw))
  generalize (St.init.run p : St V A) = S at hrun hf hnew
  have hne : ts ≠ [] := List.ne_nil_of_mem ht
  have hhas : Has (S.step (.call ts a multi)) ts S.next [] a [] := by
    have hfr := step_fresh S hf (.call ts a multi)
    have hnone : (if multi then ts.head?.bind S.exec else none) = none := by
      cases multi with
      | false => rfl
      | true =>
        cases hh : ts.head? with
        | none => rfl
        | some w => simp [hnew rfl w hh]
    simp only [St.step, hnone] at hfr ⊢
    refine ⟨hfr, by simp, fun v => ?_, by simp⟩
    dsimp only
    by_cases hv : v ∈ ts
    · rw [if_pos hv]; simp [hv]
    · rw [if_neg hv]
      constructor
      · intro e; have := hf v _ e; omega
      · intro hm; exact absurd hm hv
  have hfin := hhas.run hne q hq
  rw [hrun]
  unfold St.actions
  rw [(hfin.own t).2 ht]
  simp [hfin.obj]

end Verif.PrePost
