import Verif.Scan.Model
/-!
# C38: implicit dependencies are the transitive closure of the includes
-/
namespace Verif.Scan

variable {V S : Type} [DecidableEq V]

/-- The scanners' `recurse_nodes` filter their argument: `_recurse_all_nodes`,
`_recurse_no_nodes`, `only_dirs` (Scanner/Dir.py), `no_tlb` (Scanner/RC.py). -/
def Filters (E : Env V S) (go : S → V → Bool) : Prop :=
  ∀ sc l, E.recurse sc l = l.filter (go sc)

/-- All that is ever found in a node that has to be scanned is among `U`. -/
def FindsIn (E : Env V S) (U : List V) : Prop := ∀ n sc, ∀ x ∈ E.found n sc, x ∈ U

/-- Two scanners used in the scan agree on whether to go on with a node both find. -/
def Agree (E : Env V S) (scanner : V → Option S) (go : S → V → Bool) : Prop :=
  ∀ n n' sc sc' x, scanner n = some sc → scanner n' = some sc' → x ∈ E.found n sc →
    x ∈ E.found n' sc' → go sc x = go sc' x

/-- How many nodes can still be found. -/
def left (U seen : List V) : Nat := (U.filter (fun f => decide (f ∉ seen))).length

theorem left_append {U seen inc : List V} (h : ∀ x ∈ inc, x ∈ U ∧ x ∉ seen) (hne : inc ≠ []) :
    left U (seen ++ inc) < left U seen := by
  obtain ⟨y, hy⟩ := List.exists_mem_of_ne_nil inc hne
  have hyU := (h y hy).1
  have hys := (h y hy).2
  clear h hne
  unfold left
  have mono : ∀ U : List V, (U.filter (fun f => decide (f ∉ seen ++ inc))).length ≤
      (U.filter (fun f => decide (f ∉ seen))).length := by
    intro U
    induction U with
    | nil => simp
    | cons x U ih =>
      simp only [List.filter_cons]
      by_cases h1 : x ∈ seen
      · simpa [h1] using ih
      · by_cases h2 : x ∈ inc
        · simp [h1, h2]; simp at ih; omega
        · simpa [h1, h2] using ih
  induction U with
  | nil => cases hyU
  | cons x U ih =>
    simp only [List.filter_cons]
    by_cases hx : x = y
    · subst hx
      have := mono U
      simp [hys, hy]; simp at this; omega
    · have hyU' : y ∈ U := by
        cases hyU with
        | head => exact absurd rfl hx
        | tail _ h => exact h
      have := ih hyU'
      by_cases h1 : x ∈ seen <;> by_cases h2 : x ∈ inc <;> simp [h1, h2] <;> simp at this <;> omega

section
variable {E : Env V S} {scanner : V → Option S} {go : S → V → Bool}

theorem iter_cases (s : State V) (n : V) (rest : List V) (hq : s.nodes = n :: rest) :
    (iter E scanner s = { s with nodes := rest } ∧
      ∀ sc, scanner n = some sc → ∀ x ∈ E.found n sc, x ∈ s.seen) ∨
    ∃ sc inc, scanner n = some sc ∧ inc ≠ [] ∧
      inc = (E.found n sc).filter (fun x => decide (x ∉ s.seen)) ∧
      iter E scanner s = { nodes := rest ++ E.recurse sc inc, seen := s.seen ++ inc, deps := s.deps ++ inc } := by
  unfold iter
  rw [hq]
  simp only
  cases hs : scanner n with
  | none => left; exact ⟨rfl, fun sc h => by cases h⟩
  | some sc =>
    simp only
    by_cases he : ((E.found n sc).filter (fun x => decide (x ∉ s.seen))).isEmpty
    · left
      rw [if_pos he]
      refine ⟨rfl, fun sc' h x hx => ?_⟩
      cases h
      refine Classical.byContradiction fun hc => ?_
      have : x ∈ (E.found n sc).filter (fun x => decide (x ∉ s.seen)) := by simp [hx, hc]
      rw [List.isEmpty_iff.1 he] at this
      cases this
    · right
      rw [if_neg he]
      exact ⟨sc, _, rfl, fun h => he (by rw [h]; rfl), rfl, rfl⟩

/-- The invariant; `P` are the nodes already scanned. -/
structure Inv (E : Env V S) (scanner : V → Option S) (go : S → V → Bool) (start : V)
    (P : List V) (s : State V) : Prop where
  seen_eq : ∀ x, x ∈ s.seen ↔ x = start ∨ x ∈ s.deps
  notStart : start ∉ s.deps
  startIn : start ∈ P ∨ start ∈ s.nodes
  sound : ∀ x, x ∈ P ∨ x ∈ s.nodes → Scanned E scanner (fun sc x => go sc x = true) start x
  dep : ∀ x ∈ s.deps, ∃ n sc, n ∈ P ∧ scanner n = some sc ∧ x ∈ E.found n sc ∧
    (go sc x = true → x ∈ P ∨ x ∈ s.nodes)
  closed : ∀ n ∈ P, ∀ sc, scanner n = some sc → ∀ x ∈ E.found n sc, x ∈ s.seen

theorem inv_iter (hF : Filters E go) {start : V} {P : List V} {s : State V} {n : V} {rest : List V}
    (hq : s.nodes = n :: rest) (h : Inv E scanner go start P s) :
    Inv E scanner go start (n :: P) (iter E scanner s) := by
  have hn : Scanned E scanner (fun sc x => go sc x = true) start n := h.sound n (.inr (by simp [hq]))
  rcases iter_cases (E := E) (scanner := scanner) s n rest hq with ⟨e, hall⟩ | ⟨sc, inc, hs, hne, hinc, e⟩
  · rw [e]
    refine ⟨h.seen_eq, h.notStart, ?_, ?_, ?_, ?_⟩
    · rcases h.startIn with h' | h'
      · exact .inl (List.mem_cons_of_mem _ h')
      · rw [hq] at h'
        rcases List.mem_cons.1 h' with rfl | h'
        · exact .inl List.mem_cons_self
        · exact .inr h'
    · intro x hx
      apply h.sound
      rw [hq]
      rcases hx with hx | hx
      · rcases List.mem_cons.1 hx with rfl | hx
        · exact .inr List.mem_cons_self
        · exact .inl hx
      · exact .inr (List.mem_cons_of_mem _ hx)
    · intro x hx
      obtain ⟨m, sc, hm, hs, hf, hg⟩ := h.dep x hx
      refine ⟨m, sc, List.mem_cons_of_mem _ hm, hs, hf, fun hg' => ?_⟩
      rcases hg hg' with h' | h'
      · exact .inl (List.mem_cons_of_mem _ h')
      · rw [hq] at h'
        rcases List.mem_cons.1 h' with rfl | h'
        · exact .inl List.mem_cons_self
        · exact .inr h'
    · intro m hm sc hs x hx
      rcases List.mem_cons.1 hm with rfl | hm
      · exact hall sc hs x hx
      · exact h.closed m hm sc hs x hx
  · rw [e]
    have hmem : ∀ x, x ∈ inc ↔ x ∈ E.found n sc ∧ x ∉ s.seen := by
      intro x; rw [hinc]; simp
    refine ⟨?_, ?_, ?_, ?_, ?_, ?_⟩
    · intro x
      simp only [List.mem_append]
      rw [h.seen_eq, or_assoc]
    · simp only [List.mem_append, not_or]
      refine ⟨h.notStart, fun hi => ((hmem start).1 hi).2 ((h.seen_eq start).2 (.inl rfl))⟩
    · rcases h.startIn with h' | h'
      · exact .inl (List.mem_cons_of_mem _ h')
      · rw [hq] at h'
        rcases List.mem_cons.1 h' with rfl | h'
        · exact .inl List.mem_cons_self
        · exact .inr (List.mem_append_left _ h')
    · intro x hx
      rcases hx with hx | hx
      · rcases List.mem_cons.1 hx with rfl | hx
        · exact hn
        · exact h.sound x (.inl hx)
      · rcases List.mem_append.1 hx with hx | hx
        · exact h.sound x (.inr (by rw [hq]; exact List.mem_cons_of_mem _ hx))
        · rw [hF, List.mem_filter] at hx
          exact .step hn hs ((hmem x).1 hx.1).1 hx.2
    · intro x hx
      rcases List.mem_append.1 hx with hx | hx
      · obtain ⟨m, sc', hm, hs', hf, hg⟩ := h.dep x hx
        refine ⟨m, sc', List.mem_cons_of_mem _ hm, hs', hf, fun hg' => ?_⟩
        rcases hg hg' with h' | h'
        · exact .inl (List.mem_cons_of_mem _ h')
        · rw [hq] at h'
          rcases List.mem_cons.1 h' with rfl | h'
          · exact .inl List.mem_cons_self
          · exact .inr (List.mem_append_left _ h')
      · refine ⟨n, sc, List.mem_cons_self, hs, ((hmem x).1 hx).1, fun hg => .inr ?_⟩
        rw [hF]
        exact List.mem_append_right _ (List.mem_filter.2 ⟨hx, hg⟩)
    · intro m hm sc' hs' x hx
      rcases List.mem_cons.1 hm with rfl | hm
      · rw [hs] at hs'; cases hs'
        by_cases hxs : x ∈ s.seen
        · exact List.mem_append_left _ hxs
        · exact List.mem_append_right _ ((hmem x).2 ⟨hx, hxs⟩)
      · exact List.mem_append_left _ (h.closed m hm sc' hs' x hx)

/-- When nothing is left to scan, the dependencies are those of the specification. -/
theorem inv_end {start : V} {P : List V} {s : State V}
    (hA : Agree E scanner go) (h : Inv E scanner go start P s) (hq : s.nodes = []) (x : V) :
    x ∈ s.deps ↔ Dep E scanner (fun sc x => go sc x = true) start x := by
  constructor
  · intro hx
    obtain ⟨n, sc, hn, hs, hf, _⟩ := h.dep x hx
    exact ⟨fun e => h.notStart (e ▸ hx), n, sc, h.sound n (.inl hn), hs, hf⟩
  · rintro ⟨hne, n, sc, hn, hs, hf⟩
    have hP : n ∈ P := by
      clear hf hs hne
      induction hn with
      | start =>
        rcases h.startIn with h' | h'
        · exact h'
        · rw [hq] at h'; cases h'
      | @step m sc y _ hs hy hr ih =>
        rcases (h.seen_eq y).1 (h.closed m ih sc hs y hy) with rfl | hd
        · rcases h.startIn with h' | h'
          · exact h'
          · rw [hq] at h'; cases h'
        · obtain ⟨m', sc', _, hs', hf', hg'⟩ := h.dep y hd
          have := hA m m' sc sc' y hs hs' hy hf'
          rcases hg' (by rw [← this]; exact hr) with h' | h'
          · exact h'
          · rw [hq] at h'; cases h'
    rcases (h.seen_eq x).1 (h.closed n hP sc hs x hf) with e | hd
    · exact absurd e hne
    · exact hd

/-- Soundness needs no agreement. -/
theorem inv_sound {start : V} {P : List V} {s : State V} (h : Inv E scanner go start P s) (x : V)
    (hx : x ∈ s.deps) : Dep E scanner (fun sc x => go sc x = true) start x := by
  obtain ⟨n, sc, hn, hs, hf, _⟩ := h.dep x hx
  exact ⟨fun e => h.notStart (e ▸ hx), n, sc, h.sound n (.inl hn), hs, hf⟩

theorem loop_spec (hF : Filters E go) (U : List V) (hU : FindsIn E U) (start : V) :
    ∀ (P : List V) (s : State V), Inv E scanner go start P s →
    ∃ n0 s' P', Inv E scanner go start P' s' ∧ s'.nodes = [] ∧
      ∀ n, n0 ≤ n → loop E scanner n s = some s'.deps := by
  suffices ∀ k m P (s : State V), left U s.seen ≤ k → s.nodes.length ≤ m → Inv E scanner go start P s →
      ∃ n0 s' P', Inv E scanner go start P' s' ∧ s'.nodes = [] ∧
        ∀ n, n0 ≤ n → loop E scanner n s = some s'.deps from
    fun P s h => this _ _ P s (Nat.le_refl _) (Nat.le_refl _) h
  intro k
  induction k with
  | zero =>
    intro m
    induction m with
    | zero =>
      intro P s _ hm h
      have hq : s.nodes = [] := List.length_eq_zero_iff.1 (by omega)
      exact ⟨0, s, P, h, hq, fun n _ => by rw [loop.eq_def]; simp [hq]⟩
    | succ m ih =>
      intro P s hk hm h
      match hq : s.nodes with
      | [] => exact ⟨0, s, P, h, hq, fun n _ => by rw [loop.eq_def]; simp [hq]⟩
      | x :: rest =>
        have hi := inv_iter hF hq h
        rcases iter_cases (E := E) (scanner := scanner) s x rest hq with ⟨e, _⟩ | ⟨sc, inc, hs, hne, hinc, e⟩
        · rw [e] at hi
          obtain ⟨n0, s', P', h1, h2, h3⟩ := ih _ { s with nodes := rest } hk
            (by rw [hq] at hm; simp at hm; exact hm) hi
          refine ⟨n0 + 1, s', P', h1, h2, fun n hn => ?_⟩
          obtain ⟨n, rfl⟩ : ∃ k, n = k + 1 := ⟨n - 1, by omega⟩
          rw [loop.eq_def]
          simp only [hq, List.isEmpty_cons, Bool.false_eq_true, ↓reduceIte]
          rw [e]
          exact h3 n (by omega)
        · have := left_append (U := U) (seen := s.seen) (inc := inc) (fun y hy => by
            rw [hinc] at hy; simp at hy; exact ⟨hU _ _ _ hy.1, hy.2⟩) hne
          omega
  | succ k ihk =>
    intro m
    induction m with
    | zero =>
      intro P s _ hm h
      have hq : s.nodes = [] := List.length_eq_zero_iff.1 (by omega)
      exact ⟨0, s, P, h, hq, fun n _ => by rw [loop.eq_def]; simp [hq]⟩
    | succ m ih =>
      intro P s hk hm h
      match hq : s.nodes with
      | [] => exact ⟨0, s, P, h, hq, fun n _ => by rw [loop.eq_def]; simp [hq]⟩
      | x :: rest =>
        have hi := inv_iter hF hq h
        have fin : ∀ t, iter E scanner s = t → (∃ n0 s' P', Inv E scanner go start P' s' ∧ s'.nodes = [] ∧
            ∀ n, n0 ≤ n → loop E scanner n t = some s'.deps) →
            ∃ n0 s' P', Inv E scanner go start P' s' ∧ s'.nodes = [] ∧
            ∀ n, n0 ≤ n → loop E scanner n s = some s'.deps := by
          rintro t ht ⟨n0, s', P', h1, h2, h3⟩
          refine ⟨n0 + 1, s', P', h1, h2, fun n hn => ?_⟩
          obtain ⟨n, rfl⟩ : ∃ k, n = k + 1 := ⟨n - 1, by omega⟩
          rw [loop.eq_def]
          simp only [hq, List.isEmpty_cons, Bool.false_eq_true, ↓reduceIte]
          rw [ht]
          exact h3 n (by omega)
        rcases iter_cases (E := E) (scanner := scanner) s x rest hq with ⟨e, _⟩ | ⟨sc, inc, hs, hne, hinc, e⟩
        · rw [e] at hi
          exact fin _ e (ih _ { s with nodes := rest } hk
            (by rw [hq] at hm; simp at hm; exact hm) hi)
        · have := left_append (U := U) (seen := s.seen) (inc := inc) (fun y hy => by
            rw [hinc] at hy; simp at hy; exact ⟨hU _ _ _ hy.1, hy.2⟩) hne
          rw [e] at hi
          exact fin _ e (ihk _ _ _ (by show left U (s.seen ++ inc) ≤ k; omega) (Nat.le_refl _) hi)

end

theorem inv_start (E : Env V S) (scanner : V → Option S) (go : S → V → Bool) (start : V) :
    Inv E scanner go start [] { nodes := [start], seen := [start], deps := [] } where
  seen_eq := by simp
  notStart := by simp
  startIn := by simp
  sound := by
    intro x hx
    simp at hx
    subst hx
    exact .start
  dep := by simp
  closed := by simp

/-- **C38** The recursive scan terminates, also for circular includes, and returns
exactly the nodes found in nodes that have to be scanned, without the node it was
started for. (`U`: finitely many nodes can be found. Which of the nodes
found are scanned in turn is a matter of the scanner: `go`.)
Partial: two scanners that find the same node must agree on whether it is to be
scanned; `C38_counterexample_disagreement` shows that otherwise dependencies are
missed. -/
theorem C38_transitive_closure_partial (E : Env V S) (go : S → V → Bool) (hF : Filters E go) (U : List V)
    (hU : FindsIn E U) (init : Option S) (start : V) (hA : Agree E (scannerOf E init start) go) :
    ∃ n0 deps, (∀ n, n0 ≤ n → getImplicitDeps E init start n = some deps) ∧
      (∀ x, x ∈ deps ↔ Dep E (scannerOf E init start) (fun sc x => go sc x = true) start x) ∧
      start ∉ deps := by
  obtain ⟨n0, s', P', h1, h2, h3⟩ := loop_spec hF U hU start [] _ (inv_start E (scannerOf E init start) go start)
  exact ⟨n0, s'.deps, h3, inv_end hA h1 h2, h1.notStart⟩

/-- **C38 (soundness and termination, without conditions)** Whatever the scanners do,
the scan terminates and returns only real dependencies. -/
theorem C38_terminates_and_sound (E : Env V S) (go : S → V → Bool) (hF : Filters E go) (U : List V)
    (hU : FindsIn E U) (init : Option S) (start : V) :
    ∃ n0 deps, (∀ n, n0 ≤ n → getImplicitDeps E init start n = some deps) ∧
      (∀ x ∈ deps, Dep E (scannerOf E init start) (fun sc x => go sc x = true) start x) ∧
      start ∉ deps := by
  obtain ⟨n0, s', P', h1, h2, h3⟩ := loop_spec hF U hU start [] _ (inv_start E (scannerOf E init start) go start)
  exact ⟨n0, s'.deps, h3, inv_sound h1, h1.notStart⟩

/-! ### Each once -/

theorem iter_nodup (E : Env V S) (scanner : V → Option S) (hN : ∀ n sc, (E.found n sc).Nodup) (s : State V)
    (h : s.deps.Nodup) (hs : ∀ x ∈ s.deps, x ∈ s.seen) :
    (iter E scanner s).deps.Nodup ∧ ∀ x ∈ (iter E scanner s).deps, x ∈ (iter E scanner s).seen := by
  match hq : s.nodes with
  | [] => unfold iter; rw [hq]; exact ⟨h, hs⟩
  | n :: rest =>
    rcases iter_cases (E := E) (scanner := scanner) s n rest hq with ⟨e, _⟩ | ⟨sc, inc, _, hne, hinc, e⟩
    · rw [e]; exact ⟨h, hs⟩
    · rw [e]
      refine ⟨?_, ?_⟩
      · show (s.deps ++ inc).Nodup
        rw [List.nodup_append]
        refine ⟨h, ?_, ?_⟩
        · rw [hinc]; exact (hN n sc).filter _
        · intro a ha b hb e
          rw [hinc] at hb
          simp at hb
          exact hb.2 (e ▸ hs a ha)
      · intro x hx
        show x ∈ s.seen ++ inc
        rcases List.mem_append.1 hx with hx | hx
        · exact List.mem_append_left _ (hs x hx)
        · exact List.mem_append_right _ hx

/-- **C38 (each once)** If a scanner finds a node at most once in a file, the result has
no repetitions. -/
theorem C38_each_once (E : Env V S) (hN : ∀ n sc, (E.found n sc).Nodup) (init : Option S) (start : V)
    (n : Nat) (deps : List V) (h : getImplicitDeps E init start n = some deps) : deps.Nodup := by
  unfold getImplicitDeps at h
  have : ∀ n (s : State V), s.deps.Nodup → (∀ x ∈ s.deps, x ∈ s.seen) → ∀ d,
      loop E (scannerOf E init start) n s = some d → d.Nodup := by
    intro n
    induction n with
    | zero =>
      intro s h1 h2 d hd
      rw [loop.eq_def] at hd
      simp only at hd
      split at hd
      · cases hd; exact h1
      · cases hd
    | succ n ih =>
      intro s h1 h2 d hd
      rw [loop.eq_def] at hd
      simp only at hd
      split at hd
      · cases hd; exact h1
      · obtain ⟨a, b⟩ := iter_nodup E (scannerOf E init start) hN s h1 h2
        exact ih _ a b d hd
  exact this n _ (by simp) (by simp) deps h

/-! ### What a target gets -/

theorem addChild_mem (coll deps : List V) (x : V) : x ∈ addChild coll deps ↔ x ∈ coll ∨ x ∈ deps := by
  unfold addChild
  induction deps generalizing coll with
  | nil => simp
  | cons d ds ih =>
    simp only [List.foldl_cons]
    rw [ih]
    by_cases hd : d ∈ coll
    · simp only [hd, if_true, List.mem_cons]
      constructor
      · rintro (h | h)
        · exact .inl h
        · exact .inr (.inr h)
      · rintro (h | rfl | h)
        · exact .inl h
        · exact .inl hd
        · exact .inr h
    · simp [hd, or_assoc]

theorem addChild_nodup (coll deps : List V) (h : coll.Nodup) : (addChild coll deps).Nodup := by
  unfold addChild
  induction deps generalizing coll with
  | nil => exact h
  | cons d ds ih =>
    simp only [List.foldl_cons]
    apply ih
    by_cases hd : d ∈ coll
    · simpa [hd] using h
    · simp only [hd, if_false]
      rw [List.nodup_append]
      refine ⟨h, by simp, ?_⟩
      intro a ha b hb e
      simp at hb
      exact hd (by rw [← hb, ← e]; exact ha)

theorem addChild_prefix (coll deps : List V) : ∃ l, addChild coll deps = coll ++ l := by
  unfold addChild
  induction deps generalizing coll with
  | nil => exact ⟨[], by simp⟩
  | cons d ds ih =>
    simp only [List.foldl_cons]
    obtain ⟨l, hl⟩ := ih (if d ∈ coll then coll else coll ++ [d])
    rw [hl]
    by_cases hd : d ∈ coll
    · exact ⟨l, by simp [hd]⟩
    · exact ⟨d :: l, by simp [hd]⟩

/-- **C38 (what a target depends on)** Scanning the sources (or targets) `nodeList`
terminates, and afterwards a target's implicit dependencies are, each once: those
it had, those of every node in `nodeList`, and the programs its commands run.
This holds even if a scanner reports a node several times. Partial: as
`C38_transitive_closure_partial`. -/
theorem C38_target_dependencies_partial (E : Env V S) (go : S → V → Bool) (hF : Filters E go) (U : List V)
    (hU : FindsIn E U) (init : Option S) (nodeList own implicit : List V)
    (hA : ∀ v ∈ nodeList, Agree E (scannerOf E init v) go) (hI : implicit.Nodup) :
    ∃ n0 res, (∀ n, n0 ≤ n → execScan E init own implicit nodeList n = some res) ∧ res.Nodup ∧
      ∀ x, x ∈ res ↔ x ∈ implicit ∨ x ∈ own ∨
        ∃ v ∈ nodeList, Dep E (scannerOf E init v) (fun sc x => go sc x = true) v x := by
  have key : ∃ n0 ls, (∀ n, n0 ≤ n → nodeList.mapM (fun v => getImplicitDeps E init v n) = some ls) ∧
      ∀ x, x ∈ ls.flatten ↔ ∃ v ∈ nodeList, Dep E (scannerOf E init v) (fun sc x => go sc x = true) v x := by
    clear hI
    induction nodeList with
    | nil => exact ⟨0, [], fun n _ => rfl, by simp⟩
    | cons v vs ih =>
      obtain ⟨n1, ls, h1, h2⟩ := ih (fun w hw => hA w (List.mem_cons_of_mem _ hw))
      obtain ⟨n2, d, h3, h4, _⟩ := C38_transitive_closure_partial E go hF U hU init v (hA v List.mem_cons_self)
      refine ⟨n1 + n2, d :: ls, fun n hn => ?_, fun x => ?_⟩
      · simp only [List.mapM_cons]
        rw [h3 n (by omega), h1 n (by omega)]
        rfl
      · simp only [List.flatten_cons, List.mem_append, List.mem_cons, h4, h2]
        constructor
        · rintro (h | ⟨w, hw, h⟩)
          · exact ⟨v, .inl rfl, h⟩
          · exact ⟨w, .inr hw, h⟩
        · rintro ⟨w, rfl | hw, h⟩
          · exact .inl h
          · exact .inr ⟨w, hw, h⟩
  obtain ⟨n0, ls, h1, h2⟩ := key
  refine ⟨n0, addChild implicit (ls.flatten ++ own), fun n hn => ?_, addChild_nodup _ _ hI, fun x => ?_⟩
  · unfold execScan; rw [h1 n hn]
  · rw [addChild_mem, List.mem_append, h2]
    constructor
    · rintro (h | h | h)
      · exact .inl h
      · exact .inr (.inr h)
      · exact .inr (.inl h)
    · rintro (h | h | h)
      · exact .inl h
      · exact .inr (.inr h)
      · exact .inr (.inl h)

/-- **C38 (which scanner)** Specification of the choice: with a scanner given by the builder, the one it selects for the node; otherwise the one the construction
environment has for the node's suffix (`own`); a file without a scanner of its own is scanned like the file the scan started from. -/
theorem C38_which_scanner (E : Env V S) (init : Option S) (start n : V) (own : V → Option S)
    (hown : ∀ v, own v = match init with | some i => E.sel i v | none => (E.envSc v).bind fun s => E.sel s v) :
    scannerOf E init start n = (own n).or (own start) := by
  have h1 : ∀ root v, getScanner E init root v = (own v).or root := by
    intro root v
    rw [hown]
    unfold getScanner
    cases init with
    | some i => cases h : E.sel i v <;> simp [h]
    | none => cases he : E.envSc v with
      | none => simp
      | some s => cases h : E.sel s v <;> simp [h]
  unfold scannerOf
  rw [h1, h1]
  cases own start <;> simp

/-- **C38 (inherited scanner)** If the file `start` includes `n`, `n` is of a kind no scanner is registered for, and the scanner of `start` finds `x` in `n`, then `x` is
among the dependencies. -/
theorem C38_inherited_scanner_partial (E : Env V S) (go : S → V → Bool) (hF : Filters E go) (U : List V)
    (hU : FindsIn E U) (start n x : V) (sc : S) (hA : Agree E (scannerOf E none start) go)
    (hs : E.envSc start = some sc) (hsel : E.sel sc start = some sc) (hn : E.envSc n = none) (hin : n ∈ E.found start sc) (hgo : go sc n = true)
    (hx : x ∈ E.found n sc) (hxs : x ≠ start) :
    ∃ n0 deps, (∀ k, n0 ≤ k → getImplicitDeps E none start k = some deps) ∧ x ∈ deps := by
  obtain ⟨n0, deps, h1, h2, -⟩ := C38_transitive_closure_partial E go hF U hU none start hA
  have e1 : scannerOf E none start start = some sc := by
    rw [C38_which_scanner E none start start (fun v => (E.envSc v).bind fun s => E.sel s v) (fun _ => rfl)]; simp [hs, hsel]
  have e2 : scannerOf E none start n = some sc := by
    rw [C38_which_scanner E none start n (fun v => (E.envSc v).bind fun s => E.sel s v) (fun _ => rfl)]; simp [hs, hsel, hn]
  exact ⟨n0, deps, h1, (h2 x).2 ⟨hxs, n, sc, .step .start e1 hin hgo, e2, hx⟩⟩

end Verif.Scan
