import Verif.Pool.Model

namespace Verif.Pool

variable {T K : Type}

/-- inside the critical section -/
def PC.holds : PC K → Prop
  | .check _ | .retire _ | .search | .release _ => True
  | _ => False

/-- talking to the taskmaster -/
def PC.searching : PC K → Prop
  | .retire _ | .search => True
  | _ => False

/-- on its way to the search without having to finish an execution first -/
def PC.coming : PC K → Prop
  | .top _ | .woken | .check _ => True
  | _ => False

/-- executing a task (from being given it to having delivered the result) -/
def PC.busy : PC K → Prop
  | .release (some _) | .exec _ | .enqueue _ _ => True
  | _ => False

/-- unretired tasks a worker carries -/
def PC.tasks : PC K → Multiset K
  | .retire rs => (rs : Multiset (K × Bool)).map Prod.fst
  | .release (some k) => {k}
  | .exec k => {k}
  | .enqueue k _ => {k}
  | _ => 0

/-- unretired execution results a worker carries -/
def PC.outcomes : PC K → Multiset (K × Bool)
  | .retire rs => rs
  | .enqueue k ok => {(k, ok)}
  | _ => 0

theorem get_set {α : Type} {l : List α} {i : Nat} {x : α} (h : l[i]? = some x) (y : α) (j : Nat) :
    (l.set i y)[j]? = if j = i then some y else l[j]? := by
  have hi : i < l.length := by
    rcases List.getElem?_eq_some_iff.1 h with ⟨h1, _⟩; exact h1
  rw [List.getElem?_set]
  by_cases hji : j = i
  · subst hji; simp [hi]
  · simp [hji, Ne.symm hji]

/-- replacing one worker's pc changes a sum over workers by the difference -/
theorem sum_set {α M : Type} [AddCommMonoid M] (f : α → M) : ∀ {l : List α} {i : Nat} {x : α}, l[i]? = some x → ∀ y,
    ((l.set i y).map f).sum + f x = (l.map f).sum + f y
  | [], i, x, h, y => by simp at h
  | a :: l, 0, x, h, y => by
    simp only [List.getElem?_cons_zero, Option.some.injEq] at h; subst h
    simp only [List.set_cons_zero, List.map_cons, List.sum_cons]; abel
  | a :: l, i + 1, x, h, y => by
    simp only [List.getElem?_cons_succ] at h
    have ih := sum_set f h y
    simp only [List.set_cons_succ, List.map_cons, List.sum_cons, add_assoc, ih]

/-- `b` is `a` with some waiting workers woken, and possibly new workers. -/
structure Soft (a b : List (PC K)) : Prop where
  len : a.length ≤ b.length
  get : ∀ (j : Nat) p, b[j]? = some p → a[j]? = some p ∨ (a[j]? = some .waiting ∧ p = .woken) ∨ (a[j]? = none ∧ p = .top false)
  keep : ∀ (j : Nat) p, a[j]? = some p → p ≠ .waiting → b[j]? = some p
  tasks : (b.map PC.tasks).sum = (a.map PC.tasks).sum
  outcomes : (b.map PC.outcomes).sum = (a.map PC.outcomes).sum

theorem Soft.refl (a : List (PC K)) : Soft a a := ⟨le_refl _, fun _ _ h => Or.inl h, fun _ _ h _ => h, rfl, rfl⟩

theorem Soft.trans {a b c : List (PC K)} (h : Soft a b) (h' : Soft b c) : Soft a c where
  len := le_trans h.len h'.len
  get := by
    intro j p hp
    have hlen : b[j]? = none → a[j]? = none := by
      rw [List.getElem?_eq_none_iff, List.getElem?_eq_none_iff]; exact fun h1 => le_trans h.len h1
    rcases h'.get j p hp with h1 | ⟨h1, h2⟩ | ⟨h1, h2⟩
    · exact h.get j p h1
    · rcases h.get j _ h1 with h3 | ⟨h3, h4⟩ | ⟨h3, h4⟩
      · exact Or.inr (Or.inl ⟨h3, h2⟩)
      · cases h4
      · cases h4
    · exact Or.inr (Or.inr ⟨hlen h1, h2⟩)
  keep := fun j p h1 h2 => h'.keep j p (h.keep j p h1 h2) h2
  tasks := h'.tasks.trans h.tasks
  outcomes := h'.outcomes.trans h.outcomes

theorem Soft.set {a : List (PC K)} {j : Nat} (h : a[j]? = some .waiting) : Soft a (a.set j .woken) where
  len := by simp
  get := by
    intro i p hp
    rw [get_set h] at hp
    split at hp
    · rename_i e; subst e; exact Or.inr (Or.inl ⟨h, by simpa using hp.symm⟩)
    · exact Or.inl hp
  keep := by
    intro i p hp hne
    rw [get_set h]
    split
    · rename_i e; subst e; rw [h] at hp; exact absurd (Option.some.inj hp).symm hne
    · exact hp
  tasks := by have := sum_set PC.tasks h .woken; simpa [PC.tasks] using this
  outcomes := by have := sum_set PC.outcomes h .woken; simpa [PC.outcomes] using this

theorem Notified.soft {a b : List (PC K)} (h : Notified a b) : Soft a b := by
  rcases h with ⟨j, h1, rfl⟩ | ⟨_, rfl⟩
  · exact Soft.set h1
  · exact Soft.refl _

theorem maybeStart_soft (max : Nat) (jobs : Int) (a : List (PC K)) : Soft a (maybeStart max jobs a) := by
  unfold maybeStart
  split
  · refine ⟨by simp, ?_, ?_, by simp [PC.tasks], by simp [PC.outcomes]⟩
    · intro j p hp
      rw [List.getElem?_append] at hp
      split at hp
      · exact Or.inl hp
      · rename_i hj
        refine Or.inr (Or.inr ⟨by rw [List.getElem?_eq_none_iff]; omega, ?_⟩)
        rcases Nat.lt_or_ge (j - a.length) 1 with h1 | h1
        · have : j - a.length = 0 := by omega
          rw [this] at hp; simpa using hp.symm
        · rw [List.getElem?_eq_none (by simpa using h1)] at hp; cases hp
    · intro j p hp _
      rw [List.getElem?_append_left (List.getElem?_eq_some_iff.1 hp).1]; exact hp
  · exact Soft.refl _

theorem wakeAll_get (a : List (PC K)) (j : Nat) :
    (wakeAll a)[j]? = a[j]?.map PC.wake := by
  simp [wakeAll]

theorem wakeAll_no_waiting (a : List (PC K)) (j : Nat) : (wakeAll a)[j]? ≠ some .waiting := by
  rw [wakeAll_get]
  cases a[j]? with
  | none => simp
  | some p => cases p <;> simp [PC.wake]

theorem wakeAll_soft (a : List (PC K)) : Soft a (wakeAll a) where
  len := by simp [wakeAll]
  get := by
    intro j p hp
    rw [wakeAll_get] at hp
    cases h : a[j]? with
    | none => rw [h] at hp; simp at hp
    | some q => rw [h] at hp; cases q <;> simp_all [PC.wake]
  keep := by
    intro j p hp hne
    rw [wakeAll_get, hp]
    cases p <;> simp_all [PC.wake]
  tasks := by
    simp only [wakeAll, List.map_map]
    congr 1
    apply List.map_congr_left
    intro p _
    cases p <;> rfl
  outcomes := by
    simp only [wakeAll, List.map_map]
    congr 1
    apply List.map_congr_left
    intro p _
    cases p <;> rfl

/-- Accounting: every task given is in exactly one place. -/
structure Acc (s : Pool T K) : Prop where
  given : s.given = s.retired.map Prod.fst + (s.results : Multiset (K × Bool)).map Prod.fst + (s.pcs.map PC.tasks).sum
  execd : s.execd = s.retired + (s.results : Multiset (K × Bool)) + (s.pcs.map PC.outcomes).sum
  jobs : s.jobs + (Multiset.card s.retired : Int) = (Multiset.card s.given : Int)

/-- Control. -/
structure Ctl (s : Pool T K) : Prop where
  own : ∀ (i : Nat) p, s.pcs[i]? = some p → p.holds → s.lock = some i
  held : ∀ i, s.lock = some i → ∃ p, s.pcs[i]? = some p ∧ p.holds
  srch : ∀ (i : Nat) p, s.pcs[i]? = some p → p.searching → s.st = .searching
  srch' : s.st = .searching → ∃ (i : Nat) (p : PC K), s.pcs[i]? = some p ∧ p.searching
  len : 1 ≤ s.max → s.pcs.length ≤ s.max
  res : s.results ≠ [] → ∃ i : Nat, s.pcs[i]? = some (.top true) ∨ s.pcs[i]? = some (.check true)
  compl : s.st = .completed → s.jobs = 0 ∧ ∀ i : Nat, s.pcs[i]? ≠ some .waiting
  halt : ∀ i : Nat, s.pcs[i]? = some .halted → s.st = .completed
  stall : s.st = .stalled → s.jobs ≠ 0
  ready : s.st = .ready → (∃ (i : Nat) (p : PC K), s.pcs[i]? = some p ∧ p.coming) ∨
    ((∀ (i : Nat) p, s.pcs[i]? = some p → p.busy) ∧ (1 ≤ s.max → s.pcs.length = s.max))

/-- The invariant. -/
structure Inv (s : Pool T K) : Prop extends Acc s, Ctl s

theorem Acc.load {s : Pool T K} (h : Acc s) : s.jobs = s.results.length + (Multiset.card (s.pcs.map PC.tasks).sum : Int) := by
  have h1 := h.jobs
  rw [h.given] at h1
  simp only [Multiset.card_add, Multiset.card_map, Multiset.coe_card, Nat.cast_add] at h1
  omega

theorem Acc.idle {s : Pool T K} (h : Acc s) (hj : s.jobs = 0) : s.results = [] ∧ (s.pcs.map PC.tasks).sum = 0 := by
  have h1 := h.load
  rw [hj] at h1
  have h2 : s.results.length = 0 := by omega
  have h3 : Multiset.card (s.pcs.map PC.tasks).sum = 0 := by omega
  exact ⟨List.eq_nil_of_length_eq_zero h2, Multiset.card_eq_zero.1 h3⟩

theorem Inv.init (tm : T) (max : Nat) : Inv (Pool.init (K := K) tm max) := by
  have hg : ∀ (i : Nat) (p : PC K), (Pool.init (K := K) tm max).pcs[i]? = some p → i = 0 ∧ p = .top false := by
    intro i p h
    cases i with
    | zero => exact ⟨rfl, by simpa [Pool.init] using h.symm⟩
    | succ i => simp [Pool.init] at h
  refine ⟨⟨?_, ?_, ?_⟩, ⟨?_, ?_, ?_, ?_, ?_, ?_, ?_, ?_, ?_, ?_⟩⟩
  · simp [Pool.init, PC.tasks]
  · simp [Pool.init, PC.outcomes]
  · simp [Pool.init]
  · intro i p h; rw [(hg i p h).2]; simp [PC.holds]
  · intro i h; simp [Pool.init] at h
  · intro i p h; rw [(hg i p h).2]; simp [PC.searching]
  · intro h; simp [Pool.init] at h
  · simp [Pool.init]
  · simp [Pool.init]
  · simp [Pool.init]
  · intro i h; have := (hg i _ h).2; cases this
  · simp [Pool.init]
  · intro _; exact Or.inl ⟨0, _, rfl, trivial⟩

theorem PC.holds_of_searching {p : PC K} (h : p.searching) : p.holds := by
  cases p <;> simp_all [PC.searching, PC.holds]

/-- all workers but the lock holder are outside -/
theorem Inv.alone {s : Pool T K} (hi : Inv s) {i : Nat} {x : PC K} (h : s.pcs[i]? = some x) (hx : x.holds) {j : Nat} {p : PC K}
    (hp : s.pcs[j]? = some p) (hph : p.holds) : j = i := by
  have h1 := hi.own i x h hx
  have h2 := hi.own j p hp hph
  rw [h1] at h2; exact (Option.some.inj h2).symm

/-- while a worker holds the lock without searching, nobody is searching -/
theorem Inv.not_searching {s : Pool T K} (hi : Inv s) {i : Nat} {x : PC K} (h : s.pcs[i]? = some x) (hx : x.holds)
    (hns : ¬ x.searching) : s.st ≠ .searching := by
  intro hst
  obtain ⟨j, p, hp, hps⟩ := hi.srch' hst
  have hph : p.holds := by cases p <;> simp_all [PC.searching, PC.holds]
  have := hi.alone h hx hp hph
  subst this
  rw [h] at hp; cases hp; exact hns hps

/-- what the program counters are after worker `i` moved to `y` and `Soft` effects -/
theorem moved {a b : List (PC K)} {i : Nat} {x y : PC K} (h : a[i]? = some x) (hy : y ≠ .waiting) (hs : Soft (a.set i y) b) :
    b[i]? = some y ∧ (∀ (j : Nat) p, j ≠ i → a[j]? = some p → p ≠ .waiting → b[j]? = some p) ∧
    (∀ (j : Nat) p, j ≠ i → b[j]? = some p → a[j]? = some p ∨ (a[j]? = some .waiting ∧ p = .woken) ∨ p = .top false) := by
  have hg := fun j => get_set h y j
  refine ⟨hs.keep i y (by rw [hg, if_pos rfl]) hy, fun j p hj hp hw => hs.keep j p (by rw [hg, if_neg hj]; exact hp) hw, ?_⟩
  intro j p hj hp
  have h1 := hs.get j p hp
  rw [hg, if_neg hj] at h1
  rcases h1 with h1 | h1 | h1
  · exact Or.inl h1
  · exact Or.inr (Or.inl h1)
  · exact Or.inr (Or.inr h1.2)

theorem moved' {a : List (PC K)} {i : Nat} {x : PC K} (h : a[i]? = some x) (y : PC K) :
    (a.set i y)[i]? = some y ∧ (∀ (j : Nat), j ≠ i → (a.set i y)[j]? = a[j]?) :=
  ⟨by rw [get_set h, if_pos rfl], fun j hj => by rw [get_set h, if_neg hj]⟩

/-- a worker's move conserves the tasks -/
theorem Acc.step {M : TMI T K} {s s' : Pool T K} (hi : Acc s) (h : Step M s s') : Acc s' := by
  obtain ⟨given, execd, jobs⟩ := hi
  cases h with
  | acquire i d h hl =>
    have hT := sum_set PC.tasks h (.check d)
    have hO := sum_set PC.outcomes h (.check d)
    simp only [PC.tasks, PC.outcomes, add_zero, zero_add, Multiset.map_coe, List.map_cons, List.map_nil] at hT hO
    exact ⟨by simp_all, by simp_all, jobs⟩
  | reacquire i h hl =>
    have hT := sum_set PC.tasks h (.check false)
    have hO := sum_set PC.outcomes h (.check false)
    simp only [PC.tasks, PC.outcomes, add_zero, zero_add, Multiset.map_coe, List.map_cons, List.map_nil] at hT hO
    exact ⟨by simp_all, by simp_all, jobs⟩
  | wait i d h hst =>
    have hT := sum_set PC.tasks h (.waiting)
    have hO := sum_set PC.outcomes h (.waiting)
    simp only [PC.tasks, PC.outcomes, add_zero, zero_add, Multiset.map_coe, List.map_cons, List.map_nil] at hT hO
    exact ⟨by simp_all, by simp_all, jobs⟩
  | halt i d h hst =>
    have hT := sum_set PC.tasks h (.halted)
    have hO := sum_set PC.outcomes h (.halted)
    simp only [PC.tasks, PC.outcomes, add_zero, zero_add, Multiset.map_coe, List.map_cons, List.map_nil] at hT hO
    exact ⟨by simp_all, by simp_all, jobs⟩
  | begin i d h hst =>
    have hT := sum_set PC.tasks h (.retire s.results)
    have hO := sum_set PC.outcomes h (.retire s.results)
    simp only [PC.tasks, PC.outcomes, add_zero, zero_add, Multiset.map_coe, List.map_cons, List.map_nil] at hT hO
    exact ⟨by rw [hT, given]; simp only [Multiset.coe_nil, Multiset.map_zero, Multiset.map_coe, add_zero]; ac_rfl,
      by rw [hO, execd]; simp only [Multiset.coe_nil, add_zero]; ac_rfl, jobs⟩
  | retire i k ok rs tm' h ht =>
    have hT := sum_set PC.tasks h (.retire rs)
    have hO := sum_set PC.outcomes h (.retire rs)
    simp only [PC.tasks, PC.outcomes, add_zero, zero_add, Multiset.map_coe, List.map_cons, List.map_nil] at hT hO
    refine ⟨?_, ?_, by simp only [Multiset.card_cons]; push_cast; omega⟩
    · rw [given]
      apply add_right_cancel (b := ((rs.map Prod.fst : List K) : Multiset K))
      simp only [Multiset.map_cons, Multiset.map_coe]
      rw [add_assoc _ (List.sum _), ← hT, ← Multiset.cons_coe, ← Multiset.singleton_add, ← Multiset.singleton_add]; ac_rfl
    · show s.execd = ((k, ok) ::ₘ s.retired) + (s.results : Multiset (K × Bool)) + ((s.pcs.set i (.retire rs)).map PC.outcomes).sum
      rw [execd]
      apply add_right_cancel (b := (rs : Multiset (K × Bool)))
      rw [add_assoc _ (List.sum _), ← hO, ← Multiset.cons_coe, ← Multiset.singleton_add, ← Multiset.singleton_add]; ac_rfl
  | retired i h =>
    have hT := sum_set PC.tasks h (.search)
    have hO := sum_set PC.outcomes h (.search)
    simp only [PC.tasks, PC.outcomes, add_zero, zero_add, Multiset.map_coe, List.map_cons, List.map_nil] at hT hO
    exact ⟨by simp_all, by simp_all, jobs⟩
  | internal i tm' h hst ht => exact ⟨given, execd, jobs⟩
  | give i k tm' pcs' h hst ht hn =>
    have hT := sum_set PC.tasks h (.release (some k))
    have hO := sum_set PC.outcomes h (.release (some k))
    simp only [PC.tasks, PC.outcomes, add_zero, zero_add, Multiset.map_coe, List.map_cons, List.map_nil] at hT hO
    have hs := Soft.trans (Notified.soft hn) (maybeStart_soft s.max (s.jobs + 1) pcs')
    refine ⟨?_, ?_, ?_⟩
    · show _ = _
      simp only [hs.tasks, hT, given, ← Multiset.singleton_add]; try abel
    · show _ = _
      simp only [hs.outcomes, hO, execd]
    · simp only [Multiset.card_cons]; push_cast; omega
  | stall i tm' h hst ht hj =>
    have hT := sum_set PC.tasks h (.release none)
    have hO := sum_set PC.outcomes h (.release none)
    simp only [PC.tasks, PC.outcomes, add_zero, zero_add, Multiset.map_coe, List.map_cons, List.map_nil] at hT hO
    exact ⟨by simp_all, by simp_all, jobs⟩
  | complete i tm' h hst ht hj =>
    have hT := sum_set PC.tasks h (.release none)
    have hO := sum_set PC.outcomes h (.release none)
    simp only [PC.tasks, PC.outcomes, add_zero, zero_add, Multiset.map_coe, List.map_cons, List.map_nil] at hT hO
    have hs := wakeAll_soft (s.pcs.set i (.release none))
    exact ⟨by simp only [hs.tasks, hT, given], by simp only [hs.outcomes, hO, execd], jobs⟩
  | releaseExec i k h =>
    have hT := sum_set PC.tasks h (.exec k)
    have hO := sum_set PC.outcomes h (.exec k)
    simp only [PC.tasks, PC.outcomes, add_zero, zero_add, Multiset.map_coe, List.map_cons, List.map_nil] at hT hO
    exact ⟨by rw [given]; congr 1; exact (add_right_cancel hT).symm, by rw [hO, execd], jobs⟩
  | releaseIdle i h =>
    have hT := sum_set PC.tasks h (.top false)
    have hO := sum_set PC.outcomes h (.top false)
    simp only [PC.tasks, PC.outcomes, add_zero, zero_add, Multiset.map_coe, List.map_cons, List.map_nil] at hT hO
    exact ⟨by simp_all, by simp_all, jobs⟩
  | execute i k ok h =>
    have hT := sum_set PC.tasks h (.enqueue k ok)
    have hO := sum_set PC.outcomes h (.enqueue k ok)
    simp only [PC.tasks, PC.outcomes, add_zero, zero_add, Multiset.map_coe, List.map_cons, List.map_nil] at hT hO
    refine ⟨by rw [given]; congr 1; exact (add_right_cancel hT).symm, ?_, jobs⟩
    rw [hO, execd, ← Multiset.singleton_add]; ac_rfl
  | enqueue i k ok h =>
    have hT := sum_set PC.tasks h (.top true)
    have hO := sum_set PC.outcomes h (.top true)
    simp only [PC.tasks, PC.outcomes, add_zero, zero_add, Multiset.map_coe, List.map_cons, List.map_nil] at hT hO
    refine ⟨?_, ?_, jobs⟩
    · rw [given, ← hT]; simp only [← Multiset.coe_add, Multiset.coe_singleton, Multiset.map_add, Multiset.map_singleton]; ac_rfl
    · rw [execd, ← hO]; simp only [← Multiset.coe_add, Multiset.coe_singleton]; ac_rfl

theorem PC.busy_of {p : PC K} (h1 : ¬ p.coming) (h3 : ¬ p.holds) (h4 : p ≠ .halted) (h5 : p ≠ .waiting) : p.busy := by
  cases p with
  | top _ => exact absurd trivial h1
  | check _ => exact absurd trivial h1
  | waiting => exact absurd rfl h5
  | woken => exact absurd trivial h1
  | retire _ => exact absurd trivial h3
  | search => exact absurd trivial h3
  | release _ => exact absurd trivial h3
  | exec _ => trivial
  | enqueue _ _ => trivial
  | halted => exact absurd rfl h4

/-- after a task was handed out: someone is on the way to the search, or all `max` workers are busy -/
theorem give_ready {s : Pool T K} (hi : Inv s) {i : Nat} {k : K} {pcs' : List (PC K)} (h : s.pcs[i]? = some .search)
    (hst : s.st = .searching) (hn : Notified (s.pcs.set i (.release (some k))) pcs') :
    (∃ (i : Nat) (p : PC K), (maybeStart s.max (s.jobs + 1) pcs')[i]? = some p ∧ p.coming) ∨
        ((∀ (i : Nat) p, (maybeStart s.max (s.jobs + 1) pcs')[i]? = some p → p.busy) ∧
          (1 ≤ s.max → (maybeStart s.max (s.jobs + 1) pcs').length = s.max)) := by
      have hal := fun hx j p hp hh => hi.alone h hx (j := j) (p := p) hp hh
      by_cases hc : ∃ (i : Nat) (p : PC K), (maybeStart s.max (s.jobs + 1) pcs')[i]? = some p ∧ p.coming
      · exact Or.inl hc
      · right
        have hc' : ∀ (j : Nat) (p : PC K), (maybeStart s.max (s.jobs + 1) pcs')[j]? = some p → ¬ p.coming :=
          fun j p hp hpc => hc ⟨j, p, hp, hpc⟩
        -- nobody was waiting
        have hnw : (∀ j : Nat, (s.pcs.set i (.release (some k)))[j]? ≠ some .waiting) ∧ pcs' = s.pcs.set i (.release (some k)) := by
          rcases hn with ⟨j, hj, rfl⟩ | h1
          · have := (maybeStart_soft s.max (s.jobs + 1) ((s.pcs.set i (.release (some k))).set j .woken)).keep j .woken
              (by rw [get_set hj, if_pos rfl]) (by simp)
            exact absurd trivial (hc' j .woken this)
          · exact h1
        -- no worker was started
        have hns : ¬ (1 < s.max ∧ pcs'.length < s.max ∧ (pcs'.length : Int) ≤ s.jobs + 1) := by
          intro h1
          refine hc' pcs'.length (.top false) ?_ trivial
          simp only [maybeStart, if_pos h1]
          simp
        have heq : maybeStart s.max (s.jobs + 1) pcs' = s.pcs.set i (.release (some k)) := by
          simp only [maybeStart, if_neg hns]; exact hnw.2
        rw [heq] at hc' ⊢
        have hbusy : ∀ (j : Nat) p, (s.pcs.set i (.release (some k)))[j]? = some p → p.busy := by
          intro j p hp
          have h1 := hc' j p hp
          have h2 := hnw.1 j
          rw [get_set h] at hp
          split at hp
          · cases hp; trivial
          · rename_i hji
            have h3 : ¬ p.holds := fun hh => hji (hal trivial j p hp hh)
            have h4 : p ≠ .halted := by
              rintro rfl; have := hi.halt j hp; rw [hst] at this; cases this
            have h5 : p ≠ .waiting := by
              rintro rfl; rw [get_set h, if_neg hji] at h2; exact h2 hp
            exact PC.busy_of h1 h3 h4 h5
        refine ⟨hbusy, fun hmax => ?_⟩
        -- every worker carries one task
        have hcard : ∀ l : List (PC K), (∀ p ∈ l, p.busy) → Multiset.card (l.map PC.tasks).sum = l.length := by
          intro l hl
          induction l with
          | nil => simp
          | cons p l ih =>
            have h1 := ih (fun q hq => hl q (List.mem_cons_of_mem _ hq))
            have h2 : Multiset.card p.tasks = 1 := by
              have := hl p (by simp)
              unfold PC.busy at this
              split at this <;> simp_all [PC.tasks]
            simp only [List.map_cons, List.sum_cons, Multiset.card_add, List.length_cons, h1, h2]; omega
        have h1 := hcard (s.pcs.set i (.release (some k))) (fun p hp => by
          obtain ⟨j, hj⟩ := List.mem_iff_getElem?.1 hp
          exact hbusy j p hj)
        have h2 := sum_set PC.tasks h (.release (some k))
        have h3 := hi.toAcc.load
        have h4 : Multiset.card (List.map PC.tasks (s.pcs.set i (.release (some k)))).sum = Multiset.card (s.pcs.map PC.tasks).sum + 1 := by
          simp only [PC.tasks, add_zero] at h2
          rw [h2]; simp
        have h5 := hi.len hmax
        rw [hnw.2] at hns
        simp only [List.length_set] at hns h1 ⊢
        have h6 : 0 < s.pcs.length := by
          rcases List.getElem?_eq_some_iff.1 h with ⟨h7, _⟩; omega
        omega

theorem Ctl.step {M : TMI T K} {s s' : Pool T K} (hi : Inv s) (h : Step M s s') : Ctl s' := by
  cases h with
  | acquire i d h hl =>
    obtain ⟨m1, m2⟩ := moved' h (.check d)
    have hns := fun hs hn => hi.not_searching h hs hn
    have hal := fun hx j p hp hh => hi.alone h hx (j := j) (p := p) hp hh
    have hid := fun hj => (hi.toAcc.idle hj).1
    have hsh := fun p => PC.holds_of_searching (K := K) (p := p)
    obtain ⟨-, own, held, srch, srch', len, res, compl, halt, stall, ready⟩ := hi
    constructor <;> grind [PC.holds, PC.searching, PC.coming, PC.busy, unstall]
  | reacquire i h hl =>
    obtain ⟨m1, m2⟩ := moved' h (.check false)
    have hns := fun hs hn => hi.not_searching h hs hn
    have hal := fun hx j p hp hh => hi.alone h hx (j := j) (p := p) hp hh
    have hid := fun hj => (hi.toAcc.idle hj).1
    have hsh := fun p => PC.holds_of_searching (K := K) (p := p)
    obtain ⟨-, own, held, srch, srch', len, res, compl, halt, stall, ready⟩ := hi
    constructor <;> grind [PC.holds, PC.searching, PC.coming, PC.busy, unstall]
  | wait i d h hst =>
    obtain ⟨m1, m2⟩ := moved' h (.waiting)
    have hns := fun hs hn => hi.not_searching h hs hn
    have hal := fun hx j p hp hh => hi.alone h hx (j := j) (p := p) hp hh
    have hid := fun hj => (hi.toAcc.idle hj).1
    have hsh := fun p => PC.holds_of_searching (K := K) (p := p)
    obtain ⟨-, own, held, srch, srch', len, res, compl, halt, stall, ready⟩ := hi
    constructor <;> grind [PC.holds, PC.searching, PC.coming, PC.busy, unstall]
  | halt i d h hst =>
    obtain ⟨m1, m2⟩ := moved' h (.halted)
    have hns := fun hs hn => hi.not_searching h hs hn
    have hal := fun hx j p hp hh => hi.alone h hx (j := j) (p := p) hp hh
    have hid := fun hj => (hi.toAcc.idle hj).1
    have hsh := fun p => PC.holds_of_searching (K := K) (p := p)
    obtain ⟨-, own, held, srch, srch', len, res, compl, halt, stall, ready⟩ := hi
    constructor <;> grind [PC.holds, PC.searching, PC.coming, PC.busy, unstall]
  | begin i d h hst =>
    obtain ⟨m1, m2⟩ := moved' h (.retire s.results)
    have hns := fun hs hn => hi.not_searching h hs hn
    have hal := fun hx j p hp hh => hi.alone h hx (j := j) (p := p) hp hh
    have hid := fun hj => (hi.toAcc.idle hj).1
    have hsh := fun p => PC.holds_of_searching (K := K) (p := p)
    obtain ⟨-, own, held, srch, srch', len, res, compl, halt, stall, ready⟩ := hi
    constructor <;> grind [PC.holds, PC.searching, PC.coming, PC.busy, unstall]
  | retire i k ok rs tm' h ht =>
    obtain ⟨m1, m2⟩ := moved' h (.retire rs)
    have hns := fun hs hn => hi.not_searching h hs hn
    have hal := fun hx j p hp hh => hi.alone h hx (j := j) (p := p) hp hh
    have hid := fun hj => (hi.toAcc.idle hj).1
    have hsh := fun p => PC.holds_of_searching (K := K) (p := p)
    obtain ⟨-, own, held, srch, srch', len, res, compl, halt, stall, ready⟩ := hi
    constructor <;> grind [PC.holds, PC.searching, PC.coming, PC.busy, unstall]
  | retired i h =>
    obtain ⟨m1, m2⟩ := moved' h (.search)
    have hns := fun hs hn => hi.not_searching h hs hn
    have hal := fun hx j p hp hh => hi.alone h hx (j := j) (p := p) hp hh
    have hid := fun hj => (hi.toAcc.idle hj).1
    have hsh := fun p => PC.holds_of_searching (K := K) (p := p)
    obtain ⟨-, own, held, srch, srch', len, res, compl, halt, stall, ready⟩ := hi
    constructor <;> grind [PC.holds, PC.searching, PC.coming, PC.busy, unstall]
  | internal i tm' h hst ht => exact ⟨hi.own, hi.held, hi.srch, hi.srch', hi.len, hi.res, hi.compl, hi.halt, hi.stall, hi.ready⟩
  | stall i tm' h hst ht hj =>
    obtain ⟨m1, m2⟩ := moved' h (.release none)
    have hns := fun hs hn => hi.not_searching h hs hn
    have hal := fun hx j p hp hh => hi.alone h hx (j := j) (p := p) hp hh
    have hid := fun hj => (hi.toAcc.idle hj).1
    have hsh := fun p => PC.holds_of_searching (K := K) (p := p)
    obtain ⟨-, own, held, srch, srch', len, res, compl, halt, stall, ready⟩ := hi
    constructor <;> grind [PC.holds, PC.searching, PC.coming, PC.busy, unstall]
  | releaseExec i k h =>
    obtain ⟨m1, m2⟩ := moved' h (.exec k)
    have hns := fun hs hn => hi.not_searching h hs hn
    have hal := fun hx j p hp hh => hi.alone h hx (j := j) (p := p) hp hh
    have hid := fun hj => (hi.toAcc.idle hj).1
    have hsh := fun p => PC.holds_of_searching (K := K) (p := p)
    obtain ⟨-, own, held, srch, srch', len, res, compl, halt, stall, ready⟩ := hi
    constructor <;> grind [PC.holds, PC.searching, PC.coming, PC.busy, unstall]
  | releaseIdle i h =>
    obtain ⟨m1, m2⟩ := moved' h (.top false)
    have hns := fun hs hn => hi.not_searching h hs hn
    have hal := fun hx j p hp hh => hi.alone h hx (j := j) (p := p) hp hh
    have hid := fun hj => (hi.toAcc.idle hj).1
    have hsh := fun p => PC.holds_of_searching (K := K) (p := p)
    obtain ⟨-, own, held, srch, srch', len, res, compl, halt, stall, ready⟩ := hi
    constructor <;> grind [PC.holds, PC.searching, PC.coming, PC.busy, unstall]
  | execute i k ok h =>
    obtain ⟨m1, m2⟩ := moved' h (.enqueue k ok)
    have hns := fun hs hn => hi.not_searching h hs hn
    have hal := fun hx j p hp hh => hi.alone h hx (j := j) (p := p) hp hh
    have hid := fun hj => (hi.toAcc.idle hj).1
    have hsh := fun p => PC.holds_of_searching (K := K) (p := p)
    obtain ⟨-, own, held, srch, srch', len, res, compl, halt, stall, ready⟩ := hi
    constructor <;> grind [PC.holds, PC.searching, PC.coming, PC.busy, unstall]
  | enqueue i k ok h =>
    obtain ⟨m1, m2⟩ := moved' h (.top true)
    have hns := fun hs hn => hi.not_searching h hs hn
    have hal := fun hx j p hp hh => hi.alone h hx (j := j) (p := p) hp hh
    have hid := fun hj => (hi.toAcc.idle hj).1
    have hsh := fun p => PC.holds_of_searching (K := K) (p := p)
    obtain ⟨-, own, held, srch, srch', len, res, compl, halt, stall, ready⟩ := hi
    constructor <;> grind [PC.holds, PC.searching, PC.coming, PC.busy, unstall]
  | complete i tm' h hst ht hj =>
    have hs := wakeAll_soft (s.pcs.set i (.release none))
    have hw := wakeAll_no_waiting (s.pcs.set i (.release none))
    obtain ⟨m1, m2, m3⟩ := moved h (y := .release none) (by simp) hs
    have hlen : (wakeAll (s.pcs.set i (.release none))).length = s.pcs.length := by simp [wakeAll]
    have hal := fun hx j p hp hh => hi.alone h hx (j := j) (p := p) hp hh
    have hid := fun hj => (hi.toAcc.idle hj).1
    have hsh := fun p => PC.holds_of_searching (K := K) (p := p)
    obtain ⟨-, own, held, srch, srch', len, res, compl, halt, stall, ready⟩ := hi
    constructor <;> grind [PC.holds, PC.searching, PC.coming, PC.busy, unstall]
  | give i k tm' pcs' h hst ht hn =>
    have hs := Soft.trans (Notified.soft hn) (maybeStart_soft s.max (s.jobs + 1) pcs')
    obtain ⟨m1, m2, m3⟩ := moved h (y := .release (some k)) (by simp) hs
    have hal := fun hx j p hp hh => hi.alone h hx (j := j) (p := p) hp hh
    have hid := fun hj => (hi.toAcc.idle hj).1
    have hsh := fun p => PC.holds_of_searching (K := K) (p := p)
    have hlen' : pcs'.length = s.pcs.length := by
      rcases hn with ⟨j, _, rfl⟩ | ⟨_, rfl⟩ <;> simp
    have hlen : (maybeStart s.max (s.jobs + 1) pcs').length = s.pcs.length ∨
        s.pcs.length < s.max ∧ (maybeStart s.max (s.jobs + 1) pcs').length = s.pcs.length + 1 := by
      unfold maybeStart
      split
      · right; simp only [List.length_append, List.length_cons, List.length_nil]; omega
      · left; exact hlen'
    have hready := give_ready hi h hst hn
    obtain ⟨-, own, held, srch, srch', len, res, compl, halt, stall, ready⟩ := hi
    refine ⟨?_, ?_, ?_, ?_, ?_, ?_, ?_, ?_, ?_, fun _ => hready⟩ <;> grind [PC.holds, PC.searching, PC.coming, PC.busy, unstall]

theorem Inv.step {M : TMI T K} {s s' : Pool T K} (hi : Inv s) (h : Step M s s') : Inv s' :=
  ⟨hi.toAcc.step h, Ctl.step hi h⟩

theorem Inv.next {M : TMI T K} {s s' : Pool T K} (hi : Inv s) (h : Next M s s') : Inv s' := by
  rcases h with h | ⟨tm', -, rfl⟩
  · exact hi.step h
  · exact ⟨⟨hi.given, hi.execd, hi.jobs⟩,
      ⟨hi.own, hi.held, hi.srch, hi.srch', hi.len, hi.res, hi.compl, hi.halt, hi.stall, hi.ready⟩⟩

theorem Reach.inv {M : TMI T K} {tm : T} {max : Nat} {s : Pool T K} (h : Reach M tm max s) : Inv s := by
  induction h with
  | refl => exact Inv.init tm max
  | tail _ h ih => exact ih.next h

theorem Step.max_eq {M : TMI T K} {s s' : Pool T K} (h : Step M s s') : s'.max = s.max := by cases h <;> rfl

theorem Reach.max_eq {M : TMI T K} {tm : T} {max : Nat} {s : Pool T K} (h : Reach M tm max s) : s.max = max := by
  induction h with
  | refl => rfl
  | tail _ h ih =>
    rcases h with h | ⟨tm', -, rfl⟩
    · rw [h.max_eq, ih]
    · exact ih

end Verif.Pool
