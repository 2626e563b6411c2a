import Verif.Cache.OpenProps

/-!
# C101: many processes may open a cache directory at once — the theorems
-/

namespace Verif.Cache.Open

variable {P : Type} [DecidableEq P]

theorem inv_run {wr : P → Bool} {n : Nat} {s t : St P} {tr : List (Lab P)} (r : Run wr s tr t) (h : Inv n s) : Inv n t := by
  induction r with
  | nil => exact h
  | snoc _ st ih => exact inv_step ih st

/-- **C101, agreement.** However many processes open the directory at once, in whatever order, whichever of them
die or give up: those that get in have found the same configuration, the one that was there before,
or the default one. -/
theorem C101_everyone_finds_the_same {wr : P → Bool} {d : Before} {tr : List (Lab P)} {s : St P}
    (r : Run wr (start d) tr s) {p : P} {m : Nat} (h : s.pc p = .done m) : m = want d :=
  (inv_run r (inv_start d)).done p m h

/-- Nobody ever reads a configuration that is missing or not complete. -/
theorem C101_no_broken_configuration {wr : P → Bool} {d : Before} {tr : List (Lab P)} {s : St P}
    (r : Run wr (start d) tr s) (p : P) : s.pc p ≠ .failed .bad ∧ s.pc p ≠ .failed .missing :=
  ⟨(inv_run r (inv_start d)).noBad p, (inv_run r (inv_start d)).noMissing p⟩

theorem kept_step {wr : P → Bool} {n m : Nat} {s t : St P} {l : Lab P} (h : Inv n s) (hc : s.config = some (.full m))
    (st : Step wr s l t) : t.config = some (.full m) := by
  have h5 := h.writing
  have h12 := h.absent
  cases st <;> simp_all [St.at]

/-- A complete configuration is never changed again. -/
theorem C101_configuration_is_kept {wr : P → Bool} {d : Before} {tr tr' : List (Lab P)} {s t : St P} {m : Nat}
    (r : Run wr (start d) tr s) (hc : s.config = some (.full m)) (r' : Run wr s tr' t) : t.config = some (.full m) := by
  have hi := inv_run r (inv_start d)
  induction r' with
  | nil => exact hc
  | snoc r1 st ih => exact kept_step (inv_run r1 hi) ih st

/-! ## Everybody gets in -/

/-- Nobody dies. -/
def NoCrash (tr : List (Lab P)) : Prop := ∀ p, Lab.crash p ∉ tr

structure Calm (n : Nat) (s : St P) : Prop where
  conf : s.made = true → s.config = some (.full n)
  absent : s.made = false → s.lock = false
  held : s.lock = true → ∃ p, s.pc p = .gotRead
  pcs : ∀ p, s.pc p = .idle ∨ s.pc p = .temp ∨ s.pc p = .check ∨ s.pc p = .wantRead ∨ s.pc p = .gotRead ∨ s.pc p = .reading ∨
    s.pc p = .done n ∨ s.pc p = .failed .timeout
  there : ∀ p, s.pc p = .check ∨ s.pc p = .wantRead ∨ s.pc p = .gotRead ∨ s.pc p = .reading → s.made = true
  one : ∀ p q, s.pc p = .gotRead → s.pc q = .gotRead → p = q
  locked : ∀ p, s.pc p = .gotRead → s.lock = true
  fresh : s.made = false → n = 2

theorem calm_start {d : Before} (hd : ∀ o, d ≠ .plain o) : Calm (want d) (start d : St P) := by
  cases d with
  | plain o => exact absurd rfl (hd o)
  | nothing => constructor <;> simp [start, want]
  | cache n o => constructor <;> simp [start, want]

set_option maxHeartbeats 2000000 in
theorem calm_step {wr : P → Bool} (hwr : ∀ p, wr p = true) {n : Nat} {s t : St P} {l : Lab P} (h : Calm n s) (st : Step wr s l t)
    (hl : ∀ p, l ≠ .crash p) : Calm n t := by
  obtain ⟨h1, h2, h3, h4, h5, h6, h7, h8⟩ := h
  cases st with
  | crash => exact absurd rfl (hl _)
  | cannotMake h hd hw => rw [hwr] at hw; cases hw
  | unlockRead h =>
    constructor <;> simp only [St.at] at * <;> grind
  | lockRead h hf hw =>
    constructor
    · exact h1
    · intro hm; simp only [St.at] at hm; have := h5 _ (Or.inr (Or.inl h)); rw [this] at hm; cases hm
    · rename_i q; intro _; exact ⟨q, by simp [St.at]⟩
    all_goals simp only [St.at] at * <;> grind
  | _ => constructor <;> simp only [St.at, prefixLen] at * <;> grind

theorem calm_run {wr : P → Bool} (hwr : ∀ p, wr p = true) {n : Nat} {s t : St P} {tr : List (Lab P)} (r : Run wr s tr t)
    (h : Calm n s) (hc : NoCrash tr) : Calm n t := by
  induction r with
  | nil => exact h
  | snoc _ st ih =>
    exact calm_step hwr (ih fun p hp => hc p (List.mem_append_left _ hp)) st
      fun p hp => hc p (by rw [hp]; simp)

/-- **C101, no errors.** If the directory is not there yet, or is a cache directory, and nobody dies, then the only
error is that of a process that did not wait long enough for its turn. -/
theorem C101_only_timeouts {wr : P → Bool} (hwr : ∀ p, wr p = true) {d : Before} (hd : ∀ o, d ≠ .plain o) {tr : List (Lab P)} {s : St P}
    (r : Run wr (start d) tr s) (hc : NoCrash tr) {p : P} {w : Why} (h : s.pc p = .failed w) : w = .timeout := by
  rcases (calm_run hwr r (calm_start hd) hc).pcs p with h' | h' | h' | h' | h' | h' | h' | h' <;> rw [h] at h' <;> simp at h'
  exact h'

/-- Is the process still at it? -/
def Busy (c : PC) : Prop := (∀ n, c ≠ .done n) ∧ (∀ w, c ≠ .failed w) ∧ c ≠ .dead

/-- **C101, nobody hangs.** Whatever the others do or did, a process that is not through can go on, or give up waiting, right now: with
`C101_ten_steps`, it is through after ten steps of its own. -/
theorem C101_nobody_hangs (wr : P → Bool) (s : St P) {p : P} (h : Busy (s.pc p)) :
    ∃ l t, Step wr s l t ∧ (l = .go p ∨ l = .timeout p) := by
  have want : s.pc p = .wantWrite ∨ s.pc p = .wantRead → ∃ l t, Step wr s l t ∧ (l = .go p ∨ l = .timeout p) := by
    intro hp
    by_cases hl : s.lock = true ∨ wr p = false
    · exact ⟨_, _, .giveUp hp hl, Or.inr rfl⟩
    · have h1 : s.lock = false := by simpa using fun h => hl (Or.inl h)
      have h2 : wr p = true := by simpa using fun h => hl (Or.inr h)
      rcases hp with hp | hp
      · exact ⟨_, _, .lockWrite hp h1 h2, Or.inl rfl⟩
      · exact ⟨_, _, .lockRead hp h1 h2, Or.inl rfl⟩
  rcases hp : s.pc p with _ | _ | _ | _ | _ | _ | _ | _ | _ | _ | _ | n | w | _
  · cases hm : s.made
    · cases hw : wr p
      · exact ⟨_, _, .cannotMake hp hm hw, Or.inl rfl⟩
      · exact ⟨_, _, .notFound hp hm hw, Or.inl rfl⟩
    · exact ⟨_, _, .found hp hm, Or.inl rfl⟩
  · cases hm : s.made
    · exact ⟨_, _, .replace hp (Or.inl hm), Or.inl rfl⟩
    · by_cases he : s.config.isSome = true ∨ s.lock = true ∨ s.other = true
      · exact ⟨_, _, .second hp hm he, Or.inl rfl⟩
      · simp only [not_or, Bool.not_eq_true, Option.isSome_eq_false_iff, Option.isNone_iff_eq_none] at he
        exact ⟨_, _, .replace hp (Or.inr he), Or.inl rfl⟩
  · rcases hc : s.config with _ | c
    · exact ⟨_, _, .unconfigured hp hc, Or.inl rfl⟩
    · exact ⟨_, _, .configured hp (by rw [hc]; rfl), Or.inl rfl⟩
  · exact want (Or.inl hp)
  · rcases hc : s.config with _ | c
    · exact ⟨_, _, .create hp hc, Or.inl rfl⟩
    · exact ⟨_, _, .createFails hp (by rw [hc]; rfl), Or.inl rfl⟩
  · exact ⟨_, _, .dump hp, Or.inl rfl⟩
  · exact ⟨_, _, .unlockWrite hp, Or.inl rfl⟩
  · exact ⟨_, _, .unlockFail hp, Or.inl rfl⟩
  · exact want (Or.inr hp)
  · exact ⟨_, _, .unlockRead hp, Or.inl rfl⟩
  · rcases hc : s.config with _ | c
    · exact ⟨_, _, .loadMissing hp hc, Or.inl rfl⟩
    · cases c with
      | partly => exact ⟨_, _, .loadBad hp hc, Or.inl rfl⟩
      | full n => exact ⟨_, _, .load hp hc, Or.inl rfl⟩
  · exact absurd hp (h.1 n)
  · exact absurd hp (h.2.1 w)
  · exact absurd hp h.2.2

/-- The places where a process has the lock. -/
def Holding (c : PC) : Prop := c = .gotWrite ∨ c = .writing ∨ c = .written ∨ c = .unwinding ∨ c = .gotRead

theorem held_step {wr : P → Bool} {s t : St P} {l : Lab P} (h : s.lock = true → ∃ p, Holding (s.pc p)) (st : Step wr s l t)
    (hl : ∀ p, l ≠ .crash p) : t.lock = true → ∃ p, Holding (t.pc p) := by
  have keep : ∀ (p : P) (c : PC), ¬ Holding (s.pc p) → s.lock = true → ∃ q, Holding ((s.at p c).pc q) := by
    intro p c hp hs
    obtain ⟨q, hq⟩ := h hs
    refine ⟨q, ?_⟩
    have : q ≠ p := by rintro rfl; exact hp hq
    simpa [St.at, this] using hq
  cases st with
  | crash => exact absurd rfl (hl _)
  | push => exact h
  | lockWrite | create | createFails | dump | lockRead =>
    intro _
    exact ⟨_, by simp only [St.at, Holding]; rw [if_pos rfl]; simp⟩
  | giveUp h' _ => rcases h' with h' | h' <;> exact keep _ _ (by simp [h', Holding])
  | unlockWrite | unlockFail | unlockRead | replace => simp [St.at]
  | found h' | notFound h' | cannotMake h' | second h' | configured h' | unconfigured h' | load h' | loadBad h' | loadMissing h' =>
    exact keep _ _ (by simp [h', Holding])

/-- **C101, the lock.** Whatever was there, and whoever may write: if nobody dies, the lock is there only while somebody has it. So when
all are through, with success or with an error, it is gone. -/
theorem C101_lock_given_back {wr : P → Bool} {d : Before} {tr : List (Lab P)} {s : St P} (r : Run wr (start d) tr s) (hc : NoCrash tr)
    (hall : ∀ p, (∃ n, s.pc p = .done n) ∨ ∃ w, s.pc p = .failed w) : s.lock = false := by
  have : s.lock = true → ∃ p, Holding (s.pc p) := by
    clear hall
    generalize hs : (start d : St P) = s0 at r
    induction r with
    | nil => subst hs; intro h; cases d <;> simp [start] at h
    | snoc _ st ih => exact held_step (ih (fun p hp => hc p (List.mem_append_left _ hp))) st fun p hp => hc p (by rw [hp]; simp)
  cases hl : s.lock
  · rfl
  · obtain ⟨p, hp⟩ := this hl
    rcases hall p with ⟨n, h⟩ | ⟨w, h⟩ <;> rw [h] at hp <;> simp [Holding] at hp

/-- Under the same conditions there is always a process that can go on, without anybody giving up: no deadlock. -/
theorem C101_no_deadlock {wr : P → Bool} (hwr : ∀ p, wr p = true) {d : Before} (hd : ∀ o, d ≠ .plain o) {tr : List (Lab P)} {s : St P}
    (r : Run wr (start d) tr s) (hc : NoCrash tr) {p : P} (hb : Busy (s.pc p)) : ∃ q t, Step wr s (.go q) t := by
  have h := calm_run hwr r (calm_start hd) hc
  rcases h.pcs p with h' | h' | h' | h' | h' | h' | h' | h'
  · rcases hm : s.made with _ | _
    · exact ⟨p, _, .notFound h' hm (hwr p)⟩
    · exact ⟨p, _, .found h' hm⟩
  · rcases hm : s.made with _ | _
    · exact ⟨p, _, .replace h' (Or.inl hm)⟩
    · exact ⟨p, _, .second h' hm (Or.inl (by rw [h.conf hm]; rfl))⟩
  · exact ⟨p, _, .configured h' (by rw [h.conf (h.there p (Or.inl h'))]; rfl)⟩
  · rcases hl : s.lock with _ | _
    · exact ⟨p, _, .lockRead h' hl (hwr p)⟩
    · obtain ⟨q, hq⟩ := h.held hl
      exact ⟨q, _, .unlockRead hq⟩
  · exact ⟨p, _, .unlockRead h'⟩
  · exact ⟨p, _, .load h' (h.conf (h.there p (by simp [h'])))⟩
  · exact absurd h' (hb.1 _)
  · exact absurd h' (hb.2.1 _)

/-- How many steps a process may still take. -/
def rank : PC → Nat
  | .idle => 10
  | .temp => 9
  | .check => 8
  | .wantWrite => 7
  | .gotWrite => 6
  | .writing => 5
  | .unwinding => 5
  | .written => 4
  | .wantRead => 3
  | .gotRead => 2
  | .reading => 1
  | .done _ => 0
  | .failed _ => 0
  | .dead => 0

theorem rank_step {wr : P → Bool} {s t : St P} {l : Lab P} (st : Step wr s l t) (p : P) :
    rank (t.pc p) + (if l = .go p then 1 else 0) ≤ rank (s.pc p) := by
  cases st <;> rename_i q hq <;> (try simp only [St.at]) <;> grind [rank]

/-- **C101, termination.** A process takes at most ten steps, whatever the others do: waiting for the lock is the only
thing that can take long. -/
theorem C101_ten_steps {wr : P → Bool} {d : Before} {tr : List (Lab P)} {s : St P} (r : Run wr (start d) tr s) (p : P) :
    tr.countP (fun l => decide (l = .go p)) ≤ 10 := by
  have : tr.countP (fun l => decide (l = .go p)) + rank (s.pc p) ≤ rank ((start d : St P).pc p) := by
    generalize start d = s0 at *
    induction r with
    | nil => simp
    | snoc _ st ih =>
      have := rank_step st p
      rw [List.countP_append, List.countP_singleton]
      simp only [decide_eq_true_eq]
      omega
  have h0 : rank ((start d : St P).pc p) = 10 := by cases d <;> rfl
  omega

/-- Everybody gets in: when nobody can go on any more, and nobody gave up or died, everybody has the right
configuration. -/
theorem C101_everyone_gets_in {wr : P → Bool} (hwr : ∀ p, wr p = true) {d : Before} (hd : ∀ o, d ≠ .plain o) {tr : List (Lab P)}
    {s : St P} (r : Run wr (start d) tr s) (hc : NoCrash tr) (ht : ∀ p, Lab.timeout p ∉ tr)
    (hend : ∀ q t, ¬ Step wr s (.go q) t) (p : P) : s.pc p = .done (want d) := by
  have h := calm_run hwr r (calm_start hd) hc
  have hnf : ∀ p, s.pc p ≠ .failed .timeout := by
    clear hend h
    generalize hs : start d = s0 at r
    induction r with
    | nil => subst hs; intro p; cases d <;> simp [start]
    | @snoc _ _ _ l r1 st ih =>
      have ih := ih (fun p hp => hc p (List.mem_append_left _ hp)) (fun p hp => ht p (List.mem_append_left _ hp))
      have hl : ∀ p, l ≠ Lab.timeout p := fun p hp => ht p (by rw [hp]; simp)
      intro p
      have := ih p
      cases st <;> simp only [St.at] <;> grind
  by_cases hb : Busy (s.pc p)
  · obtain ⟨q, t, st⟩ := C101_no_deadlock hwr hd r hc hb
    exact absurd st (hend q t)
  · rcases h.pcs p with h' | h' | h' | h' | h' | h' | h' | h'
    all_goals first
      | exact h'
      | exact absurd h' (hnf p)
      | (exfalso; apply hb; simp [Busy, h'])

/-! ## What goes wrong -/

/-- A lock file that belongs to nobody. -/
def Jammed (s : St P) : Prop :=
  s.made = true ∧ s.lock = true ∧ ∀ p, Holds (s.pc p) = false ∧ s.pc p ≠ .reading ∧ ∀ n, s.pc p ≠ .done n

theorem jammed_step {wr : P → Bool} {s t : St P} {l : Lab P} (h : Jammed s) (st : Step wr s l t) : Jammed t := by
  obtain ⟨h1, h2, h3⟩ := h
  unfold Jammed
  cases st <;> simp only [St.at] at * <;> grind [Holds]

/-- FOUND: if a process dies while it has the lock file, even a reader, then nobody gets in any more, ever: each waits
five seconds and fails. -/
theorem C101_counterexample_dangling_lock (n : Nat) (o : Bool) : ∃ s : St Nat,
    Run (fun _ => true) (start (.cache n o)) [.go 0, .go 0, .go 0, .crash 0] s ∧
    ∀ tr t, Run (fun _ => true) s tr t → ∀ p m, t.pc p ≠ .done m := by
  refine ⟨_, .snoc (.snoc (.snoc (.snoc (.nil _) (.found (p := 0) rfl rfl)) (.configured (p := 0) rfl rfl))
    (.lockRead (p := 0) rfl rfl rfl)) (.crash (p := 0)), ?_⟩
  intro tr t r p m
  have hj : Jammed t := by
    generalize hs : St.at _ 0 PC.dead = s at r
    have h0 : Jammed s := by
      subst hs
      refine ⟨rfl, rfl, ?_⟩
      intro p
      by_cases hp : p = 0
      · subst hp; simp [St.at, Holds]
      · simp [St.at, start, hp, Holds]
    clear hs
    induction r with
    | nil => exact h0
    | snoc _ st ih => exact jammed_step ih st
  exact (hj.2.2 p).2.2 m

/-- FOUND: two processes that are given the same existing directory without a configuration, at the same time: the
second one fails with `FileExistsError`. -/
theorem C101_counterexample_existing_directory (o : Bool) : ∃ s : St Nat,
    Run (fun _ => true) (start (.plain o))
      [.go 0, .go 0, .go 1, .go 1, .go 0, .go 0, .go 0, .go 0, .go 1, .go 1, .go 1] s ∧
    s.pc 1 = .failed .exists := by
  refine ⟨_, .snoc (.snoc (.snoc (.snoc (.snoc (.snoc (.snoc (.snoc (.snoc (.snoc (.snoc (.nil _)
    (.found (p := 0) rfl rfl)) (.unconfigured (p := 0) rfl rfl)) (.found (p := 1) rfl rfl)) (.unconfigured (p := 1) rfl rfl))
    (.lockWrite (p := 0) rfl rfl rfl)) (.create (p := 0) rfl rfl)) (.dump (p := 0) rfl)) (.unlockWrite (p := 0) rfl))
    (.lockWrite (p := 1) rfl rfl rfl)) (.createFails (p := 1) rfl rfl)) (.unlockFail (p := 1) rfl), rfl⟩

/-- FOUND: a process that may not write into the cache directory cannot use it, not even to read
(`--cache-readonly`): making the lock file is refused, which counts as locked. -/
theorem C101_counterexample_readonly {wr : P → Bool} {p : P} (hw : wr p = false) {d : Before} {tr : List (Lab P)} {s : St P}
    (r : Run wr (start d) tr s) (m : Nat) : s.pc p ≠ .done m := by
  have : s.pc p = .idle ∨ s.pc p = .check ∨ s.pc p = .wantWrite ∨ s.pc p = .wantRead ∨ (∃ w, s.pc p = .failed w) ∨ s.pc p = .dead := by
    generalize hs : start d = s0 at r
    induction r with
    | nil => subst hs; left; cases d <;> rfl
    | snoc _ st ih =>
      cases st <;> simp only [St.at] at * <;> grind
  rcases this with h | h | h | h | ⟨w, h⟩ | h <;> rw [h] <;> simp

/-- Two processes make the same directory at the same time, and both get in. -/
example : ∃ s : St Nat, Run (fun _ => true) (start .nothing)
      [.go 0, .go 1, .go 1, .go 0, .go 1, .go 0, .go 1, .go 1, .go 0, .go 0, .push, .go 0] s ∧
    s.pc 0 = .done 2 ∧ s.pc 1 = .done 2 := by
  refine ⟨_, .snoc (.snoc (.snoc (.snoc (.snoc (.snoc (.snoc (.snoc (.snoc (.snoc (.snoc (.snoc (.nil _)
    (.notFound (p := 0) rfl rfl rfl)) (.notFound (p := 1) rfl rfl rfl)) (.replace (p := 1) rfl (Or.inl rfl)))
    (.second (p := 0) rfl rfl (Or.inl rfl))) (.lockRead (p := 1) rfl rfl rfl)) (.configured (p := 0) rfl rfl))
    (.unlockRead (p := 1) rfl)) (.load (p := 1) rfl rfl)) (.lockRead (p := 0) rfl rfl rfl)) (.unlockRead (p := 0) rfl))
    (.push rfl)) (.load (p := 0) rfl rfl), rfl, rfl⟩

end Verif.Cache.Open
