import Verif.Prep.Sched

/-!
# What is done before a command is run (C116): cases and counterexamples
-/

namespace Verif.Prep

/-- The directories of a path. -/
def aboves : Path → List Path
  | [] => []
  | _ :: r => r :: aboves r

theorem above_iff (q p : Path) : Above q p ↔ q ∈ aboves p := by
  induction p with
  | nil => simp [Above, aboves]
  | cons c r ih =>
    rw [aboves, List.mem_cons, ← ih]
    constructor
    · rintro ⟨l, hl, h⟩
      cases l with
      | nil => exact absurd rfl hl
      | cons x l =>
        simp only [List.cons_append, List.cons.injEq] at h
        cases l with
        | nil => left; exact h.2.symm
        | cons y l => right; exact ⟨y :: l, by simp, h.2⟩
    · rintro (rfl | ⟨l, hl, rfl⟩)
      · exact above_self c q
      · exact ⟨c :: l, by simp, by simp⟩

theorem need_iff (N : Path → Prop) (l : List Path) (hN : ∀ p, N p ↔ p ∈ l) (q : Path) : NeedDir N q ↔ q ∈ l.flatMap aboves := by
  simp only [NeedDir, above_iff, List.mem_flatMap, hN]

def upOk (d : Disk) : Path → Bool
  | [] => true
  | c :: q => d (c :: q) = none || d q = some .dir

/-- A check of `Tree`. -/
def treeOk (l : List Path) (d : Disk) : Bool :=
  d [] = some .dir && (l.flatMap aboves).all (fun q => d q = none || d q = some .dir) && (l ++ l.flatMap aboves).all (upOk d) &&
  l.all (fun p => p ≠ [] && !(l.flatMap aboves).contains p && d p ≠ some .dir)

theorem tree_of (N : Path → Prop) (l : List Path) (hN : ∀ p, N p ↔ p ∈ l) (d : Disk) (h : treeOk l d = true) : Tree N d := by
  simp only [treeOk, Bool.and_eq_true, List.all_eq_true, decide_eq_true_eq, Bool.or_eq_true, List.mem_append, Bool.not_eq_true', List.contains_eq_mem, decide_eq_false_iff_not] at h
  obtain ⟨⟨⟨h1, h2⟩, h3⟩, h4⟩ := h
  refine ⟨h1, fun q hq => h2 q ((need_iff N l hN q).1 hq), fun c q hq hn => ?_, fun p hp => ?_⟩
  · have := h3 (c :: q) (hq.imp (hN _).1 (need_iff N l hN _).1)
    simp only [upOk, Bool.or_eq_true, decide_eq_true_eq] at this
    exact this.resolve_left hn
  · obtain ⟨⟨k1, k2⟩, k3⟩ := h4 p ((hN p).1 hp)
    exact ⟨k1, fun hh => k2 ((need_iff N l hN p).1 hh), k3⟩

theorem fresh_blank (N T : Path → Prop) (d : Disk) : Fresh N T { disk := d, memo := fun _ => none, made := fun _ => false } :=
  ⟨by simp, by simp, by simp, by simp, by simp⟩

/-! ## A build of two objects that write one log -/

def fa : Path := ["a.o", "obj", "build"]
def fb : Path := ["b.o", "obj", "build"]
def lg : Path := ["log", "out"]

def g1 : Graph where
  derived p := p = fa || p = fb || p = lg
  precious p := p = lg
  linked _ := false
  inRepo _ := false
  upToDate _ := false
  depends _ := []
  implicit p := if p = fa then [["h.h"]] else []
  sides p := if p = fa || p = fb then [lg] else []

/-- `a.c`, `b.c`, `h.h` and an old `a.o` are there. -/
def d1 : Disk := fun p => if p ∈ [[], ["build"], ["obj", "build"]] then some .dir else if p ∈ [["a.c"], ["b.c"], ["h.h"], fa] then some (.file 1) else none

def tasks1 : Nat → Task
  | 0 => { targets := [fa], sources := [["a.c"]] }
  | 1 => { targets := [fb], sources := [["b.c"]] }
  | _ => { targets := [], sources := [] }

def s1 : St := { disk := d1, memo := fun _ => none, made := fun _ => false }

theorem nodes1 (p : Path) : Nodes g1 tasks1 p ↔ p ∈ [fa, lg, fb] := by
  constructor
  · rintro ⟨i, hi⟩
    match i with
    | 0 => have h : (tasks1 0).nodes g1 = [fa, lg] := by decide
           rw [h] at hi; simp at hi ⊢; rcases hi with h | h <;> simp [h]
    | 1 => have h : (tasks1 1).nodes g1 = [fb, lg] := by decide
           rw [h] at hi; simp at hi ⊢; rcases hi with h | h <;> simp [h]
    | n + 2 => simp [tasks1, Task.nodes] at hi
  · intro h
    simp at h
    rcases h with rfl | rfl | rfl
    · exact ⟨0, by decide⟩
    · exact ⟨0, by decide⟩
    · exact ⟨1, by decide⟩

theorem tree1 : Tree (Nodes g1 tasks1) d1 := tree_of _ _ nodes1 d1 (by decide +kernel)

/-- The first command is prepared, writes, ends; then the second is prepared. -/
def d2 : Disk := fun p => if p = fa then some (.file 2) else if p = lg then some (.file 3) else if p = ["out"] then some .dir else d1 p

def y0 : Sys := { st := s1, running := [], idle := [] }
def y1 : Sys := step g1 tasks1 y0 (.prepare 0)
def y2 : Sys := step g1 tasks1 y1 (.work 0 d2)
def y3 : Sys := step g1 tasks1 y2 (.finish 0)
def y4 : Sys := step g1 tasks1 y3 (.prepare 1)

theorem sides1 (p e : Path) (h : e ∈ g1.sides p) : g1.precious e = true := by
  simp only [g1] at h
  split at h
  · simp at h; subst h; rfl
  · simp at h

theorem disk1 (p : Path) (h1 : p ≠ fa) (h2 : p ≠ ["out"]) : y1.st.disk p = d1 p := by
  rcases C116_frame g1 true s1 (tasks1 0) p with h | ⟨⟨h, h'⟩, _⟩ | ⟨⟨q, hq, _, ha⟩, h, h'⟩
  · exact h
  · have e : (tasks1 0).nodes g1 = [fa, lg] := by decide
    rw [e] at h
    simp at h
    rcases h with rfl | rfl
    · exact absurd rfl h1
    · simp [Removable, g1] at h'
  · have e : (tasks1 0).nodes g1 = [fa, lg] := by decide
    rw [e] at hq
    simp at hq
    rw [above_iff] at ha
    show (taskPrepare g1 true s1 (tasks1 0)).2.disk p = d1 p
    rw [h]
    rcases hq with rfl | rfl
    · simp [aboves, fa] at ha
      rcases ha with rfl | rfl | rfl <;> rfl
    · simp [aboves, lg] at ha
      rcases ha with rfl | rfl
      · exact absurd rfl h2
      · rfl

theorem reach4 : Reach g1 tasks1 y0 y4 := by
  have a0 : Allowed g1 tasks1 y0 (.prepare 0) := by
    refine ⟨by simp [y0], by simp [y0], ?_, ?_⟩
    · intro p hp
      simp [tasks1] at hp
      subst hp
      exact .inr (.inr (.inr ⟨by decide +kernel, by simp [y0, s1]⟩))
    · intro p hp d hd
      simp only [g1, List.not_mem_nil, false_or] at hd
      split at hd
      · simp at hd; subst hd; exact .inr (.inr (.inr ⟨by decide +kernel, by simp [y0, s1]⟩))
      · simp at hd
  have r1 : y1.running = [0] := by decide +kernel
  have a1 : Allowed g1 tasks1 y1 (.work 0 d2) := by
    refine ⟨by rw [r1]; simp, tree_of _ _ nodes1 d2 (by decide +kernel), ?_, ?_⟩
    · intro q hq hd
      rw [need_iff _ _ nodes1] at hq
      have : ∀ q ∈ [fa, lg, fb].flatMap aboves, d2 q = some .dir := by decide +kernel
      exact this q hq
    · intro j hj p hp hn
      have hN := (nodes1 p).1 ⟨j, hp⟩
      have e : (tasks1 0).nodes g1 = [fa, lg] := by decide
      rw [e] at hn
      simp at hN hn
      rcases hN with h | h | h
      · exact absurd h hn.1
      · exact absurd h hn.2
      · subst h
        rw [disk1 _ (by decide) (by decide)]
        decide +kernel
  have a2 : Allowed g1 tasks1 y2 (.finish 0) := by show 0 ∈ y1.running; rw [r1]; simp
  have r3 : y3.running = [] := by decide +kernel
  have a3 : Allowed g1 tasks1 y3 (.prepare 1) := by
    refine ⟨by rw [r3]; simp, by rw [r3]; simp, ?_, ?_⟩
    · intro p hp
      simp [tasks1] at hp
      subst hp
      exact .inr (.inr (.inr ⟨by decide +kernel, by decide +kernel⟩))
    · intro p hp d hd
      have e : (tasks1 1).nodes g1 = [fb, lg] := by decide
      rw [e] at hp
      simp at hp
      rcases hp with rfl | rfl <;> simp [g1, fa, fb, lg] at hd
  exact .next _ (.next _ (.next _ (.next _ .start a0) a1) a2) a3

/-- The second command finds its directories, and no `b.o`; the log of the first is still there. -/
example : 1 ∈ y4.idle ∧ DirsThere y4.st.disk fb ∧ y4.st.disk fb = none ∧ y4.st.disk lg = some (.file 3) := by
  have h := C116_schedule g1 tasks1 sides1 s1 tree1 (fresh_blank _ _ d1) y4 reach4
  have hi : 1 ∈ y4.idle := by decide +kernel
  have hr : 1 ∈ y4.running := by decide +kernel
  exact ⟨hi, h.1 1 hr fb (by decide) rfl, h.2 1 hi fb (by decide) ⟨by decide, by decide, rfl⟩, by decide +kernel⟩

/-- The first command: the old `a.o` is gone, `out` was made for the log. -/
example : y0.st.disk fa = some (.file 1) ∧ y1.st.disk fa = none ∧ y0.st.disk ["out"] = none ∧ y1.st.disk ["out"] = some .dir := by decide +kernel

/-- A missing source: nothing is touched. -/
example : ∃ q ∈ (tasks1 0).sources, (taskPrepare g1 true { s1 with disk := upd d1 ["a.c"] none } (tasks1 0)).1 = .error (.noSource q) :=
  (C116_missing_source g1 true _ (tasks1 0) ⟨["a.c"], by decide, rfl, rfl, rfl, by decide +kernel, by simp [s1]⟩).1

/-- A missing header: the command is not run. -/
example : ∃ e, (taskPrepare g1 true { s1 with disk := upd d1 ["h.h"] none } (tasks1 0)).1 = .error e := by
  refine C116_missing_dependency g1 true _ (tasks1 0) fa ["h.h"] (by decide) (.inr (by decide)) ⟨rfl, rfl, rfl, by decide +kernel, by simp [s1]⟩ ?_
  intro q hq
  rw [above_iff]
  revert q
  decide +kernel

/-! ## Counterexamples -/

def gx : Graph := { g1 with sides := fun _ => [], implicit := fun p => if p = fb then [["h.h"]] else [] }
def dx : Disk := fun p => if p ∈ [[], ["build"], ["obj", "build"]] then some .dir else if p ∈ [["a.c"], fa, fb] then some (.file 1) else none
def tx : Task := { targets := [fa, fb], sources := [["a.c"]] }

/-- **Counterexample.** A dependency of the second target is missing: the command is not run, but the first target, as it was built before, is gone. -/
theorem C116_removed_and_not_built :
    (taskPrepare gx true { s1 with disk := dx } tx).1 = .error (.noImplicit ["h.h"]) ∧ dx fa = some (.file 1) ∧ (taskPrepare gx true { s1 with disk := dx } tx).2.disk fa = none ∧
    (taskPrepare gx true { s1 with disk := dx } tx).2.disk fb = some (.file 1) := by decide +kernel

/-- **Counterexample.** A directory that was made for a target and then removed, by a command or between two builds of one interactive session, is not made again, whatever is forgotten in between: the next command in it is
run without it. -/
theorem C116_directory_not_made_again (memo : Path → Option Bool) (h : memo = (fun _ => none) ∨ memo = fun p => if p = ["out"] then some true else none) :
    let g : Graph := { g1 with sides := fun _ => [], implicit := fun _ => [], derived := fun p => p = lg, precious := fun _ => false }
    let s0 : St := { disk := fun p => if p = [] then some .dir else none, memo := fun _ => none, made := fun _ => false }
    let t : Task := { targets := [lg], sources := [] }
    let first := taskPrepare g true s0 t
    first.1 = .ok () ∧ first.2.disk ["out"] = some .dir ∧
    (taskPrepare g true { first.2 with disk := upd first.2.disk ["out"] none, memo := memo } t).1 = .ok () ∧
    (taskPrepare g true { first.2 with disk := upd first.2.disk ["out"] none, memo := memo } t).2.disk ["out"] = none := by
  rcases h with rfl | rfl <;> decide +kernel

end Verif.Prep
