import Verif.Cache.Open

/-!
# C101: many processes may open a cache directory at once
-/

namespace Verif.Cache.Open

variable {P : Type} [DecidableEq P]

/-- The prefix length everybody should find: that of the configuration that is there, or 2. -/
def want : Before → Nat
  | .cache n _ => n
  | _ => 2

/-- Is the process in a place where the lock file is its own? -/
def Holds (c : PC) : Bool :=
  match c with
  | .gotWrite | .writing | .written | .unwinding | .gotRead => true
  | _ => false

/-- Places in which the directory must be there. -/
def Inside (c : PC) : Bool :=
  match c with
  | .check | .wantWrite | .wantRead | .reading | .gotWrite | .writing | .written | .unwinding | .gotRead => true
  | _ => false

structure Inv (n : Nat) (s : St P) : Prop where
  one : ∀ p q, Holds (s.pc p) = true → Holds (s.pc q) = true → p = q
  locked : ∀ p, Holds (s.pc p) = true → s.lock = true
  value : ∀ m, s.config = some (.full m) → m = n
  broken : s.config = some .partly → s.lock = true ∧ ∀ p, Holds (s.pc p) = true → s.pc p = .writing
  writing : ∀ p, s.pc p = .writing → s.config = some .partly
  reading : ∀ p, s.pc p = .reading → s.config = some (.full n)
  gotRead : ∀ p, s.pc p = .gotRead → s.config = some (.full n)
  written : ∀ p, s.pc p = .written → s.config = some (.full n)
  unwinding : ∀ p, s.pc p = .unwinding → s.config = some (.full n)
  wantRead : ∀ p, s.pc p = .wantRead → s.config ≠ none
  there : ∀ p, Inside (s.pc p) = true → s.made = true
  absent : s.made = false → s.config = none ∧ s.lock = false
  done : ∀ p m, s.pc p = .done m → m = n
  /-- as long as there is no complete configuration, it is the default one that is wanted -/
  fresh : s.config = none ∨ s.config = some .partly → n = 2
  noBad : ∀ p, s.pc p ≠ .failed .bad
  noMissing : ∀ p, s.pc p ≠ .failed .missing

theorem inv_start (d : Before) : Inv (want d) (start d : St P) := by
  cases d <;> constructor <;> simp [start, Holds, Inside, want]

set_option maxHeartbeats 2000000 in
theorem inv_step {wr : P → Bool} {n : Nat} {s t : St P} {l : Lab P} (h : Inv n s) (st : Step wr s l t) : Inv n t := by
  obtain ⟨h1, h2, h3, h4, h5, h6, h7, h8, h9, h10, h11, h12, h13, h14, h15, h16⟩ := h
  have h0 : s.config = none ∨ s.config = some .partly ∨ ∃ m, s.config = some (.full m) := by
    rcases s.config with _ | (_ | m) <;> simp
  cases st
  all_goals constructor <;> simp only [St.at, prefixLen] at * <;> grind [Holds, Inside]

end Verif.Cache.Open
