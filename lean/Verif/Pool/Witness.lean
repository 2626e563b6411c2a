import Verif.Pool.Compose

/-! Non-vacuity of C11–C14: a concrete run of two workers and two tasks. -/

namespace Verif.Pool

/-- a taskmaster with a list of independent tasks -/
def listTM : TMI (List Nat) Nat where
  internal _ _ := False
  give t k t' := t = k :: t'
  empty t t' := t = [] ∧ t' = []
  retire t _ _ t' := t' = t
  signal _ _ := False

theorem st {s t u : Pool (List Nat) Nat} (h : Relation.ReflTransGen (Next listTM) s t) (h' : Step listTM t u) :
    Relation.ReflTransGen (Next listTM) s u := h.tail (Or.inl h')

/-- both workers execute at the same time (`-j2`): the bound of C11 is attained -/
def both : Pool (List Nat) Nat where
  pcs := [.exec 7, .exec 8]
  st := .ready
  jobs := 2
  results := []
  lock := none
  tm := []
  max := 2
  given := 8 ::ₘ 7 ::ₘ 0
  execd := 0
  retired := 0

theorem both_reach : Reach listTM [7, 8] 2 both := by
  have h1 := st .refl (.acquire (M := listTM) (s := Pool.init [7, 8] 2) 0 false rfl rfl)
  have h2 := st h1 (.begin 0 false rfl rfl)
  have h3 := st h2 (.retired 0 rfl)
  have h4 := st h3 (.give 0 7 [8] _ rfl rfl rfl (Or.inr ⟨fun j => by rcases j with _ | _ | j <;> simp [Pool.init], rfl⟩))
  have h5 := st h4 (.releaseExec 0 7 rfl)
  have h6 := st h5 (.acquire 1 false rfl rfl)
  have h7 := st h6 (.begin 1 false rfl rfl)
  have h8 := st h7 (.retired 1 rfl)
  have h9 := st h8 (.give 1 8 [] _ rfl rfl rfl (Or.inr ⟨fun j => by rcases j with _ | _ | j <;> simp [Pool.init, maybeStart], rfl⟩))
  exact st h9 (.releaseExec 1 8 rfl)

example : (both.pcs.filter PC.isExec).length = 2 ∧ listTM.Live both :=
  ⟨rfl, ⟨fun k ok _ _ => ⟨_, rfl⟩, Or.inr (Or.inr ⟨_, rfl, rfl⟩)⟩⟩

/-- … and the run ends: 7 fails, 8 succeeds, both are retired accordingly and both workers leave. -/
theorem both_ends : ∃ s, Reach listTM [7, 8] 2 s ∧ s.st = .completed ∧ s.pcs = [.halted, .halted] ∧
    s.retired = (8, true) ::ₘ (7, false) ::ₘ 0 := by
  have h1 := st both_reach (.execute 0 7 false rfl)
  have h2 := st h1 (.enqueue 0 7 false rfl)
  have h3 := st h2 (.acquire 0 true rfl rfl)
  have h4 := st h3 (.begin 0 true rfl rfl)
  have h5 := st h4 (.retire 0 7 false [] [] rfl rfl)
  have h6 := st h5 (.retired 0 rfl)
  have h7 := st h6 (.stall 0 [] rfl rfl ⟨rfl, rfl⟩ (by decide))
  have h8 := st h7 (.releaseIdle 0 rfl)
  have h9 := st h8 (.acquire 0 false rfl rfl)
  have h10 := st h9 (.wait 0 false rfl (Or.inr rfl))
  have h11 := st h10 (.execute 1 8 true rfl)
  have h12 := st h11 (.enqueue 1 8 true rfl)
  have h13 := st h12 (.acquire 1 true rfl rfl)
  have h14 := st h13 (.begin 1 true rfl rfl)
  have h15 := st h14 (.retire 1 8 true [] [] rfl rfl)
  have h16 := st h15 (.retired 1 rfl)
  have h17 := st h16 (.complete 1 [] rfl rfl ⟨rfl, rfl⟩ rfl)
  have h18 := st h17 (.releaseIdle 1 rfl)
  have h19 := st h18 (.acquire 1 false rfl rfl)
  have h20 := st h19 (.halt 1 false rfl rfl)
  have h21 := st h20 (.reacquire 0 rfl rfl)
  have h22 := st h21 (.halt 0 false rfl rfl)
  exact ⟨_, h22, rfl, rfl, rfl⟩

/-- the hypotheses of `C12_terminates` are met by this taskmaster if retiring counts: with the number of tasks outstanding -/
def countTM : TMI (List Nat × Nat) Nat where
  internal _ _ := False
  give t k t' := t.1 = k :: t'.1 ∧ t'.2 = t.2 + 1
  empty t t' := t.1 = [] ∧ t' = t
  retire t _ _ t' := t.2 = t'.2 + 1 ∧ t'.1 = t.1
  signal _ _ := False

example : WellFounded (fun s' s : Pool (List Nat × Nat) Nat => Step countTM s s') :=
  C12_terminates countTM (· < ·) Nat.lt_wfRel.wf (fun t => 2 * t.1.length + t.2) (fun _ _ h => h.elim)
    (fun t k t' h => by obtain ⟨h1, h2⟩ := h; simp only [h1, h2, List.length_cons]; omega)
    (fun t k ok t' h => by obtain ⟨h1, h2⟩ := h; simp only [h1, h2]; omega)
    (fun t t' h => Or.inl (by rw [h.2]))

end Verif.Pool
