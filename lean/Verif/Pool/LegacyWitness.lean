import Verif.Pool.Total
import Verif.Pool.Witness

/-! Non-vacuity of C62: concrete runs of `LegacyParallel` (two workers, three tasks, an interrupt) and of a build of the example project. -/

namespace Verif.Pool

/-- as `listTM`, with an interrupt that empties the list -/
def listTM' : TMI (List Nat) Nat where
  internal _ _ := False
  give t k t' := t = k :: t'
  empty t t' := t = [] ∧ t' = []
  retire t _ _ t' := t' = t
  signal _ t' := t' = []

theorem lst {s t u : Leg (List Nat) Nat} (h : Relation.ReflTransGen (LegNext listTM') s t) (h' : LegStep listTM' t u) :
    Relation.ReflTransGen (LegNext listTM') s u := h.tail (Or.inl h')

/-- two workers execute at the same time while a third task waits for a free place: the bound is attained -/
def legBoth : Leg (List Nat) Nat where
  pc := .wait
  workers := [.exec 8, .exec 7]
  jobs := 2
  tm := [9]
  max := 2
  given := 8 ::ₘ 7 ::ₘ 0

theorem legBoth_reach : LegReach listTM' [7, 8, 9] 2 legBoth := by
  have h1 := lst .refl (.give (M := listTM') (s := Leg.init [7, 8, 9] 2) 7 [8, 9] rfl (by decide) rfl)
  have h2 := lst h1 (.give 8 [9] rfl (by decide) rfl)
  have h3 := lst h2 (.full rfl (by decide))
  have h4 := lst h3 (.take 1 7 [some 8] rfl rfl)
  have h5 := lst h4 (.take 0 8 [] rfl rfl)
  have h6 := lst h5 (.begin 1 7 rfl rfl)
  exact lst h6 (.begin 0 8 rfl rfl)

example : (legBoth.workers.filter WPC.isExec).length = 2 ∧ LLive listTM' legBoth :=
  ⟨rfl, ⟨fun k ok _ => ⟨_, rfl⟩, Or.inr (Or.inl ⟨9, [], rfl⟩)⟩⟩

/-- 7 fails, 9 is handed out, the interrupt comes, 8 succeeds, 9 is refused; the main thread returns with all three retired. -/
theorem legBoth_ends : ∃ s, LegReach listTM' [7, 8, 9] 2 s ∧ s.pc = .halted ∧ s.intr = true ∧
    s.execd = (8, true) ::ₘ (7, false) ::ₘ 0 ∧ s.retired = (9, false) ::ₘ (8, true) ::ₘ (7, false) ::ₘ 0 := by
  have h1 := lst legBoth_reach (.execute 1 7 false rfl)
  have h2 := lst h1 (.report 1 7 false rfl)
  have h3 := lst h2 (.get 7 false [] rfl rfl)
  have h4 := lst h3 (.retire 7 false [9] rfl rfl)
  have h5 := lst h4 (.give 9 [] rfl (by decide) rfl)
  have h6 := lst h5 (.full rfl (by decide))
  have h7 := h6.tail (Or.inr ⟨[], rfl, rfl⟩)
  have h8 := lst h7 (.take 1 9 [] rfl rfl)
  have h9 := lst h8 (.refuse 1 9 rfl rfl)
  have h10 := lst h9 (.execute 0 8 true rfl)
  have h11 := lst h10 (.report 0 8 true rfl)
  have h12 := lst h11 (.report 1 9 false rfl)
  have h13 := lst h12 (.get 8 true [(9, false)] rfl rfl)
  have h14 := lst h13 (.retire 8 true [] rfl rfl)
  have h15 := lst h14 (.get 9 false [] rfl rfl)
  have h16 := lst h15 (.retire 9 false [] rfl rfl)
  have h17 := lst h16 (.stop [] rfl (by decide) ⟨rfl, rfl⟩ rfl)
  have h18 := lst h17 (.cleanup rfl)
  have h19 := lst h18 (.join rfl)
  exact ⟨_, h19, rfl, rfl, rfl, rfl⟩

/-- the example project (a diamond of four files) satisfies the hypotheses of the theorems about whole builds, at every `-j` -/
example (n : Nat) : ∃ s', Relation.ReflTransGen (Step (tmi TM.diamond (ProgLab TM.diamond))) (Pool.init (TM.St.init [0]) n) s' ∧ (∀ p ∈ s'.pcs, p = .halted) ∧
    s'.tm.over ∧ s'.retired = s'.execd ∧ s'.retired.map Prod.fst = s'.given :=
  (C12_build_ends TM.diamond_project .refl).2

example : ∃ s', Relation.ReflTransGen (LegStep (tmi TM.diamond (ProgLab TM.diamond))) (Leg.init (TM.St.init [0]) 2) s' ∧ s'.pc = .halted ∧ s'.tm.over ∧
    s'.given = s'.retired.map Prod.fst :=
  (C62_build_ends TM.diamond_project (by decide) .refl).2

end Verif.Pool
