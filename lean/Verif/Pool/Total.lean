import Verif.Pool.Legacy
import Verif.TM.Term

/-!
# Every build comes to an end

The schedulers (`NewParallel`, `LegacyParallel`, `Serial`) driving the taskmaster: with the termination of the walk (`C09`), a build of any finite project ends, whatever
the interleaving of the threads, whatever the scans answer, whatever fails, and whenever an interrupt comes; and it ends with every worker out of its loop.
-/

namespace Verif.Pool

open Verif.TM (Cfg St Lab Steps)

variable {V : Type} [DecidableEq V] [Fintype V]

/-- The labels of `C09_build_terminates`: no scan reports a side-effect file, no exception of a scan is ignored; the candidates are given up only if there are any;
the interrupt counts once. -/
def ProgLab (C : Cfg V) (S : St V) (l : Lab V) : Prop := l.noSE C ∧ l.progress S

theorem ProgLab.ample (C : Cfg V) : Ample (ProgLab C) where
  flush S h := ⟨trivial, h⟩
  raised S post := ⟨⟨by simp, by simp⟩, trivial⟩
  ok S n post := ⟨trivial, trivial⟩
  failed S n post := ⟨trivial, trivial⟩

/-- The measure of the walk. -/
abbrev Mu : Type := Nat ×ₗ (Nat ×ₗ ((Nat ×ₗ (Nat ×ₗ Nat)) ×ₗ Nat))

/-- An infinite sequence of states cannot decrease for ever. -/
theorem no_descent {S W : Type} {lt : W → W → Prop} (hwf : WellFounded lt) (μ : S → W) (f : Nat → S) (h : ∀ i, lt (μ (f (i + 1))) (μ (f i))) : False := by
  obtain ⟨w, ⟨i, rfl⟩, hw⟩ := hwf.has_min (Set.range fun i => μ (f i)) ⟨_, 0, rfl⟩
  exact hw _ ⟨i + 1, rfl⟩ (h i)

/-- From a state where every step can be followed by another until `Q`, and no infinite run, `Q` is reached. -/
theorem reaches {S : Type} {R : S → S → Prop} {I Q : S → Prop} (hI : ∀ a b, I a → R a b → I b) (hQ : ∀ a, I a → Q a ∨ ∃ b, R a b)
    (hinf : ∀ f : Nat → S, I (f 0) → ¬ ∀ i, R (f i) (f (i + 1))) {a : S} (ha : I a) : ∃ b, Relation.ReflTransGen R a b ∧ Q b := by
  classical
  by_contra hne
  have hn : ∀ x : { x : S // Relation.ReflTransGen R a x ∧ I x }, ∃ y : { y : S // Relation.ReflTransGen R a y ∧ I y }, R x.1 y.1 := by
    rintro ⟨x, hx, hxI⟩
    rcases hQ x hxI with h | ⟨y, hy⟩
    · exact absurd ⟨x, hx, h⟩ hne
    · exact ⟨⟨y, hx.tail hy, hI _ _ hxI hy⟩, hy⟩
  choose g hg using hn
  let f : Nat → { x : S // Relation.ReflTransGen R a x ∧ I x } := fun n => Nat.rec ⟨a, .refl, ha⟩ (fun _ x => g x) n
  exact hinf (fun n => (f n).1) ha (fun i => hg (f i))

/-! ## `NewParallel` -/

theorem next_decr {C : Cfg V} {orig : List V} {max : Nat} (hp : TM.Project C orig) {s s' : Pool (St V) V}
    (h : Reach (tmi C (ProgLab C)) (St.init orig) max s) (hn : Next (tmi C (ProgLab C)) s s') :
    Prod.Lex (fun a b : Mu => a < b) (fun a b : Nat => a < b) (TM.walkMeasure C s'.tm, s'.weight) (TM.walkMeasure C s.tm, s.weight) := by
  have hinv : TM.Inv C orig s.tm := TM.Reach.inv hp (fun _ _ h => h.1) (scheduler_refines_taskmaster h)
  rcases hn with hn | ⟨tm', hs, rfl⟩
  · refine Step.decr ?_ ?_ ?_ ?_ hn
    · rintro t' ⟨l, hP, -, hs, -⟩; exact TM.walk_step hp.wf hinv hP.1 hP.2 hs
    · rintro k t' ⟨l, hP, -, hs, -⟩; exact TM.walk_step hp.wf hinv hP.1 hP.2 hs
    · rintro k ok t' ⟨res, post, hP, -, hs⟩; exact TM.walk_step hp.wf hinv hP.1 hP.2 hs
    · rintro t' ⟨rfl, -⟩; exact .inl rfl
  · exact Prod.Lex.left _ _ (TM.walk_step hp.wf hinv hs.1.1 hs.1.2 hs.2)

theorem lex_wf : WellFounded (Prod.Lex (fun a b : Mu => a < b) (fun a b : Nat => a < b)) := WellFounded.prod_lex wellFounded_lt Nat.lt_wfRel.wf

/-- **C12, every build terminates** (`NewParallel`, any `-j`): there is no infinite execution of the scheduler with the taskmaster. -/
theorem C12_build_terminates {C : Cfg V} {orig : List V} {max : Nat} (hp : TM.Project C orig) (f : Nat → Pool (St V) V)
    (h0 : f 0 = Pool.init (St.init orig) max) (hs : ∀ i, Next (tmi C (ProgLab C)) (f i) (f (i + 1))) : False := by
  have hr : ∀ i, Reach (tmi C (ProgLab C)) (St.init orig) max (f i) := by
    intro i
    induction i with
    | zero => rw [h0]; exact .refl
    | succ i ih => exact ih.tail (hs i)
  exact no_descent lex_wf (fun s : Pool (St V) V => (TM.walkMeasure C s.tm, s.weight)) f (fun i => next_decr hp (hr i) (hs i))

/-- **C12, and it ends with every worker out of the loop and every task handed out retired, with the outcome of its execution**: an execution that can go on has not
got there, and from every state it can be reached. -/
theorem C12_build_ends {C : Cfg V} {orig : List V} {max : Nat} (hp : TM.Project C orig) {s : Pool (St V) V}
    (h : Reach (tmi C (ProgLab C)) (St.init orig) max s) :
    ((¬ ∃ s', Step (tmi C (ProgLab C)) s s') → ∀ p ∈ s.pcs, p = .halted) ∧
    ∃ s', Relation.ReflTransGen (Step (tmi C (ProgLab C))) s s' ∧ (∀ p ∈ s'.pcs, p = .halted) ∧ s'.tm.over ∧ s'.retired = s'.execd ∧
      s'.retired.map Prod.fst = s'.given := by
  refine ⟨fun hn => (C12_no_deadlock_with_taskmaster (ProgLab.ample C) h).resolve_right hn, ?_⟩
  obtain ⟨s', hs, hq⟩ := reaches (R := Step (tmi C (ProgLab C))) (I := fun s => Reach (tmi C (ProgLab C)) (St.init orig) max s)
    (Q := fun s => ∀ p ∈ s.pcs, p = .halted) (fun a b ha hb => ha.tail (Or.inl hb)) (fun a ha => C12_no_deadlock_with_taskmaster (ProgLab.ample C) ha)
    (fun f h0 hs => by
      have hr : ∀ i, Reach (tmi C (ProgLab C)) (St.init orig) max (f i) := by
        intro i
        induction i with
        | zero => exact h0
        | succ i ih => exact ih.tail (Or.inl (hs i))
      exact no_descent lex_wf (fun s : Pool (St V) V => (TM.walkMeasure C s.tm, s.weight)) f (fun i => next_decr hp (hr i) (Or.inl (hs i)))) h
  have hr : Reach (tmi C (ProgLab C)) (St.init orig) max s' := by
    clear hq
    induction hs with
    | refl => exact h
    | tail _ hb ih => exact ih.tail (Or.inl hb)
  obtain ⟨p, hp'⟩ := List.exists_mem_of_ne_nil _ (Reach.pcs_ne hr)
  obtain ⟨i, hi, hpi⟩ := List.mem_iff_getElem.1 hp'
  have hh : s'.pcs[i]? = some .halted := by rw [List.getElem?_eq_getElem hi, hpi, hq p hp']
  exact ⟨s', hs, hq, complete_is_over hr (hr.inv.halt _ hh), C13_all_retired_when_a_worker_left hr hh⟩

/-! ## `LegacyParallel` -/

theorem legNext_decr {C : Cfg V} {orig : List V} {max : Nat} (hp : TM.Project C orig) {s s' : Leg (St V) V}
    (h : LegReach (tmi C (ProgLab C)) (St.init orig) max s) (hn : LegNext (tmi C (ProgLab C)) s s') :
    Prod.Lex (fun a b : Mu => a < b) (fun a b : Nat => a < b) (TM.walkMeasure C s'.tm, s'.weight) (TM.walkMeasure C s.tm, s.weight) := by
  have hinv : TM.Inv C orig s.tm := TM.Reach.inv hp (fun _ _ h => h.1) (C62_legacy_refines_taskmaster h)
  rcases hn with hn | ⟨tm', hs, rfl⟩
  · refine LegStep.decr ?_ ?_ ?_ ?_ hn
    · rintro t' ⟨l, hP, -, hs, -⟩; exact TM.walk_step hp.wf hinv hP.1 hP.2 hs
    · rintro k t' ⟨l, hP, -, hs, -⟩; exact TM.walk_step hp.wf hinv hP.1 hP.2 hs
    · rintro k ok t' ⟨res, post, hP, -, hs⟩; exact TM.walk_step hp.wf hinv hP.1 hP.2 hs
    · rintro t' ⟨rfl, -⟩; exact .inl rfl
  · exact Prod.Lex.left _ _ (TM.walk_step hp.wf hinv hs.1.1 hs.1.2 hs.2)

/-- **C62, every build terminates** (`LegacyParallel`). -/
theorem C62_build_terminates {C : Cfg V} {orig : List V} {max : Nat} (hp : TM.Project C orig) (f : Nat → Leg (St V) V)
    (h0 : f 0 = Leg.init (St.init orig) max) (hs : ∀ i, LegNext (tmi C (ProgLab C)) (f i) (f (i + 1))) : False := by
  have hr : ∀ i, LegReach (tmi C (ProgLab C)) (St.init orig) max (f i) := by
    intro i
    induction i with
    | zero => rw [h0]; exact .refl
    | succ i ih => exact ih.tail (hs i)
  exact no_descent lex_wf (fun s : Leg (St V) V => (TM.walkMeasure C s.tm, s.weight)) f (fun i => legNext_decr hp (hr i) (hs i))

/-- **C62, and the main thread returns**, with every task handed out retired and the walk over. -/
theorem C62_build_ends {C : Cfg V} {orig : List V} {max : Nat} (hp : TM.Project C orig) (hm : 1 ≤ max) {s : Leg (St V) V}
    (h : LegReach (tmi C (ProgLab C)) (St.init orig) max s) :
    ((¬ ∃ s', LegStep (tmi C (ProgLab C)) s s') → s.pc = .halted) ∧
    ∃ s', Relation.ReflTransGen (LegStep (tmi C (ProgLab C))) s s' ∧ s'.pc = .halted ∧ s'.tm.over ∧ s'.given = s'.retired.map Prod.fst := by
  refine ⟨fun hn => (C62_no_deadlock_with_taskmaster hm (ProgLab.ample C) h).resolve_right hn, ?_⟩
  obtain ⟨s', hs, hq⟩ := reaches (R := LegStep (tmi C (ProgLab C))) (I := fun s => LegReach (tmi C (ProgLab C)) (St.init orig) max s)
    (Q := fun s => s.pc = .halted) (fun a b ha hb => ha.tail (Or.inl hb)) (fun a ha => C62_no_deadlock_with_taskmaster hm (ProgLab.ample C) ha)
    (fun f h0 hs => by
      have hr : ∀ i, LegReach (tmi C (ProgLab C)) (St.init orig) max (f i) := by
        intro i
        induction i with
        | zero => exact h0
        | succ i ih => exact ih.tail (Or.inl (hs i))
      exact no_descent lex_wf (fun s : Leg (St V) V => (TM.walkMeasure C s.tm, s.weight)) f (fun i => legNext_decr hp (hr i) (Or.inl (hs i)))) h
  have hr : LegReach (tmi C (ProgLab C)) (St.init orig) max s' := by
    clear hq
    induction hs with
    | refl => exact h
    | tail _ hb ih => exact ih.tail (Or.inl hb)
  have hl : ¬ s'.pc.live := by rw [hq]; exact fun h => h
  exact ⟨s', hs, hq, C62_legacy_over hm hr hl, ((C62_no_task_lost_or_retired_twice hm hr).2 hl).1⟩

/-! ## `Serial` -/

/-- Work left in one round. -/
def SPC.weight : SPC V → Nat
  | .loop => 1
  | .exec _ => 0
  | .done => 0

theorem serStep_decr {C : Cfg V} {orig : List V} (hp : TM.Project C orig) {s s' : Ser (St V) V}
    (h : SerReach (tmi C (ProgLab C)) (St.init orig) s) (hn : SerStep (tmi C (ProgLab C)) s s') :
    Prod.Lex (fun a b : Mu => a < b) (fun a b : Nat => a < b) (TM.walkMeasure C s'.tm, s'.pc.weight) (TM.walkMeasure C s.tm, s.pc.weight) := by
  have hinv : TM.Inv C orig s.tm := TM.Reach.inv hp (fun _ _ h => h.1) (C62_serial h).1
  cases hn with
  | internal tm' h ht => obtain ⟨l, hP, -, hs, -⟩ := ht; exact Prod.Lex.left _ _ (TM.walk_step hp.wf hinv hP.1 hP.2 hs)
  | give k tm' h ht => obtain ⟨l, hP, -, hs, -⟩ := ht; exact Prod.Lex.left _ _ (TM.walk_step hp.wf hinv hP.1 hP.2 hs)
  | finish k ok tm' h ht => obtain ⟨res, post, hP, -, hs⟩ := ht; exact Prod.Lex.left _ _ (TM.walk_step hp.wf hinv hP.1 hP.2 hs)
  | stop tm' h ht =>
    have : tm' = s.tm := ht.1
    subst this
    refine Prod.Lex.right _ ?_
    rw [h]; exact Nat.zero_lt_one
  | signal tm' ht => exact Prod.Lex.left _ _ (TM.walk_step hp.wf hinv ht.1.1 ht.1.2 ht.2)

/-- **C62, every build terminates** (`Serial`), and ends with the walk over. -/
theorem C62_serial_build_ends {C : Cfg V} {orig : List V} (hp : TM.Project C orig) :
    (∀ f : Nat → Ser (St V) V, f 0 = { tm := St.init orig } → ¬ ∀ i, SerStep (tmi C (ProgLab C)) (f i) (f (i + 1))) ∧
    ∀ s, SerReach (tmi C (ProgLab C)) (St.init orig) s →
      ∃ s', Relation.ReflTransGen (SerStep (tmi C (ProgLab C))) s s' ∧ s'.pc = .done ∧ s'.tm.over ∧ s'.given = s'.retired.map Prod.fst := by
  have hinf : ∀ f : Nat → Ser (St V) V, SerReach (tmi C (ProgLab C)) (St.init orig) (f 0) → ¬ ∀ i, SerStep (tmi C (ProgLab C)) (f i) (f (i + 1)) := by
    intro f h0 hs
    have hr : ∀ i, SerReach (tmi C (ProgLab C)) (St.init orig) (f i) := by
      intro i
      induction i with
      | zero => exact h0
      | succ i ih => exact ih.tail (hs i)
    exact no_descent lex_wf (fun s : Ser (St V) V => (TM.walkMeasure C s.tm, s.pc.weight)) f (fun i => serStep_decr hp (hr i) (hs i))
  refine ⟨fun f h0 => hinf f (by rw [h0]; exact .refl), fun s h => ?_⟩
  obtain ⟨s', hs, hq⟩ := reaches (R := SerStep (tmi C (ProgLab C))) (I := fun s => SerReach (tmi C (ProgLab C)) (St.init orig) s)
    (Q := fun s => s.pc = .done) (fun a b ha hb => ha.tail hb)
    (fun a ha => by by_cases hd : a.pc = .done
                    · exact .inl hd
                    · exact .inr (C62_serial_no_deadlock (ProgLab.ample C) ha hd)) hinf h
  have hr : SerReach (tmi C (ProgLab C)) (St.init orig) s' := Relation.ReflTransGen.trans h hs
  exact ⟨s', hs, hq, (C62_serial hr).2.2.2 hq⟩

end Verif.Pool
