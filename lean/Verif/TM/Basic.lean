import Verif.TM.Model
import Mathlib.Tactic.Common
import Mathlib.Data.Fintype.Basic

/-! Helper lemmas about the primitive operations of the Taskmaster model. -/

set_option linter.unusedSectionVars false
set_option linter.unusedSimpArgs false

namespace Verif.TM
variable {V : Type} [DecidableEq V]

@[simp] theorem upd_self {A : Type} (f : V → A) (x : V) (a : A) : upd f x a x = a := by simp [upd]
theorem upd_apply {A : Type} (f : V → A) (x y : V) (a : A) : upd f x a y = if y = x then a else f y := rfl
theorem updOn_apply {A : Type} (f : V → A) (p : V → Prop) [DecidablePred p] (a : A) (y : V) :
    updOn f p a y = if p y then a else f y := rfl

variable [Fintype V]

/-- number of nodes `p` waits for -/
def cnt (wp : V → Finset V) (p : V) : Int := ((Finset.univ.filter (fun c => p ∈ wp c)).card : Int)

theorem cnt_ne_zero {wp : V → Finset V} {p : V} (h : cnt wp p ≠ 0) : ∃ c, p ∈ wp c := by
  unfold cnt at h
  have : (Finset.univ.filter (fun c => p ∈ wp c)).card ≠ 0 := by exact_mod_cast h
  obtain ⟨c, hc⟩ := Finset.card_pos.1 (Nat.pos_of_ne_zero this)
  exact ⟨c, by simpa using hc⟩

theorem cnt_clear (wp : V → Finset V) (R : Finset V) (p : V) :
    cnt (updOn wp (· ∈ R) ∅) p = cnt wp p - ((R.filter (fun c => p ∈ wp c)).card : Int) := by
  unfold cnt
  have h : Finset.univ.filter (fun c => p ∈ wp c)
      = (Finset.univ.filter (fun c => p ∈ updOn wp (· ∈ R) ∅ c)) ∪ R.filter (fun c => p ∈ wp c) := by
    ext c
    rw [Finset.mem_union, Finset.mem_filter, Finset.mem_filter, Finset.mem_filter]
    simp only [Finset.mem_univ, true_and, updOn_apply]
    by_cases hc : c ∈ R <;> simp [hc]
  have hd : Disjoint (Finset.univ.filter (fun c => p ∈ updOn wp (· ∈ R) ∅ c)) (R.filter (fun c => p ∈ wp c)) := by
    rw [Finset.disjoint_left]
    intro c h1 h2
    rw [Finset.mem_filter] at h1 h2
    simp [updOn_apply, h2.1] at h1
  rw [h, Finset.card_union_of_disjoint hd]
  push_cast
  omega

theorem cnt_insert (wp : V → Finset V) (n c p : V) :
    cnt (upd wp c (insert n (wp c))) p = cnt wp p + (if p = n ∧ n ∉ wp c then 1 else 0) := by
  unfold cnt
  by_cases h : p = n ∧ n ∉ wp c
  · obtain ⟨rfl, h2⟩ := h
    have : Finset.univ.filter (fun x => p ∈ upd wp c (insert p (wp c)) x)
        = insert c (Finset.univ.filter (fun x => p ∈ wp x)) := by
      ext x
      rw [Finset.mem_filter, Finset.mem_insert, Finset.mem_filter]
      by_cases hx : x = c <;> simp [upd_apply, hx]
    rw [this, Finset.card_insert_of_notMem (by simpa using h2)]
    simp [h2]
  · have : Finset.univ.filter (fun x => p ∈ upd wp c (insert n (wp c)) x)
        = Finset.univ.filter (fun x => p ∈ wp x) := by
      ext x
      rw [Finset.mem_filter, Finset.mem_filter]
      by_cases hx : x = c
      · subst hx
        simp only [Finset.mem_univ, true_and, upd_apply, if_true, Finset.mem_insert]
        constructor
        · rintro (h1 | h1)
          · by_contra h3; exact h ⟨h1, by subst h1; exact h3⟩
          · exact h1
        · exact Or.inr
      · simp [upd_apply, hx]
    rw [this]; simp [h]

/-! ### `addWaiting` -/

omit [Fintype V] in
theorem addWaiting_fields (n : V) (cs : List V) (S : St V) :
    (addWaiting n cs S).state = S.state ∧ (addWaiting n cs S).wse = S.wse ∧ (addWaiting n cs S).cands = S.cands
    ∧ (addWaiting n cs S).tops = S.tops ∧ (addWaiting n cs S).curTop = S.curTop ∧ (addWaiting n cs S).pend = S.pend
    ∧ (addWaiting n cs S).stopped = S.stopped ∧ (addWaiting n cs S).active = S.active
    ∧ (addWaiting n cs S).started = S.started ∧ (addWaiting n cs S).failedTasks = S.failedTasks
    ∧ (addWaiting n cs S).seen = S.seen ∧ (addWaiting n cs S).born = S.born ∧ (addWaiting n cs S).clock = S.clock := by
  induction cs generalizing S with
  | nil => simp [addWaiting]
  | cons c cs ih => simpa [addWaiting] using ih _

omit [Fintype V] in
theorem addWaiting_wp (n : V) (cs : List V) (S : St V) (x : V) :
    (addWaiting n cs S).wp x = if x ∈ cs then insert n (S.wp x) else S.wp x := by
  induction cs generalizing S with
  | nil => simp [addWaiting]
  | cons c cs ih =>
    simp only [addWaiting, ih, upd_apply, List.mem_cons]
    by_cases h1 : x ∈ cs <;> by_cases h2 : x = c <;> simp [h1, h2]

theorem addWaiting_ref (n : V) (cs : List V) (S : St V) (h : ∀ p, S.ref p = cnt S.wp p) (p : V) :
    (addWaiting n cs S).ref p = cnt (addWaiting n cs S).wp p := by
  induction cs generalizing S with
  | nil => simpa [addWaiting] using h p
  | cons c cs ih =>
    simp only [addWaiting]
    apply ih
    intro p
    simp only
    rw [cnt_insert, upd_apply]
    split_ifs with h1 h2 h3 h3
    all_goals grind

/-! ### `upSet` -/

theorem upIter_mono (wp : V → Finset V) (k : Nat) (A : Finset V) : A ⊆ upIter wp k A := by
  induction k generalizing A with
  | zero => exact Finset.Subset.refl _
  | succ k ih => exact (Finset.subset_union_left).trans (ih _)

theorem subset_upSet (wp : V → Finset V) (A : Finset V) : A ⊆ upSet wp A := upIter_mono _ _ _

theorem upIter_closed_or (wp : V → Finset V) (k : Nat) (A : Finset V) :
    (∀ c ∈ upIter wp k A, wp c ⊆ upIter wp k A) ∨ k + A.card ≤ (upIter wp k A).card := by
  induction k generalizing A with
  | zero => right; simp [upIter]
  | succ k ih =>
    simp only [upIter]
    by_cases h : A.biUnion wp ⊆ A
    · left
      have hA : A ∪ A.biUnion wp = A := Finset.union_eq_left.2 h
      have : ∀ j, upIter wp j A = A := by
        intro j
        induction j with
        | zero => rfl
        | succ j ihj => simp only [upIter, hA, ihj]
      rw [hA, this]
      intro c hc x hx
      exact h (Finset.mem_biUnion.2 ⟨c, hc, hx⟩)
    · rcases ih (A ∪ A.biUnion wp) with h1 | h1
      · exact Or.inl h1
      · right
        have : A.card + 1 ≤ (A ∪ A.biUnion wp).card := by
          apply Finset.card_lt_card
          refine ⟨Finset.subset_union_left, fun h2 => h (Finset.subset_union_right.trans h2)⟩
        omega

/-- `upSet` is closed under `waiting_parents`. -/
theorem upSet_closed (wp : V → Finset V) (A : Finset V) : ∀ c ∈ upSet wp A, ∀ p ∈ wp c, p ∈ upSet wp A := by
  rcases upIter_closed_or wp (Fintype.card V) A with h | h
  · exact fun c hc p hp => h c hc hp
  · intro c hc p hp
    have h2 : (upSet wp A).card = Fintype.card V := by
      have := Finset.card_le_univ (upSet wp A)
      unfold upSet at this ⊢
      omega
    rw [Finset.card_eq_iff_eq_univ] at h2
    rw [h2]; exact Finset.mem_univ _

/-- `upSet` is the least such set. -/
theorem upSet_ind (wp : V → Finset V) (A : Finset V) (P : V → Prop) (h0 : ∀ x ∈ A, P x)
    (h1 : ∀ c p, P c → p ∈ wp c → P p) : ∀ x ∈ upSet wp A, P x := by
  unfold upSet
  generalize Fintype.card V = k
  induction k generalizing A with
  | zero => exact h0
  | succ k ih =>
    apply ih
    intro x hx
    rcases Finset.mem_union.1 hx with h | h
    · exact h0 x h
    · obtain ⟨c, hc, hp⟩ := Finset.mem_biUnion.1 h
      exact h1 c x (h0 c hc) hp

end Verif.TM
