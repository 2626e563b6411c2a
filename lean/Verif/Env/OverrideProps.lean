import Verif.Env.Override

set_option linter.unusedSectionVars false
set_option linter.unusedVariables false

/-!
# C49: override environments

Who sees which write, after any history of operations on any number of environments, nested in any way.
-/

namespace Verif.Env.Override
variable {κ ν : Type} [DecidableEq κ]

theorem update_apply (d : κ → Option ν) (kw : List (κ × ν)) (k : κ) (h : ∀ v, (k, v) ∉ kw) : update d kw k = d k := by
  induction kw generalizing d with
  | nil => rfl
  | cons p kw ih =>
    obtain ⟨k', v⟩ := p
    rw [update, ih _ (fun v hv => h v (List.mem_cons_of_mem _ hv))]
    have : k ≠ k' := fun e => h v (by subst e; exact List.mem_cons_self)
    simp [this]

theorem update_unique (d : κ → Option ν) (kw : List (κ × ν)) (k : κ) (v : ν) (h : (k, v) ∈ kw) (hn : (kw.map Prod.fst).Nodup) :
    update d kw k = some v := by
  induction kw generalizing d with
  | nil => cases h
  | cons p kw ih =>
    obtain ⟨k', v'⟩ := p
    rw [update]
    rw [List.map_cons, List.nodup_cons] at hn
    rcases List.mem_cons.1 h with e | h
    · simp only [Prod.mk.injEq] at e
      obtain ⟨rfl, rfl⟩ := e
      rw [update_apply]
      · simp
      · intro v2 h2; exact hn.1 (List.mem_map.2 ⟨_, h2, rfl⟩)
    · exact ih _ h hn.2

def subject? : Obj κ ν → Option Nat
  | .base _ => none
  | .over s _ _ => some s

/-- What an object itself says about `k`: nothing, "deleted", or a value. -/
def slot : Obj κ ν → κ → Option (Option ν)
  | .base d, k => some (d k)
  | .over _ ov del, k => match ov k with | some v => some (some v) | none => if k ∈ del then some none else none

theorem getitem_eq (w : World κ ν) (i : Nat) (k : κ) :
    getitem w i k = match slot (w.env i) k with
      | some o => o
      | none => match subject? (w.env i) with | some s => if s < i then getitem w s k else none | none => none := by
  rw [getitem]
  cases h : w.env i with
  | base d => simp [slot]
  | over s ov del =>
    simp only [slot, subject?]
    cases h2 : ov k with
    | some v => simp
    | none => by_cases h3 : k ∈ del <;> simp [h3]

theorem slot_replaceObj (N : Names κ) (kw : List (κ × ν)) (o : Obj κ ν) (k : κ) (h : ∀ v, (k, v) ∉ kw) :
    slot (replaceObj N kw o) k = slot o k := by
  have h' : ∀ v, (k, v) ∉ nonReserved N kw := fun v hv => h v (List.mem_of_mem_filter hv)
  cases o <;> simp [replaceObj, slot, update_apply _ _ _ h']

theorem subject_replaceObj (N : Names κ) (kw : List (κ × ν)) (o : Obj κ ν) : subject? (replaceObj N kw o) = subject? o := by
  cases o <;> rfl

theorem put_env (w : World κ ν) (i j : Nat) (o : Obj κ ν) : (w.put i o).env j = if j = i then o else w.env j := rfl

/-- An operation that does not write to `j` leaves `j` as it is. -/
theorem step_other (N : Names κ) (w : World κ ν) (op : Op κ ν) (j : Nat) (hj : j < w.next) (h : op.target? ≠ some j) :
    (step N w op).1.env j = w.env j := by
  have hne : j ≠ w.next := by omega
  cases op with
  | newBase d => simp [step, put_env, hne]
  | override i kw => simp only [step]; split <;> simp [put_env, hne]
  | set i k v =>
    have : j ≠ i := fun e => h (by simp [Op.target?, e])
    simp only [step]; split <;> split <;> (try split) <;> simp [put_env, this]
  | del i k =>
    have : j ≠ i := fun e => h (by simp [Op.target?, e])
    simp only [step]; split <;> split <;> simp [put_env, this]
  | setdefault i k v =>
    have : j ≠ i := fun e => h (by simp [Op.target?, e])
    simp only [step]; split; · rfl
    split <;> simp [put_env, this]
  | replace i kw =>
    have : j ≠ i := fun e => h (by simp [Op.target?, e])
    simp [step, put_env, this]
  | SetDefault i kw =>
    have : j ≠ i := fun e => h (by simp [Op.target?, e])
    simp [step, put_env, this]

theorem step_next (N : Names κ) (w : World κ ν) (op : Op κ ν) : w.next ≤ (step N w op).1.next := by
  cases op <;> simp only [step] <;> (repeat' split) <;> simp [World.put]

/-- The subject of an existing environment never changes. -/
theorem step_subject (N : Names κ) (w : World κ ν) (op : Op κ ν) (j : Nat) (hj : j < w.next) :
    subject? ((step N w op).1.env j) = subject? (w.env j) := by
  by_cases h : op.target? = some j
  · cases op with
    | newBase d => simp [Op.target?] at h
    | override i kw => simp [Op.target?] at h
    | set i k v =>
      simp only [Op.target?, Option.some.injEq] at h; subst h
      simp only [step]; split <;> rename_i e <;> split <;> (try split) <;> simp [put_env, e, subject?]
    | del i k =>
      simp only [Op.target?, Option.some.injEq] at h; subst h
      simp only [step]; split <;> rename_i e <;> split <;> simp [put_env, e, subject?]
    | setdefault i k v =>
      simp only [Op.target?, Option.some.injEq] at h; subst h
      simp only [step]; split; · rfl
      split <;> rename_i e <;> simp [put_env, e, subject?]
    | replace i kw =>
      simp only [Op.target?, Option.some.injEq] at h; subst h
      simp [step, put_env, subject_replaceObj]
    | SetDefault i kw =>
      simp only [Op.target?, Option.some.injEq] at h; subst h
      simp [step, put_env, subject_replaceObj]
  · rw [step_other N w op j hj h]

/-- An operation that does not write variable `k` through `j` leaves what `j` itself says about `k`. -/
theorem step_slot (N : Names κ) (w : World κ ν) (op : Op κ ν) (j : Nat) (k : κ) (hj : j < w.next) (h : ¬ op.Touches j k) :
    slot ((step N w op).1.env j) k = slot (w.env j) k := by
  by_cases ht : op.target? = some j
  · cases op with
    | newBase d => simp [Op.target?] at ht
    | override i kw => simp [Op.target?] at ht
    | set i k' v =>
      simp only [Op.target?, Option.some.injEq] at ht; subst ht
      have hk : k ≠ k' := fun e => h (by simp [Op.Touches, e])
      have hk2 : k' ≠ k := Ne.symm hk
      simp only [step]; split <;> rename_i e <;> split <;> (try split) <;>
        simp [put_env, e, slot, update, hk, List.mem_erase_of_ne hk]
    | del i k' =>
      simp only [Op.target?, Option.some.injEq] at ht; subst ht
      have hk : k ≠ k' := fun e => h (by simp [Op.Touches, e])
      simp only [step]; split <;> rename_i e <;> split <;> simp [put_env, e, slot, hk]
    | setdefault i k' v =>
      simp only [Op.target?, Option.some.injEq] at ht; subst ht
      have hk : k ≠ k' := fun e => h (by simp [Op.Touches, e])
      simp only [step]; split; · rfl
      split <;> rename_i e <;> simp [put_env, e, slot, update, hk]
    | replace i kw =>
      simp only [Op.target?, Option.some.injEq] at ht; subst ht
      have hk : ∀ v, (k, v) ∉ kw := fun v hv => h ⟨rfl, v, hv⟩
      simp [step, put_env, slot_replaceObj N kw _ k hk]
    | SetDefault i kw =>
      simp only [Op.target?, Option.some.injEq] at ht; subst ht
      have hk : ∀ v, (k, v) ∉ kw := fun v hv => h ⟨rfl, v, hv⟩
      simp only [step, put_env, if_true]
      exact slot_replaceObj N _ _ k (fun v hv => hk v (List.mem_of_mem_filter hv))
  · rw [step_other N w op j hj ht]

theorem WF.step (N : Names κ) {w : World κ ν} (hw : WF w) {op : Op κ ν} (he : op.Exists w) : WF (step N w op).1 := by
  have key : ∀ i, i < w.next → (Verif.Env.Override.step N w op).1.next = w.next →
      (∀ j, j ≠ i → (Verif.Env.Override.step N w op).1.env j = w.env j) → WF (Verif.Env.Override.step N w op).1 := by
    intro i hi hn ho
    constructor
    · intro j s ov del hj
      by_cases hlt : j < w.next
      · have := step_subject N w op j hlt
        rw [hj] at this
        simp only [subject?] at this
        cases hb : w.env j with
        | base d => simp [hb] at this
        | over s2 ov2 del2 =>
          rw [hb] at this
          simp only [Option.some.injEq] at this
          rw [this]; exact hw.older _ _ _ _ hb
      · have : j ≠ i := by omega
        rw [ho j this] at hj; exact hw.older _ _ _ _ hj
    · intro j hj
      rw [hn] at hj
      rw [ho j (by omega)]; exact hw.fresh j hj
  cases op with
  | newBase d =>
    constructor
    · intro j s ov del hj
      simp only [Verif.Env.Override.step, put_env] at hj
      split at hj
      · cases hj
      · exact hw.older _ _ _ _ hj
    · intro j hj
      simp only [Verif.Env.Override.step] at hj ⊢
      rw [put_env, if_neg (by omega)]; exact hw.fresh j (by omega)
  | override i kw =>
    simp only [Op.Exists] at he
    simp only [Verif.Env.Override.step]
    split
    · exact hw
    · constructor
      · intro j s ov del hj
        simp only [put_env] at hj
        split at hj
        · cases hj; omega
        · exact hw.older _ _ _ _ hj
      · intro j hj
        simp only at hj ⊢
        rw [put_env, if_neg (by omega)]; exact hw.fresh j (by omega)
  | set i k v =>
    refine key i he ?_ ?_
    · simp only [Verif.Env.Override.step]; split <;> split <;> (try split) <;> rfl
    · intro j hj; simp only [Verif.Env.Override.step]; split <;> split <;> (try split) <;> simp [put_env, hj]
  | del i k =>
    refine key i he ?_ ?_
    · simp only [Verif.Env.Override.step]; split <;> split <;> rfl
    · intro j hj; simp only [Verif.Env.Override.step]; split <;> split <;> simp [put_env, hj]
  | setdefault i k v =>
    refine key i he ?_ ?_
    · simp only [Verif.Env.Override.step]; split
      · rfl
      · split <;> rfl
    · intro j hj; simp only [Verif.Env.Override.step]; split
      · rfl
      · split <;> simp [put_env, hj]
  | replace i kw =>
    refine key i he rfl ?_
    intro j hj; simp [Verif.Env.Override.step, put_env, hj]
  | SetDefault i kw =>
    refine key i he rfl ?_
    intro j hj; simp [Verif.Env.Override.step, put_env, hj]

theorem WF.empty : WF (World.empty : World κ ν) :=
  ⟨fun _ _ _ _ h => by simp [World.empty] at h, fun _ _ => rfl⟩

theorem Runs.wf {N : Names κ} {w w' : World κ ν} {ops : List (Op κ ν)} (h : Runs N w ops w') (hw : WF w) : WF w' := by
  induction h with
  | nil => exact hw
  | cons he _ ih => exact ih (hw.step N he)

theorem Runs.next {N : Names κ} {w w' : World κ ν} {ops : List (Op κ ν)} (h : Runs N w ops w') : w.next ≤ w'.next := by
  induction h with
  | nil => exact Nat.le_refl _
  | @cons w op ops w' he _ ih => exact Nat.le_trans (step_next N w op) ih

theorem Runs.subject {N : Names κ} {w w' : World κ ν} {ops : List (Op κ ν)} (h : Runs N w ops w') {i : Nat} (hi : i < w.next) :
    subject? (w'.env i) = subject? (w.env i) := by
  induction h with
  | nil => rfl
  | @cons w op ops w' he _ ih => rw [ih (Nat.lt_of_lt_of_le hi (step_next N w op)), step_subject N w op i hi]

theorem Runs.slot {N : Names κ} {w w' : World κ ν} {ops : List (Op κ ν)} (h : Runs N w ops w') {i : Nat} (hi : i < w.next) {k : κ}
    (ht : ∀ op ∈ ops, ¬ op.Touches i k) : slot (w'.env i) k = slot (w.env i) k := by
  induction h with
  | nil => rfl
  | @cons w op ops w' he _ ih =>
    rw [ih (Nat.lt_of_lt_of_le hi (step_next N w op)) (fun o ho => ht o (List.mem_cons_of_mem _ ho)),
      step_slot N w op i k hi (ht op List.mem_cons_self)]

/-- Everything a program can read of environment `i`. -/
def SameView (w w' : World κ ν) (i : Nat) : Prop :=
  ∀ k, getitem w' i k = getitem w i k ∧ listed w' i k = listed w i k ∧ gvars w' i k = gvars w i k ∧ lvars w' i k = lvars w i k

theorem sameView_of_chain {w w' : World κ ν} (hw : WF w) (i : Nat) (h : ∀ j, Chain w i j → w'.env j = w.env j) : SameView w w' i := by
  induction i using Nat.strongRecOn with
  | _ i ih =>
    intro k
    have hi := h i (.refl i)
    rw [getitem, getitem.eq_def w, listed, listed.eq_def w, gvars, gvars.eq_def w, lvars, lvars.eq_def w, hi]
    cases hb : w.env i with
    | base d => simp
    | over s ov del =>
      have hs := hw.older _ _ _ _ hb
      have := ih s hs (fun j hj => h j (.step hb hj)) k
      simp [this.1, this.2.1, this.2.2.1, this.2.2.2]

/-- **C49, no leak.**  Nothing written through an override environment changes what is read from its subject, from the subject's subject, or
from any other environment that is not built on top of it: an environment reads the same before and after any sequence of operations
none of which writes to it or to an environment below it.  (Reads: indexing, `get`, `in`, `keys`, `items`, `Dictionary`, and substitution.) -/
theorem C49_writes_do_not_leak {N : Names κ} {w w' : World κ ν} {ops : List (Op κ ν)} (hw : WF w) (h : Runs N w ops w') {i : Nat}
    (hi : i < w.next) (hno : ∀ op ∈ ops, ∀ t, op.target? = some t → ¬ Chain w i t) : SameView w w' i := by
  apply sameView_of_chain hw
  intro j hj
  have hjlt : j < w.next := by
    clear hno
    induction hj with
    | refl => exact hi
    | step hb _ ih => exact ih (Nat.lt_trans (hw.older _ _ _ _ hb) hi)
  have : ∀ op ∈ ops, op.target? ≠ some j := fun op ho e => hno op ho j e hj
  clear hno hj hw hi
  induction h with
  | nil => rfl
  | @cons w op ops w' he _ ih =>
    rw [ih (Nat.lt_of_lt_of_le hjlt (step_next N w op)) (fun o ho => this o (List.mem_cons_of_mem _ ho)),
      step_other N w op j hjlt (this op List.mem_cons_self)]

/-- In particular: whatever is done to override environment `o`, its subject is as before. -/
theorem C49_subject_is_not_modified {N : Names κ} {w w' : World κ ν} {ops : List (Op κ ν)} (hw : WF w) (h : Runs N w ops w') {o s : Nat}
    {ov : κ → Option ν} {del : List κ} (ho : w.env o = .over s ov del) (hon : o < w.next)
    (hall : ∀ op ∈ ops, ∀ t, op.target? = some t → t = o) : SameView w w' s := by
  have hso := hw.older _ _ _ _ ho
  refine C49_writes_do_not_leak hw h (Nat.lt_trans hso hon) ?_
  intro op hop t ht hc
  rw [hall op hop t ht] at hc
  have : ∀ {a b}, Chain w a b → b ≤ a := by
    intro a b hab
    induction hab with
    | refl => exact Nat.le_refl _
    | step hb _ ih => exact Nat.le_trans ih (Nat.le_of_lt (hw.older _ _ _ _ hb))
  have := this hc
  omega

/-- **C49, live view.**  A variable that was not given an override when the override environment was made and was not written through it since has the value
the subject has *now*, whatever happened to both in between. -/
theorem C49_unwritten_shows_the_subject {N : Names κ} {w0 w : World κ ν} {ops : List (Op κ ν)} (hw : WF w0) {s : Nat} {kw : List (κ × ν)} {k : κ}
    (hs : s < w0.next) (hkw : nonReserved N kw ≠ []) (hk : ∀ v, (k, v) ∉ nonReserved N kw)
    (h : Runs N (step N w0 (.override s kw)).1 ops w) (hno : ∀ op ∈ ops, ¬ op.Touches w0.next k) :
    getitem w w0.next k = getitem w s k := by
  have hn : w0.next < (step N w0 (.override s kw)).1.next := by simp [step, hkw]
  have e1 := h.slot hn hno
  have e2 := h.subject hn
  rw [getitem_eq, e1, e2]
  simp [step, hkw, put_env, slot, subject?, update_apply _ _ _ hk, hs]

/-- **C49, overrides win.**  A variable given in the override dictionary has that value until it is written through the override. -/
theorem C49_given_override_wins {N : Names κ} {w0 w : World κ ν} {ops : List (Op κ ν)} {s : Nat} {kw : List (κ × ν)} {k : κ} {v : ν}
    (hu : (kw.map Prod.fst).Nodup) (hk : (k, v) ∈ kw) (hr : N.reserved k = false)
    (h : Runs N (step N w0 (.override s kw)).1 ops w) (hno : ∀ op ∈ ops, ¬ op.Touches w0.next k) :
    getitem w w0.next k = some v := by
  have hm : (k, v) ∈ nonReserved N kw := List.mem_filter.2 ⟨hk, by simp [hr]⟩
  have hkw : nonReserved N kw ≠ [] := List.ne_nil_of_mem hm
  have hn : w0.next < (step N w0 (.override s kw)).1.next := by simp [step, hkw]
  have e1 := h.slot hn hno
  rw [getitem_eq, e1]
  have hu2 : ((nonReserved N kw).map Prod.fst).Nodup := hu.sublist (List.Sublist.map _ List.filter_sublist)
  simp [step, hkw, put_env, slot, update_unique _ _ _ _ hm hu2]

/-- **C49, last write wins.**  After `env[k] = v` that raised nothing, `env[k]` is `v` until the next write of `k` through `env`; in
between the same variable may be written in the subject, in other overrides, and so on. -/
theorem C49_last_assignment_wins {N : Names κ} {w0 w : World κ ν} {ops : List (Op κ ν)} {i : Nat} {k : κ} {v : ν}
    (hi : i < w0.next) (hok : (step N w0 (.set i k v)).2 = .ok) (hr : N.reserved k = false)
    (h : Runs N (step N w0 (.set i k v)).1 ops w) (hno : ∀ op ∈ ops, ¬ op.Touches i k) :
    getitem w i k = some v := by
  have e1 := h.slot (Nat.lt_of_lt_of_le hi (step_next N w0 _)) hno
  rw [getitem_eq, e1]
  simp only [step] at hok ⊢
  cases hb : w0.env i with
  | base d =>
    simp only [hb, hr, Bool.false_eq_true, if_false] at hok ⊢
    split at hok
    · cases hok
    · rename_i h3; simp [h3, put_env, slot, update]
  | over s ov del =>
    simp only [hb] at hok ⊢
    split at hok
    · cases hok
    · rename_i h3; simp [h3, put_env, slot, update]

/-- The same for `Replace`. -/
theorem C49_last_replace_wins {N : Names κ} {w0 w : World κ ν} {ops : List (Op κ ν)} {i : Nat} {k : κ} {v : ν} {kw : List (κ × ν)}
    (hi : i < w0.next) (hu : (kw.map Prod.fst).Nodup) (hk : (k, v) ∈ kw) (hr : N.reserved k = false)
    (h : Runs N (step N w0 (.replace i kw)).1 ops w) (hno : ∀ op ∈ ops, ¬ op.Touches i k) :
    getitem w i k = some v := by
  have e1 := h.slot (Nat.lt_of_lt_of_le hi (step_next N w0 _)) hno
  rw [getitem_eq, e1]
  have hm : (k, v) ∈ nonReserved N kw := List.mem_filter.2 ⟨hk, by simp [hr]⟩
  have hu2 : ((nonReserved N kw).map Prod.fst).Nodup := hu.sublist (List.Sublist.map _ List.filter_sublist)
  simp only [step, put_env, if_true]
  cases hb : w0.env i <;> simp [replaceObj, slot, update_unique _ _ _ _ hm hu2]

/-- **C49, deletion.**  After `del env[k]` that raised nothing, `env[k]` raises KeyError until the next write of `k` through `env`, whatever
is assigned in the subject meanwhile. -/
theorem C49_deleted_stays_hidden {N : Names κ} {w0 w : World κ ν} {ops : List (Op κ ν)} {i : Nat} {k : κ}
    (hi : i < w0.next) (hok : (step N w0 (.del i k)).2 = .ok)
    (h : Runs N (step N w0 (.del i k)).1 ops w) (hno : ∀ op ∈ ops, ¬ op.Touches i k) :
    getitem w i k = none := by
  have e1 := h.slot (Nat.lt_of_lt_of_le hi (step_next N w0 _)) hno
  rw [getitem_eq, e1]
  simp only [step] at hok ⊢
  cases hb : w0.env i with
  | base d =>
    simp only [hb] at hok ⊢
    split at hok
    · cases hok
    · rename_i h3; simp [h3, put_env, slot]
  | over s ov del =>
    simp only [hb] at hok ⊢
    split at hok
    · cases hok
    · rename_i h3; simp [h3, put_env, slot]

/-- **C49, defaults.**  `SetDefault` and `setdefault` never change a variable that has a value, and give one that has none the new value. -/
theorem C49_defaults (N : Names κ) (w : World κ ν) (i : Nat) (kw : List (κ × ν)) (k : κ) (hu : (kw.map Prod.fst).Nodup) :
    getitem (step N w (.SetDefault i kw)).1 i k =
      match getitem w i k with
      | some v => some v
      | none => if N.reserved k then none else (kw.find? (fun p => p.1 = k)).map Prod.snd := by
  have hsub : subject? ((step N w (.SetDefault i kw)).1.env i) = subject? (w.env i) := by
    simp [step, put_env, subject_replaceObj]
  have hlow : ∀ s, s < i → ∀ k, getitem (step N w (.SetDefault i kw)).1 s k = getitem w s k := by
    intro s
    induction s using Nat.strongRecOn with
    | _ s ih =>
      intro hs k
      have : (step N w (.SetDefault i kw)).1.env s = w.env s := by
        simp only [step, put_env]; rw [if_neg (by omega)]
      rw [getitem_eq, getitem_eq w, this]
      cases slot (w.env s) k with
      | some o => rfl
      | none =>
        cases subject? (w.env s) with
        | none => rfl
        | some s2 =>
          simp only
          split
          · rename_i h2; exact ih s2 h2 (by omega) k
          · rfl
  have hslot : slot ((step N w (.SetDefault i kw)).1.env i) k =
      slot (replaceObj N (kw.filter (fun p => (getitem w i p.1).isNone)) (w.env i)) k := by
    simp [step, put_env]
  have same : (∀ v, (k, v) ∉ nonReserved N (kw.filter (fun p => (getitem w i p.1).isNone))) →
      getitem (step N w (.SetDefault i kw)).1 i k = getitem w i k := by
    intro hno
    rw [getitem_eq, getitem_eq w, hslot, hsub]
    have : slot (replaceObj N (kw.filter (fun p => (getitem w i p.1).isNone)) (w.env i)) k = slot (w.env i) k := by
      cases w.env i <;> simp [replaceObj, slot, update_apply _ _ _ hno]
    rw [this]
    cases slot (w.env i) k with
    | some o => rfl
    | none =>
      cases subject? (w.env i) with
      | none => rfl
      | some s => simp only; split; · rename_i h2; exact hlow s h2 k
                  · rfl
  cases hg : getitem w i k with
  | some v =>
    rw [same, hg]
    intro v2 hv2
    have := List.mem_filter.1 (List.mem_filter.1 hv2).1
    simp [hg] at this
  | none =>
    simp only
    cases hres : N.reserved k with
    | true =>
      rw [same, hg]
      · simp
      · intro v2 hv2
        have := (List.mem_filter.1 hv2).2
        simp [hres] at this
    | false =>
      cases hf : kw.find? (fun p => p.1 = k) with
      | none =>
        rw [same, hg]
        · simp
        · intro v2 hv2
          have := (List.mem_filter.1 (List.mem_filter.1 hv2).1).1
          have h3 := List.find?_eq_none.1 hf _ this
          simp at h3
      | some p =>
        obtain ⟨k2, v⟩ := p
        have hk2 : k2 = k := by have := List.find?_some hf; simpa using this
        subst hk2
        have hm : (k2, v) ∈ nonReserved N (kw.filter (fun p => (getitem w i p.1).isNone)) := by
          refine List.mem_filter.2 ⟨List.mem_filter.2 ⟨List.mem_of_find?_eq_some hf, by simp [hg]⟩, by simp [hres]⟩
        have hu2 : ((nonReserved N (kw.filter (fun p => (getitem w i p.1).isNone))).map Prod.fst).Nodup :=
          hu.sublist (List.Sublist.map _ (List.filter_sublist.trans List.filter_sublist))
        rw [getitem_eq, hslot]
        cases w.env i <;> simp [replaceObj, slot, update_unique _ _ _ _ hm hu2]

/-! ## What `keys()` and `subst` see -/

/-- The deleted list of every environment `i` is built on has no variable twice and none that has a value in that override. -/
def Tidy (w : World κ ν) : Prop :=
  ∀ i s ov del, w.env i = .over s ov del → del.Nodup ∧ ∀ k ∈ del, ov k = none

/-- Operations after which `keys()` still tells the truth: a variable is deleted only when it is there, and a deleted variable is given a value only by `env[k] = v`. -/
def Op.Orderly (w : World κ ν) : Op κ ν → Prop
  | .newBase _ | .override _ _ | .set _ _ _ => True
  | .del i k => getitem w i k ≠ none
  | .setdefault i k _ => ∀ s ov del, w.env i = .over s ov del → k ∉ del
  | .replace i kw | .SetDefault i kw => ∀ s ov del, w.env i = .over s ov del → ∀ p ∈ kw, p.1 ∉ del

theorem Tidy.step (N : Names κ) {w : World κ ν} (hw : WF w) (ht : Tidy w) {op : Op κ ν} (ho : op.Orderly w) : Tidy (step N w op).1 := by
  have putOver : ∀ i s ov del, (del.Nodup ∧ ∀ k ∈ del, ov k = none) → Tidy (w.put i (.over s ov del)) := by
    intro i s ov del h j s' ov' del' hj
    rw [put_env] at hj
    split at hj
    · cases hj; exact h
    · exact ht _ _ _ _ hj
  have putBase : ∀ i d, Tidy (w.put i (.base d)) := by
    intro i d j s' ov' del' hj
    rw [put_env] at hj
    split at hj
    · cases hj
    · exact ht _ _ _ _ hj
  have upd : ∀ (ov : κ → Option ν) kw (del : List κ), (del.Nodup ∧ ∀ k ∈ del, ov k = none) → (∀ p ∈ kw, p.1 ∉ del) →
      (del.Nodup ∧ ∀ k ∈ del, update ov kw k = none) := by
    intro ov kw del h hd
    refine ⟨h.1, fun k hk => ?_⟩
    rw [update_apply]
    · exact h.2 k hk
    · intro v hv; exact hd _ hv hk
  cases op with
  | newBase d => exact fun j s ov del hj => putBase w.next d j s ov del hj
  | override i kw =>
    simp only [Verif.Env.Override.step]; split
    · exact ht
    · exact fun j s ov del hj => putOver w.next i _ [] (by simp) j s ov del hj
  | set i k v =>
    simp only [Verif.Env.Override.step]
    cases hb : w.env i with
    | base d => simp only; split; · exact ht
                split; · exact ht
                exact putBase _ _
    | over s ov del =>
      simp only; split
      · exact ht
      · have h0 := ht _ _ _ _ hb
        apply putOver
        refine ⟨h0.1.erase k, fun k' hk' => ?_⟩
        have hne : k' ≠ k := fun e => by subst e; exact (h0.1.not_mem_erase) hk'
        simp [update, hne, h0.2 k' (List.mem_of_mem_erase hk')]
  | del i k =>
    simp only [Op.Orderly] at ho
    simp only [Verif.Env.Override.step]
    cases hb : w.env i with
    | base d => simp only; split; · exact ht
                exact putBase _ _
    | over s ov del =>
      simp only; split
      · exact ht
      · have h0 := ht _ _ _ _ hb
        have hkd : k ∉ del := by
          intro hk
          rw [getitem_eq, hb] at ho
          simp [slot, h0.2 k hk, hk] at ho
        apply putOver
        refine ⟨?_, ?_⟩
        · rw [List.nodup_append]; exact ⟨h0.1, by simp, by intro a ha b hb e; rw [List.mem_singleton] at hb; subst hb; subst e; exact hkd ha⟩
        · intro k' hk'
          by_cases e : k' = k
          · simp [e]
          · simp only [e, if_false]; rcases List.mem_append.1 hk' with h | h
            · exact h0.2 k' h
            · simp [e] at h
  | setdefault i k v =>
    simp only [Verif.Env.Override.step]; split
    · exact ht
    · cases hb : w.env i with
      | base d => exact putBase _ _
      | over s ov del =>
        exact putOver _ _ _ _ (upd _ _ _ (ht _ _ _ _ hb) (by simpa using ho _ _ _ hb))
  | replace i kw =>
    simp only [Verif.Env.Override.step]
    cases hb : w.env i with
    | base d => exact putBase _ _
    | over s ov del =>
      exact putOver _ _ _ _ (upd _ _ _ (ht _ _ _ _ hb) (fun p hp => ho _ _ _ hb p (List.mem_of_mem_filter hp)))
  | SetDefault i kw =>
    simp only [Verif.Env.Override.step]
    cases hb : w.env i with
    | base d => exact putBase _ _
    | over s ov del =>
      exact putOver _ _ _ _ (upd _ _ _ (ht _ _ _ _ hb)
        (fun p hp => ho _ _ _ hb p (List.mem_of_mem_filter (List.mem_of_mem_filter hp))))

theorem Tidy.listed {w : World κ ν} (hw : WF w) (ht : Tidy w) (i : Nat) (k : κ) : listed w i k = getitem w i k := by
  induction i using Nat.strongRecOn with
  | _ i ih =>
    rw [Verif.Env.Override.listed, getitem.eq_def w i]
    cases hb : w.env i with
    | base d => rfl
    | over s ov del =>
      have h0 := ht _ _ _ _ hb
      have hs := hw.older _ _ _ _ hb
      simp only
      by_cases hk : k ∈ del
      · simp [hk, h0.2 k hk]
      · simp only [hk, if_false, hs, if_true, ih s hs]
        cases ov k with
        | some v => rfl
        | none => simp only; cases getitem w s k <;> rfl

/-- Programs all of whose operations are orderly. -/
inductive OrderlyRuns (N : Names κ) : World κ ν → List (Op κ ν) → World κ ν → Prop
  | nil (w) : OrderlyRuns N w [] w
  | cons {w op ops w'} : op.Exists w → op.Orderly w → OrderlyRuns N (step N w op).1 ops w' → OrderlyRuns N w (op :: ops) w'

/-- **C49, keys (partial).**  In programs that delete a variable only when it is there, and give a deleted one a value only by assignment, `keys()`, `items()` and
`Dictionary()` list exactly the variables indexing finds, with the same values.
Missing for the full statement: it is false for other programs, see `C49_counterexample_keys_*`. -/
theorem C49_keys_agree_partial {N : Names κ} {w : World κ ν} {ops : List (Op κ ν)} (h : OrderlyRuns N World.empty ops w) (i : Nat) (k : κ) :
    listed w i k = getitem w i k := by
  have : ∀ {w0 : World κ ν}, WF w0 → Tidy w0 → OrderlyRuns N w0 ops w → WF w ∧ Tidy w := by
    intro w0 h1 h2 h3
    clear h
    induction h3 with
    | nil => exact ⟨h1, h2⟩
    | cons he ho _ ih => exact ih (h1.step N he) (h2.step N h1 ho)
  obtain ⟨h1, h2⟩ := this WF.empty (by intro i s ov del hh; simp [World.empty] at hh) h
  exact h2.listed h1 i k

/-- Nothing was deleted in the override environments `i` is built on. -/
theorem substLookup_of_noDeleted {w : World κ ν} (hw : WF w) (hd : ∀ i s ov del, w.env i = .over s ov del → del = []) (i : Nat) (k : κ) :
    substLookup w i k = getitem w i k := by
  induction i using Nat.strongRecOn with
  | _ i ih =>
    unfold substLookup
    rw [lvars, gvars, getitem]
    cases hb : w.env i with
    | base d => simp
    | over s ov del =>
      have hs := hw.older _ _ _ _ hb
      have := ih s hs
      unfold substLookup at this
      simp only [hd _ _ _ _ hb, hs, if_true, List.not_mem_nil, if_false]
      cases ov k with
      | some v => rfl
      | none => simpa using this

/-- **C49, substitution (partial).**  In programs that delete no variable through an override environment, `$k` in a substitution with environment `i` stands for what `i[k]` returns.
Missing for the full statement: false once something is deleted, see `C49_counterexample_subst_sees_deleted`. -/
theorem C49_subst_agrees_partial {N : Names κ} {w : World κ ν} {ops : List (Op κ ν)} (h : Runs N World.empty ops w)
    (hd : ∀ op ∈ ops, ∀ i k, op ≠ .del i k) (i : Nat) (k : κ) : substLookup w i k = getitem w i k := by
  have : ∀ {w0 : World κ ν}, WF w0 → (∀ i s ov del, w0.env i = .over s ov del → del = []) → Runs N w0 ops w →
      WF w ∧ ∀ i s ov del, w.env i = .over s ov del → del = [] := by
    intro w0 h1 h2 h3
    clear h
    induction h3 with
    | nil => exact ⟨h1, h2⟩
    | @cons w op ops w' he _ ih =>
      refine ih (fun o ho => hd o (List.mem_cons_of_mem _ ho)) (h1.step N he) ?_
      have hop := hd op List.mem_cons_self
      have put : ∀ i o, (∀ s ov del, o = Obj.over s ov del → del = []) →
          ∀ j s ov del, (w.put i o).env j = .over s ov del → del = [] := by
        intro i o ho j s ov del hj
        rw [put_env] at hj; split at hj
        · exact ho _ _ _ hj
        · exact h2 _ _ _ _ hj
      cases op with
      | del i k => exact absurd rfl (hop i k)
      | newBase d => exact put w.next _ (by simp)
      | override i kw =>
        simp only [step]; split
        · exact h2
        · exact put w.next _ (by intro s ov del e; cases e; rfl)
      | set i k v =>
        simp only [step]
        cases hb : w.env i with
        | base d => simp only; split; · exact h2
                    split; · exact h2
                    exact put _ _ (by simp)
        | over s ov del =>
          simp only; split; · exact h2
          refine put _ _ ?_
          intro s' ov' del' e; cases e; rw [h2 _ _ _ _ hb]; rfl
      | setdefault i k v =>
        simp only [step]; split; · exact h2
        cases hb : w.env i with
        | base d => exact put _ _ (by simp)
        | over s ov del => refine put _ _ ?_; intro s' ov' del' e; cases e; exact h2 _ _ _ _ hb
      | replace i kw =>
        simp only [step]
        cases hb : w.env i with
        | base d => exact put _ _ (by simp [replaceObj])
        | over s ov del => refine put _ _ ?_; intro s' ov' del' e; cases e; exact h2 _ _ _ _ hb
      | SetDefault i kw =>
        simp only [step]
        cases hb : w.env i with
        | base d => exact put _ _ (by simp [replaceObj])
        | over s ov del => refine put _ _ ?_; intro s' ov' del' e; cases e; exact h2 _ _ _ _ hb
  obtain ⟨h1, h2⟩ := this WF.empty (by intro i s ov del hh; simp [World.empty] at hh) h
  exact substLookup_of_noDeleted h1 h2 i k

/-! ## Counterexamples and concrete cases -/

/-- Names are numbers, none reserved, all identifiers. -/
def anyName : Names Nat := ⟨fun _ => false, fun _ => true⟩

/-- A base environment with X = 10 (name 1), an override of Y (name 2). -/
def demo : World Nat Nat := run anyName World.empty [.newBase (fun k => if k = 1 then some 10 else none), .override 0 [(2, 20)]]

/-- **Counterexample.**  `del over['X']`, then `over['X']` raises KeyError but `over.subst('$X')` is the subject's value. -/
theorem C49_counterexample_subst_sees_deleted :
    let w := run anyName demo [.del 1 1]
    getitem w 1 1 = none ∧ substLookup w 1 1 = some 10 := by
  decide +kernel

/-- **Counterexample.**  `del over['X']` twice (the second raises nothing although X is not there), then `over['X'] = 7`: indexing finds it, `keys()` does not list it. -/
theorem C49_counterexample_keys_after_two_deletions :
    (step anyName (run anyName demo [.del 1 1]) (.del 1 1)).2 = .ok ∧
    let w := run anyName demo [.del 1 1, .del 1 1, .set 1 1 7]
    getitem w 1 1 = some 7 ∧ listed w 1 1 = none := by
  decide +kernel

/-- **Counterexample.**  `del over['X']`, then `over.Replace(X=7)` (or `SetDefault`, `setdefault`): indexing finds it, `keys()` does not list it. -/
theorem C49_counterexample_keys_after_replace :
    (let w := run anyName demo [.del 1 1, .replace 1 [(1, 7)]]
     getitem w 1 1 = some 7 ∧ listed w 1 1 = none) ∧
    (let w := run anyName demo [.del 1 1, .setdefault 1 1 7]
     getitem w 1 1 = some 7 ∧ listed w 1 1 = none) := by
  decide +kernel

/-- **Counterexample.**  `env['TARGET'] = v` is ignored for a base environment, but an override environment takes it. -/
theorem C49_counterexample_reserved :
    let N : Names Nat := ⟨fun k => k = 5, fun _ => true⟩
    let w : World Nat Nat := run N World.empty [.newBase (fun _ => none), .override 0 [(2, 20)], .set 0 5 1, .set 1 5 1]
    getitem w 0 5 = none ∧ getitem w 1 5 = some 1 := by
  decide +kernel

/-- The theorems apply to a history with nesting, writes on every level, a deletion and later writes to the subject. -/
theorem C49_nonvacuous :
    let ops : List (Op Nat Nat) := [.newBase (fun k => if k = 1 then some 10 else none), .override 0 [(2, 20)], .override 1 [(3, 30)],
      .set 2 1 11, .del 1 1, .set 0 1 12, .set 1 1 13, .del 2 1, .SetDefault 1 [(4, 1), (2, 9)]]
    OrderlyRuns anyName World.empty ops (run anyName World.empty ops) ∧
    (let w := run anyName World.empty ops
     getitem w 0 1 = some 12 ∧ getitem w 1 1 = some 13 ∧ getitem w 2 1 = none ∧ getitem w 2 2 = some 20 ∧ getitem w 2 4 = some 1) := by
  refine ⟨?_, ?_⟩
  · repeat' (first | exact OrderlyRuns.nil _ | apply OrderlyRuns.cons)
    all_goals
      simp [step, World.empty, World.put, nonReserved, anyName, update, getitem, Op.Exists, Op.Orderly]
    intro s ov del _ _ e; subst e; simp
  · decide +kernel

end Verif.Env.Override
