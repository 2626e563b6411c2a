import Verif.Act.Contents
import Verif.Subst.Witness
import Mathlib.Data.List.Forall2
import Mathlib.Data.List.Basic
/-!
# C84: changes of the actions of a target and its signature
-/
namespace Verif.Sgn
open Verif.Subst

/-! ### Specification -/

/-- The two actions do the same kind of thing with the same `varlist`; texts, words,
code and `chdir` may differ. -/
def SameKind (a b : Single) : Prop :=
  a.varlist = b.varlist

/-- The two actions are equally built up. -/
def SameAct : Act → Act → Prop
  | .one a, .one b => SameKind a b
  | .list l, .list m => List.Forall₂ SameKind l m
  | _, _ => False

/-- The two executors have the same number of actions, equally built up. -/
def SameShape (x y : Exec) : Prop := List.Forall₂ SameAct x.actions y.actions

/-- No piece of the one is longer than the corresponding piece of the other. -/
def NoLonger (ps qs : List (Except Err Str)) : Prop :=
  List.Forall₂ (fun p q => ∀ a b, p = .ok a → q = .ok b → a.length ≤ b.length) ps qs

/-- Two single actions sign the same: the text and the value of every variable. -/
def SameSigned (E E' : Env) (n n' : Nat) (lv lv' : Vars) (a b : Single) : Prop :=
  a.presig E n lv = b.presig E' n' lv' ∧ ∀ v ∈ a.varlist, varText E n lv v = varText E' n' lv' v

/-! ### Proofs -/

theorem allOf_ok : ∀ (l : List (Except Err Str)) (r : List Str), allOf l = .ok r → l = r.map .ok := by
  intro l
  induction l with
  | nil => intro r h; cases h; rfl
  | cons x l ih =>
    intro r h
    cases x with
    | error e => cases h
    | ok x =>
      simp only [allOf] at h
      cases hl : allOf l with
      | error e => simp [hl] at h
      | ok r' =>
        simp only [hl, Except.ok.injEq] at h
        subst h
        rw [ih r' hl]; rfl

/-- If no piece shrinks, only equal pieces give the same text. -/
theorem flatten_inj : ∀ ps qs : List Str, List.Forall₂ (fun p q => p.length ≤ q.length) ps qs →
    ps.flatten = qs.flatten → ps = qs := by
  intro ps qs h
  have hlen : ∀ ps qs : List Str, List.Forall₂ (fun p q => p.length ≤ q.length) ps qs →
      ps.flatten.length ≤ qs.flatten.length := by
    intro ps qs h
    induction h with
    | nil => simp
    | cons h1 _ ih => simp only [List.flatten_cons, List.length_append]; omega
  induction h with
  | nil => intro _; rfl
  | cons h1 h2 ih =>
    rename_i p q ps qs
    intro he
    have hl := hlen _ _ h2
    have hl' := congrArg List.length he
    simp only [List.flatten_cons, List.length_append] at hl'
    have hpq : p.length = q.length := by omega
    simp only [List.flatten_cons] at he
    obtain ⟨rfl, he'⟩ := List.append_inj he hpq
    rw [ih he']

theorem contents_inj {x y : Exec} {E E' : Env} {n n' : Nat} {lv lv' : Vars} {c : Str}
    (hx : x.contents E n lv = .ok c) (hy : y.contents E' n' lv' = .ok c)
    (hle : NoLonger (x.pieces E n lv) (y.pieces E' n' lv')) :
    x.pieces E n lv = y.pieces E' n' lv' := by
  unfold Exec.contents at hx hy
  cases h1 : allOf (x.pieces E n lv) with
  | error e => simp [h1] at hx
  | ok ps =>
    cases h2 : allOf (y.pieces E' n' lv') with
    | error e => simp [h2] at hy
    | ok qs =>
      simp only [h1, h2, Except.ok.injEq] at hx hy
      rw [allOf_ok _ _ h1, allOf_ok _ _ h2] at hle ⊢
      rw [flatten_inj ps qs ?_ (hx.trans hy.symm)]
      unfold NoLonger at hle
      rw [List.forall₂_map_left_iff, List.forall₂_map_right_iff] at hle
      exact hle.imp fun _ _ h => h _ _ rfl rfl

theorem pieces_length {a b : Single} (h : SameKind a b) (E E' n n' lv lv') :
    (a.pieces E n lv).length = (b.pieces E' n' lv').length := by
  unfold SameKind at h
  simp [Single.pieces, h]

theorem single_of_pieces {a b : Single} (h : SameKind a b) {E E' n n' lv lv'}
    (he : a.pieces E n lv = b.pieces E' n' lv') : SameSigned E E' n n' lv lv' a b := by
  unfold SameKind at h
  simp only [Single.pieces, List.cons.injEq] at he
  refine ⟨he.1, fun v hv => ?_⟩
  have h2 := he.2
  rw [← h] at h2
  exact List.map_inj_left.1 h2 v hv

theorem singles_of_pieces {l m : List Single} (h : List.Forall₂ SameKind l m) {E E' n n' lv lv'}
    (he : l.flatMap (·.pieces E n lv) = m.flatMap (·.pieces E' n' lv')) :
    List.Forall₂ (SameSigned E E' n n' lv lv') l m := by
  induction h with
  | nil => exact .nil
  | cons h1 _ ih =>
    simp only [List.flatMap_cons] at he
    obtain ⟨e1, e2⟩ := List.append_inj he (pieces_length h1 ..)
    exact .cons (single_of_pieces h1 e1) (ih e2)

theorem flatMap_length {l m : List Single} (h : List.Forall₂ SameKind l m) (E E' n n' lv lv') :
    (l.flatMap (·.pieces E n lv)).length = (m.flatMap (·.pieces E' n' lv')).length := by
  induction h with
  | nil => rfl
  | cons h1 _ ih => simp only [List.flatMap_cons, List.length_append, ih, pieces_length h1 E E' n n' lv lv']

theorem flatMap_varlist {l m : List Single} (h : List.Forall₂ SameKind l m) :
    l.flatMap (·.varlist) = m.flatMap (·.varlist) := by
  induction h with
  | nil => rfl
  | cons h1 _ ih => simp only [List.flatMap_cons, ih]; rw [show _ = _ from h1]

theorem act_length {a b : Act} (h : SameAct a b) (E E' n n' lv lv') :
    (a.pieces E n lv).length = (b.pieces E' n' lv').length := by
  cases a <;> cases b <;> simp only [SameAct] at h
  · exact pieces_length h ..
  · simp only [Act.pieces, List.length_append, List.length_map, flatMap_length h E E' n n' lv lv',
      flatMap_varlist h]

theorem act_of_pieces {a b : Act} (h : SameAct a b) {E E' n n' lv lv'}
    (he : a.pieces E n lv = b.pieces E' n' lv') :
    List.Forall₂ (SameSigned E E' n n' lv lv') a.singles b.singles := by
  cases a <;> cases b <;> simp only [SameAct] at h
  · exact .cons (single_of_pieces h he) .nil
  · simp only [Act.pieces] at he
    exact singles_of_pieces h (List.append_inj he (flatMap_length h ..)).1

theorem exec_of_pieces {x y : Exec} (h : SameShape x y) {E E' n n' lv lv'}
    (he : x.pieces E n lv = y.pieces E' n' lv') :
    List.Forall₂ (SameSigned E E' n n' lv lv') x.singles y.singles := by
  unfold Exec.pieces Exec.singles at *
  unfold SameShape at h
  generalize x.actions = l at *
  generalize y.actions = m at *
  induction h with
  | nil => exact .nil
  | cons h1 _ ih =>
    simp only [List.flatMap_cons] at he ⊢
    obtain ⟨e1, e2⟩ := List.append_inj he (act_length h1 ..)
    exact List.rel_append (act_of_pieces h1 e1) (ih e2)

/-- **C84** If no part of what is signed becomes shorter, then equal contents mean
that every single action signs the same text and the same variables: no change is
lost. (What is missing: without the condition on the lengths text can move from one
part to the next unnoticed, see `counterexample_command_boundary`.) -/
theorem C84_no_change_is_lost_partial (x y : Exec) (E E' : Env) (n n' : Nat) (lv lv' : Vars) (c : Str)
    (hs : SameShape x y)
    (hle : NoLonger (x.pieces E n lv) (y.pieces E' n' lv') ∨ NoLonger (y.pieces E' n' lv') (x.pieces E n lv))
    (hx : x.contents E n lv = .ok c) (hy : y.contents E' n' lv' = .ok c) :
    List.Forall₂ (SameSigned E E' n n' lv lv') x.singles y.singles := by
  apply exec_of_pieces hs
  rcases hle with h | h
  · exact contents_inj hx hy h
  · exact (contents_inj hy hx h).symm

/-- The action is a command given as neat text, or code; it changes to `d`. -/
def NeatAction (E : Env) (n : Nat) (lv : Vars) (d : Option Str) (a : Single) : Prop :=
  a.chdir = d ∧ match a.body with
    | .text s => Neat E n lv false (.str s)
    | .words _ => False
    | .code _ => True

/-- Both are commands or both are code. -/
def SameSort (a b : Single) : Prop :=
  match a.body, b.body with
  | .text _, .text _ => True
  | .code _, .code _ => True
  | _, _ => False

theorem run_of_signed {E E' : Env} {n n' lv lv'} {a b : Single} {d}
    (ha : NeatAction E n lv d a) (hb : NeatAction E' n' lv' d b) (hk : SameSort a b)
    (h : a.presig E n lv = b.presig E' n' lv') : a.run E n lv = b.run E' n' lv' := by
  obtain ⟨ab, av, ac⟩ := a
  obtain ⟨bb, bv, bc⟩ := b
  obtain ⟨rfl, ha⟩ := ha
  obtain ⟨hbc, hb⟩ := hb
  simp only at hbc
  subst hbc
  cases ab <;> cases bb <;> simp only [SameSort] at hk <;> simp only [Single.presig, Single.run] at *
  · obtain ⟨r, h1, h2⟩ := C84_command_is_the_signed_text_partial E n lv _ ha
    obtain ⟨r', h1', h2'⟩ := C84_command_is_the_signed_text_partial E' n' lv' _ hb
    rw [h1, h1'] at h
    cases h
    rw [h2, h2']
  · cases h; rfl

/-- **C84** If the actions of a target would run anything else than before, in the
same directories, and no part of what is signed becomes shorter (or none becomes
longer), the contents that are signed differ. -/
theorem C84_changed_actions_change_contents_partial (x y : Exec) (E E' : Env) (n n' : Nat) (lv lv' : Vars)
    (c c' : Str) (dirs : List (Option Str))
    (hs : SameShape x y) (hsort : List.Forall₂ SameSort x.singles y.singles)
    (hx' : List.Forall₂ (NeatAction E n lv) dirs x.singles)
    (hy' : List.Forall₂ (NeatAction E' n' lv') dirs y.singles)
    (hle : NoLonger (x.pieces E n lv) (y.pieces E' n' lv') ∨ NoLonger (y.pieces E' n' lv') (x.pieces E n lv))
    (hx : x.contents E n lv = .ok c) (hy : y.contents E' n' lv' = .ok c')
    (hne : x.singles.map (·.run E n lv) ≠ y.singles.map (·.run E' n' lv')) : c ≠ c' := by
  rintro rfl
  apply hne
  have h := C84_no_change_is_lost_partial x y E E' n n' lv lv' c hs hle hx hy
  clear hs hle hx hy hne
  generalize x.singles = l at *
  generalize y.singles = m at *
  induction h generalizing dirs with
  | nil => rfl
  | cons h1 _ ih =>
    cases hx' with
    | cons a1 a2 =>
      cases hy' with
      | cons b1 b2 =>
        cases hsort with
        | cons s1 s2 =>
          rw [List.map_cons, List.map_cons, run_of_signed a1 b1 s1 h1.1, ih _ a2 b2 s2]

/-- **C84** If exactly one part of what is signed changes (one command, or the value
of one variable of a `varlist` that no command mentions and that is signed once), the
contents change. -/
theorem C84_one_change_is_noticed (x y : Exec) (E E' : Env) (n n' : Nat) (lv lv' : Vars) (c c' : Str)
    (i j : List (Except Err Str)) (p q : Except Err Str) (hpq : p ≠ q)
    (hx : x.contents E n lv = .ok c) (hy : y.contents E' n' lv' = .ok c')
    (hxp : x.pieces E n lv = i ++ p :: j) (hyp : y.pieces E' n' lv' = i ++ q :: j) : c ≠ c' := by
  rintro rfl
  unfold Exec.contents at hx hy
  cases h1 : allOf (x.pieces E n lv) with
  | error e => simp [h1] at hx
  | ok ps =>
    cases h2 : allOf (y.pieces E' n' lv') with
    | error e => simp [h2] at hy
    | ok qs =>
      simp only [h1, h2, Except.ok.injEq] at hx hy
      have e1 := allOf_ok _ _ h1
      have e2 := allOf_ok _ _ h2
      rw [hxp] at e1
      rw [hyp] at e2
      obtain ⟨i1, r1, rfl, f1, g1⟩ := List.append_eq_map_iff.1 e1
      obtain ⟨i2, r2, rfl, f2, g2⟩ := List.append_eq_map_iff.1 e2
      have inj : Function.Injective (Except.ok : Str → Except Err Str) := fun a b h => by cases h; rfl
      have hi : i1 = i2 := List.map_injective_iff.2 inj (f1.trans f2.symm)
      subst hi
      obtain ⟨a1, j1, rfl, rfl, k1⟩ := List.map_eq_cons_iff.1 g1
      obtain ⟨a2, j2, rfl, rfl, k2⟩ := List.map_eq_cons_iff.1 g2
      have hj : j1 = j2 := List.map_injective_iff.2 inj (k1.trans k2.symm)
      subst hj
      apply hpq
      have h := hx.trans hy.symm
      simp only [List.flatten_append, List.flatten_cons, List.append_cancel_left_eq, List.append_cancel_right_eq] at h
      rw [h]

end Verif.Sgn
