import Verif.Methods.Props

/-!
# C100: every fair history
-/

namespace Verif.Methods

/-- State and tables agree. -/
structure Inv (st : State) (t : Tables) : Prop where
  next : st.next = t.next
  small : ∀ e, t.kind e ≠ none → e < t.next
  absent : ∀ e, t.kind e = none → st.envs e = none
  base : ∀ e, t.kind e = some none → ∃ b, st.envs e = some (.base b) ∧
    Rel e b (t.means e) (t.blds e) (t.looked e) (t.ever e) ∧ Ids b st.nextW
  over : ∀ e s, t.kind e = some (some s) → st.envs e = some (.over s) ∧ s < e ∧ t.kind s ≠ none

theorem root_base {t : Tables} {e : Nat} (h : t.kind e = some none) : t.root e = e := by
  rw [Tables.root.eq_def, h]

theorem root_over {t : Tables} {e s : Nat} (h : t.kind e = some (some s)) (hs : s < e) :
    t.root e = t.root s := by
  rw [Tables.root.eq_def, h]; simp [hs]

theorem root_kind {st : State} {t : Tables} (h : Inv st t) : ∀ e, t.kind e ≠ none → t.kind (t.root e) = some none := by
  intro e
  induction e using Nat.strongRecOn with
  | _ e ih =>
    intro he
    rcases hk : t.kind e with _ | k
    · exact absurd hk he
    · cases k with
      | none => rw [root_base hk, hk]
      | some s =>
        obtain ⟨_, h1, h2⟩ := h.over e s hk
        rw [root_over hk h1]
        exact ih s h1 h2

/-- Setting an attribute through any environment sets it on the one that is overridden in the end. -/
theorem setAttr_root {st : State} {t : Tables} (h : Inv st t) (n : String) (a : Attr) :
    ∀ (st' : State), st'.envs = st.envs → ∀ e, t.kind e ≠ none →
      ∃ b, st.envs (t.root e) = some (.base b) ∧
        setAttr st' e n a = st'.put (t.root e) (.base (b.setAttr n a)) := by
  intro st' hst e
  induction e using Nat.strongRecOn with
  | _ e ih =>
    intro he
    rcases hk : t.kind e with _ | k
    · exact absurd hk he
    · cases k with
      | none =>
        obtain ⟨b, hb, _⟩ := h.base e hk
        rw [root_base hk, setAttr.eq_def, hst, hb]
        exact ⟨b, rfl, rfl⟩
      | some s =>
        obtain ⟨h0, h1, h2⟩ := h.over e s hk
        rw [root_over hk h1, setAttr.eq_def, hst, h0]
        simp only [h1, if_true]
        exact ih s h1 h2

/-- The tables after a name was looked up. -/
def Tables.mark (t : Tables) (e : Nat) (n : String) : Tables :=
  { t with looked := upd t.looked e n true }

theorem upd_same {α : Type} (t : Nat → String → α) (e : Nat) (n : String) (v : α) :
    upd t e n v e = upd1 (t e) n v := by
  funext x; simp [upd, upd1]

theorem upd_other {α : Type} (t : Nat → String → α) {e e' : Nat} (n : String) (v : α) (h : e' ≠ e) :
    upd t e n v e' = t e' := by
  funext x; simp [upd, h]

theorem put_same (st : State) (e : Nat) (o : EnvObj) : (st.put e o).envs e = some o := by simp [State.put]

theorem put_other (st : State) {e e' : Nat} (o : EnvObj) (h : e' ≠ e) : (st.put e o).envs e' = st.envs e' := by
  simp [State.put, h]

/-- One environment is changed. -/
theorem Inv.change {st st' : State} {t t' : Tables} (h : Inv st t) (r : Nat) (hr : t.kind r = some none) (b' : Base)
    (henv : st'.envs = (st.put r (.base b')).envs) (hnext : st'.next = st.next) (hw : st.nextW ≤ st'.nextW)
    (hk : t'.kind = t.kind) (hn : t'.next = t.next)
    (hoth : ∀ e, e ≠ r → t'.means e = t.means e ∧ t'.blds e = t.blds e ∧ t'.looked e = t.looked e ∧ t'.ever e = t.ever e)
    (hrel : Rel r b' (t'.means r) (t'.blds r) (t'.looked r) (t'.ever r)) (hids : Ids b' st'.nextW) : Inv st' t' where
  next := by rw [hnext, hn, h.next]
  small e he := by rw [hn]; rw [hk] at he; exact h.small e he
  absent e he := by
    rw [hk] at he
    have : e ≠ r := by rintro rfl; rw [hr] at he; cases he
    rw [henv, put_other _ _ this]
    exact h.absent e he
  base e he := by
    rw [hk] at he
    by_cases her : e = r
    · subst her; exact ⟨b', by rw [henv, put_same], hrel, hids⟩
    · obtain ⟨b, h1, h2, h3⟩ := h.base e he
      obtain ⟨o1, o2, o3, o4⟩ := hoth e her
      refine ⟨b, by rw [henv, put_other _ _ her, h1], ?_, h3.mono hw⟩
      rw [o1, o2, o3, o4]; exact h2
  over e s he := by
    rw [hk] at he
    obtain ⟨h1, h2, h3⟩ := h.over e s he
    have her : e ≠ r := by rintro rfl; rw [hr] at he; cases he
    exact ⟨by rw [henv, put_other _ _ her, h1], h2, by rw [hk]; exact h3⟩

theorem Inv.mark {st : State} {t : Tables} (h : Inv st t) (r : Nat) (n : String) : Inv st (t.mark r n) where
  next := h.next
  small := h.small
  absent := h.absent
  base e he := by
    obtain ⟨b, h1, h2, h3⟩ := h.base e he
    refine ⟨b, h1, ?_, h3⟩
    by_cases her : e = r
    · subst her
      simp only [Tables.mark, upd_same]
      exact h2.weaken n
    · simp only [Tables.mark, upd_other _ _ _ her]
      exact h2
  over := h.over

theorem mark_root (t : Tables) (r : Nat) (n : String) : ∀ e, (t.mark r n).root e = t.root e := by
  intro e
  induction e using Nat.strongRecOn with
  | _ e ih =>
    rw [Tables.root.eq_def, Tables.root.eq_def t]
    have : (t.mark r n).kind = t.kind := rfl
    rw [this]
    split
    · split
      · rename_i h; exact ih _ h
      · rfl
    · rfl

theorem mark_mark (t : Tables) (r : Nat) (n : String) : (t.mark r n).mark r n = t.mark r n := by
  unfold Tables.mark
  congr 1
  funext x y
  simp only [upd]
  split <;> simp_all

/-- What is bound to a name, whichever environment it is bound to. -/
def Fits (m : Option Meaning) (a : Option Attr) (o : Option Nat) : Prop :=
  match m with
  | none => a = none
  | some (.plain v) => a = some (.plain v)
  | some (.method f) => ∃ w, a = some (.wrap w) ∧ w.fn = f ∧ w.bld = false ∧ ∀ e ∈ o, w.obj = e
  | some (.builder f) => ∃ w, a = some (.wrap w) ∧ w.fn = f ∧ w.bld = true ∧ ∀ e ∈ o, w.obj = e

theorem Rel.fits {e : Nat} {b : Base} {means : String → Option Meaning} {blds : String → Option Nat}
    {looked ever : String → Bool} (h : Rel e b means blds looked ever) (n : String) :
    Fits (means n) (b.attrs n) (if looked n then none else some e) := by
  rcases hm : means n with _ | m
  · exact (h.absent n).1 hm
  · cases m with
    | plain v => exact (h.plain n v hm).1
    | method f =>
      obtain ⟨w, h1, h2, h3, h4⟩ := h.method n f hm
      refine ⟨w, h1, h2, h3, ?_⟩
      rcases hl : looked n with _ | _
      · simp [(h4 hl).1]
      · simp
    | builder f =>
      obtain ⟨w, h1, h2, h3, h4, _⟩ := h.builder n f hm
      refine ⟨w, h1, h2, h3, ?_⟩
      rcases hl : looked n with _ | _
      · simp [h4 hl]
      · simp

theorem getAttr_spec (n : String) : ∀ e (st : State) (t : Tables), Inv st t → t.kind e ≠ none →
    Fits (t.means (t.root e) n) (getAttr st e n).2
      (if t.kind e = some none then (if t.looked e n then none else some e) else some e) ∧
    Inv (getAttr st e n).1 (if t.kind e = some none then t else t.mark (t.root e) n) ∧
    (∃ b, (getAttr st e n).1.envs (t.root e) = some (.base b) ∧ b.attrs n = (getAttr st e n).2) := by
  intro e
  induction e using Nat.strongRecOn with
  | _ e ih =>
    intro st t h he
    rcases hk : t.kind e with _ | k
    · exact absurd hk he
    · cases k with
      | none =>
        obtain ⟨b, hb, hrel, _⟩ := h.base e hk
        rw [root_base hk, getAttr.eq_def, hb]
        simp only [if_true]
        exact ⟨hrel.fits n, h, b, hb, rfl⟩
      | some s =>
        obtain ⟨h0, h1, h2⟩ := h.over e s hk
        rw [root_over hk h1, getAttr.eq_def, h0]
        simp only [h1, if_true]
        obtain ⟨i1, i2, b, i3, i4⟩ := ih s h1 st t h h2
        generalize getAttr st s n = r at *
        obtain ⟨st1, a⟩ := r
        simp only at i1 i2 i3 i4
        have i2' : Inv st1 (t.mark (t.root s) n) := by
          split at i2
          · exact i2.mark _ _
          · exact i2
        have hroot : (t.mark (t.root s) n).kind (t.root s) = some none := root_kind h s h2
        have hne : ¬ (some (some s) : Option (Option Nat)) = some none := by simp
        simp only [hne, if_false]
        have hplain : ∀ a', (∀ w, a' ≠ some (Attr.wrap w)) → a' = a →
            Fits (t.means (t.root s) n) a' (some e) := by
          rintro a' hw rfl
          revert i1
          unfold Fits
          split
          · exact id
          · exact id
          · rintro ⟨w, h1, _⟩; exact absurd h1 (hw w)
          · rintro ⟨w, h1, _⟩; exact absurd h1 (hw w)
        rcases a with _ | a
        · exact ⟨hplain _ (by simp) rfl, i2', b, i3, i4⟩
        cases a with
        | plain v => exact ⟨hplain _ (by simp) rfl, i2', b, i3, i4⟩
        | wrap w =>
          simp only
          obtain ⟨b1, e1, e2⟩ := setAttr_root i2' n (.wrap ⟨st1.nextW, e, w.fn, w.name, w.bld⟩)
            { st1 with nextW := st1.nextW + 1 } rfl e (by simpa [Tables.mark] using he)
          rw [mark_root, root_over hk h1] at e1 e2
          rw [i3] at e1
          simp only [Option.some.injEq, EnvObj.base.injEq] at e1
          subst e1
          refine ⟨?_, ?_, ?_⟩
          · revert i1
            unfold Fits
            split
            · simp
            · simp
            · rintro ⟨v, hv, v1, v2, _⟩
              simp only [Option.some.injEq, Attr.wrap.injEq] at hv
              subst hv
              exact ⟨_, rfl, v1, v2, by simp⟩
            · rintro ⟨v, hv, v1, v2, _⟩
              simp only [Option.some.injEq, Attr.wrap.injEq] at hv
              subst hv
              exact ⟨_, rfl, v1, v2, by simp⟩
          · rw [e2, ← mark_mark]
            obtain ⟨b2, f1, f2, f3⟩ := i2'.base _ hroot
            rw [i3] at f1
            simp only [Option.some.injEq, EnvObj.base.injEq] at f1
            subst f1
            have hname := (f3.attr n w i4).2
            refine i2'.change (t.root s) hroot (b.setAttr n (.wrap ⟨st1.nextW, e, w.fn, w.name, w.bld⟩))
              rfl rfl (Nat.le_succ _) rfl rfl ?_ ?_ ?_
            · intro x hx
              exact ⟨rfl, rfl, upd_other _ _ _ hx, rfl⟩
            · have := f2.rebind (w' := ⟨st1.nextW, e, w.fn, w.name, w.bld⟩) i4 rfl rfl
              rw [← upd_same] at this
              exact this
            · have := f3.set ⟨st1.nextW, e, w.fn, w.name, w.bld⟩ rfl
              simp only [hname] at this ⊢
              exact this
          · rw [e2]
            refine ⟨_, put_same _ _ _, ?_⟩
            simp [setAttr_attrs]

/-! ## Each step -/

theorem inv_init : Inv .init .init where
  next := rfl
  small := by simp [Tables.init]
  absent := by simp [State.init]
  base := by simp [Tables.init]
  over := by simp [Tables.init]

theorem updEnv_same {α : Type} (t : Nat → String → α) (e : Nat) (v : String → α) : updEnv t e v e = v := by
  funext x; simp [updEnv]

theorem updEnv_other {α : Type} (t : Nat → String → α) {e e' : Nat} (v : String → α) (h : e' ≠ e) :
    updEnv t e v e' = t e' := by
  funext x; simp [updEnv, h]

/-- A new environment. -/
theorem Inv.new {st : State} {t : Tables} (h : Inv st t) (b' : Base) (w : Nat) (hw : st.nextW ≤ w)
    (m : String → Option Meaning) (d : String → Option Nat) (l v : String → Bool)
    (hrel : Rel t.next b' m d l v) (hids : Ids b' w) :
    Inv { st.put st.next (.base b') with next := st.next + 1, nextW := w }
      { next := t.next + 1
        kind := fun x => if x = t.next then some none else t.kind x
        means := updEnv t.means t.next m
        blds := updEnv t.blds t.next d
        looked := updEnv t.looked t.next l
        ever := updEnv t.ever t.next v } where
  next := by simp [h.next]
  small e he := by
    simp only at he ⊢
    split at he
    · omega
    · have := h.small e he; omega
  absent e he := by
    simp only at he
    split at he
    · cases he
    · rename_i hx
      simp only [State.put, h.next, hx, if_false]
      exact h.absent e he
  base e he := by
    simp only at he
    by_cases hx : e = t.next
    · subst hx
      refine ⟨b', by simp [State.put, h.next], ?_, hids⟩
      simp only [updEnv_same]
      exact hrel
    · rw [if_neg hx] at he
      obtain ⟨b, h1, h2, h3⟩ := h.base e he
      refine ⟨b, by simp [State.put, h.next, hx, h1], ?_, h3.mono hw⟩
      simp only [updEnv_other _ _ hx]
      exact h2
  over e s he := by
    simp only at he
    by_cases hx : e = t.next
    · simp [hx] at he
    · rw [if_neg hx] at he
      obtain ⟨h1, h2, h3⟩ := h.over e s he
      have hs := h.small s h3
      refine ⟨by simp [State.put, h.next, hx, h1], h2, ?_⟩
      simp only
      split
      · simp
      · exact h3

theorem inv_step {st : State} {t : Tables} (h : Inv st t) (o : Op) (hf : Fair t o) : Inv (step st o) (t.step o) := by
  cases o with
  | newEnv =>
    exact h.new _ st.nextW (Nat.le_refl _) _ _ _ _ (Rel.empty t.next)
      ⟨by simp, by simp, by simp, by simp [Keys]⟩
  | addMethod e f n =>
    have hk : t.kind e = some none := hf
    obtain ⟨b, hb, hrel, hids⟩ := h.base e hk
    have hs : step st (.addMethod e f n) = { st.put e (.base { b.setAttr n (.wrap ⟨st.nextW, e, f, n, false⟩) with
        added := b.added ++ [⟨st.nextW, e, f, n, false⟩] }) with nextW := st.nextW + 1 } := by
      simp only [step, addMethod]
      rw [setAttr.eq_def]
      simp only [hb]
      rw [addAdded.eq_def]
      simp only [put_same]
      simp only [State.put, setAttr_added]
      congr 1
      funext x
      split <;> simp_all
    rw [hs]
    refine h.change e hk _ rfl rfl (Nat.le_succ _) rfl rfl ?_ ?_ ?_
    · intro x hx
      exact ⟨upd_other _ _ _ hx, rfl, upd_other _ _ _ hx, upd_other _ _ _ hx⟩
    · simp only [Tables.step, upd_same]
      exact hrel.addMethod st.nextW f n
    · exact hids.track ⟨st.nextW, e, f, n, false⟩ rfl
  | setBuilder e n f =>
    obtain ⟨hk, hfair⟩ := hf
    obtain ⟨b, hb, hrel, hids⟩ := h.base e hk
    simp only [step, setBuilder, hb]
    refine h.change e hk (b.setBuilder st.nextW e n f) rfl rfl (Nat.le_succ _) rfl rfl ?_ ?_ ?_
    · intro x hx
      exact ⟨upd_other _ _ _ hx, upd_other _ _ _ hx, upd_other _ _ _ hx, rfl⟩
    · simp only [Tables.step, upd_same]
      exact hrel.setBuilder st.nextW f n hfair
    · exact hids.setBuilder e n f
  | delBuilder e n =>
    obtain ⟨hk, ⟨f, hm⟩, hever⟩ := hf
    obtain ⟨b, hb, hrel, hids⟩ := h.base e hk
    have hl : (b.builders.lookup n).isSome := by
      rw [hrel.dict, (hrel.builder n f hm).choose_spec.2.2.2.2]; rfl
    simp only [step, delBuilder, hb, hl, if_true]
    refine h.change e hk { b with
        builders := dictDel b.builders n
        attrs := fun x => if x = n then none else b.attrs x } rfl rfl (Nat.le_refl _) rfl rfl ?_ ?_ ?_
    · intro x hx
      exact ⟨upd_other _ _ _ hx, upd_other _ _ _ hx, upd_other _ _ _ hx, rfl⟩
    · simp only [Tables.step, upd_same]
      exact hrel.delBuilder n hever
    · refine ⟨hids.small, ?_, ?_, keys_dictDel hids.keys n⟩
      · intro x w hw
        simp only at hw
        split at hw
        · cases hw
        · exact hids.attr x w hw
      · intro mw hm w hw
        simp only at hw
        split at hw
        · cases hw
        · exact hids.same mw hm w hw
  | setPlain e n v =>
    obtain ⟨hk, hd⟩ := hf
    obtain ⟨b, hb, hrel, hids⟩ := h.base e hk
    have hs : step st (.setPlain e n v) = st.put e (.base (b.setAttr n (.plain v))) := by
      simp only [step]
      rw [setAttr.eq_def]
      simp only [hb]
    rw [hs]
    refine h.change e hk _ rfl rfl (Nat.le_refl _) rfl rfl ?_ ?_ ?_
    · intro x hx
      exact ⟨upd_other _ _ _ hx, rfl, upd_other _ _ _ hx, rfl⟩
    · simp only [Tables.step, upd_same]
      exact hrel.setPlain n v hd
    · refine ⟨hids.small, ?_, ?_, hids.keys⟩
      · intro x w hw
        simp only [setAttr_attrs] at hw
        split at hw
        · cases hw
        · exact hids.attr x w hw
      · intro mw hm w hw
        simp only [setAttr_attrs] at hw
        split at hw
        · cases hw
        · exact hids.same mw hm w hw
  | clone e =>
    obtain ⟨hk, hfair⟩ := hf
    obtain ⟨b, hb, hrel, hids⟩ := h.base e hk
    obtain ⟨b', j, h1, h2, h3, h4⟩ := clone_spec hrel hids t.next hfair
    simp only [step, clone, hb, h.next, h1]
    have := h.new b' j h2 _ _ _ _ h4 h3
    rw [h.next] at this
    exact this
  | override e =>
    have hk : t.kind e ≠ none := hf
    have hsome : ∃ o, st.envs e = some o := by
      rcases hx : t.kind e with _ | k
      · exact absurd hx hk
      · cases k with
        | none => obtain ⟨b, hb, _⟩ := h.base e hx; exact ⟨_, hb⟩
        | some s => exact ⟨_, (h.over e s hx).1⟩
    obtain ⟨o, ho⟩ := hsome
    have hlt := h.small e hk
    simp only [step, override, ho]
    constructor
    · simp [Tables.step, h.next]
    · intro x hx
      simp only [Tables.step] at hx ⊢
      split at hx
      · omega
      · have := h.small x hx; omega
    · intro x hx
      simp only [Tables.step] at hx
      split at hx
      · cases hx
      · rename_i hne
        simp only [State.put, h.next, hne, if_false]
        exact h.absent x hx
    · intro x hx
      simp only [Tables.step] at hx
      split at hx
      · cases hx
      · rename_i hne
        obtain ⟨b, h1, h2, h3⟩ := h.base x hx
        exact ⟨b, by simp [State.put, h.next, hne, h1], h2, h3⟩
    · intro x s hx
      simp only [Tables.step] at hx ⊢
      by_cases hne : x = t.next
      · rw [if_pos hne] at hx
        simp only [Option.some.injEq] at hx
        subst hx
        refine ⟨by simp [State.put, h.next, hne], by omega, ?_⟩
        split
        · simp
        · exact hk
      · rw [if_neg hne] at hx
        obtain ⟨h1, h2, h3⟩ := h.over x s hx
        refine ⟨by simp [State.put, h.next, hne, h1], h2, ?_⟩
        split
        · simp
        · exact h3
  | look e n =>
    have hk : t.kind e ≠ none := hf
    have hg := (getAttr_spec n e st t h hk).2.1
    simp only [step, Tables.step]
    rcases hx : t.kind e with _ | k
    · exact absurd hx hk
    · cases k with
      | none => rw [hx] at hg; simpa using hg
      | some s => rw [hx] at hg; simpa [Tables.mark] using hg

theorem inv_run {ops : List Op} {t : Tables} (h : FairHistory ops t) : Inv (run ops) t := by
  induction h with
  | nil => exact inv_init
  | snoc ops t o _ hf ih =>
    rw [run, List.foldl_append]
    exact inv_step ih o hf

/-- **C100.** After any fair history, `x.name(...)` does what the table says, on the environment `x`: for an
override always, for another environment unless the name was looked up through an override of it since
it was set. -/
theorem C100_calls_act_on_their_environment_partial {ops : List Op} {t : Tables} (h : FairHistory ops t)
    (e : Nat) (n : String) (hk : t.kind e ≠ none)
    (hl : t.kind e = some none → t.looked e n = false) : observe ops e n = expected t e n := by
  obtain ⟨h1, _⟩ := getAttr_spec n e (run ops) t (inv_run h) hk
  have ho : (if t.kind e = some none then (if t.looked e n then none else some e) else some e) = some e := by
    split
    · rename_i hk'; rw [hl hk']; rfl
    · rfl
  rw [ho] at h1
  unfold observe expected
  revert h1
  rcases t.means (t.root e) n with _ | m
  · intro h1
    have h1 : _ = none := h1
    rw [h1]; rfl
  · cases m with
    | plain v =>
      intro h1
      have h1 : _ = some (Attr.plain v) := h1
      rw [h1]; rfl
    | method f =>
      rintro ⟨w, a1, a2, a3, a4⟩
      rw [a1]
      simp only [seen, a2, a3, a4 e rfl]
    | builder f =>
      rintro ⟨w, a1, a2, a3, a4⟩
      rw [a1]
      simp only [seen, a2, a3, a4 e rfl]

/-- Whatever was looked up: the function that is called is the one the table says. -/
theorem C100_same_function {ops : List Op} {t : Tables} (h : FairHistory ops t)
    (e : Nat) (n : String) (hk : t.kind e ≠ none) :
    match t.means (t.root e) n with
    | none => observe ops e n = .missing
    | some (.plain v) => observe ops e n = .plain v
    | some (.method f) => ∃ x, observe ops e n = .call false f x
    | some (.builder f) => ∃ x, observe ops e n = .call true f x := by
  obtain ⟨h1, _⟩ := getAttr_spec n e (run ops) t (inv_run h) hk
  unfold observe
  revert h1
  rcases t.means (t.root e) n with _ | m
  · intro h1
    have h1 : _ = none := h1
    rw [h1]; rfl
  · cases m with
    | plain v =>
      intro h1
      have h1 : _ = some (Attr.plain v) := h1
      rw [h1]; rfl
    | method f =>
      rintro ⟨w, a1, a2, a3, _⟩
      rw [a1]
      exact ⟨w.obj, by simp only [seen, a2, a3]⟩
    | builder f =>
      rintro ⟨w, a1, a2, a3, _⟩
      rw [a1]
      exact ⟨w.obj, by simp only [seen, a2, a3]⟩

end Verif.Methods
