import Verif.Subst.Tokens
/-!
# C31: substitution terminates

`env.subst` and `env.subst_list` on any string, whatever the (self- or mutually-
recursive) variables are: there is a number of nested calls that suffices, and
the result does not depend on it.
-/
namespace Verif.Subst

/-- Every variable reference in the text of `v` is to a key in `U`. -/
inductive KeysIn (uw : Char → Bool) (U : List Str) : Val → Prop
  | none : KeysIn uw U .none
  | str (s) (h : ∀ b k, Tok.ref b k ∈ tokenize uw s → k ∈ U) : KeysIn uw U (.str s)
  | obj (a b) : KeysIn uw U (.obj a b)
  | seq (l) (h : ∀ v ∈ l, KeysIn uw U v) : KeysIn uw U (.seq l)
  | fn (v w) (hv : KeysIn uw U v) (hw : KeysIn uw U w) : KeysIn uw U (.fn v w)

theorem KeysIn.mono {uw U U' v} (h : KeysIn uw U v) (hs : ∀ k ∈ U, k ∈ U') : KeysIn uw U' v := by
  induction h with
  | none => exact .none
  | str s h => exact .str s fun b k hk => hs _ (h b k hk)
  | obj a b => exact .obj a b
  | seq l h ih => exact .seq l ih
  | fn v w hv hw i1 i2 => exact .fn v w i1 i2

theorem mapM_except_ne {α β : Type} (f : α → Except Err β) (e : Err) (l : List α)
    (h : ∀ a ∈ l, f a ≠ .error e) : l.mapM f ≠ .error e := by
  induction l with
  | nil => simp [pure, Except.pure]
  | cons a l ih =>
    have h1 := h a (by simp)
    have h2 := ih fun b hb => h b (by simp [hb])
    simp only [List.mapM_cons, bind, Except.bind]
    cases hfa : f a with
    | error e' => simp only [ne_eq, Except.error.injEq]; rintro rfl; exact h1 hfa
    | ok b =>
      simp only
      cases hl : l.mapM f with
      | error e' => simp only [ne_eq, Except.error.injEq]; rintro rfl; exact h2 hl
      | ok b => simp [pure, Except.pure]

theorem foldlM_except_ne {α β : Type} (f : β → α → Except Err β) (e : Err) (l : List α)
    (h : ∀ a ∈ l, ∀ b, f b a ≠ .error e) : ∀ b, l.foldlM f b ≠ .error e := by
  induction l with
  | nil => intro b; simp [pure, Except.pure]
  | cons a l ih =>
    intro b
    have h1 := h a (by simp) b
    have h2 := ih fun b hb => h b (by simp [hb])
    simp only [List.foldlM_cons, bind, Except.bind]
    cases hfa : f b a with
    | error e' => simp only [ne_eq, Except.error.injEq]; rintro rfl; exact h1 hfa
    | ok b => exact h2 b

/-- A bound for every element gives a bound for all of them. -/
theorem exists_bound {α : Type} (P : α → Nat → Prop) (l : List α)
    (h : ∀ a ∈ l, ∃ N, ∀ n, N ≤ n → P a n) : ∃ N, ∀ n, N ≤ n → ∀ a ∈ l, P a n := by
  induction l with
  | nil => exact ⟨0, by simp⟩
  | cons a l ih =>
    obtain ⟨N1, h1⟩ := h a (by simp)
    obtain ⟨N2, h2⟩ := ih fun b hb => h b (by simp [hb])
    refine ⟨max N1 N2, fun n hn b hb => ?_⟩
    rcases List.mem_cons.1 hb with hb | hb
    · subst hb; exact h1 n (by omega)
    · exact h2 n (by omega) b hb

theorem checkNone_not_fuel (b v) : checkNone b v ≠ .error .fuel := by
  cases v <;> simp [checkNone]
  split <;> simp

theorem checkNone_some {b v w} (h : checkNone b v = .ok (some w)) : v = w := by
  cases v <;> simp [checkNone] at h
  · split at h <;> simp at h
  all_goals exact h

theorem checkNone_of_ne {b v} (h : v ≠ .none) : checkNone b v = .ok (some v) := by
  cases v <;> simp_all [checkNone]

theorem lookup_not_fuel (E : Env) (lv : Vars) (k : Str) : lookup E lv k ≠ .error .fuel := by
  unfold lookup
  repeat' split
  all_goals first | exact checkNone_not_fuel _ _ | simp

/-- The keys of `U` that are not yet blanked out. -/
def live (lv : Vars) (U : List Str) : Nat :=
  (U.filter fun k => match lv k with | some (.str []) => false | _ => true).length

/-- Both substitution functions stop when started on `v`. -/
def Stops (E : Env) (m : Mode) (lv : Vars) (v : Val) : Prop :=
  ∃ N, ∀ n, N ≤ n → substV E m n lv v ≠ .error .fuel ∧
    ∀ wl st, substL E m n lv wl v st ≠ .error .fuel

/-- What happens at one token. -/
theorem stops_str (E : Env) (m : Mode) (lv : Vars) (s : Str)
    (h : ∀ b k, Tok.ref b k ∈ tokenize E.uw s → ∀ v, lookup E lv k = .ok (some v) →
      v = .str [] ∨ Stops E m (blank lv k) v) : Stops E m lv (.str s) := by
  have hb : ∃ N, ∀ n, N ≤ n → ∀ t ∈ tokenize E.uw s,
      tokText E (substV E m n) lv t ≠ .error .fuel ∧
      ∀ wl st, tokStep E m (substL E m n) lv wl st t ≠ .error .fuel := by
    apply exists_bound
    intro t ht
    cases t with
    | ref b k =>
      cases hl : lookup E lv k with
      | error e =>
        refine ⟨0, fun n _ => ?_⟩
        have := lookup_not_fuel E lv k
        rw [hl] at this
        have h' : e ≠ .fuel := by simpa using this
        simp [tokText, tokStep, hl, bind, Except.bind, h']
      | ok o =>
        cases o with
        | none => exact ⟨0, fun n _ => by simp [tokText, tokStep, hl, bind, Except.bind, pure, Except.pure]⟩
        | some v =>
          rcases h b k ht v hl with h | ⟨N, h⟩
          · subst h
            refine ⟨1, fun n hn => ?_⟩
            obtain ⟨n, rfl⟩ : ∃ n', n = n' + 1 := ⟨n - 1, by omega⟩
            simp [tokText, tokStep, hl, bind, Except.bind, pure, Except.pure, Val.plain?,
              Val.expanded?, substL]
          · refine ⟨N, fun n hn => ?_⟩
            obtain ⟨h1, h2⟩ := h n hn
            constructor
            · simp only [tokText, hl, bind, Except.bind]
              cases v.plain? with
              | none => exact h1
              | some s => simp [pure, Except.pure]
            · intro wl st
              simp only [tokStep, hl, bind, Except.bind]
              cases v.expanded? with
              | none =>
                simp only
                cases hr : substL E m n (blank lv k) false v st with
                | error e =>
                  have := h2 false st
                  rw [hr] at this
                  simpa using this
                | ok st' => simp [pure, Except.pure]
              | some s => simp [pure, Except.pure]
    | _ =>
      refine ⟨0, fun n _ => ⟨by simp [tokText, pure, Except.pure], fun wl st => ?_⟩⟩
      simp only [tokStep]
      repeat' split
      all_goals simp
  obtain ⟨N, hN⟩ := hb
  refine ⟨N + 1, fun n hn => ?_⟩
  obtain ⟨n, rfl⟩ : ∃ n', n = n' + 1 := ⟨n - 1, by omega⟩
  have hN := hN n (by omega)
  constructor
  · simp only [substV, bind, Except.bind]
    have := mapM_except_ne (tokText E (substV E m n) lv) .fuel (tokenize E.uw s) fun t ht => (hN t ht).1
    cases hr : (tokenize E.uw s).mapM (tokText E (substV E m n) lv) with
    | error e => rw [hr] at this; simpa using this
    | ok l => simp [pure, Except.pure]
  · intro wl st
    simp only [substL]
    exact foldlM_except_ne _ _ _ (fun t ht st => (hN t ht).2 wl st) st

theorem stops_seq (E : Env) (m : Mode) (lv : Vars) (l : List Val)
    (h : ∀ v ∈ l, Stops E m lv v) : Stops E m lv (.seq l) := by
  obtain ⟨N, hN⟩ := exists_bound _ l h
  refine ⟨N + 1, fun n hn => ?_⟩
  obtain ⟨n, rfl⟩ : ∃ n', n = n' + 1 := ⟨n - 1, by omega⟩
  have hN := hN n (by omega)
  constructor
  · simp only [substV, bind, Except.bind]
    have := mapM_except_ne (substV E m n lv) .fuel l fun t ht => (hN t ht).1
    cases hr : l.mapM (substV E m n lv) with
    | error e => rw [hr] at this; simpa using this
    | ok l => simp [pure, Except.pure]
  · intro wl st
    simp only [substL]
    apply foldlM_except_ne
    intro v hv st
    have := (hN v hv).2 true st
    simp only [bind, Except.bind]
    cases hr : substL E m n lv true v st with
    | error e => rw [hr] at this; simpa using this
    | ok l => simp [pure, Except.pure]

theorem stops_fn (E : Env) (m : Mode) (lv : Vars) (v w : Val)
    (hv : Stops E m lv v) (hw : Stops E m lv w) : Stops E m lv (.fn v w) := by
  obtain ⟨N, hN⟩ : Stops E m lv (if m = .sig then w else v) := by split <;> assumption
  refine ⟨N + 1, fun n hn => ?_⟩
  obtain ⟨n, rfl⟩ : ∃ n', n = n' + 1 := ⟨n - 1, by omega⟩
  exact hN n (by omega)

theorem stops_none (E m lv) : Stops E m lv .none :=
  ⟨1, fun n hn => by
    obtain ⟨n, rfl⟩ : ∃ n', n = n' + 1 := ⟨n - 1, by omega⟩
    simp [substV, substL]⟩

theorem stops_obj (E m lv a b) : Stops E m lv (.obj a b) :=
  ⟨1, fun n hn => by
    obtain ⟨n, rfl⟩ : ∃ n', n = n' + 1 := ⟨n - 1, by omega⟩
    simp [substV, substL]⟩

/-- A value without any reference. -/
theorem stops_closed (E m) {v} (h : KeysIn E.uw [] v) : ∀ lv, Stops E m lv v := by
  induction h with
  | none => exact fun lv => stops_none E m lv
  | obj a b => exact fun lv => stops_obj E m lv a b
  | str s h => exact fun lv => stops_str E m lv s fun b k hk => absurd (h b k hk) (by simp)
  | seq l h ih => exact fun lv => stops_seq E m lv l fun v hv => ih v hv lv
  | fn v w _ _ i1 i2 => exact fun lv => stops_fn E m lv v w (i1 lv) (i2 lv)

/-- Where the references of an environment can lead: `U` is a finite set of keys
that contains every reference in the text of variables and of results of `eval`.
Keys with a dot are those `eval` handles (`${SOURCE.abspath}`): they are no
variable names, and their values contain no further reference. -/
structure Finite (E : Env) (lv : Vars) (U : List Str) : Prop where
  lvars : ∀ k v, lv k = some v → KeysIn E.uw U v
  gvars : ∀ k v, E.gvars k = some v → KeysIn E.uw U v
  evals : ∀ k ∈ U, ∀ ns v, E.eval k ns = .val v → KeysIn E.uw U v
  dots : ∀ k ∈ U, '.' ∈ k → lv k = none ∧ E.gvars k = none ∧
    ∀ ns v, E.eval k ns = .val v → KeysIn E.uw [] v

theorem baseOf_self {k : Str} (h : '.' ∉ k) : baseOf k = k := by
  unfold baseOf
  induction k with
  | nil => rfl
  | cons c r ih =>
    simp only [List.mem_cons, not_or] at h
    have hc : (c != '.') = true := by simpa using fun e => h.1 e.symm
    rw [List.takeWhile_cons, if_pos hc, ih h.2]

theorem dot_notMem_baseOf (k : Str) : '.' ∉ baseOf k := by
  intro h
  have := mem_takeWhile_holds h
  simp at this

theorem live_blank {lv : Vars} {U : List Str} {k : Str} (hk : k ∈ U)
    (hl : lv k ≠ some (.str [])) : live (lv.set k (.str [])) U < live lv U := by
  unfold live
  have hsub : ∀ V : List Str,
      (V.filter fun k' => match (lv.set k (.str [])) k' with | some (.str []) => false | _ => true).length ≤
      (V.filter fun k => match lv k with | some (.str []) => false | _ => true).length := by
    intro V
    induction V with
    | nil => simp
    | cons a V ih =>
      simp only [List.filter_cons]
      by_cases ha : a = k
      · subst ha
        simp only [Vars.set, if_true]
        simp only [Vars.set] at ih
        split <;> simp <;> omega
      · have : (lv.set k (.str [])) a = lv a := by simp [Vars.set, ha]
        rw [this]
        split <;> simp <;> omega
  induction U with
  | nil => simp at hk
  | cons a U ih =>
    simp only [List.filter_cons]
    by_cases ha : a = k
    · subst ha
      have h1 := hsub U
      have e1 : (match (lv.set a (.str [])) a with | some (.str []) => false | _ => true) = false := by
        simp [Vars.set]
      have e2 : (match lv a with | some (.str []) => false | _ => true) = true := by
        split
        · rename_i h; exact absurd h hl
        · rfl
      rw [e1, e2]
      simp
      omega
    · have hk' : k ∈ U := by
        rcases List.mem_cons.1 hk with h | h
        · exact absurd h.symm ha
        · exact h
      have := ih hk'
      have e : (lv.set k (.str [])) a = lv a := by simp [Vars.set, ha]
      rw [e]
      split <;> simp <;> omega

theorem finite_blank {E lv U k} (h : Finite E lv U) : Finite E (blank lv k) U where
  lvars k' v hv := by
    simp only [blank, Vars.set] at hv
    split at hv
    · cases hv; exact .str [] (by simp)
    · exact h.lvars k' v hv
  gvars := h.gvars
  evals := h.evals
  dots k' hk hd := by
    obtain ⟨h1, h2, h3⟩ := h.dots k' hk hd
    refine ⟨?_, h2, h3⟩
    simp only [blank, Vars.set]
    rw [if_neg]
    · exact h1
    · rintro rfl; exact dot_notMem_baseOf k hd

theorem stops_all (E m U) : ∀ (c : Nat) (lv : Vars), Finite E lv U → live lv U ≤ c →
    ∀ v, KeysIn E.uw U v → Stops E m lv v := by
  intro c
  induction c with
  | zero =>
    intro lv hf hc v hv
    have hdead : ∀ k ∈ U, lv k = some (.str []) := by
      intro k hk
      apply Classical.byContradiction
      intro hl
      have := live_blank hk hl
      omega
    induction hv with
    | none => exact stops_none E m lv
    | obj a b => exact stops_obj E m lv a b
    | str s h =>
      refine stops_str E m lv s fun b k hk v hv => .inl ?_
      have hd := hdead k (h b k hk)
      simp only [lookup, hd] at hv
      exact (checkNone_some hv).symm
    | seq l h ih => exact stops_seq E m lv l ih
    | fn v w _ _ i1 i2 => exact stops_fn E m lv v w i1 i2
  | succ c ihc =>
    intro lv hf hc v hv
    induction hv with
    | none => exact stops_none E m lv
    | obj a b => exact stops_obj E m lv a b
    | str s h =>
      refine stops_str E m lv s fun b k hk v hv => ?_
      have hkU := h b k hk
      by_cases hd : '.' ∈ k
      · right
        obtain ⟨h1, h2, h3⟩ := hf.dots k hkU hd
        apply stops_closed
        simp only [lookup, h1, h2] at hv
        split at hv
        · cases hv
        · cases hv
        · rename_i v' he
          cases checkNone_some hv; exact h3 _ _ he
      · by_cases hl : lv k = some (.str [])
        · left
          simp only [lookup, hl] at hv
          exact (checkNone_some hv).symm
        · right
          have hlt := live_blank hkU hl
          have : blank lv k = lv.set k (.str []) := by rw [blank, baseOf_self hd]
          apply ihc (blank lv k) (finite_blank hf) (by rw [this]; omega)
          simp only [lookup] at hv
          split at hv
          · rename_i v' he
            cases checkNone_some hv; exact hf.lvars _ _ he
          · split at hv
            · rename_i v' he
              cases checkNone_some hv; exact hf.gvars _ _ he
            · split at hv
              · cases hv
              · cases hv
              · rename_i v' he
                cases checkNone_some hv; exact hf.evals _ hkU _ _ he
    | seq l h ih => exact stops_seq E m lv l ih
    | fn v w _ _ i1 i2 => exact stops_fn E m lv v w i1 i2

/-! More steps do not change a result. -/

theorem mapM_congr_ok {α β : Type} {f g : α → Except Err β} {l : List α}
    (h : ∀ a ∈ l, f a ≠ .error .fuel → g a = f a) (hn : l.mapM f ≠ .error .fuel) :
    l.mapM g = l.mapM f := by
  induction l with
  | nil => rfl
  | cons a l ih =>
    simp only [List.mapM_cons, bind, Except.bind] at *
    cases hfa : f a with
    | error e =>
      rw [hfa] at hn
      have := h a (by simp) (by rw [hfa]; simpa using hn)
      rw [this, hfa]
    | ok b =>
      have hg := h a (by simp) (by rw [hfa]; simp)
      rw [hg, hfa]
      rw [hfa] at hn
      simp only at hn ⊢
      rw [ih (fun a ha => h a (by simp [ha]))]
      intro hc; rw [hc] at hn; exact hn rfl

theorem foldlM_congr_ok {α β : Type} {f g : β → α → Except Err β} {l : List α}
    (h : ∀ a ∈ l, ∀ b, f b a ≠ .error .fuel → g b a = f b a) :
    ∀ b, l.foldlM f b ≠ .error .fuel → l.foldlM g b = l.foldlM f b := by
  induction l with
  | nil => intro b _; rfl
  | cons a l ih =>
    intro b hn
    simp only [List.foldlM_cons, bind, Except.bind] at *
    cases hfa : f b a with
    | error e =>
      rw [hfa] at hn
      rw [h a (by simp) b (by rw [hfa]; exact hn), hfa]
    | ok b' =>
      rw [h a (by simp) b (by rw [hfa]; simp), hfa]
      rw [hfa] at hn
      exact ih (fun a ha => h a (by simp [ha])) b' hn

theorem substV_succ (E m) : ∀ n lv v, substV E m n lv v ≠ .error .fuel →
    substV E m (n + 1) lv v = substV E m n lv v := by
  intro n
  induction n with
  | zero => intro lv v h; exact absurd rfl h
  | succ n ih =>
    intro lv v h
    cases v with
    | none => rfl
    | obj a b => rfl
    | fn v w => exact ih lv _ h
    | str s =>
      simp only [substV, bind, Except.bind] at h ⊢
      have : (tokenize E.uw s).mapM (tokText E (substV E m (n + 1)) lv) =
          (tokenize E.uw s).mapM (tokText E (substV E m n) lv) := by
        apply mapM_congr_ok
        · intro t _ ht
          cases t with
          | ref b k =>
            simp only [tokText, bind, Except.bind] at ht ⊢
            cases hl : lookup E lv k with
            | error e => rfl
            | ok o =>
              cases o with
              | none => rfl
              | some v =>
                rw [hl] at ht
                simp only at ht ⊢
                cases hp : v.plain? with
                | some s => rfl
                | none =>
                  rw [hp] at ht
                  exact ih _ _ ht
          | _ => rfl
        · intro hc; rw [hc] at h; exact h rfl
      rw [this]
    | seq l =>
      simp only [substV, bind, Except.bind] at h ⊢
      have : l.mapM (substV E m (n + 1) lv) = l.mapM (substV E m n lv) := by
        apply mapM_congr_ok
        · intro v _ hv; exact ih lv v hv
        · intro hc; rw [hc] at h; exact h rfl
      rw [this]

theorem substL_succ (E m) : ∀ n lv wl v st, substL E m n lv wl v st ≠ .error .fuel →
    substL E m (n + 1) lv wl v st = substL E m n lv wl v st := by
  intro n
  induction n with
  | zero => intro lv wl v st h; exact absurd rfl h
  | succ n ih =>
    intro lv wl v st h
    cases v with
    | none => rfl
    | obj a b => rfl
    | fn v w => exact ih lv wl _ st h
    | str s =>
      simp only [substL] at h ⊢
      refine foldlM_congr_ok ?_ st h
      intro t _ st ht
      cases t with
      | ref b k =>
        simp only [tokStep, bind, Except.bind] at ht ⊢
        cases hl : lookup E lv k with
        | error e => rfl
        | ok o =>
          cases o with
          | none => rfl
          | some v =>
            rw [hl] at ht
            simp only at ht ⊢
            cases hp : v.expanded? with
            | some s => rfl
            | none =>
              rw [hp] at ht
              simp only at ht ⊢
              rw [ih]
              intro hc; rw [hc] at ht; exact ht rfl
      | _ => rfl
    | seq l =>
      simp only [substL] at h ⊢
      refine foldlM_congr_ok ?_ st h
      intro v _ st hv
      simp only [bind, Except.bind] at hv ⊢
      rw [ih]
      intro hc; rw [hc] at hv; exact hv rfl

theorem substV_mono (E m) {n n' lv v} (hn : n ≤ n') (h : substV E m n lv v ≠ .error .fuel) :
    substV E m n' lv v = substV E m n lv v := by
  induction n' with
  | zero => have : n = 0 := by omega
            subst this; rfl
  | succ k ih =>
    by_cases hk : n ≤ k
    · rw [substV_succ, ih hk]; rw [ih hk]; exact h
    · have : n = k + 1 := by omega
      subst this; rfl

theorem substL_mono (E m) {n n' lv wl v st} (hn : n ≤ n')
    (h : substL E m n lv wl v st ≠ .error .fuel) :
    substL E m n' lv wl v st = substL E m n lv wl v st := by
  induction n' with
  | zero => have : n = 0 := by omega
            subst this; rfl
  | succ k ih =>
    by_cases hk : n ≤ k
    · rw [substL_succ, ih hk]; rw [ih hk]; exact h
    · have : n = k + 1 := by omega
      subst this; rfl

theorem post_ne_fuel (m r) : post m r ≠ .error .fuel := by
  cases m <;> simp [post]
  split <;> simp

/-- **C31** `env.subst(s)` ends, in every mode: from some number of nested calls
on, the result is always the same and is not the artefact of the model for
"not enough calls". `U` is any finite set of keys containing all the references
in the texts involved. -/
theorem C31_subst_terminates (E : Env) (m : Mode) (lv : Vars) (U : List Str) (s : Str)
    (hs : KeysIn E.uw U (.str s)) (hf : Finite E lv U) :
    ∃ N r, r ≠ .error .fuel ∧ ∀ n, N ≤ n → subst E m n lv s = r := by
  obtain ⟨N, hN⟩ := stops_all E m U _ lv hf (Nat.le_refl _) _ hs
  refine ⟨N, subst E m N lv s, ?_, ?_⟩
  · have := (hN N (Nat.le_refl _)).1
    unfold subst
    split
    · simp only [bind, Except.bind]
      cases hr : substV E m N lv (.str s) with
      | error e => rw [hr] at this; simpa using this
      | ok r => exact post_ne_fuel m r
    · simp
  · intro n hn
    unfold subst
    rw [substV_mono E m hn (hN N (Nat.le_refl _)).1]

/-- **C31** the same for `env.subst_list`. -/
theorem C31_subst_list_terminates (E : Env) (m : Mode) (lv : Vars) (U : List Str) (v : Val)
    (hs : KeysIn E.uw U v) (hf : Finite E lv U) :
    ∃ N r, r ≠ .error .fuel ∧ ∀ n, N ≤ n → substList E m n lv v = r := by
  obtain ⟨N, hN⟩ := stops_all E m U _ lv hf (Nat.le_refl _) _ hs
  refine ⟨N, substList E m N lv v, ?_, ?_⟩
  · have := (hN N (Nat.le_refl _)).2 false .init
    simp only [substList, bind, Except.bind]
    cases hr : substL E m N lv false v .init with
    | error e => rw [hr] at this; simpa using this
    | ok r => simp [pure, Except.pure]
  · intro n hn
    unfold substList
    rw [substL_mono E m hn ((hN N (Nat.le_refl _)).2 false .init)]

/-! ### A finite environment -/

/-- Every value mentions finitely many keys. -/
theorem exists_keys (uw) : ∀ v : Val, ∃ U, KeysIn uw U v := by
  intro v
  induction v using Val.rec (motive_2 := fun l => ∃ U, ∀ v ∈ l, KeysIn uw U v) with
  | none => exact ⟨[], .none⟩
  | str s =>
    refine ⟨(tokenize uw s).filterMap fun t => match t with | .ref _ k => some k | _ => .none,
      .str s fun b k hk => ?_⟩
    exact List.mem_filterMap.2 ⟨_, hk, rfl⟩
  | seq l ih => obtain ⟨U, h⟩ := ih; exact ⟨U, .seq l h⟩
  | obj a b => exact ⟨[], .obj a b⟩
  | fn v w i1 i2 =>
    obtain ⟨U1, h1⟩ := i1; obtain ⟨U2, h2⟩ := i2
    exact ⟨U1 ++ U2, .fn v w (h1.mono (by simp +contextual)) (h2.mono (by simp +contextual))⟩
  | nil => exact ⟨[], by simp⟩
  | cons v l i1 i2 =>
    obtain ⟨U1, h1⟩ := i1; obtain ⟨U2, h2⟩ := i2
    refine ⟨U1 ++ U2, fun w hw => ?_⟩
    rcases List.mem_cons.1 hw with h | h
    · subst h; exact h1.mono (by simp +contextual)
    · exact (h2 w h).mono (by simp +contextual)

/-- A dictionary as a list of pairs. -/
def ofList (d : List (Str × Val)) : Vars := fun k => (d.find? (·.1 = k)).map (·.2)

/-- **C31** the user's form: whatever the construction variables are (a finite
dictionary whose names contain no dot, as `Environment.__setitem__` demands), and
whatever string is substituted, `env.subst` and `env.subst_list` end, provided
Python expressions in `${...}` return values without further references. -/
theorem C31_any_variables (d l : List (Str × Val)) (ev) (noneOk uw) (m : Mode) (v : Val)
    (hd : ∀ p ∈ d, '.' ∉ p.1) (hl : ∀ p ∈ l, '.' ∉ p.1)
    (hev : ∀ k ns w, ev k ns = .val w → KeysIn uw [] w) :
    (∀ s, v = .str s → ∃ N r, r ≠ .error .fuel ∧ ∀ n, N ≤ n →
      subst ⟨ofList d, ev, noneOk, uw⟩ m n (ofList l) s = r) ∧
    ∃ N r, r ≠ .error .fuel ∧ ∀ n, N ≤ n →
      substList ⟨ofList d, ev, noneOk, uw⟩ m n (ofList l) v = r := by
  obtain ⟨U, hU⟩ := exists_keys uw (.seq (v :: (d ++ l).map (·.2)))
  cases hU with
  | seq _ hU =>
  have hmem : ∀ (D : List (Str × Val)) k w, ofList D k = some w → ∃ p ∈ D, p.1 = k ∧ p.2 = w := by
    intro D k w h
    simp only [ofList, Option.map_eq_some_iff] at h
    obtain ⟨p, hp, rfl⟩ := h
    exact ⟨p, List.mem_of_find?_eq_some hp, by simpa using List.find?_some hp, rfl⟩
  have hf : Finite ⟨ofList d, ev, noneOk, uw⟩ (ofList l) U := by
    refine ⟨fun k w h => ?_, fun k w h => ?_, fun k _ ns w h => ?_, fun k _ hk => ⟨?_, ?_, ?_⟩⟩
    · obtain ⟨p, hp, _, rfl⟩ := hmem _ _ _ h
      exact hU _ (List.mem_cons_of_mem _ (List.mem_map.2 ⟨p, by simp [hp], rfl⟩))
    · obtain ⟨p, hp, _, rfl⟩ := hmem _ _ _ h
      exact hU _ (List.mem_cons_of_mem _ (List.mem_map.2 ⟨p, by simp [hp], rfl⟩))
    · exact (hev k ns w h).mono (by simp)
    · cases h : ofList l k with
      | none => rfl
      | some w => obtain ⟨p, hp, rfl, _⟩ := hmem _ _ _ h; exact absurd hk (hl p hp)
    · show ofList d k = none
      cases h : ofList d k with
      | none => rfl
      | some w => obtain ⟨p, hp, rfl, _⟩ := hmem _ _ _ h; exact absurd hk (hd p hp)
    · exact fun ns w h => hev k ns w h
  have hv := hU v (by simp)
  exact ⟨fun s hs => by subst hs; exact C31_subst_terminates _ m _ U s hv hf,
    C31_subst_list_terminates _ m _ U v hv hf⟩

/-! ### A variable inside itself is empty -/

theorem over_set (lv g : Vars) (k : Str) (v : Val) : (lv.set k v).over g = (lv.over g).set k v := by
  funext k'
  simp only [Vars.over, Vars.set]
  split
  · rename_i h; split at h <;> simp_all
  · rename_i h; split at h <;> simp_all

/-- The result depends only on what each name means. -/
theorem substV_congr (E E' : Env) (m : Mode) (hev : E'.eval = E.eval) (hno : E'.noneOk = E.noneOk)
    (huw : E'.uw = E.uw) : ∀ n lv lv' v, lv'.over E'.gvars = lv.over E.gvars →
    substV E' m n lv' v = substV E m n lv v := by
  have hlook : ∀ lv lv' k, lv'.over E'.gvars = lv.over E.gvars → lookup E' lv' k = lookup E lv k := by
    intro lv lv' k h
    have hk := congrFun h k
    simp only [Vars.over] at hk
    unfold lookup
    rw [hno, hev, h]
    cases h1 : lv' k <;> cases h2 : lv k <;> simp only [h1, h2] at hk ⊢
    · rw [hk]
    · rw [hk]
    · rw [← hk]
    · cases hk; rfl
  intro n
  induction n with
  | zero => intro lv lv' v h; rfl
  | succ n ih =>
    intro lv lv' v h
    cases v with
    | none => rfl
    | obj a b => rfl
    | fn v w => exact ih lv lv' _ h
    | str s =>
      simp only [substV, huw]
      have : tokText E' (substV E' m n) lv' = tokText E (substV E m n) lv := by
        funext t
        cases t with
        | ref b k =>
          simp only [tokText]
          rw [hlook lv lv' k h]
          congr 1
          funext o
          cases o with
          | none => rfl
          | some v =>
            simp only
            cases v.plain? with
            | some s => rfl
            | none => exact ih _ _ _ (by simp only [blank, over_set, h])
        | _ => rfl
      rw [this]
    | seq l =>
      simp only [substV]
      have : substV E' m n lv' = substV E m n lv := by funext v; exact ih lv lv' v h
      rw [this]

/-- **C31** a variable inside its own definition is empty: the value of `${X}`
is the expansion of the value of `X` in an environment where `X` is the empty
string. -/
theorem C31_self_reference_is_empty (E : Env) (m : Mode) (n : Nat) (lv : Vars) (X : Str) (v : Val)
    (hdot : '.' ∉ X) (hX : lv.over E.gvars X = some v) (hv : v ≠ .none) (hp : v.plain? = none)
    (b : Bool) (htok : tokenize E.uw (Tok.ref b X).text = [.ref b X]) :
    substV E m (n + 1) lv (.str (Tok.ref b X).text) =
      substV { E with gvars := (lv.over E.gvars).set X (.str []) } m n (fun _ => none) v := by
  have hlook : lookup E lv X = .ok (some v) := by
    simp only [Vars.over] at hX
    unfold lookup
    cases h : lv X with
    | some w => rw [h] at hX; cases hX; exact checkNone_of_ne hv
    | none => rw [h] at hX; simp only at hX; rw [hX]; exact checkNone_of_ne hv
  have e1 : substV E m (n + 1) lv (.str (Tok.ref b X).text) =
      (do let l ← (tokenize E.uw (Tok.ref b X).text).mapM (tokText E (substV E m n) lv)
          pure l.flatten) := rfl
  rw [e1, htok]
  simp only [List.mapM_cons, List.mapM_nil, tokText, hlook, bind, Except.bind, hp, pure, Except.pure]
  rw [substV_congr { E with gvars := (lv.over E.gvars).set X (.str []) } E m rfl rfl rfl n
    (fun _ => none) (blank lv X) v]
  · cases substV { E with gvars := (lv.over E.gvars).set X (.str []) } m n (fun _ => none) v <;> simp
  · rw [blank, baseOf_self hdot, over_set]; funext k; simp [Vars.over]

/-- The side condition of `C31_self_reference_is_empty` holds for `${X}` with
any name `X` without a closing brace. -/
theorem tokenize_braced (uw) (X : Str) (h : '}' ∉ X) :
    tokenize uw (Tok.ref true X).text = [.ref true X] := by
  have hm : '}' ∈ X ++ ['}'] := by simp
  have ht : (X ++ ['}']).takeWhile (· != '}') = X ∧ (X ++ ['}']).dropWhile (· != '}') = ['}'] := by
    induction X with
    | nil => simp
    | cons c r ih =>
      simp only [List.mem_cons, not_or] at h
      have hc : (c != '}') = true := by simpa using fun e => h.1 e.symm
      obtain ⟨i1, i2⟩ := ih h.2 (by simp)
      simp only [List.cons_append, List.takeWhile_cons, List.dropWhile_cons, hc, if_true, i1, i2, and_self]
  show tokenize uw ('$' :: '{' :: (X ++ ['}'])) = _
  rw [tokenize_cons]
  have : nextTok uw '$' ('{' :: (X ++ ['}'])) = (.ref true X, []) := by
    show dollarTok uw ('{' :: (X ++ ['}'])) = _
    simp only [dollarTok]
    rw [if_neg (by decide), if_neg (by decide), if_neg (by decide), if_neg (by decide), if_pos (by simp),
      ht.1, ht.2]
    rfl
  rw [this]; rfl

/-! ### C45: undefined variables -/

/-- The value of `${X}` as the code finds it: a local variable, a construction variable, or the value of the Python expression. -/
inductive Means (E : Env) (lv : Vars) (X : Str) : EvalRes → Prop
  | var {v} : lv.over E.gvars X = some v → Means E lv X (.val v)
  | expr : lv.over E.gvars X = none → Means E lv X (E.eval X (lv.over E.gvars))

def lookOf (noneOk : Bool) : EvalRes → Except Err (Option Val)
  | .err => .error .user
  | .allowed => .ok none
  | .val v => checkNone noneOk v

theorem lookup_means {E : Env} {lv : Vars} {X : Str} {r : EvalRes} (h : Means E lv X r) : lookup E lv X = lookOf E.noneOk r := by
  unfold lookup
  cases h with
  | var h =>
    simp only [Vars.over] at h
    cases hl : lv X with
    | some w => rw [hl] at h; cases h; rfl
    | none => rw [hl] at h; simp only at h; rw [h]; rfl
  | expr h =>
    have h' := h
    simp only [Vars.over] at h
    cases hl : lv X with
    | some w => rw [hl] at h; cases h
    | none =>
      rw [hl] at h; simp only at h; rw [h]
      simp only
      cases E.eval X (lv.over E.gvars) <;> rfl

/-- **C45.**  `${X}`, by itself or inside a longer string: if the variable is undefined and the exception it causes is allowed (the default), or if its value is
`None` and `NameError` is allowed, it expands to nothing; otherwise `UserError` is raised. -/
theorem C45_undefined_variable (E : Env) (m : Mode) (n : Nat) (lv : Vars) (X : Str) (hX : '}' ∉ X) :
    (Means E lv X .allowed ∨ (Means E lv X (.val .none) ∧ E.noneOk = true) → subst E m (n + 1) lv (Tok.ref true X).text = .ok []) ∧
    (Means E lv X .err ∨ (Means E lv X (.val .none) ∧ E.noneOk = false) → subst E m (n + 1) lv (Tok.ref true X).text = .error .user) := by
  have hd : '$' ∈ (Tok.ref true X).text := by simp [Tok.text]
  have e1 : substV E m (n + 1) lv (.str (Tok.ref true X).text) =
      (do let l ← (tokenize E.uw (Tok.ref true X).text).mapM (tokText E (substV E m n) lv)
          pure l.flatten) := rfl
  rw [tokenize_braced E.uw X hX] at e1
  unfold subst
  rw [if_pos hd, e1]
  constructor
  · intro h
    have hl : lookup E lv X = .ok none := by
      rcases h with h | ⟨h, h2⟩
      · rw [lookup_means h]; rfl
      · rw [lookup_means h]; simp [lookOf, checkNone, h2]
    simp only [List.mapM_cons, List.mapM_nil, tokText, hl, bind, Except.bind, pure, Except.pure, List.flatten_cons, List.flatten_nil, List.append_nil]
    cases m <;> simp [post, collapse, finish, rmMarkers, compress, strip, splitM, removeGo, joinSp]
  · intro h
    have hl : lookup E lv X = .error .user := by
      rcases h with h | ⟨h, h2⟩
      · rw [lookup_means h]; rfl
      · rw [lookup_means h]; simp [lookOf, checkNone, h2]
    simp only [List.mapM_cons, List.mapM_nil, tokText, hl, bind, Except.bind]

/-- **C45** in a longer string, in raw mode before `$$` is replaced: an undefined variable contributes nothing, and without permission the whole string is an error. -/
theorem C45_undefined_in_context (E : Env) (m : Mode) (n : Nat) (lv : Vars) (s : Str) (b : Bool) (X : Str)
    (hin : Tok.ref b X ∈ tokenize E.uw s) (h : Means E lv X .err ∨ (Means E lv X (.val .none) ∧ E.noneOk = false)) :
    ∃ e, substV E m (n + 1) lv (.str s) = .error e := by
  have hl : lookup E lv X = .error .user := by
    rcases h with h | ⟨h, h2⟩
    · rw [lookup_means h]; rfl
    · rw [lookup_means h]; simp [lookOf, checkNone, h2]
  have e1 : substV E m (n + 1) lv (.str s) =
      (do let l ← (tokenize E.uw s).mapM (tokText E (substV E m n) lv)
          pure l.flatten) := rfl
  rw [e1]
  have key : ∀ l : List Tok, Tok.ref b X ∈ l → ∃ e, l.mapM (tokText E (substV E m n) lv) = .error e := by
    intro l
    induction l with
    | nil => intro h; cases h
    | cons t l ih =>
      intro ht
      rw [List.mapM_cons]
      rcases List.mem_cons.1 ht with rfl | ht
      · simp only [tokText, hl, bind, Except.bind]; exact ⟨_, rfl⟩
      · obtain ⟨e, he⟩ := ih ht
        cases h1 : tokText E (substV E m n) lv t with
        | error e' => exact ⟨e', rfl⟩
        | ok x => exact ⟨e, by simp [he, bind, Except.bind]⟩
  obtain ⟨e, he⟩ := key _ hin
  exact ⟨e, by rw [he]; rfl⟩

/-- The hypotheses can be met: an undefined variable with allowed exceptions, and one without. -/
example : Means ⟨fun _ => none, fun _ _ => .allowed, true, fun _ => false⟩ (fun _ => none) "X".toList .allowed ∧
    Means ⟨fun _ => none, fun _ _ => .err, false, fun _ => false⟩ (fun _ => none) "X".toList .err := ⟨.expr rfl, .expr rfl⟩

end Verif.Subst
