import Verif.ActMake.Props

/-!
# Making actions (C115): the theorems
-/

namespace Verif.ActMake

/-- What the induction shows of each kind of thing. -/
def Good (W : World) : Thing → List Step → Prop
  | .act a, st => Does W a (runSteps W st)
  | .acts l, st => DoesAll W l (runSteps W st)
  | .var v, st => Does W (.lazy v false) (runSteps W st)
  | .lines ls, st => (∀ l ∈ ls, '\n' ∉ l) → DoesAll W (ls.map (lineAct false)) (runSteps W st)
  | .val v, st => ∃ a, action false v = .ok (some a) ∧ Does W a (runSteps W st)
  | .items l, st => ∃ as, createItems false false l = .ok as ∧ DoesAll W as (runSteps W st)

theorem does_const {W : World} {a : Act} {r : Result} (h : ∀ n, exec W (n + 1) a = some r) : Does W a r := does_succ 0 fun k _ => h k

theorem createItems_cons {v : Val} {l : List Val} {as : List Act} {a : Option Act} (h1 : createAction false false v = .ok (a, false)) (h2 : createItems false false l = .ok as) :
    createItems false false (v :: l) = .ok (a.toList ++ as) := by
  rw [createItems, h1]; simp [h2]

theorem action_nonlist {v : Val} {a : Option Act} (hv : ∀ l, v ≠ .list l) (h : action false v = .ok a) : createAction false false v = .ok (a, false) := by
  have key : ∀ r : Except Err (Option Act × Bool), createAction false false v = r → (match r with | .error e => .error e | .ok (b, _) => .ok b : Except Err (Option Act)) = .ok a → createAction false false v = .ok (a, false) := by
    intro r hr h
    rcases r with e | ⟨b, g⟩
    · simp at h
    · simp at h
      subst h
      have := createAction_flag false v b g hr
      subst this
      exact hr
  cases v with
  | list l => exact absurd rfl (hv l)
  | str s => exact key _ rfl h
  | act a => exact key _ rfl h
  | fn a => exact key _ rfl h
  | num => exact key _ rfl h
  | node a => exact key _ rfl h
  | obj => exact key _ rfl h

theorem good_of_means {W : World} {t : Thing} {st : List Step} (h : Means W t st) : Good W t st := by
  induction h with
  | cmd s => exact does_const fun n => by rw [runSteps_text, runSteps, andThen_nil]; rfl
  | words ws => exact does_const fun n => by rw [runSteps_words, runSteps, andThen_nil]; rfl
  | fn f => exact does_const fun n => by rw [runSteps_run W _ (by simp) (by simp), runSteps, andThen_nil]; rfl
  | list _ ih =>
    obtain ⟨n, hn⟩ := ih
    exact does_succ n fun k hk => hn k hk
  | gen _ ih =>
    obtain ⟨a, ha, n, hn⟩ := ih
    exact does_succ n fun k hk => by
      show generated _ _ = _
      rw [ha]; exact hn k hk
  | genBad hb => exact does_const fun n => generated_bad _ hb
  | lazy _ ih => exact ih
  | nil => exact doesAll_nil W
  | cons _ _ ih1 ih2 =>
    show DoesAll W _ _
    rw [runSteps_append]; exact doesAll_cons ih1 ih2
  | varText he hs =>
    exact does_const fun n => by
      rw [runSteps_run W _ (by simp) (by simp), runSteps, andThen_nil]
      simp [exec, he, hs]
  | @varVal v c st he hc _ ih =>
    obtain ⟨a, ha, n, hn⟩ := ih
    refine does_succ n fun k hk => ?_
    cases c with
    | str s => simp only [exec, he, hc s rfl, if_true, ha, generated]; exact hn k hk
    | _ => simp only [exec, he, ha, generated]; exact hn k hk
  | varNone he =>
    refine does_succ 1 fun k hk => ?_
    obtain ⟨j, rfl⟩ : ∃ j, k = j + 1 := ⟨k - 1, by omega⟩
    simp only [exec, he]
    rfl
  | @varBad v c he hb =>
    refine does_const fun n => ?_
    cases c with
    | str s => cases hb
    | _ => simp only [exec, he]; exact generated_bad _ hb
  | noLines => exact fun _ => doesAll_nil W
  | refLine hr _ _ ih1 ih2 =>
    intro hls
    rw [runSteps_append, List.map_cons]
    refine doesAll_cons ?_ (ih2 fun x hx => hls x (by simp [hx]))
    rw [lineAct, envVar_line _ (isRef_no_nl hr), (refOf_iff _ _).2 hr]
    exact ih1
  | @textLine l ls t hr _ ih =>
    intro hls
    rw [runSteps_text, List.map_cons]
    refine doesAll_cons ?_ (ih fun x hx => hls x (by simp [hx]))
    have : envVar l = none := by
      rw [envVar_line _ (hls _ (by simp))]
      rcases hx : refOf l with _ | v
      · rfl
      · exact absurd ((refOf_iff _ _).1 hx) (hr v)
    rw [lineAct, this]
    exact does_const fun _ => rfl
  | str hl _ ih =>
    refine lines_act _ W _ ?_
    rw [isLines_eq hl]
    exact ih hl.2.1
  | func f => exact ⟨_, rfl, does_const fun n => by rw [runSteps_run W _ (by simp) (by simp), runSteps, andThen_nil]; rfl⟩
  | obj _ ih => exact ⟨_, rfl, ih⟩
  | items _ ih =>
    obtain ⟨as, h1, h2⟩ := ih
    exact ⟨wrap as, by simp [action, h1], does_wrap h2⟩
  | noItems => exact ⟨[], rfl, doesAll_nil W⟩
  | skipNode _ ih =>
    obtain ⟨as, h1, h2⟩ := ih
    exact ⟨as, createItems_cons (a := none) rfl h1, h2⟩
  | skipObj _ ih =>
    obtain ⟨as, h1, h2⟩ := ih
    exact ⟨as, createItems_cons (a := none) rfl h1, h2⟩
  | @command ws us l st hw _ ih =>
    obtain ⟨as, h1, h2⟩ := ih
    refine ⟨_, createItems_cons (a := some (.words us)) (by simp [createAction, words_of hw]) h1, ?_⟩
    rw [runSteps_words]
    exact doesAll_cons (does_const fun _ => rfl) h2
  | item hv _ _ ih1 ih2 =>
    obtain ⟨a, h1, h2⟩ := ih1
    obtain ⟨as, h3, h4⟩ := ih2
    refine ⟨_, createItems_cons (action_nonlist hv h1) h3, ?_⟩
    rw [runSteps_append]
    exact doesAll_cons h2 h4

/-- **C115.** An action made from a value runs what was written, in order, each once, up to the first that fails. -/
theorem C115_order (W : World) (v : Val) (st : List Step) (h : Means W (.val v) st) :
    ∃ a, action false v = .ok (some a) ∧ ∃ n, ∀ m, n ≤ m → exec W m a = some (runSteps W st) := good_of_means h

/-- An action object runs what it means. -/
theorem C115_object (W : World) (a : Act) (st : List Step) (h : Means W (.act a) st) : ∃ n, ∀ m, n ≤ m → exec W m a = some (runSteps W st) := good_of_means h

theorem append_does {W : World} {a b : Act} {r s : Result} (ha : Does W a r) (hb : Does W b s) : ∃ c, append (some a) (some b) = some c ∧ Does W c (andThen r s) := by
  have ea : (∃ l, a = .list l) ∨ (∀ l, a ≠ .list l) := by cases a <;> simp
  have eb : (∃ l, b = .list l) ∨ (∀ l, b ≠ .list l) := by cases b <;> simp
  have toAll : ∀ {l : List Act} {r}, Does W (.list l) r → DoesAll W l r := fun ⟨n, hn⟩ => ⟨n, fun m hm => hn (m + 1) (by omega)⟩
  have toDo : ∀ {l : List Act} {r}, DoesAll W l r → Does W (.list l) r := fun ⟨n, hn⟩ => does_succ n hn
  have one : ∀ {a : Act} {r}, Does W a r → DoesAll W [a] r := fun ⟨n, hn⟩ => ⟨n, fun m hm => by rw [seqAll_single]; exact hn m hm⟩
  rcases ea with ⟨l, rfl⟩ | ea <;> rcases eb with ⟨l', rfl⟩ | eb
  · exact ⟨_, rfl, toDo (doesAll_append (toAll ha) (toAll hb))⟩
  · refine ⟨.list (l ++ [b]), ?_, toDo (doesAll_append (toAll ha) (one hb))⟩
    cases b <;> first | rfl | exact absurd rfl (eb _)
  · refine ⟨.list (a :: l'), ?_, toDo (doesAll_cons ha (toAll hb))⟩
    cases a <;> first | rfl | exact absurd rfl (ea _)
  · refine ⟨.list [a, b], ?_, toDo (doesAll_cons ha (one hb))⟩
    cases a <;> cases b <;> first | rfl | exact absurd rfl (ea _) | exact absurd rfl (eb _)

/-- `a + b` runs what `a` runs and then, if nothing failed, what `b` runs. -/
theorem C115_add (W : World) (v w : Val) (s t : List Step) (hv : Means W (.val v) s) (hw : Means W (.val w) t) :
    ∃ a, add v w = .ok (some a) ∧ ∃ n, ∀ m, n ≤ m → exec W m a = some (runSteps W (s ++ t)) := by
  obtain ⟨a, ha, da⟩ := good_of_means hv
  obtain ⟨b, hb, db⟩ := good_of_means hw
  obtain ⟨c, hc, dc⟩ := append_does da db
  exact ⟨c, by simp [add, ha, hb, hc], by rw [runSteps_append]; exact dc⟩

/-- Adding `None` changes nothing. -/
theorem C115_add_none (v : Val) (a : Act) (h : action false v = .ok (some a)) : add v .obj = .ok (some a) ∧ add .obj v = .ok (some a) := by
  have h0 : action false .obj = .ok none := rfl
  constructor
  · simp only [add, h, h0]; cases a <;> rfl
  · simp only [add, h, h0]; cases a <;> rfl

/-- With the keyword `generator`, what a function returns is run. -/
theorem C115_generator (W : World) (f : Nat) (st : List Step) (h : Means W (.val (W.gen f)) st) :
    ∃ a, action true (.fn f) = .ok (some a) ∧ ∃ n, ∀ m, n ≤ m → exec W m a = some (runSteps W st) :=
  ⟨.gen f, rfl, good_of_means (.gen h)⟩

/-- The same in a list with one function. -/
theorem C115_generator_one (W : World) (f : Nat) (st : List Step) (h : Means W (.val (W.gen f)) st) :
    ∃ a, action true (.list [.fn f]) = .ok (some a) ∧ ∃ n, ∀ m, n ≤ m → exec W m a = some (runSteps W st) :=
  ⟨.gen f, rfl, good_of_means (.gen h)⟩

/-- **Counterexample.** Of several functions given with `generator=True` only the first is asked for its commands: the others are called as actions, and what they return is not run. -/
theorem C115_second_generator (f : Nat) (fs : List Nat) (hf : fs ≠ []) : action true (.list (.fn f :: fs.map .fn)) = .ok (some (.list (.gen f :: fs.map .fn))) := by
  have h1 : ∀ fs : List Nat, createItems false false (fs.map .fn) = .ok (fs.map .fn) := by
    intro fs
    induction fs with
    | nil => rfl
    | cons x fs ih => simp [createItems, createAction, ih]
  cases fs with
  | nil => exact absurd rfl hf
  | cons g fs =>
    have h2 := h1 (g :: fs)
    simp only [action, createItems, createAction, List.any_cons, isFn, Bool.true_or, Bool.not_true, Bool.and_false]
    rw [h2]
    simp [wrap]

end Verif.ActMake
