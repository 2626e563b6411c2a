import Verif.CompDb.Spec

/-!
# The compilation database (C114): what is recorded
-/

namespace Verif.CompDb

theorem kinds (suf : Str) :
    (suf ∈ cSuffixes ∧ suf ∉ cxxSuffixes ∧ suf ∉ asSuffixes ∧ suf ∉ asppSuffixes ∧ language suf = some .cc ∧ ∀ sh, command sh suf = some (if sh then .shcccom else .cccom)) ∨
    (suf ∉ cSuffixes ∧ suf ∈ cxxSuffixes ∧ suf ∉ asSuffixes ∧ suf ∉ asppSuffixes ∧ language suf = some .cxx ∧ ∀ sh, command sh suf = some (if sh then .shcxxcom else .cxxcom)) ∨
    (suf ∉ cSuffixes ∧ suf ∉ cxxSuffixes ∧ suf ∈ asSuffixes ∧ suf ∉ asppSuffixes ∧ language suf = some .as ∧ ∀ sh, command sh suf = some .ascom) ∨
    (suf ∉ cSuffixes ∧ suf ∉ cxxSuffixes ∧ suf ∉ asSuffixes ∧ suf ∈ asppSuffixes ∧ language suf = some .as ∧ ∀ sh, command sh suf = some .asppcom) ∨
    (suf ∉ cSuffixes ∧ suf ∉ cxxSuffixes ∧ suf ∉ asSuffixes ∧ suf ∉ asppSuffixes ∧ language suf = none ∧ ∀ sh, command sh suf = none) := by
  by_cases h1 : suf ∈ cSuffixes
  · refine .inl ⟨h1, ?_⟩
    simp only [cSuffixes, List.map_cons, List.map_nil, List.mem_cons, List.not_mem_nil, or_false] at h1
    rcases h1 with rfl | rfl <;> decide +kernel
  · by_cases h2 : suf ∈ cxxSuffixes
    · refine .inr (.inl ⟨h1, h2, ?_⟩)
      simp only [cxxSuffixes, List.map_cons, List.map_nil, List.mem_cons, List.not_mem_nil, or_false] at h2
      rcases h2 with rfl | rfl | rfl | rfl | rfl | rfl | rfl <;> decide +kernel
    · by_cases h3 : suf ∈ asSuffixes
      · refine .inr (.inr (.inl ⟨h1, h2, h3, ?_⟩))
        simp only [asSuffixes, List.map_cons, List.map_nil, List.mem_cons, List.not_mem_nil, or_false] at h3
        rcases h3 with rfl | rfl | rfl <;> decide +kernel
      · by_cases h4 : suf ∈ asppSuffixes
        · refine .inr (.inr (.inr (.inl ⟨h1, h2, h3, h4, ?_⟩)))
          simp only [asppSuffixes, List.map_cons, List.map_nil, List.mem_cons, List.not_mem_nil, or_false] at h4
          rcases h4 with rfl | rfl | rfl | rfl <;> decide +kernel
        · have hl : language suf = none := by
            rw [language, if_neg (by exact h1), if_neg (by exact h2), if_neg]
            intro h
            simp only [asSuffixes, asppSuffixes, List.map_cons, List.map_nil, List.mem_cons, List.not_mem_nil, or_false, not_or] at h h3 h4
            tauto
          refine .inr (.inr (.inr (.inr ⟨h1, h2, h3, h4, hl, fun sh => ?_⟩)))
          simp [command, hl]

/-- The builders after tools have been loaded: `f` tells how often the database's tool was, since the language. -/
def Good (T : Table) (f : Str → Option Nat) : Prop := ∀ sh suf,
  T.action sh suf = (f suf).bind (fun _ => command sh suf) ∧
  T.emitter sh suf = match f suf, command sh suf with | some k, some c => .object :: List.replicate k (.entry c) | _, _ => []

theorem good_empty : Good .empty fun _ => none := fun _ _ => ⟨rfl, rfl⟩

theorem good_generate (T : Table) (f : Str → Option Nat) (h : Good T f) (t : Tool) :
    Good (generate T t) (fun suf => if language suf = some t then some 0 else if t = .compdb then (f suf).map (· + 1) else f suf) := by
  intro sh suf
  obtain ⟨ha, he⟩ := h sh suf
  rcases kinds suf with ⟨h1, h2, h3, h4, hl, hc⟩ | ⟨h1, h2, h3, h4, hl, hc⟩ | ⟨h1, h2, h3, h4, hl, hc⟩ | ⟨h1, h2, h3, h4, hl, hc⟩ | ⟨h1, h2, h3, h4, hl, hc⟩ <;>
    rw [hc] at ha he ⊢ <;> rcases hf : f suf with _ | k <;> rw [hf] at ha he <;> cases t <;>
    simp [generate, register, watch, h1, h2, h3, h4, hl, ha, he, hf, List.replicate_succ']

theorem emit_object (t src : Path) (ce : CallEnv) (c : Cmd) (k : Nat) : emit t src ce (.object :: List.replicate k (.entry c)) = List.replicate k ⟨t, src, ce, c⟩ := by
  rw [emit]
  induction k with
  | zero => rfl
  | succ k ih => rw [List.replicate_succ, emit, ih, List.replicate_succ]

/-- What holds after a history (the last event first). -/
structure Inv (h : List Ev) (s : State) (M : List Nat) : Prop where
  count : s.envs.length = envCount h
  len : M.length = s.tables.length
  nodup : M.Nodup
  old : ∀ b ∈ M, b < h.length
  known : ∀ e i, s.tableOf e = some i → i < M.length
  blds : ∀ e, builders h e = (s.tableOf e).bind (M[·]?)
  fresh : ∀ b suf, b ∉ M → loads b suf h = none
  good : ∀ (i b : Nat) (T : Table), M[i]? = some b → s.tables[i]? = some T → Good T fun suf => loads b suf h

theorem inv_init : Inv [] .init [] :=
  ⟨rfl, rfl, List.nodup_nil, by simp, by simp [State.tableOf, State.init], by simp [State.tableOf, State.init, builders], by simp [loads], by simp⟩

theorem tableOf_append (s : State) (x : Option Nat) (e : Nat) (s' : State) (hs : s'.envs = s.envs ++ [x]) :
    s'.tableOf e = if e = s.envs.length then x else s.tableOf e := by
  rw [State.tableOf, State.tableOf, hs]
  by_cases h : e = s.envs.length
  · subst h; simp
  · rw [if_neg h]
    rcases Nat.lt_or_gt_of_ne h with h1 | h1
    · rw [List.getElem?_append_left h1]
    · rw [List.getElem?_eq_none (by simp; omega), List.getElem?_eq_none (by omega)]

theorem inv_step (h : List Ev) (s : State) (M : List Nat) (H : Inv h s M) (ev : Ev) : ∃ M', Inv (ev :: h) (step s ev) M' := by
  cases ev with
  | newEnv =>
    refine ⟨M, by simp [step, envCount, H.count], H.len, H.nodup, fun b hb => Nat.lt_succ_of_lt (H.old b hb), ?_, ?_, H.fresh, H.good⟩
    · intro e i he
      rw [tableOf_append s none e _ rfl] at he
      split at he
      · simp at he
      · exact H.known e i he
    · intro e
      rw [tableOf_append s none e _ rfl, builders, H.count]
      split
      · rfl
      · exact H.blds e
  | clone p =>
    refine ⟨M, by simp [step, envCount, H.count], H.len, H.nodup, fun b hb => Nat.lt_succ_of_lt (H.old b hb), ?_, ?_, H.fresh, H.good⟩
    · intro e i he
      rw [tableOf_append s (s.tableOf p) e _ rfl] at he
      split at he
      · exact H.known p i he
      · exact H.known e i he
    · intro e
      rw [tableOf_append s (s.tableOf p) e _ rfl, builders, H.count]
      split
      · exact H.blds p
      · exact H.blds e
  | compile sh t src suf ce =>
    have hs : (step s (.compile sh t src suf ce)).envs = s.envs ∧ (step s (.compile sh t src suf ce)).tables = s.tables := by
      rw [step]
      split
      · exact ⟨rfl, rfl⟩
      · split
        · exact ⟨rfl, rfl⟩
        · split <;> exact ⟨rfl, rfl⟩
    have ht : ∀ e, (step s (.compile sh t src suf ce)).tableOf e = s.tableOf e := fun e => by rw [State.tableOf, hs.1]; rfl
    refine ⟨M, by rw [hs.1]; exact H.count, by rw [hs.2]; exact H.len, H.nodup, fun b hb => Nat.lt_succ_of_lt (H.old b hb), ?_, ?_, H.fresh, ?_⟩
    · intro e i he
      rw [ht] at he
      exact H.known e i he
    · intro e
      rw [ht]
      exact H.blds e
    · intro i b T hi hT
      rw [hs.2] at hT
      exact H.good i b T hi hT
  | tool e t =>
    by_cases he : e < s.envs.length
    · rcases hx : s.tableOf e with _ | i
      · -- new builders
        have hstep : step s (.tool e t) = { s with tables := s.tables ++ [generate .empty t], envs := s.envs.set e (some s.tables.length) } := by
          rw [step, if_pos he]
          simp [hx]
        have htab : ∀ e', (step s (.tool e t)).tableOf e' = if e' = e then some s.tables.length else s.tableOf e' := by
          intro e'
          rw [hstep, State.tableOf, State.tableOf]
          by_cases h1 : e' = e
          · subst h1; simp [he]
          · simp [h1, List.getElem?_set_ne (Ne.symm h1)]
        have hb : builders h e = none := by rw [H.blds, hx]; rfl
        have hnew : h.length ∉ M := fun hm => Nat.lt_irrefl _ (H.old _ hm)
        have hbe : builders (.tool e t :: h) e = some h.length := by simp [builders, hb, ← H.count, he]
        refine ⟨M ++ [h.length], ?_, by rw [hstep]; simp [H.len], ?_, ?_, ?_, ?_, ?_, ?_⟩
        · rw [hstep]; simp [H.count, envCount]
        · exact List.nodup_append.2 ⟨H.nodup, by simp, by
            intro a ha b hb' hab
            subst hab
            simp only [List.mem_singleton] at hb'
            subst hb'
            exact hnew ha⟩
        · intro b hb'
          simp only [List.mem_append, List.mem_singleton] at hb'
          rcases hb' with hb' | rfl
          · exact Nat.lt_succ_of_lt (H.old b hb')
          · simp
        · intro e' i' hi'
          rw [htab] at hi'
          split at hi'
          · cases hi'; simp [H.len]
          · have := H.known e' i' hi'
            simp; omega
        · intro e'
          rw [htab]
          by_cases h1 : e' = e
          · subst h1; simp [hbe, H.len.symm]
          · have hbe' : builders (.tool e t :: h) e' = builders h e' := by rw [builders, if_neg (fun hc => h1 hc.1)]
            rw [if_neg h1, hbe', H.blds]
            rcases hy : s.tableOf e' with _ | j
            · rfl
            · have := H.known e' j hy
              simp [List.getElem?_append_left this]
        · intro b suf hb'
          simp only [List.mem_append, List.mem_singleton, not_or] at hb'
          rw [loads, hbe, if_neg (by intro hc; exact hb'.2 (Option.some.inj hc).symm)]
          exact H.fresh b suf hb'.1
        · intro i' b T hi' hT
          rw [hstep] at hT
          rcases Nat.lt_or_ge i' M.length with hlt | hge
          · rw [List.getElem?_append_left hlt] at hi'
            rw [List.getElem?_append_left (by rw [← H.len]; exact hlt)] at hT
            have hbM : b ∈ M := List.mem_of_getElem? hi'
            have hne : ¬ some h.length = some b := by
              intro hc
              rw [Option.some.inj hc] at hnew
              exact hnew hbM
            have := H.good i' b T hi' hT
            intro sh suf
            have h2 := this sh suf
            have h3 : loads b suf (.tool e t :: h) = loads b suf h := by rw [loads, hbe, if_neg hne]
            simpa only [h3] using h2
          · have : i' = M.length := by
              have := (List.getElem?_eq_some_iff.1 hi').1
              simp at this
              omega
            subst this
            have hb' : b = h.length := by simpa using hi'.symm
            subst hb'
            have hT' : T = generate .empty t := by
              rw [H.len] at hT
              simpa using hT.symm
            subst hT'
            have h2 := good_generate .empty _ good_empty t
            intro sh suf
            have h3 := h2 sh suf
            have h4 : loads h.length suf (.tool e t :: h) = (if language suf = some t then some 0 else if t = .compdb then (none : Option Nat).map (· + 1) else none) := by
              rw [loads, hbe, if_pos rfl, H.fresh _ _ hnew]
            simpa only [h4] using h3
      · -- builders that exist
        have hi := H.known e i hx
        have hstep : step s (.tool e t) = { s with tables := s.tables.modify i (generate · t) } := by
          rw [step, if_pos he]
          simp [hx]
        have htab : ∀ e', (step s (.tool e t)).tableOf e' = s.tableOf e' := fun e' => by rw [hstep]; rfl
        obtain ⟨b0, hb0⟩ : ∃ b, M[i]? = some b := ⟨_, List.getElem?_eq_getElem hi⟩
        have hbld : ∀ e', builders (.tool e t :: h) e' = builders h e' := by
          intro e'
          rw [builders]
          split
          · rename_i hc
            obtain ⟨rfl, _, hc⟩ := hc
            rw [H.blds, hx] at hc
            simp [hb0] at hc
          · rfl
        have hbe : builders (.tool e t :: h) e = some b0 := by rw [hbld, H.blds, hx]; simpa using hb0
        refine ⟨M, by rw [hstep]; exact H.count, by rw [hstep]; simp [H.len], H.nodup, fun b hb => Nat.lt_succ_of_lt (H.old b hb), ?_, ?_, ?_, ?_⟩
        · intro e' i' hi'
          rw [htab] at hi'
          exact H.known e' i' hi'
        · intro e'
          rw [htab, hbld]
          exact H.blds e'
        · intro b suf hb'
          rw [loads, hbe, if_neg]
          · exact H.fresh b suf hb'
          · intro hc
            rw [← Option.some.inj hc] at hb'
            exact hb' (List.mem_of_getElem? hb0)
        · intro i' b T hi' hT
          rw [hstep] at hT
          by_cases hii : i' = i
          · subst hii
            rw [hb0] at hi'
            cases hi'
            have hlt : i' < s.tables.length := by rw [← H.len]; exact hi
            obtain ⟨T0, hT0⟩ : ∃ T, s.tables[i']? = some T := ⟨_, List.getElem?_eq_getElem hlt⟩
            have hT' : T = generate T0 t := by simpa [List.getElem?_modify, hT0] using hT.symm
            subst hT'
            have h2 := good_generate T0 _ (H.good i' b0 T0 hb0 hT0) t
            intro sh suf
            have h3 := h2 sh suf
            have h4 : loads b0 suf (.tool e t :: h) = (if language suf = some t then some 0 else if t = .compdb then (loads b0 suf h).map (· + 1) else loads b0 suf h) := by
              rw [loads, hbe, if_pos rfl]
            simpa only [h4] using h3
          · have hT' : s.tables[i']? = some T := by simpa [List.getElem?_modify, Ne.symm hii] using hT
            have hne : ¬ some b0 = some b := by
              intro hc
              rw [Option.some.inj hc] at hb0
              have h5 := (List.getElem?_eq_some_iff.1 hi').1
              exact hii ((List.getElem?_inj h5 H.nodup).1 (hi'.trans hb0.symm))
            have := H.good i' b T hi' hT'
            intro sh suf
            have h2 := this sh suf
            have h3 : loads b suf (.tool e t :: h) = loads b suf h := by rw [loads, hbe, if_neg hne]
            simpa only [h3] using h2
    · -- no such environment
      have hstep : step s (.tool e t) = s := by rw [step, if_neg he]
      have hbld : ∀ e', builders (.tool e t :: h) e' = builders h e' := by
        intro e'
        rw [builders, if_neg]
        rintro ⟨rfl, hc, _⟩
        rw [H.count] at he
        exact he hc
      have hbe : builders (.tool e t :: h) e = none := by
        rw [hbld, H.blds, State.tableOf, List.getElem?_eq_none (by omega)]
        rfl
      have hl : ∀ b suf, loads b suf (.tool e t :: h) = loads b suf h := fun b suf => by rw [loads, hbe, if_neg (by simp)]
      refine ⟨M, by rw [hstep]; exact H.count, by rw [hstep]; exact H.len, H.nodup, fun b hb => Nat.lt_succ_of_lt (H.old b hb), by rw [hstep]; exact H.known, ?_, ?_, ?_⟩
      · intro e'
        rw [hstep, hbld]
        exact H.blds e'
      · intro b suf hb
        rw [hl]
        exact H.fresh b suf hb
      · intro i b T hi hT
        rw [hstep] at hT
        intro sh suf
        have := H.good i b T hi hT sh suf
        simpa only [hl] using this

/-- The entries and the compilations after a step. -/
theorem step_lists (h : List Ev) (s : State) (M : List Nat) (H : Inv h s M) (ev : Ev) :
    (s.entries = expected copies h → (step s ev).entries = expected copies (ev :: h)) ∧
    (s.compiles = expected (fun h e suf => (copies h e suf).map fun _ => 1) h → (step s ev).compiles = expected (fun h e suf => (copies h e suf).map fun _ => 1) (ev :: h)) := by
  cases ev with
  | newEnv => exact ⟨id, id⟩
  | clone p => exact ⟨id, id⟩
  | tool e t =>
    have : (step s (.tool e t)).entries = s.entries ∧ (step s (.tool e t)).compiles = s.compiles := by
      rw [step]
      split
      · split <;> exact ⟨rfl, rfl⟩
      · exact ⟨rfl, rfl⟩
    rw [this.1, this.2]
    exact ⟨id, id⟩
  | compile sh t src suf ce =>
    rcases hx : s.tableOf ce.env with _ | i
    · have hs : step s (.compile sh t src suf ce) = s := by simp [step, hx]
      have hc : copies h ce.env suf = none := by rw [copies, H.blds, hx]; rfl
      rw [hs]
      simp [expected, hc]
    · have hi := H.known _ i hx
      obtain ⟨b, hb⟩ : ∃ b, M[i]? = some b := ⟨_, List.getElem?_eq_getElem hi⟩
      obtain ⟨T, hT⟩ : ∃ T, s.tables[i]? = some T := ⟨_, List.getElem?_eq_getElem (by rw [← H.len]; exact hi)⟩
      have hc : copies h ce.env suf = loads b suf h := by
        rw [copies, H.blds, hx]
        simp [hb]
      obtain ⟨ha, he⟩ := H.good i b T hb hT sh suf
      simp only at ha he
      simp only [expected, hc]
      rcases hk : loads b suf h with _ | k
      · have hs : step s (.compile sh t src suf ce) = s := by
          have ha' : T.action sh suf = none := by rw [ha, hk]; rfl
          simp only [step, hx, hT, ha']
        rw [hs]
        simp
      · rcases hcc : command sh suf with _ | c
        · have hs : step s (.compile sh t src suf ce) = s := by
            have ha' : T.action sh suf = none := by rw [ha, hk, hcc]; rfl
            simp only [step, hx, hT, ha']
          rw [hs]
          simp
        · have ha' : T.action sh suf = some c := by rw [ha, hk, hcc]; rfl
          have he' : T.emitter sh suf = .object :: List.replicate k (.entry c) := by rw [he, hk, hcc]
          have hs : step s (.compile sh t src suf ce) = { s with entries := s.entries ++ List.replicate k ⟨t, src, ce, c⟩, compiles := s.compiles ++ [⟨t, src, ce, c⟩] } := by
            simp only [step, hx, hT, ha', he', emit_object]
          rw [hs]
          constructor
          · intro h1
            simp [h1]
          · intro h1
            simp [h1]

theorem run_inv (h : List Ev) : (∃ M, Inv h (run h.reverse) M) ∧ (run h.reverse).entries = expected copies h ∧
    (run h.reverse).compiles = expected (fun h e suf => (copies h e suf).map fun _ => 1) h := by
  induction h with
  | nil => exact ⟨⟨[], inv_init⟩, rfl, rfl⟩
  | cons ev h ih =>
    obtain ⟨⟨M, H⟩, h1, h2⟩ := ih
    have hr : run (ev :: h).reverse = step (run h.reverse) ev := by simp [run, List.foldl_append]
    rw [hr]
    exact ⟨inv_step h _ M H ev, (step_lists h _ M H ev).1 h1, (step_lists h _ M H ev).2 h2⟩

/-- **C114**: for every history of environments, clones, tools and calls, in whatever order: each compilation that is set up is recorded as often as the database's tool had been loaded for the environment's
builders since the suffix's language was, with the variable its command is in, in the order of the calls; and nothing else is recorded. -/
theorem C114_recorded (evs : List Ev) :
    (run evs).entries = expected copies evs.reverse ∧ (run evs).compiles = expected (fun h e suf => (copies h e suf).map fun _ => 1) evs.reverse := by
  have := (run_inv evs.reverse).2
  rwa [List.reverse_reverse] at this

/-- **C114**: every entry is of a compilation that was set up, with the same environment and command variable. -/
theorem C114_sound (evs : List Ev) : (run evs).entries ⊆ (run evs).compiles := by
  obtain ⟨h1, h2⟩ := C114_recorded evs
  rw [h1, h2]
  generalize evs.reverse = h
  intro e he
  induction h with
  | nil => exact he
  | cons ev h ih =>
    cases ev with
    | newEnv => exact ih he
    | clone p => exact ih he
    | tool e' t => exact ih he
    | compile sh t src suf ce =>
      simp only [expected, List.mem_append] at he ⊢
      rcases he with he | he
      · exact .inl (ih he)
      · refine .inr ?_
        rcases hc : copies h ce.env suf with _ | k
        · rw [hc] at he; exact he
        · rcases hd : command sh suf with _ | c
          · rw [hc, hd] at he; exact he
          · rw [hc, hd] at he
            have := List.eq_of_mem_replicate he
            simp [this]

theorem expected_congr (n m : List Ev → Nat → Str → Option Nat) (h : List Ev)
    (H : ∀ a sh t src suf ce b, h = a ++ .compile sh t src suf ce :: b → n b ce.env suf = m b ce.env suf) : expected n h = expected m h := by
  induction h with
  | nil => rfl
  | cons ev h ih =>
    have ih' := ih fun a sh t src suf ce b hb => H (ev :: a) sh t src suf ce b (by rw [hb]; rfl)
    cases ev with
    | compile sh t src suf ce =>
      rw [expected, expected, ih', H [] sh t src suf ce h rfl]
    | _ => exact ih'

/-- **C114**: where the database's tool had been loaded once for the builders of each call, after the suffix's language, the entries are the compilations: each once, in order. -/
theorem C114_once (evs : List Ev) (H : ∀ past sh t src suf ce later, evs = past ++ .compile sh t src suf ce :: later → copies past.reverse ce.env suf = some 1) :
    (run evs).entries = (run evs).compiles := by
  obtain ⟨h1, h2⟩ := C114_recorded evs
  rw [h1, h2]
  apply expected_congr
  intro a sh t src suf ce b hb
  have hb' : evs = b.reverse ++ .compile sh t src suf ce :: a.reverse := by
    have := congrArg List.reverse hb
    simpa using this
  have := H _ _ _ _ _ _ _ hb'
  rw [List.reverse_reverse] at this
  rw [this]
  rfl

/-- **C114**: one environment, its languages, then the database's tool: any calls after that are all recorded, once each, and with any overrides. -/
theorem C114_once_simple (langs : List Tool) (hl : ∀ t ∈ langs, t ≠ .compdb) (calls : List (Bool × Path × Path × Str × Str)) (hne : langs ≠ [])
    (hs : ∀ c ∈ calls, ∃ t ∈ langs, language c.2.2.2.1 = some t) :
    let evs := Ev.newEnv :: langs.map (.tool 0) ++ .tool 0 .compdb :: calls.map fun c => .compile c.1 c.2.1 c.2.2.1 c.2.2.2.1 ⟨0, c.2.2.2.2⟩
    (run evs).entries = (run evs).compiles ∧ (run evs).compiles.map (fun e => (e.target, e.source, e.env.overrides)) = calls.map fun c => (c.2.1, c.2.2.1, c.2.2.2.2) := by
  intro evs
  -- the builders
  have hB : ∀ ts : List Tool, ts ≠ [] → builders ((ts.map (Ev.tool 0)) ++ [.newEnv]) 0 = some 1 ∧ envCount ((ts.map (Ev.tool 0)) ++ [.newEnv]) = 1 := by
    intro ts
    induction ts with
    | nil => intro h; exact absurd rfl h
    | cons t ts ih =>
      intro _
      rcases ts with _ | ⟨t', ts⟩
      · simp [builders, envCount]
      · obtain ⟨i1, i2⟩ := ih (by simp)
        simp only [List.map_cons, List.cons_append] at i1 i2 ⊢
        have h1 : builders (Ev.tool 0 t :: Ev.tool 0 t' :: (List.map (Ev.tool 0) ts ++ [Ev.newEnv])) 0 = some 1 := by
          rw [builders, i1]
          simp
        exact ⟨h1, i2⟩
  have hL : ∀ (ts : List Tool), (∀ t ∈ ts, t ≠ .compdb) → ∀ suf, (∃ t ∈ ts, language suf = some t) → loads 1 suf ((ts.map (Ev.tool 0)) ++ [.newEnv]) = some 0 := by
    intro ts
    induction ts with
    | nil => rintro _ suf ⟨t, ht, _⟩; simp at ht
    | cons t ts ih =>
      intro hn suf hex
      have hb := (hB (t :: ts) (by simp)).1
      rw [List.map_cons, List.cons_append] at hb ⊢
      rw [loads, if_pos hb]
      by_cases hlt : language suf = some t
      · rw [if_pos hlt]
      · rw [if_neg hlt, if_neg (hn t (by simp))]
        obtain ⟨t', ht', hl'⟩ := hex
        rcases List.mem_cons.1 ht' with rfl | ht'
        · exact absurd hl' hlt
        · exact ih (fun x hx => hn x (by simp [hx])) suf ⟨t', ht', hl'⟩
  have hcalls : ∀ (cs : List Ev), (∀ c ∈ cs, ∃ sh t src suf ce, c = .compile sh t src suf ce) → ∀ h, (∀ e, builders (cs ++ h) e = builders h e) ∧ (∀ b suf, loads b suf (cs ++ h) = loads b suf h) := by
    intro cs
    induction cs with
    | nil => intro _ h; exact ⟨fun _ => rfl, fun _ _ => rfl⟩
    | cons c cs ih =>
      intro hc h
      obtain ⟨sh, t, src, suf, ce, rfl⟩ := hc c (by simp)
      exact ih (fun x hx => hc x (by simp [hx])) h
  have hlang : langs.reverse ≠ [] := by simpa using hne
  have hcop : ∀ (cs : List Ev), (∀ c ∈ cs, ∃ sh t src suf ce, c = .compile sh t src suf ce) → ∀ suf, (∃ t ∈ langs, language suf = some t) →
      copies (cs ++ .tool 0 .compdb :: (langs.reverse.map (Ev.tool 0) ++ [.newEnv])) 0 suf = some 1 := by
    intro cs hc suf hex
    obtain ⟨h1, h2⟩ := hcalls cs hc (.tool 0 .compdb :: (langs.reverse.map (Ev.tool 0) ++ [.newEnv]))
    have hb := (hB (.compdb :: langs.reverse) (by simp)).1
    rw [List.map_cons, List.cons_append] at hb
    rw [copies, h1, hb, Option.bind_some, h2, loads, if_pos hb, if_neg, if_pos rfl, hL _ (fun t ht => hl t (by simpa using ht)) suf (by simpa using hex)]
    · rfl
    · rcases kinds suf with k | k | k | k | k <;> simp [k]
  have hevs : evs = Ev.newEnv :: langs.map (.tool 0) ++ .tool 0 .compdb :: calls.map fun c => .compile c.1 c.2.1 c.2.2.1 c.2.2.2.1 ⟨0, c.2.2.2.2⟩ := rfl
  have hrev : evs.reverse = (calls.map fun c => Ev.compile c.1 c.2.1 c.2.2.1 c.2.2.2.1 ⟨0, c.2.2.2.2⟩).reverse ++ .tool 0 .compdb :: (langs.reverse.map (Ev.tool 0) ++ [.newEnv]) := by
    rw [hevs]; simp
  have hgen : ∀ (n : List Ev → Nat → Str → Option Nat), (∀ (cs : List Ev), (∀ c ∈ cs, ∃ sh t src suf ce, c = .compile sh t src suf ce) → ∀ suf, (∃ t ∈ langs, language suf = some t) →
      n (cs ++ .tool 0 .compdb :: (langs.reverse.map (Ev.tool 0) ++ [.newEnv])) 0 suf = some 1) →
      ∀ (rc : List (Bool × Path × Path × Str × Str)), (∀ c ∈ rc, ∃ t ∈ langs, language c.2.2.2.1 = some t) →
      (expected n ((rc.map fun c => Ev.compile c.1 c.2.1 c.2.2.1 c.2.2.2.1 ⟨0, c.2.2.2.2⟩) ++ .tool 0 .compdb :: (langs.reverse.map (Ev.tool 0) ++ [.newEnv]))) =
        rc.reverse.filterMap (fun c => (command c.1 c.2.2.2.1).map fun k => ⟨c.2.1, c.2.2.1, ⟨0, c.2.2.2.2⟩, k⟩) := by
    intro n hn rc
    induction rc with
    | nil =>
      intro _
      have : ∀ ts : List Tool, expected n (ts.map (Ev.tool 0) ++ [.newEnv]) = [] := by
        intro ts
        induction ts with
        | nil => rfl
        | cons t ts ih => exact ih
      simpa [expected] using this langs.reverse
    | cons c rc ih =>
      intro hc
      rw [List.map_cons, List.cons_append, expected, ih fun x hx => hc x (by simp [hx]), hn _ _ _ (hc c (by simp))]
      · rcases hk : command c.1 c.2.2.2.1 with _ | k <;> simp [hk]
      · intro x hx
        obtain ⟨y, _, rfl⟩ := List.mem_map.1 hx
        exact ⟨_, _, _, _, _, rfl⟩
  obtain ⟨r1, r2⟩ := C114_recorded evs
  have e1 := hgen copies hcop calls.reverse (by simpa using hs)
  have e2 := hgen (fun h e suf => (copies h e suf).map fun _ => 1) (fun cs hc suf hex => by rw [hcop cs hc suf hex]; rfl) calls.reverse (by simpa using hs)
  rw [← List.map_reverse] at hrev
  rw [r1, r2, hrev, e1, e2, List.reverse_reverse]
  refine ⟨rfl, ?_⟩
  clear e1 e2 r1 r2 hrev hevs evs
  induction calls with
  | nil => rfl
  | cons c cs ih =>
    have hcmd : ∃ k, command c.1 c.2.2.2.1 = some k := by
      obtain ⟨t, _, ht⟩ := hs c (by simp)
      rcases kinds c.2.2.2.1 with k | k | k | k | k
      · exact ⟨_, k.2.2.2.2.2 _⟩
      · exact ⟨_, k.2.2.2.2.2 _⟩
      · exact ⟨_, k.2.2.2.2.2 _⟩
      · exact ⟨_, k.2.2.2.2.2 _⟩
      · rw [k.2.2.2.2.1] at ht; simp at ht
    obtain ⟨k, hk⟩ := hcmd
    rw [List.filterMap_cons]
    simp only [hk, Option.map_some, List.map_cons]
    rw [ih fun x hx => hs x (by simp [hx])]

end Verif.CompDb
