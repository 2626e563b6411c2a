import Verif.Decide.Model

/-!
# C95: theorems

Histories are lists of statements, the last one first. Specification: what was said last.
-/

namespace Verif.Decide
variable {F : Type} [DecidableEq F]

/-! ### Specification -/

/-- The environment that `e` is an override of, in the end; `e` itself if it is none. -/
def root : List (Op F) → Nat → Nat
  | [], e => e
  | .override e1 e2 :: h, e => if e = e2 then root h e1 else root h e
  | .new e1 :: h, e => if e = e1 then e else root h e
  | .clone _ e2 :: h, e => if e = e2 then e else root h e
  | _ :: h, e => root h e

/-- Was `e` made as an override environment? -/
def isOverride : List (Op F) → Nat → Bool
  | [], _ => false
  | .override _ e2 :: h, e => if e = e2 then true else isOverride h e
  | .new e1 :: h, e => if e = e1 then false else isOverride h e
  | .clone _ e2 :: h, e => if e = e2 then false else isOverride h e
  | _ :: h, e => isOverride h e

/-- The names of the manual. -/
def meaning (s : String) : Option (Fn F) :=
  [("content", Fn.content), ("MD5", .content), ("content-timestamp", .contentTimestamp), ("MD5-timestamp", .contentTimestamp),
   ("timestamp-newer", .newer), ("make", .newer), ("timestamp-match", .match_)].lookup s

theorem ofName_meaning (s : String) : (ofName s : Option (Fn F)) = meaning s := by
  unfold ofName meaning
  simp only [List.lookup_cons, List.lookup_nil]
  by_cases h1 : s = "MD5" <;> by_cases h2 : s = "content" <;> by_cases h3 : s = "MD5-timestamp" <;>
    by_cases h4 : s = "content-timestamp" <;> by_cases h5 : s = "timestamp-newer" <;> by_cases h6 : s = "make" <;>
    by_cases h7 : s = "timestamp-match" <;> simp_all [beq_iff_eq, beq_eq_false_iff_ne.2]

/-- The decision function of environment `e`: the last one given with `Decider`, to `e` or, before `e`
was cloned, to its original. The default environment begins with `content`, the others with none. -/
def said : List (Op F) → Nat → Option (Fn F)
  | [], e => if e = 0 then some .content else none
  | .decider e1 (.func f) :: h, e => if e = e1 then some (.user f) else said h e
  | .decider e1 (.name s) :: h, e => if e = e1 ∧ (meaning s : Option (Fn F)).isSome then meaning s else said h e
  | .clone e1 e2 :: h, e => if e = e2 then said h e1 else said h e
  | .new e1 :: h, e => if e = e1 then none else said h e
  | _ :: h, e => said h e

/-- The function given last with `n.Decider`. -/
def own : List (Op F) → Nat → Option F
  | [], _ => none
  | .nodeDecider m f :: h, n => if n = m then some f else own h n
  | _ :: h, n => own h n

/-- What `n` is: what it was made as, or, for entries, what it turned out to be. -/
def kindOf (kind : Nat → Kind) : List (Op F) → Nat → Kind
  | [], n => kind n
  | .morph m k :: h, n => if n = m then k else kindOf kind h n
  | _ :: h, n => kindOf kind h n

/-- The environment of the last builder call for `t`. -/
def builtWith : List (Op F) → Nat → Option Nat
  | [], _ => none
  | .build e ts :: h, t => if t ∈ ts then some e else builtWith h t
  | _ :: h, t => builtWith h t

/-- The function of the environment, or that of the default environment now, if it has none. -/
def saidFor (h : List (Op F)) (e : Nat) : By F :=
  match said h (root h e) with
  | some f => .fn f
  | none => match said h 0 with
    | some f => .fn f
    | none => .broken

/-- Who should decide whether dependency `n` of `t` has changed: the function given to `n`;
otherwise, for files, the function of the environment `t` is built with; otherwise the rule for
its kind. -/
def should (kind : Nat → Kind) (h : List (Op F)) (t n : Nat) : By F :=
  match own h n with
  | some f => .fn (.user f)
  | none => match kindOf kind h n with
    | .file => match builtWith h t with
      | some e => saidFor h e
      | none => .nobody
    | k => .fixed k

/-- The environments that have been made. -/
def made : List (Op F) → List Nat
  | [] => [0]
  | .override _ e2 :: h => e2 :: made h
  | .new e1 :: h => e1 :: made h
  | .clone _ e2 :: h => e2 :: made h
  | _ :: h => made h

/-- Environments are made once and before they are used; only entries turn out to be files or
directories. What is excluded else (each is a counterexample in `Decide/Witness`): `Decider` and `Clone` of an
override environment; a builder call for a node, or finding out what an entry is, after `n.Decider`. -/
def Plain (kind : Nat → Kind) : List (Op F) → Prop
  | [] => True
  | .decider e _ :: h => isOverride h e = false ∧ e ∈ made h ∧ Plain kind h
  | .clone e e2 :: h => isOverride h e = false ∧ e ∈ made h ∧ e2 ∉ made h ∧ Plain kind h
  | .override e e2 :: h => e ∈ made h ∧ e2 ∉ made h ∧ Plain kind h
  | .new e :: h => e ∉ made h ∧ Plain kind h
  | .build e ts :: h => e ∈ made h ∧ (∀ n ∈ ts, own h n = none) ∧ Plain kind h
  | .morph n k :: h => own h n = none ∧ kindOf kind h n = .entry ∧ (k = .file ∨ k = .dir) ∧ Plain kind h
  | .nodeDecider _ _ :: h => Plain kind h

/-! ### The invariant -/

/-- The entry of the map that a node without its own function uses. -/
def KindSlot : Kind → Slot F → Prop
  | .alias, x => x = .alias
  | .entry, x => x = .entry
  | .dir, x => x = .state
  | .value, x => x = .python
  | .file, x => x = .source ∨ x = .target

structure Inv (kind : Nat → Kind) (h : List (Op F)) (s : St F) : Prop where
  subject : ∀ e, s.subject e = if isOverride h e then some (root h e) else none
  self : ∀ e, isOverride h e = false → root h e = e
  attr : ∀ e, isOverride h e = false → s.attr e = match said h e with
    | some f => .fn f
    | none => .default
  over : ∀ e, isOverride h e = true → e ∈ made h
  zero : 0 ∈ made h ∧ isOverride h 0 = false
  rooted : ∀ e ∈ made h, isOverride h (root h e) = false ∧ root h e ∈ made h
  map : ∃ us, s.map = [.node, .alias, .entry, .state, .source, .target, .python] ++ us
  kinds : ∀ n, s.kind n = kindOf kind h n
  idx : ∀ n, ∃ x, s.map[s.idx n]? = some x ∧ match own h n with
    | some f => x = .user f
    | none => KindSlot (kindOf kind h n) x
  env : ∀ t, s.env t = builtWith h t
  used : ∀ t e, builtWith h t = some e → e ∈ made h

theorem inv_init (kind : Nat → Kind) : Inv kind ([] : List (Op F)) (St.init kind) := by
  refine ⟨fun _ => rfl, fun _ _ => rfl, fun e _ => ?_, by simp [isOverride], by simp [made, isOverride], by simp [made, isOverride, root],
    ⟨[], rfl⟩, fun _ => rfl, fun n => ?_, fun _ => rfl, by simp [builtWith]⟩
  · simp only [St.init, said]; split <;> rfl
  · simp only [St.init, own, kindOf]
    cases kind n <;> simp [firstIdx, KindSlot]

theorem owner_eq {kind : Nat → Kind} {h : List (Op F)} {s : St F} (hi : Inv kind h s) (e : Nat) : owner s e = root h e := by
  simp only [owner, hi.subject e]
  cases ho : isOverride h e with
  | true => simp
  | false => simp [hi.self e ho]

/-- What a builder call does to its targets, all together. -/
theorem buildTargets (e : Nat) (ts : List Nat) (s : St F) :
    (ts.foldl (buildTarget e) s).subject = s.subject ∧ (ts.foldl (buildTarget e) s).attr = s.attr ∧
    (ts.foldl (buildTarget e) s).map = s.map ∧ (ts.foldl (buildTarget e) s).kind = s.kind ∧
    (ts.foldl (buildTarget e) s).touch = s.touch ∧
    (∀ n, (ts.foldl (buildTarget e) s).env n = if n ∈ ts then some e else s.env n) ∧
    (∀ n, (ts.foldl (buildTarget e) s).idx n = if n ∈ ts ∧ s.kind n = .file then 5 else s.idx n) := by
  induction ts generalizing s with
  | nil => simp
  | cons t ts ih =>
    obtain ⟨a1, a2, a3, a4, a5, a6, a7⟩ := ih (buildTarget e s t)
    rw [List.foldl_cons]
    refine ⟨a1, a2, a3, a4, a5, fun n => ?_, fun n => ?_⟩
    · rw [a6]; simp only [buildTarget, set, List.mem_cons]
      by_cases e1 : n ∈ ts <;> by_cases e2 : n = t <;> simp [e1, e2]
    · rw [a7]; simp only [buildTarget, set, List.mem_cons]
      by_cases e1 : n ∈ ts <;> by_cases e2 : n = t <;> by_cases e3 : s.kind n = .file <;> by_cases e4 : s.kind t = .file <;> simp_all [set]

theorem inv_step {kind : Nat → Kind} {h : List (Op F)} {s : St F} (hi : Inv kind h s) (o : Op F)
    (hp : Plain kind (o :: h)) : Inv kind (o :: h) (step s o) := by
  have hsub := hi.subject
  have hself := hi.self
  cases o with
  | new e =>
    obtain ⟨hf, _⟩ := hp
    have h0 : ∀ x, x ∈ made h → x ≠ e := fun x hx ex => hf (ex ▸ hx)
    refine ⟨fun x => ?_, fun x hx => ?_, fun x hx => ?_, fun x hx => ?_, ?_, fun x hx => ?_, hi.map, hi.kinds, hi.idx, hi.env, fun t x hx => List.mem_cons_of_mem _ (hi.used t x hx)⟩
    · simp only [step, set, isOverride, root]
      by_cases ex : x = e <;> simp [ex, hsub]
    · simp only [isOverride, root] at hx ⊢
      by_cases ex : x = e <;> simp_all
    · simp only [isOverride, step, set, said] at hx ⊢
      by_cases ex : x = e
      · simp [ex]
      · simp only [ex, if_false] at hx ⊢; exact hi.attr x hx
    · simp only [isOverride] at hx
      by_cases ex : x = e
      · simp [ex] at hx
      · simp only [ex, if_false] at hx; exact List.mem_cons_of_mem _ (hi.over x hx)
    · simp only [made, isOverride, (h0 0 hi.zero.1)]
      exact ⟨List.mem_cons_of_mem _ hi.zero.1, by simp [hi.zero.2]⟩
    · simp only [made, isOverride, root, List.mem_cons] at hx ⊢
      by_cases ex : x = e
      · simp [ex]
      · have hm : x ∈ made h := by simpa [ex] using hx
        obtain ⟨r1, r2⟩ := hi.rooted x hm
        simp [ex, h0 _ r2, r1, r2]
  | clone e e2 =>
    obtain ⟨ho, hm, hf, _⟩ := hp
    have h0 : ∀ x, x ∈ made h → x ≠ e2 := fun x hx ex => hf (ex ▸ hx)
    have hs : s.subject e = none := by rw [hsub, ho]; rfl
    refine ⟨fun x => ?_, fun x hx => ?_, fun x hx => ?_, fun x hx => ?_, ?_, fun x hx => ?_, ?_, ?_, ?_, ?_, fun t x hx => List.mem_cons_of_mem _ (hi.used t x hx)⟩
    · simp only [step, hs, set, isOverride, root]
      by_cases ex : x = e2 <;> simp [ex, hsub]
    · simp only [isOverride, root] at hx ⊢
      by_cases ex : x = e2 <;> simp_all
    · simp only [isOverride, step, hs, set, said] at hx ⊢
      by_cases ex : x = e2
      · simp only [ex, if_true]; exact hi.attr e ho
      · simp only [ex, if_false] at hx ⊢; exact hi.attr x hx
    · simp only [isOverride] at hx
      by_cases ex : x = e2
      · simp [ex] at hx
      · simp only [ex, if_false] at hx; exact List.mem_cons_of_mem _ (hi.over x hx)
    · simp only [made, isOverride]
      exact ⟨List.mem_cons_of_mem _ hi.zero.1, by simp [(h0 0 hi.zero.1), hi.zero.2]⟩
    · simp only [made, isOverride, root, List.mem_cons] at hx ⊢
      by_cases ex : x = e2
      · simp [ex]
      · have hm : x ∈ made h := by simpa [ex] using hx
        obtain ⟨r1, r2⟩ := hi.rooted x hm
        simp [ex, h0 _ r2, r1, r2]
    all_goals simp only [step, hs]
    · exact hi.map
    · exact hi.kinds
    · exact hi.idx
    · exact hi.env
  | override e e2 =>
    obtain ⟨hm, hf, _⟩ := hp
    have h0 : ∀ x, x ∈ made h → x ≠ e2 := fun x hx ex => hf (ex ▸ hx)
    refine ⟨fun x => ?_, fun x hx => ?_, fun x hx => ?_, fun x hx => ?_, ?_, fun x hx => ?_, hi.map, hi.kinds, hi.idx, hi.env, fun t x hx => List.mem_cons_of_mem _ (hi.used t x hx)⟩
    · simp only [step, set, isOverride, root, owner_eq hi]
      by_cases ex : x = e2 <;> simp [ex, hsub]
    · simp only [isOverride, root] at hx ⊢
      by_cases ex : x = e2 <;> simp_all
    · simp only [isOverride, step, said] at hx ⊢
      by_cases ex : x = e2
      · simp [ex] at hx
      · simp only [ex, if_false] at hx; exact hi.attr x hx
    · simp only [isOverride] at hx
      by_cases ex : x = e2
      · simp [ex, made]
      · simp only [ex, if_false] at hx; exact List.mem_cons_of_mem _ (hi.over x hx)
    · simp only [made, isOverride]
      exact ⟨List.mem_cons_of_mem _ hi.zero.1, by simp [(h0 0 hi.zero.1), hi.zero.2]⟩
    · simp only [made, isOverride, root, List.mem_cons] at hx ⊢
      by_cases ex : x = e2
      · obtain ⟨r1, r2⟩ := hi.rooted e hm
        simp [ex, h0 _ r2, r1, r2]
      · have hm : x ∈ made h := by simpa [ex] using hx
        obtain ⟨r1, r2⟩ := hi.rooted x hm
        simp [ex, h0 _ r2, r1, r2]
  | decider e a =>
    obtain ⟨ho, hm, _⟩ := hp
    have hw : owner s e = e := by rw [owner_eq hi, hself e ho]
    have hst : step s (.decider e a) = envDecider s e a := by simp only [step, hw]
    have k : (envDecider s e a).subject = s.subject ∧ (envDecider s e a).map = s.map ∧ (envDecider s e a).kind = s.kind ∧
        (envDecider s e a).idx = s.idx ∧ (envDecider s e a).env = s.env ∧
        (envDecider s e a).attr = match a.fn with | some f => set s.attr e (.fn f) | none => s.attr := by
      unfold envDecider; cases a.fn <;> exact ⟨rfl, rfl, rfl, rfl, rfl, rfl⟩
    obtain ⟨k1, k2, k3, k4, k5, k6⟩ := k
    rw [hst]
    refine ⟨fun x => ?_, fun x hx => ?_, fun x hx => ?_, fun x hx => ?_, hi.zero, hi.rooted, ?_, ?_, ?_, ?_, hi.used⟩
    · rw [k1]; exact hsub x
    · exact hself x hx
    · rw [k6]
      cases a with
      | func f =>
        simp only [Arg.fn, said, set]
        by_cases ex : x = e
        · simp [ex]
        · simp only [ex, if_false]; exact hi.attr x hx
      | name n =>
        simp only [Arg.fn, said, ofName_meaning]
        cases hn : (meaning n : Option (Fn F)) with
        | none => simp only [Option.isSome_none, Bool.false_eq_true, and_false, if_false]; exact hi.attr x hx
        | some f =>
          simp only [Option.isSome_some, and_true, set]
          by_cases ex : x = e
          · simp [ex]
          · simp only [ex, if_false]; exact hi.attr x hx
    · exact hi.over x hx
    · rw [k2]; exact hi.map
    · rw [k3]; exact hi.kinds
    · rw [k2, k4]; exact hi.idx
    · rw [k5]; exact hi.env
  | nodeDecider n f =>
    obtain ⟨us, hus⟩ := hi.map
    have key : ∃ vs, (nodeDecider s n f).map = s.map ++ vs ∧ (nodeDecider s n f).idx = set s.idx n ((nodeDecider s n f).idx n) ∧
        (nodeDecider s n f).map[(nodeDecider s n f).idx n]? = some (.user f) ∧ (nodeDecider s n f).subject = s.subject ∧
        (nodeDecider s n f).attr = s.attr ∧ (nodeDecider s n f).kind = s.kind ∧ (nodeDecider s n f).env = s.env := by
      simp only [nodeDecider]
      split
      · rename_i k hk
        refine ⟨[], by simp, by simp [set], ?_, rfl, rfl, rfl, rfl⟩
        obtain ⟨hlt, hk', _⟩ := List.findIdx?_eq_some_iff_getElem.1 hk
        simp only [decide_eq_true_eq] at hk'
        simp [set, hk', hlt]
      · exact ⟨[.user f], rfl, by simp [set], by simp [set], rfl, rfl, rfl, rfl⟩
    obtain ⟨vs, k1, k2, k3, k4, k5, k6, k7⟩ := key
    have hst : step s (.nodeDecider n f) = nodeDecider s n f := rfl
    rw [hst]
    refine ⟨fun x => ?_, hself, fun x hx => ?_, hi.over, hi.zero, hi.rooted, ⟨us ++ vs, ?_⟩, ?_, fun m => ?_, ?_, hi.used⟩
    · rw [k4]; exact hsub x
    · rw [k5]; exact hi.attr x hx
    · rw [k1, hus]; simp
    · rw [k6]; exact hi.kinds
    · simp only [own]
      by_cases em : m = n
      · subst em
        exact ⟨_, k3, by simp⟩
      · obtain ⟨x, hx, hx'⟩ := hi.idx m
        have hidx : (nodeDecider s n f).idx m = s.idx m := by rw [k2]; simp [set, em]
        rw [hidx, k1]
        refine ⟨x, ?_, by simpa [em, kindOf] using hx'⟩
        rw [List.getElem?_append_left]
        · exact hx
        · exact (List.getElem?_eq_some_iff.1 hx).1
    · rw [k7]; exact hi.env
  | build e ts =>
    obtain ⟨hm, hown, _⟩ := hp
    obtain ⟨b1, b2, b3, b4, _, b6, b7⟩ := buildTargets e ts s
    obtain ⟨us, hus⟩ := hi.map
    have hst : step s (.build e ts) = ts.foldl (buildTarget e) s := rfl
    rw [hst]
    refine ⟨fun x => ?_, hself, fun x hx => ?_, hi.over, hi.zero, hi.rooted, ?_, ?_, fun m => ?_, fun t => ?_, fun t x hx => ?_⟩
    · rw [b1]; exact hsub x
    · rw [b2]; exact hi.attr x hx
    · rw [b3]; exact ⟨us, hus⟩
    · rw [b4]; exact hi.kinds
    · rw [b3, b7]
      simp only [own, kindOf]
      split
      · rename_i hc
        refine ⟨.target, by rw [hus]; rfl, ?_⟩
        rw [hown m hc.1, ← hi.kinds m, hc.2]
        exact .inr rfl
      · exact hi.idx m
    · rw [b6]; simp only [builtWith]; split
      · rfl
      · exact hi.env t
    · simp only [builtWith] at hx
      split at hx
      · exact (Option.some.inj hx) ▸ hm
      · exact hi.used t x hx
  | morph n k =>
    obtain ⟨hown, hk, hkk, _⟩ := hp
    obtain ⟨us, hus⟩ := hi.map
    have hst : step s (.morph n k) = morph s n k := by simp only [step, hi.kinds n, hk, if_true]
    rw [hst]
    refine ⟨hsub, hself, hi.attr, hi.over, hi.zero, hi.rooted, ⟨us, hus⟩, fun m => ?_, fun m => ?_, hi.env, hi.used⟩
    · simp only [morph, set, kindOf]
      by_cases em : m = n
      · simp [em]
      · simp [em, hi.kinds m]
    · simp only [own, kindOf, morph, set]
      by_cases em : m = n
      · subst em
        simp only [if_true, hown]
        rcases hkk with rfl | rfl
        · rw [hus]
          cases (s.env m).isSome
          · exact ⟨.source, rfl, .inl rfl⟩
          · exact ⟨.target, rfl, .inr rfl⟩
        · rw [hus]; exact ⟨.state, rfl, rfl⟩
      · simp only [em, if_false]; exact hi.idx m

theorem inv_run (kind : Nat → Kind) (h : List (Op F)) (hp : Plain kind h) : Inv kind h (run kind h) := by
  induction h with
  | nil => exact inv_init kind
  | cons o h ih =>
    refine inv_step (ih ?_) o hp
    cases o <;> simp only [Plain] at hp
    all_goals first | exact hp | exact hp.2 | exact hp.2.2 | exact hp.2.2.2

/-! ### C95 -/

/-- **C95.** Whatever the scripts say, in whatever order, whether dependency `n` of `t` has changed is
decided by the function given to `n`; otherwise, for files, by the one given last to the environment `t`
is built with (or to its original before the clone, also after the builder call), and if there is none by that
of the default environment at the time of the build; otherwise by the rule for the kind of `n`. -/
theorem C95_who_decides_partial (kind : Nat → Kind) (h : List (Op F)) (hp : Plain kind h) (t n : Nat)
    (hn : own h n = none → kindOf kind h n ≠ .entry) : decidedBy (run kind h) t n = should kind h t n := by
  have hi := inv_run kind h hp
  generalize run kind h = s at hi
  have henv : envBy s t = match builtWith h t with
      | some e => saidFor h e
      | none => .nobody := by
    simp only [envBy, hi.env t]
    cases hb : builtWith h t with
    | none => rfl
    | some e =>
      simp only [attrBy, saidFor, owner_eq hi, hi.attr _ (hi.rooted e (hi.used t e hb)).1, hi.attr 0 hi.zero.2]
      cases said h (root h e) with
      | some f => rfl
      | none => simp only; cases said h 0 <;> rfl
  obtain ⟨x, hx, hx'⟩ := hi.idx n
  simp only [decidedBy, hx, should]
  cases ho : own h n with
  | some f => rw [ho] at hx'; simp only at hx'; rw [hx']; rfl
  | none =>
    rw [ho] at hx'
    simp only at hx' ⊢
    have := hn ho
    cases hk : kindOf kind h n <;> rw [hk] at hx' this <;> simp only [KindSlot] at hx' ⊢
    · exact absurd rfl this
    · rcases hx' with rfl | rfl <;> simp only [slotBy] <;> exact henv
    · rw [hx']; rfl
    · rw [hx']; rfl
    · rw [hx']; rfl

/-- Only names that `Decider` knows are used. -/
def Known (h : List (Op F)) : Prop := ∀ e n, Op.decider e (.name n) ∈ h → (meaning n : Option (Fn F)).isSome

theorem touch_run (kind : Nat → Kind) (h : List (Op F)) (hp : Plain kind h) (hk : Known h) (e : Nat)
    (ho : isOverride h e = false) : (run kind h).touch e = decide (said h e = some .newer) := by
  induction h generalizing e with
  | nil => by_cases e0 : e = 0 <;> simp [run, St.init, said, e0]
  | cons o h ih =>
    have hpt : Plain kind h := by
      cases o <;> simp only [Plain] at hp
      all_goals first | exact hp | exact hp.2 | exact hp.2.2 | exact hp.2.2.2
    have hi := inv_run kind h hpt
    have ih := ih hpt (fun e n hm => hk e n (List.mem_cons_of_mem _ hm))
    simp only [run]
    cases o with
    | new e1 =>
      simp only [isOverride, step, set, said] at ho ⊢
      by_cases ex : e = e1
      · simp [ex]
      · simp only [ex, if_false] at ho ⊢; exact ih e ho
    | clone e1 e2 =>
      obtain ⟨h1, _⟩ := hp
      have hs : (run kind h).subject e1 = none := by rw [hi.subject, h1]; rfl
      simp only [isOverride, step, hs, set, said] at ho ⊢
      by_cases ex : e = e2
      · simp only [ex, if_true]; exact ih e1 h1
      · simp only [ex, if_false] at ho ⊢; exact ih e ho
    | override e1 e2 =>
      simp only [isOverride, step, said] at ho ⊢
      by_cases ex : e = e2
      · simp [ex] at ho
      · simp only [ex, if_false] at ho; exact ih e ho
    | decider e1 a =>
      obtain ⟨h1, _⟩ := hp
      have hw : owner (run kind h) e1 = e1 := by rw [owner_eq hi, hi.self e1 h1]
      simp only [isOverride, step, hw] at ho ⊢
      cases a with
      | func f =>
        simp only [envDecider, Arg.fn, said, set]
        by_cases ex : e = e1
        · simp [ex]
        · simp only [ex, if_false]; exact ih e ho
      | name n =>
        have hn := hk e1 n (by simp)
        cases hf : (meaning n : Option (Fn F)) with
        | none => rw [hf] at hn; simp at hn
        | some f =>
          simp only [envDecider, Arg.fn, ofName_meaning, said, set, hf, Option.isSome_some, and_true]
          by_cases ex : e = e1
          · simp [ex]
          · simp only [ex, if_false]; exact ih e ho
    | nodeDecider n f =>
      simp only [isOverride, step, said] at ho ⊢
      have : (nodeDecider (run kind h) n f).touch = (run kind h).touch := by
        simp only [nodeDecider]; split <;> rfl
      rw [this]; exact ih e ho
    | build e1 ts =>
      simp only [isOverride, step, said] at ho ⊢
      rw [(buildTargets e1 ts _).2.2.2.2.1]; exact ih e ho
    | morph n k =>
      simp only [isOverride, step, said] at ho ⊢
      split <;> exact ih e ho

/-- **C95.** A file from the cache gets the present time exactly if the function that decides is
`timestamp-newer`, when the environment has a function of its own. -/
theorem C95_time_from_cache_partial (kind : Nat → Kind) (h : List (Op F)) (hp : Plain kind h) (hk : Known h) (t e : Nat)
    (hb : builtWith h t = some e) (hs : said h (root h e) ≠ none) :
    freshFromCache (run kind h) t = decide (saidFor h e = .fn .newer) := by
  have hi := inv_run kind h hp
  simp only [freshFromCache, hi.env t, hb, owner_eq hi]
  rw [touch_run kind h hp hk _ (hi.rooted e (hi.used t e hb)).1]
  obtain ⟨f, hf⟩ := Option.ne_none_iff_exists'.1 hs
  have hsf : saidFor h e = .fn f := by simp only [saidFor, hf]
  rw [hsf, hf]
  simp

end Verif.Decide
