import Verif.Sig.Alias

/-!
# Aliases, values and directories: C73
-/

namespace Verif.Sig.Alias

/-! ## Specification -/

/-- All values of the hash function have the same length. -/
structure Hash (H : Text → Text) (len : Nat) : Prop where
  length : ∀ a, (H a).length = len
  pos : 0 < len

mutual
/-- The texts that are hashed for a node and all below it. -/
def hashed (H : Text → Text) : Node → List Text
  | .file c => [c.getD nofile]
  | .value _ kids => hashedAll H kids
  | .alias_ kids => (csigs H kids).flatten :: hashedAll H kids
  | .dir kids => dirText (named H kids) :: hashedNamed H kids
def hashedAll (H : Text → Text) : List Node → List Text
  | [] => []
  | k :: ks => hashed H k ++ hashedAll H ks
def hashedNamed (H : Text → Text) : List (Name × Node) → List Text
  | [] => []
  | k :: ks => hashed H k.2 ++ hashedNamed H ks
end

/-- No text hashed the one time has the hash of another text hashed the other time. -/
def NoClash (H : Text → Text) (l l' : List Text) : Prop := ∀ a ∈ l, ∀ b ∈ l', H a = H b → a = b

mutual
/-- No `Value` nodes; no newline in a name; a directory's entries in the order of their names; no file consists of the text by which SCons marks
missing files. -/
def Plain : Node → Prop
  | .file c => c ≠ some nofile
  | .value _ _ => False
  | .alias_ ks => PlainAll ks
  | .dir ks => (ks.Pairwise fun a b => nameLe a.1 b.1 = true) ∧ PlainNamed ks
def PlainAll : List Node → Prop
  | [] => True
  | k :: ks => Plain k ∧ PlainAll ks
def PlainNamed : List (Name × Node) → Prop
  | [] => True
  | k :: ks => '\n' ∉ k.1 ∧ Plain k.2 ∧ PlainNamed ks
end

mutual
/-- The two nodes are of the same kind, and so are their children at the same place, as far as both have them. -/
def SameKind : Node → Node → Prop
  | .file _, .file _ => True
  | .value _ _, .value _ _ => True
  | .alias_ ks, .alias_ ks' => SameKinds ks ks'
  | .dir ks, .dir ks' => SameKindsNamed ks ks'
  | _, _ => False
def SameKinds : List Node → List Node → Prop
  | k :: ks, k' :: ks' => SameKind k k' ∧ SameKinds ks ks'
  | _, _ => True
def SameKindsNamed : List (Name × Node) → List (Name × Node) → Prop
  | k :: ks, k' :: ks' => SameKind k.2 k'.2 ∧ SameKindsNamed ks ks'
  | _, _ => True
end

/-! ## Lemmas -/

theorem append_inj_of_length {a b c d : Text} (h : a.length = c.length) (e : a ++ b = c ++ d) : a = c ∧ b = d :=
  List.append_inj e h

theorem flatten_inj {len : Nat} (hpos : 0 < len) : ∀ (l l' : List Text), (∀ x ∈ l, x.length = len) → (∀ x ∈ l', x.length = len) →
    l.flatten = l'.flatten → l = l' := by
  intro l
  induction l with
  | nil =>
    intro l' _ h' e
    cases l' with
    | nil => rfl
    | cons x l' =>
      exfalso
      have hx := h' x (by simp)
      simp only [List.flatten_nil, List.flatten_cons] at e
      have := congrArg List.length e
      simp only [List.length_nil, List.length_append] at this
      omega
  | cons y l ih =>
    intro l' h h' e
    have hy := h y (by simp)
    cases l' with
    | nil =>
      exfalso
      simp only [List.flatten_nil, List.flatten_cons] at e
      have := congrArg List.length e
      simp only [List.length_nil, List.length_append] at this
      omega
    | cons x l' =>
      simp only [List.flatten_cons] at e
      obtain ⟨e1, e2⟩ := append_inj_of_length (by rw [hy, h' x (by simp)]) e
      rw [e1, ih l' (fun z hz => h z (by simp [hz])) (fun z hz => h' z (by simp [hz])) e2]

theorem until_newline : ∀ {n n' : Text} {r r' : Text}, '\n' ∉ n → '\n' ∉ n' → n ++ '\n' :: r = n' ++ '\n' :: r' → n = n' ∧ r = r' := by
  intro n
  induction n with
  | nil =>
    intro n' r r' _ h' e
    cases n' with
    | nil => simpa using e
    | cons c n' => simp only [List.nil_append, List.cons_append, List.cons.injEq] at e; simp [← e.1] at h'
  | cons c n ih =>
    intro n' r r' h h' e
    cases n' with
    | nil => simp only [List.nil_append, List.cons_append, List.cons.injEq] at e; simp [e.1] at h
    | cons c' n' =>
      simp only [List.cons_append, List.cons.injEq] at e
      obtain ⟨h1, h2⟩ := ih (fun hm => h (by simp [hm])) (fun hm => h' (by simp [hm])) e.2
      exact ⟨by rw [e.1, h1], h2⟩

def lineOf (k : Name × Text) : Text := k.2 ++ ' ' :: k.1 ++ ['\n']

theorem lines_inj {len : Nat} : ∀ (l l' : List (Name × Text)), (∀ k ∈ l, k.2.length = len ∧ '\n' ∉ k.1) →
    (∀ k ∈ l', k.2.length = len ∧ '\n' ∉ k.1) → (l.map lineOf).flatten = (l'.map lineOf).flatten → l = l' := by
  intro l
  induction l with
  | nil =>
    intro l' _ _ e
    cases l' with
    | nil => rfl
    | cons x l' => exfalso; have := congrArg List.length e; simp [lineOf] at this
  | cons y l ih =>
    intro l' h h' e
    cases l' with
    | nil => exfalso; have := congrArg List.length e; simp [lineOf] at this
    | cons x l' =>
      obtain ⟨hy1, hy2⟩ := h y (by simp)
      obtain ⟨hx1, hx2⟩ := h' x (by simp)
      simp only [List.map_cons, List.flatten_cons, lineOf, List.append_assoc, List.cons_append, List.nil_append] at e
      obtain ⟨e1, e2⟩ := append_inj_of_length (by rw [hy1, hx1]) e
      simp only [List.cons.injEq, true_and] at e2
      obtain ⟨e3, e4⟩ := until_newline hy2 hx2 e2
      rw [ih l' (fun z hz => h z (by simp [hz])) (fun z hz => h' z (by simp [hz])) e4]
      congr 1
      exact Prod.ext e3 e1

theorem csigs_eq (H : Text → Text) : ∀ l, csigs H l = l.map (csig H) := by
  intro l
  induction l with
  | nil => simp [csigs]
  | cons k ks ih => simp [csigs, ih]

theorem named_eq (H : Text → Text) : ∀ l, named H l = l.map fun k => (k.1, csig H k.2) := by
  intro l
  induction l with
  | nil => simp [named]
  | cons k ks ih => simp [named, ih]

theorem plainAll_iff : ∀ l, PlainAll l ↔ ∀ k ∈ l, Plain k := by
  intro l
  induction l with
  | nil => simp [PlainAll]
  | cons k ks ih => simp [PlainAll, ih]

theorem plainNamed_iff : ∀ l, PlainNamed l ↔ ∀ k ∈ l, '\n' ∉ k.1 ∧ Plain k.2 := by
  intro l
  induction l with
  | nil => simp [PlainNamed]
  | cons k ks ih => simp [PlainNamed, ih, and_assoc]

theorem csig_length {H : Text → Text} {len : Nat} (hH : Hash H len) : ∀ t, Plain t → (csig H t).length = len := by
  intro t ht
  cases t with
  | file c => simp only [csig]; exact hH.length _
  | value s ks => simp only [Plain] at ht
  | alias_ ks => simp only [csig]; exact hH.length _
  | dir ks => simp only [csig]; exact hH.length _

theorem dirText_sorted {H : Text → Text} {ks : List (Name × Node)} (hs : ks.Pairwise fun a b => nameLe a.1 b.1 = true) :
    dirText (named H ks) = ((named H ks).map lineOf).flatten := by
  unfold dirText
  have : (named H ks).Pairwise fun a b => nameLe a.1 b.1 = true := by
    rw [named_eq, List.pairwise_map]
    exact hs
  rw [this.insertionSort_eq]
  rfl

theorem named_plain {H : Text → Text} {len : Nat} (hH : Hash H len) {ks : List (Name × Node)} (h : PlainNamed ks) :
    ∀ k ∈ named H ks, k.2.length = len ∧ '\n' ∉ k.1 := by
  intro k hk
  rw [named_eq] at hk
  obtain ⟨q, hq, rfl⟩ := List.mem_map.1 hk
  have := (plainNamed_iff ks).1 h q hq
  exact ⟨csig_length hH _ this.2, this.1⟩

theorem csigs_plain {H : Text → Text} {len : Nat} (hH : Hash H len) {ks : List Node} (h : PlainAll ks) :
    ∀ k ∈ csigs H ks, k.length = len := by
  intro k hk
  rw [csigs_eq] at hk
  obtain ⟨q, hq, rfl⟩ := List.mem_map.1 hk
  exact csig_length hH _ ((plainAll_iff ks).1 h q hq)

mutual
theorem csig_inj {H : Text → Text} {len : Nat} (hH : Hash H len) : ∀ t t', NoClash H (hashed H t) (hashed H t') → Plain t → Plain t' → SameKind t t' → csig H t = csig H t' → t = t'
  | .file c, t', hc, hp, hp', hk, e => by
    cases t' with
    | file c' =>
      simp only [csig] at e
      have := hc _ (by simp [hashed]) _ (by simp [hashed]) e
      simp only [Plain] at hp hp'
      cases c with
      | none =>
        cases c' with
        | none => rfl
        | some x => simp only [Option.getD_none, Option.getD_some] at this; rw [← this] at hp'; exact absurd rfl hp'
      | some x =>
        cases c' with
        | none => simp only [Option.getD_none, Option.getD_some] at this; rw [this] at hp; exact absurd rfl hp
        | some y => simp only [Option.getD_some] at this; rw [this]
    | _ => simp only [SameKind] at hk
  | .value _ _, _, _, hp, _, _, _ => by simp only [Plain] at hp
  | .alias_ ks, t', hc, hp, hp', hk, e => by
    cases t' with
    | alias_ ks' =>
      simp only [csig] at e
      simp only [Plain] at hp hp'
      simp only [SameKind] at hk
      have := flatten_inj hH.pos _ _ (csigs_plain hH hp) (csigs_plain hH hp') (hc _ (by simp [hashed]) _ (by simp [hashed]) e)
      rw [csigs_inj hH ks ks' (fun a ha b hb => hc a (by simp [hashed, ha]) b (by simp [hashed, hb])) hp hp' hk this]
    | _ => simp only [SameKind] at hk
  | .dir ks, t', hc, hp, hp', hk, e => by
    cases t' with
    | dir ks' =>
      simp only [csig] at e
      simp only [Plain] at hp hp'
      simp only [SameKind] at hk
      have e := hc _ (by simp [hashed]) _ (by simp [hashed]) e
      rw [dirText_sorted hp.1, dirText_sorted hp'.1] at e
      have := lines_inj _ _ (named_plain hH hp.2) (named_plain hH hp'.2) e
      rw [named_inj hH ks ks' (fun a ha b hb => hc a (by simp [hashed, ha]) b (by simp [hashed, hb])) hp.2 hp'.2 hk this]
    | _ => simp only [SameKind] at hk
theorem csigs_inj {H : Text → Text} {len : Nat} (hH : Hash H len) : ∀ ks ks', NoClash H (hashedAll H ks) (hashedAll H ks') → PlainAll ks → PlainAll ks' → SameKinds ks ks' →
    csigs H ks = csigs H ks' → ks = ks'
  | [], ks', _, _, _, _, e => by
    cases ks' with
    | nil => rfl
    | cons k' ks' => simp only [csigs] at e; cases e
  | k :: ks, ks', hc, hp, hp', hk, e => by
    cases ks' with
    | nil => simp only [csigs] at e; cases e
    | cons k' ks' =>
      simp only [csigs, List.cons.injEq] at e
      simp only [PlainAll] at hp hp'
      simp only [SameKinds] at hk
      rw [csig_inj hH k k' (fun a ha b hb => hc a (by simp [hashedAll, ha]) b (by simp [hashedAll, hb])) hp.1 hp'.1 hk.1 e.1, csigs_inj hH ks ks' (fun a ha b hb => hc a (by simp [hashedAll, ha]) b (by simp [hashedAll, hb])) hp.2 hp'.2 hk.2 e.2]
theorem named_inj {H : Text → Text} {len : Nat} (hH : Hash H len) : ∀ ks ks', NoClash H (hashedNamed H ks) (hashedNamed H ks') → PlainNamed ks → PlainNamed ks' → SameKindsNamed ks ks' →
    named H ks = named H ks' → ks = ks'
  | [], ks', _, _, _, _, e => by
    cases ks' with
    | nil => rfl
    | cons k' ks' => simp only [named] at e; cases e
  | (n, t) :: ks, ks', hc, hp, hp', hk, e => by
    cases ks' with
    | nil => simp only [named] at e; cases e
    | cons k' ks' =>
      obtain ⟨n', t'⟩ := k'
      simp only [named, List.cons.injEq, Prod.mk.injEq] at e
      simp only [PlainNamed] at hp hp'
      simp only [SameKindsNamed] at hk
      rw [csig_inj hH t t' (fun a ha b hb => hc a (by simp [hashedNamed, ha]) b (by simp [hashedNamed, hb])) hp.2.1 hp'.2.1 hk.1 e.1.2, named_inj hH ks ks' (fun a ha b hb => hc a (by simp [hashedNamed, ha]) b (by simp [hashedNamed, hb])) hp.2.2 hp'.2.2 hk.2 e.2, e.1.1]
end

/-! ## C73 -/

/-- **C73, changes are noticed**: a target that depends on an alias (or, through an alias, on a directory) is out of date when anything the alias
stands for, through any number of aliases and directories, is not as it was: the contents of a file, whether it exists, the number
and order of what the alias stands for, the names in a directory.  Partial: no `Value`s, no collisions of hashes, and see `Plain`; what stood at a place is compared with something of the same kind. -/
theorem C73_noticed_partial (H : Text → Text) (len : Nat) (hH : Hash H len) (was now : Node)
    (hc : NoClash H (hashed H was) (hashed H now)) (hp : Plain was) (hp' : Plain now)
    (hk : SameKind was now) (h : was ≠ now) : changed H now (some (csig H was)) = true := by
  unfold changed
  simp only [ne_eq, Option.some.injEq, decide_eq_true_eq]
  exact fun e => h (csig_inj hH _ _ hc hp hp' hk e)

/-- **C73, nothing else**: ... and only then. -/
theorem C73_quiet (H : Text → Text) (t : Node) : changed H t (some (csig H t)) = false := by simp [changed]

/-- **C73, values**: a target that depends on `Value(v)` is out of date exactly if the text of the value is another. -/
theorem C73_value (H : Text → Text) (s s' : Text) : changed H (.value s' []) (some (csig H (.value s []))) = true ↔ s ≠ s' := by
  simp [changed, csig, csigs]

/-- **C73** is false of values in aliases: their texts are put together without anything in between. -/
theorem C73_alias_of_values (H : Text → Text) :
    changed H (.alias_ [.value "ab".toList [], .value "c".toList []]) (some (csig H (.alias_ [.value "a".toList [], .value "bc".toList []]))) = false := by
  simp only [changed, csig, csigs]
  simp

/-- **C73** is false of aliases when another file with the same contents takes the place of one (the alias knows no names). -/
theorem C73_alias_names (H : Text → Text) (c : Text) : ∃ was now : List (Name × Node), was ≠ now ∧ was.map Prod.fst ≠ now.map Prod.fst ∧
    changed H (.alias_ (now.map Prod.snd)) (some (csig H (.alias_ (was.map Prod.snd)))) = false :=
  ⟨[("a".toList, .file (some c))], [("b".toList, .file (some c))], by simp, by simp, by simp [changed]⟩

/-- **C73** is false of a name with a newline in it: an entry can look like two. -/
theorem C73_newline (H : Text → Text) (c c' : Option Text) :
    changed H (.dir [("a".toList ++ '\n' :: H (c'.getD nofile) ++ " b".toList, .file c)])
      (some (csig H (.dir [("a".toList, .file c), ("b".toList, .file c')]))) = false := by
  have h : nameLe "a".toList "b".toList = true := by decide +kernel
  simp only [changed, csig, named, dirText, List.insertionSort_cons, List.insertionSort_nil, List.orderedInsert_nil]
  rw [List.orderedInsert_cons]
  have h' : nameLe ['a'] ['b'] = true := h
  simp [h']

/-! ## The action of an alias -/

theorem maxState_spec : ∀ (l : List State) (n : Nat), (n = 0 ∨ n = 3 ∨ 3 < n) →
    ((maxState n l = 0 ∨ maxState n l = 3) ↔ (n = 0 ∨ n = 3) ∧ ∀ s ∈ l, s = .noState ∨ s = .upToDate) := by
  intro l
  induction l with
  | nil => intro n _; simp [maxState]
  | cons s l ih =>
    intro n hn
    unfold maxState
    rw [ih _ (by cases s <;> simp only [State.num] <;> grind)]
    cases s <;> simp only [State.num, List.mem_cons, forall_eq_or_imp] <;> grind

/-- **C73, the action of an alias** is run exactly if the alias is to be built always or something it stands for was built, or failed, in this run. -/
theorem C73_alias_action (always : Bool) (kids : List State) :
    upToDate always kids = false ↔ always = true ∨ ∃ s ∈ kids, s = .executed ∨ s = .failed := by
  unfold upToDate
  cases always with
  | true => simp
  | false =>
    simp only [Bool.false_eq_true, if_false, decide_eq_false_iff_not, false_or]
    have := maxState_spec kids 0 (.inl rfl)
    simp only [State.num] at this ⊢
    rw [this]
    constructor
    · intro h
      simp only [true_or, true_and, not_forall] at h
      obtain ⟨s, hs, h⟩ := h
      exact ⟨s, hs, by cases s <;> simp_all⟩
    · rintro ⟨s, hs, h⟩ ⟨_, h2⟩
      have := h2 s hs
      rcases h with rfl | rfl <;> simp at this

/-- So the action of an alias of files that are not built is never run, whatever happens to them (their state is `up_to_date`). -/
theorem C73_alias_of_sources (n : Nat) : upToDate false (List.replicate n .upToDate) = true := by
  rw [← Bool.not_eq_false, C73_alias_action]
  rintro (h | ⟨s, hs, h⟩)
  · cases h
  · rw [List.eq_of_mem_replicate hs] at h
    rcases h with h | h <;> cases h

/-! ## `Value` -/

/-- No two different pairs of a value and a name among the calls have the same `hash`. -/
def NoCollision {P : Type} (py : Python P) (cs : List (Call P)) : Prop :=
  ∀ c ∈ cs, ∀ c' ∈ cs, ∀ h, py.hash c.value c.name = some h → py.hash c'.value c'.name = some h → c.value = c'.value ∧ c.name = c'.name

structure Inv {P : Type} (py : Python P) (cs : List (Call P)) (m : Memo P) : Prop where
  sound : ∀ h i, m.map.lookup h = some i → ∃ c ∈ cs, py.hash c.value c.name = some h ∧ ∃ b, m.nodes[i]? = some (make py c.value b c.name)

theorem lookup_cons_some {h h' : Int} {i j : Nat} {l : List (Int × Nat)} (e : List.lookup h ((h', j) :: l) = some i) :
    (h = h' ∧ i = j) ∨ l.lookup h = some i := by
  rw [List.lookup_cons] at e
  split at e
  · rename_i q; left; exact ⟨by simpa using q, by cases e; rfl⟩
  · exact .inr e

theorem call_spec {P : Type} {py : Python P} {cs : List (Call P)} {m : Memo P} (hI : Inv py cs m) {c : Call P} (hc : c ∈ cs) (hno : NoCollision py cs) :
    Inv py cs (valueWithMemo py m c.value c.built c.name).1 ∧
    (∃ b, (valueWithMemo py m c.value c.built c.name).1.nodes[(valueWithMemo py m c.value c.built c.name).2]? = some (make py c.value b c.name)) ∧
    (∃ x, (valueWithMemo py m c.value c.built c.name).1.nodes = m.nodes ++ x) ∧
    (∀ h i, m.map.lookup h = some i → (valueWithMemo py m c.value c.built c.name).1.map.lookup h = some i) ∧
    ((c.built.map py.truthy).getD false = false → ∀ h, py.hash c.value c.name = some h →
      (valueWithMemo py m c.value c.built c.name).1.map.lookup h = some (valueWithMemo py m c.value c.built c.name).2) := by
  have grow : ∀ (x : ValueNode P) (i : Nat) (n : ValueNode P), m.nodes[i]? = some n → (m.nodes ++ [x])[i]? = some n := by
    intro x i n h
    have : i < m.nodes.length := by
      rcases Nat.lt_or_ge i m.nodes.length with hl | hl
      · exact hl
      · rw [List.getElem?_eq_none hl] at h; cases h
    rw [List.getElem?_append_left this]; exact h
  have same : ∀ x, Inv py cs { m with nodes := m.nodes ++ [x] } := by
    intro x
    refine ⟨fun h i e => ?_⟩
    obtain ⟨c, h1, h2, b, h3⟩ := hI.sound h i e
    exact ⟨c, h1, h2, b, grow x i _ h3⟩
  unfold valueWithMemo
  by_cases ht : (c.built.map py.truthy).getD false = true
  · simp only [ht, if_true]
    exact ⟨same _, ⟨c.built, by simp⟩, ⟨_, rfl⟩, fun _ _ h => h, fun h => nomatch h⟩
  · have ht' : (c.built.map py.truthy).getD false = false := by simpa using ht
    simp only [ht', Bool.false_eq_true, if_false]
    cases hh : py.hash c.value c.name with
    | none => exact ⟨same _, ⟨none, by simp⟩, ⟨_, rfl⟩, fun _ _ h => h, fun _ h e => nomatch e⟩
    | some h =>
      dsimp only
      cases hl : m.map.lookup h with
      | some i =>
        obtain ⟨c', h1, h2, b, h3⟩ := hI.sound h i hl
        obtain ⟨e1, e2⟩ := hno c hc c' h1 h hh h2
        refine ⟨hI, ⟨b, by rw [e1, e2]; exact h3⟩, ⟨[], by simp⟩, fun _ _ h => h, ?_⟩
        intro _ k hk
        cases hk
        exact hl
      | none =>
        dsimp only
        refine ⟨⟨?_⟩, ⟨c.built, by simp⟩, ⟨_, rfl⟩, ?_, ?_⟩
        · intro k i e
          rcases lookup_cons_some e with ⟨rfl, rfl⟩ | e
          · exact ⟨c, hc, hh, c.built, by simp⟩
          · obtain ⟨c', h1, h2, b, h3⟩ := hI.sound k i e
            exact ⟨c', h1, h2, b, grow _ i _ h3⟩
        · intro k i e
          rw [List.lookup_cons]
          split
          · rename_i q
            have : k = h := by simpa using q
            rw [this, hl] at e; cases e
          · exact e
        · intro _ k hk
          cases hk
          rw [List.lookup_cons]
          simp

theorem run_spec {P : Type} {py : Python P} {all : List (Call P)} (hno : NoCollision py all) : ∀ (cs : List (Call P)) (m : Memo P), Inv py all m → (∀ c ∈ cs, c ∈ all) →
    (∃ x, (run py m cs).1.nodes = m.nodes ++ x) ∧
    (∀ h i, m.map.lookup h = some i → (run py m cs).1.map.lookup h = some i) ∧
    (∀ (j : Nat) (c : Call P) (i : Nat), cs[j]? = some c → (run py m cs).2[j]? = some i →
      (∃ b, (run py m cs).1.nodes[i]? = some (make py c.value b c.name)) ∧
      ((c.built.map py.truthy).getD false = false → ∀ h, py.hash c.value c.name = some h → (run py m cs).1.map.lookup h = some i)) := by
  intro cs
  induction cs with
  | nil => intro m _ _; exact ⟨⟨[], by simp [run]⟩, fun _ _ h => h, fun j c i h => by simp at h⟩
  | cons c cs ih =>
    intro m hI hall
    obtain ⟨h1, ⟨b, h2⟩, ⟨x, h3⟩, h4, h5⟩ := call_spec hI (hall c (by simp)) hno
    obtain ⟨⟨y, g1⟩, g2, g3⟩ := ih _ h1 (fun c hc => hall c (by simp [hc]))
    simp only [run]
    refine ⟨⟨x ++ y, by rw [g1, h3]; simp⟩, fun h i e => g2 h i (h4 h i e), ?_⟩
    intro j c' i hj hi
    cases j with
    | zero =>
      simp only [List.getElem?_cons_zero, Option.some.injEq] at hj hi
      subst hj; subst hi
      refine ⟨⟨b, ?_⟩, fun ht h hh => g2 _ _ (h5 ht h hh)⟩
      rw [g1]
      rw [List.getElem?_append_left]
      · exact h2
      · rcases Nat.lt_or_ge (valueWithMemo py m c.value c.built c.name).2 (valueWithMemo py m c.value c.built c.name).1.nodes.length with hl | hl
        · exact hl
        · rw [List.getElem?_eq_none hl] at h2; cases h2
    | succ j =>
      simp only [List.getElem?_cons_succ] at hj hi
      exact g3 j c' i hj hi

/-- **C73, `Value`** gives a node with the value and the name asked for, and the same node for the same value and name (unless a built
value is given).  Partial: no two of the values, with their names, have the same Python `hash`. -/
theorem C73_value_node_partial {P : Type} (py : Python P) (cs : List (Call P)) (hno : NoCollision py cs) (i : Nat) (c : Call P) (hc : cs[i]? = some c)
    (k : Nat) (hk : (run py ⟨[], []⟩ cs).2[i]? = some k) :
    (∃ n, (run py ⟨[], []⟩ cs).1.nodes[k]? = some n ∧ n.value = c.value ∧ (∀ a ∈ c.name, a ≠ [] → n.name = a) ∧
      ((∀ a ∈ c.name, a = []) → n.name = py.str c.value)) ∧
    ∀ (i' : Nat) (k' : Nat), cs[i']? = some c → (run py ⟨[], []⟩ cs).2[i']? = some k' → c.built = none → (py.hash c.value c.name).isSome → k = k' := by
  obtain ⟨_, _, h⟩ := run_spec hno cs ⟨[], []⟩ ⟨fun h i e => by simp at e⟩ (fun c hc => hc)
  obtain ⟨⟨b, hb⟩, h1⟩ := h i c k hc hk
  refine ⟨⟨_, hb, rfl, ?_, ?_⟩, ?_⟩
  · intro a ha hne
    simp only [Option.mem_def] at ha
    simp [make, ha, hne]
  · intro hall
    cases hn : c.name with
    | none => simp [make, hn]
    | some a => have := hall a (by simp [hn]); subst this; simp [make, hn]
  intro i' k' hi' hk' hbuilt hs
  obtain ⟨x, hx⟩ := Option.isSome_iff_exists.1 hs
  have e1 := h1 (by simp [hbuilt]) x hx
  have e2 := (h i' c k' hi' hk').2 (by simp [hbuilt]) x hx
  rw [e1] at e2
  cases e2; rfl

/-- Python's integers: `hash((n, None))` is a function of `hash(n)`. -/
def pyInt (tuple : Int → Int) : Python Int where
  str n := (toString n).toList
  truthy n := decide (n ≠ 0)
  hash n name := if name.isNone then some (tuple (intHash n)) else none

/-- **C73** is false of `Value(-1)` and `Value(-2)`: `hash(-1)` is `hash(-2)`, so that both calls return one node, that of -1.  (Likewise `Value(1)` and
`Value(True)`.)  A target that depends on `Value(-2)` is then not rebuilt when this is changed to `Value(-1)`. -/
theorem C73_minus_one (tuple : Int → Int) :
    (run (pyInt tuple) ⟨[], []⟩ [⟨-1, none, none⟩, ⟨-2, none, none⟩]).2 = [0, 0] ∧
      ((run (pyInt tuple) ⟨[], []⟩ [⟨-1, none, none⟩, ⟨-2, none, none⟩]).1.nodes.map (·.value)) = [-1] := by
  have h1 : intHash (-1) = -2 := by decide +kernel
  have h2 : intHash (-2) = -2 := by decide +kernel
  simp [run, valueWithMemo, pyInt, h1, h2, make]

/-- **C73** is false of built values that count as false in Python (0, the empty string): they are given to a later `Value` call that asks for none, and lost if
there was an earlier one. -/
theorem C73_falsy_built (tuple : Int → Int) :
    ((run (pyInt tuple) ⟨[], []⟩ [⟨5, some 0, none⟩, ⟨5, none, none⟩]).2 = [0, 0] ∧
      (run (pyInt tuple) ⟨[], []⟩ [⟨5, some 0, none⟩, ⟨5, none, none⟩]).1.nodes.map (·.built) = [some 0]) ∧
    ((run (pyInt tuple) ⟨[], []⟩ [⟨5, none, none⟩, ⟨5, some 0, none⟩]).2 = [0, 0] ∧
      (run (pyInt tuple) ⟨[], []⟩ [⟨5, none, none⟩, ⟨5, some 0, none⟩]).1.nodes.map (·.built) = [none]) := by
  simp [run, valueWithMemo, pyInt, make]

/-! ## Cases -/

/-- A hash function for the case. -/
def exH (t : Text) : Text := [Char.ofNat (1000 + t.foldl (fun n c => (31 * n + c.toNat) % 50021) 7)]

def exWas : Node := .alias_ [.file (some "x".toList), .alias_ [.dir [("a".toList, .file (some "y".toList)), ("b".toList, .file none)]]]
def exNow : Node := .alias_ [.file (some "x".toList), .alias_ [.dir [("a".toList, .file (some "z".toList)), ("b".toList, .file none)]]]

theorem C73_nonvacuous : Hash exH 1 ∧ NoClash exH (hashed exH exWas) (hashed exH exNow) ∧ Plain exWas ∧ Plain exNow ∧ SameKind exWas exNow ∧ exWas ≠ exNow := by
  refine ⟨⟨fun _ => rfl, by decide⟩, ?_, ?_, ?_, ?_, ?_⟩
  · unfold NoClash
    decide +kernel
  · simp only [exWas, Plain, PlainAll, PlainNamed]
    refine ⟨by decide +kernel, ⟨⟨?_, by decide +kernel, by decide +kernel, by decide +kernel, by decide +kernel, trivial⟩, trivial⟩, trivial⟩
    simpa using (by decide +kernel : nameLe "a".toList "b".toList = true)
  · simp only [exNow, Plain, PlainAll, PlainNamed]
    refine ⟨by decide +kernel, ⟨⟨?_, by decide +kernel, by decide +kernel, by decide +kernel, by decide +kernel, trivial⟩, trivial⟩, trivial⟩
    simpa using (by decide +kernel : nameLe "a".toList "b".toList = true)
  · simp [exWas, exNow, SameKind, SameKinds, SameKindsNamed]
  · simp [exWas, exNow]

end Verif.Sig.Alias
