import Verif.PathL.Model

/-!
# Search paths mean what they say, whatever was asked before (C106)
-/

namespace Verif.PathL

/-! ## Specification -/

/-- The entries of a search path: a string is one, or several separated by colons; a list has those of its parts. -/
def items (colons : Bool) : Val → List Leaf
  | .leaf (.str s) => if colons then (split s).map .str else [.str s]
  | .leaf l => [l]
  | .seq l => flatL l

/-- What an entry stands for. -/
def meaning (sub : Str → Val) : Leaf → List Leaf
  | .node n => [.node n]
  | .none => [.str "None".toList]
  | .str s =>
    if '$' ∈ s then
      match sub s with
      | .seq l => flatL l
      | .leaf (.str []) => []
      | .leaf .none => []
      | .leaf x => [x]
    else if s = [] then [] else [.str s]

/-- A call: the value, and whether strings are to be split. -/
abbrev Call := Val × Bool

/-- All calls in a row, with the memory, each with a substitution of its own. -/
def run (m : Memo) : List (Call × (Str → Val)) → List (List Leaf)
  | [] => []
  | (c, sub) :: l => substPath sub (pathList m c.1 c.2).1 :: run (pathList m c.1 c.2).2 l

/-! ## Proofs -/

theorem parse_items (v : Val) (b : Bool) : parse (keyOf v) b = (items b v).map fun l => (kind l, l) := by
  rcases v with l | l
  · cases l <;> rfl
  · rfl

theorem substPath_meaning (sub : Str → Val) (l : List Leaf) : substPath sub (l.map fun x => (kind x, x)) = l.flatMap (meaning sub) := by
  induction l with
  | nil => rfl
  | cons x l ih =>
    rw [List.map_cons, List.flatMap_cons, ← ih]
    cases x with
    | node n => simp [kind, substPath, nodeConv, Leaf.truthy, meaning]
    | none => simp [kind, substPath, nodeConv, Leaf.truthy, meaning]
    | str s =>
      by_cases h : '$' ∈ s
      · simp only [kind, if_pos h, substPath, meaning]
        rcases sub s with a | a
        · rcases a with (_ | ⟨c, s⟩) | n | _ <;> simp [Leaf.truthy]
        · rfl
      · simp only [kind, if_neg h, substPath, meaning, Leaf.truthy]
        by_cases e : s = [] <;> simp [e]

/-- Without a history: a search path stands for what its entries stand for, in their order. -/
theorem C106_fresh (sub : Str → Val) (v : Val) (b : Bool) :
    substPath sub (pathList [] v b).1 = (items b v).flatMap (meaning sub) := by
  simp only [pathList, List.find?_nil]
  rw [parse_items, substPath_meaning]

/-- Does the split matter for this value? -/
def isStr : Val → Bool
  | .leaf (.str _) => true
  | _ => false

theorem parse_split {v : Val} {b b' : Bool} (h : isStr v = true → b = b') : parse (keyOf v) b = parse (keyOf v) b' := by
  rcases v with l | l
  · cases l with
    | str s => rw [h rfl]
    | _ => rfl
  · rfl

theorem isStr_key {v w : Val} (h : keyOf v = keyOf w) : isStr v = isStr w := by
  rcases v with a | a <;> rcases w with b | b <;> simp [keyOf] at h
  · rw [h]
  · rfl

/-- **C106, history.** If no string is used both as a path and as the name of a library (split and not split), every answer is
the one that would be given without a history. -/
theorem C106_history_partial (calls : List (Call × (Str → Val)))
    (h : ∀ c ∈ calls, ∀ c' ∈ calls, keyOf c.1.1 = keyOf c'.1.1 → isStr c.1.1 = true → c.1.2 = c'.1.2) :
    run [] calls = calls.map fun c => (items c.1.2 c.1.1).flatMap (meaning c.2) := by
  have key : ∀ (m : Memo), (∀ e ∈ m, ∀ c ∈ calls, e.1 = keyOf c.1.1 → e.2 = parse (keyOf c.1.1) c.1.2) →
      run m calls = calls.map fun c => (items c.1.2 c.1.1).flatMap (meaning c.2) := by
    induction calls with
    | nil => intros; rfl
    | cons c l ih =>
      intro m hm
      obtain ⟨⟨v, b⟩, sub⟩ := c
      have hl : ∀ c ∈ l, ∀ c' ∈ l, keyOf c.1.1 = keyOf c'.1.1 → isStr c.1.1 = true → c.1.2 = c'.1.2 :=
        fun c hc c' hc' => h c (by simp [hc]) c' (by simp [hc'])
      have h1 : (pathList m v b).1 = parse (keyOf v) b := by
        unfold pathList
        rcases hf : m.find? (fun e => decide (e.1 = keyOf v)) with _ | e
        · simp only [hf]
        · have := List.find?_some hf
          simp only [decide_eq_true_eq] at this
          simp only [hf]
          exact hm e (List.mem_of_find?_eq_some hf) ((v, b), sub) (by simp) this
      have h2 : ∀ e ∈ (pathList m v b).2, e ∈ m ∨ e = (keyOf v, parse (keyOf v) b) := by
        intro e he
        unfold pathList at he
        rcases hf : m.find? (fun e => decide (e.1 = keyOf v)) with _ | e'
        · rw [hf] at he
          rcases List.mem_cons.1 he with h | h
          · exact Or.inr h
          · exact Or.inl h
        · rw [hf] at he; exact Or.inl he
      simp only [run, List.map_cons]
      rw [h1, parse_items, substPath_meaning, ih hl]
      intro e he c hc hk
      rcases h2 e he with h' | rfl
      · exact hm e h' c (by simp [hc]) hk
      · simp only at hk ⊢
        rw [hk]
        apply parse_split
        intro hs
        exact h ((v, b), sub) (by simp) c (by simp [hc]) hk (by rw [isStr_key hk]; exact hs)
  exact key [] (by simp)

theorem split_plain {s : Str} (h : ':' ∉ s) : split s = [s] := by
  induction s with
  | nil => rfl
  | cons c s ih =>
    simp only [List.mem_cons, not_or] at h
    rw [split, if_neg (fun e => h.1 e.symm), ih h.2]

theorem split_append {s : Str} (h : ':' ∉ s) (r : Str) : split (s ++ ':' :: r) = s :: split r := by
  induction s with
  | nil => simp [split]
  | cons c s ih =>
    simp only [List.mem_cons, not_or] at h
    rw [List.cons_append, split, if_neg (fun e => h.1 e.symm), ih h.2]

/-- The names with colons between them. -/
def join : List Str → Str
  | [] => []
  | [x] => x
  | x :: l => x ++ ':' :: join l

/-- **C106, forms.** A string of names with colons between them is the same search path as the list of the names. -/
theorem C106_colons (l : List Str) (hne : l ≠ []) (h : ∀ x ∈ l, ':' ∉ x) :
    items true (.leaf (.str (join l))) = items true (.seq (l.map fun x => .leaf (.str x))) := by
  have h1 : split (join l) = l := by
    induction l with
    | nil => exact absurd rfl hne
    | cons x l ih =>
      cases l with
      | nil => exact split_plain (h x (by simp))
      | cons y l =>
        rw [join, split_append (h x (by simp)), ih (by simp) (fun z hz => h z (by simp [hz]))]
        simp
  have h2 : ∀ l : List Str, flatL (l.map fun x => .leaf (.str x)) = l.map .str := by
    intro l
    induction l with
    | nil => rfl
    | cons x l ih => simp [flatL, Val.flat, ih]
  simp only [items, if_true]
  rw [h1, h2]

/-- **C106, forms.** Lists in lists do not matter. -/
theorem C106_nested (a b : List Val) : items true (.seq [.seq a, .seq b]) = items true (.seq (a ++ b)) := by
  have h : ∀ a b : List Val, flatL (a ++ b) = flatL a ++ flatL b := by
    intro a b
    induction a with
    | nil => rfl
    | cons x a ih => simp [flatL, ih]
  simp [items, flatL, Val.flat, h]

/-- **C106, plain names.** Names without `$` are what they are: none is lost (empty ones are no names), none is moved. -/
theorem C106_plain (sub : Str → Val) (l : List Str) (h : ∀ x ∈ l, '$' ∉ x) :
    (items true (.seq (l.map fun x => .leaf (.str x)))).flatMap (meaning sub) = (l.filter fun x => decide (x ≠ [])).map .str := by
  simp only [items]
  induction l with
  | nil => rfl
  | cons x l ih =>
    simp only [List.map_cons, flatL, Val.flat, List.singleton_append, List.flatMap_cons]
    rw [ih (fun y hy => h y (by simp [hy]))]
    have := h x (by simp)
    by_cases e : x = [] <;> simp [meaning, this, e]

theorem falsy_dirs {sub : Str → Val} {rdirs : Str → List Nat} {v : Val} (hv : v.truthy = false) (hn : v ≠ .leaf .none) :
    findAll rdirs (substPath sub (parse (keyOf v) true)) = [] := by
  rcases v with l | l
  · cases l with
    | str s =>
      simp only [Val.truthy, Leaf.truthy, decide_eq_false_iff_not, ne_eq, Decidable.not_not] at hv
      subst hv
      rfl
    | node n => simp [Val.truthy, Leaf.truthy] at hv
    | none => exact absurd rfl hn
  · cases l with
    | nil => rfl
    | cons x l => simp [Val.truthy] at hv

/-- **C106, scanner and compiler.** The scanner looks in the directories that the compiler is told, in the same order. -/
theorem C106_scanner_is_compiler_partial (sub : Str → Val) (rdirs : Str → List Nat) (var : Option Val) (hn : var ≠ some (.leaf .none)) :
    (scannerDirs sub rdirs [] var).1 = (flagDirs sub rdirs [] var).1 := by
  cases var with
  | none => rfl
  | some v =>
    simp only [scannerDirs, flagDirs]
    by_cases h : v.truthy = true
    · rw [if_pos h]
    · rw [if_neg h]
      simp only [Bool.not_eq_true] at h
      exact falsy_dirs h (fun e => hn (by rw [e]))

/-- The directories that an entry stands for: a name may be in several places (repositories), a node is one. -/
def places (rdirs : Str → List Nat) : Leaf → List Nat
  | .str s => rdirs s
  | .node n => [n]
  | .none => []

/-- **C106, order.** The directories are searched in the order of the entries. -/
theorem C106_searched (sub : Str → Val) (rdirs : Str → List Nat) (v : Val) :
    (scannerDirs sub rdirs [] (some v)).1 = ((items true v).flatMap (meaning sub)).flatMap (places rdirs) := by
  have h : ∀ l, findAll rdirs l = l.flatMap (places rdirs) := by
    intro l
    induction l with
    | nil => rfl
    | cons x l ih => cases x <;> simp [findAll, places, ih]
  simp only [scannerDirs, h, C106_fresh]

/-- The same after any history of search paths and of libraries, if that was not mixed. -/
theorem C106_same_memory (sub : Str → Val) (rdirs : Str → List Nat) (m : Memo) (v : Val) (hv : v.truthy = true) :
    scannerDirs sub rdirs m (some v) = flagDirs sub rdirs m (some v) ∧
    (scannerDirs sub rdirs (flagDirs sub rdirs m (some v)).2 (some v)).1 = (flagDirs sub rdirs m (some v)).1 := by
  simp only [scannerDirs, flagDirs, if_pos hv, true_and]
  have h : (pathList (pathList m v true).2 v true).1 = (pathList m v true).1 := by
    rcases hf : m.find? (fun e => decide (e.1 = keyOf v)) with _ | e
    · simp [pathList, hf]
    · simp [pathList, hf]
  rw [h]

/-! ## Examples and counterexamples -/

def noSub : Str → Val := fun s => .leaf (.str s)

/-- `X` is a list with an empty string in it. -/
def listSub : Str → Val := fun s =>
  if s = "$X".toList then .seq [.leaf (.str []), .leaf (.str "inc".toList)] else .leaf (.str s)

example : substPath listSub (pathList [] (.leaf (.str "a:$X:b".toList)) true).1 =
    [.str "a".toList, .str [], .str "inc".toList, .str "b".toList] := by decide +kernel

/-- A history that meets the hypothesis of `C106_history_partial`. -/
example : run [] [((.leaf (.str "a:b".toList), true), noSub), ((.leaf (.str ":libz.a".toList), false), noSub),
      ((.leaf (.str "a:b".toList), true), noSub)] =
    [[.str "a".toList, .str "b".toList], [.str ":libz.a".toList], [.str "a".toList, .str "b".toList]] := by decide +kernel

/-- **Counterexample.** The memory does not know whether a string was split: `LIBS=':libz.a'` was first used where there is no literal
prefix for libraries; where there is one, it is now taken apart. -/
theorem C106_counterexample_split :
    run [] [((.leaf (.str ":libz.a".toList), true), noSub), ((.leaf (.str ":libz.a".toList), false), noSub)] =
      [[.str "libz.a".toList], [.str "libz.a".toList]] ∧
    run [] [((.leaf (.str ":libz.a".toList), false), noSub)] = [[.str ":libz.a".toList]] := by decide +kernel

/-- **Counterexample.** `CPPPATH=None`: the scanner looks in a directory named `None`, the compiler does not. -/
theorem C106_counterexample_none (rdirs : Str → List Nat) :
    (scannerDirs noSub rdirs [] (some (.leaf .none))).1 = rdirs "None".toList ∧ (flagDirs noSub rdirs [] (some (.leaf .none))).1 = [] := by
  refine ⟨?_, rfl⟩
  have : substPath noSub (pathList [] (.leaf .none) true).1 = [.str "None".toList] := by decide +kernel
  simp only [scannerDirs]
  rw [this]
  simp [findAll]

/-- **Counterexample.** An empty string in a list is nothing; in a list that a variable stands for, it is the current directory. -/
theorem C106_counterexample_empty (rdirs : Str → List Nat) :
    (flagDirs listSub rdirs [] (some (.seq [.leaf (.str []), .leaf (.str "inc".toList)]))).1 = rdirs "inc".toList ∧
    (flagDirs listSub rdirs [] (some (.leaf (.str "$X".toList)))).1 = rdirs [] ++ rdirs "inc".toList := by
  constructor
  · have : substPath listSub (pathList [] (.seq [.leaf (.str []), .leaf (.str "inc".toList)]) true).1 = [.str "inc".toList] := by decide +kernel
    simp only [flagDirs, Val.truthy, List.isEmpty_cons, Bool.not_false, if_true]
    rw [this]
    simp [findAll]
  · have : substPath listSub (pathList [] (.leaf (.str "$X".toList)) true).1 = [.str [], .str "inc".toList] := by decide +kernel
    have ht : (Val.leaf (.str "$X".toList)).truthy = true := by decide
    simp only [flagDirs, if_pos ht]
    rw [this]
    simp [findAll]

end Verif.PathL
