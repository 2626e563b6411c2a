import Verif.Tree.Spec

/-!
# C112: proofs, first part: every printed text is the text of a tree
-/

namespace Verif.Tree
variable {ν : Type} (kids : ν → List ν) (str : ν → Str)

/-! ## The tree behind the lines -/

mutual
/-- The lines of a tree. -/
def T.lines (kids : ν → List ν) : T ν → List Bool → Bool → List (Line ν)
  | .node n s ts, m, last => ⟨m.dropLast, n, s, last, !(kids n).isEmpty⟩ :: T.linesKids kids ts m
def T.linesKids (kids : ν → List ν) : List (T ν) → List Bool → List (Line ν)
  | [], _ => []
  | [t], m => T.lines kids t (m ++ [false]) true
  | t :: t' :: ts, m => T.lines kids t (m ++ [true]) false ++ T.linesKids kids (t' :: ts) m
end

/-- The loop over the children, with trees. -/
def growLoop (call : ν → List Str → Option (T ν × List Str)) : List ν → List Str → Option (List (T ν) × List Str)
  | [], v => some ([], v)
  | c :: cs, v =>
    match call c v with
    | none => none
    | some (t, v1) => match growLoop call cs v1 with
      | none => none
      | some (ts, v2) => some (t :: ts, v2)

/-- `printTree` with trees. -/
def growPrint (prune : Bool) : Nat → ν → List Str → Option (T ν × List Str)
  | 0, _, _ => none
  | f + 1, n, v =>
    if prune && v.contains (str n) && !(kids n).isEmpty then some (.node n true [], v)
    else match growLoop (growPrint prune f) (kids n) (str n :: v) with
      | none => none
      | some (ts, v') => some (.node n false ts, v')

/-- `renderTree` with trees. -/
def growRender (prune : Bool) : Nat → ν → List Str → Option (T ν × List Str)
  | 0, _, _ => none
  | f + 1, n, v =>
    if v.contains (str n) then some (.node n true [], v)
    else match growLoop (growRender prune f) (kids n) (str n :: v) with
      | none => none
      | some (ts, v') => some (.node n false ts, if prune then v' else v)

theorem loop_grow (call : ν → List Bool → List Str → Bool → Option (List (Line ν) × List Str)) (g : ν → List Str → Option (T ν × List Str))
    (h : ∀ n m v b, call n m v b = (g n v).map fun p => (p.1.lines kids m b, p.2)) (cs : List ν) (m : List Bool) (v : List Str) :
    loop call cs m v = (growLoop g cs v).map fun p => (T.linesKids kids p.1 m, p.2) := by
  induction cs generalizing v with
  | nil => rfl
  | cons c cs ih =>
    cases cs with
    | nil =>
      rw [loop, h, growLoop]
      rcases g c v with _ | ⟨t, v1⟩
      · rfl
      · simp [growLoop, T.linesKids]
    | cons c' cs =>
      rw [loop, h, growLoop]
      rcases g c v with _ | ⟨t, v1⟩
      · rfl
      · simp only [Option.map_some, ih]
        rcases hr : growLoop g (c' :: cs) v1 with _ | ⟨ts, v2⟩
        · rfl
        · have : ∃ t' ts', ts = t' :: ts' := by
            rw [growLoop] at hr
            rcases hg : g c' v1 with _ | ⟨t', v3⟩ <;> rw [hg] at hr
            · simp at hr
            · simp only at hr
              rcases hg' : growLoop g cs v3 with _ | ⟨ts', v4⟩ <;> rw [hg'] at hr
              · simp at hr
              · simp at hr; exact ⟨t', ts', hr.1.symm⟩
          obtain ⟨t', ts', rfl⟩ := this
          simp [T.linesKids]

theorem printTree_grow (prune : Bool) (f : Nat) (n : ν) (m : List Bool) (v : List Str) (b : Bool) :
    printTree kids str prune f n m v b = (growPrint kids str prune f n v).map fun p => (p.1.lines kids m b, p.2) := by
  induction f generalizing n m v b with
  | zero => rfl
  | succ f ih =>
    rw [printTree, growPrint]
    split
    · rfl
    · rw [loop_grow kids _ _ ih]
      rcases growLoop (growPrint kids str prune f) (kids n) (str n :: v) with _ | ⟨ts, v'⟩ <;> rfl

theorem renderTree_grow (prune : Bool) (f : Nat) (n : ν) (m : List Bool) (v : List Str) (b : Bool) :
    renderTree kids str prune f n m v b = (growRender kids str prune f n v).map fun p => (p.1.lines kids m b, p.2) := by
  induction f generalizing n m v b with
  | zero => rfl
  | succ f ih =>
    rw [renderTree, growRender]
    split
    · rfl
    · rw [loop_grow kids _ _ ih]
      rcases growLoop (growRender kids str prune f) (kids n) (str n :: v) with _ | ⟨ts, v'⟩ <;> rfl

theorem growLoop_cons (g : ν → List Str → Option (T ν × List Str)) (c : ν) (cs : List ν) (v : List Str) (ts : List (T ν)) (v' : List Str) :
    growLoop g (c :: cs) v = some (ts, v') ↔ ∃ t v1 ts', g c v = some (t, v1) ∧ growLoop g cs v1 = some (ts', v') ∧ ts = t :: ts' := by
  rw [growLoop]
  rcases hc : g c v with _ | ⟨t, v1⟩
  · simp
  · simp only
    rcases hr : growLoop g cs v1 with _ | ⟨ts', v2⟩
    · simp [hr]
    · simp only [Option.some.injEq, Prod.mk.injEq]
      constructor
      · rintro ⟨rfl, rfl⟩; exact ⟨t, v1, ts', ⟨rfl, rfl⟩, hr, rfl⟩
      · rintro ⟨t', v1', ts'', ⟨rfl, rfl⟩, h2, rfl⟩
        rw [hr] at h2
        simp only [Option.some.injEq, Prod.mk.injEq] at h2
        exact ⟨by rw [h2.1], h2.2⟩

/-- What a call does: `v` are the names seen before, `v'` those seen afterwards. -/
structure Call (kids : ν → List ν) (str : ν → Str) (n : ν) (v : List Str) (t : T ν) (v' : List Str) : Prop where
  root : t.root = n
  truth : True' kids t
  seen : ∀ x, x ∈ v' ↔ x ∈ v ∨ ∃ m bs, (m, false, bs) ∈ t.all ∧ str m = x
  stops : ∀ m bs, (m, true, bs) ∈ t.all → str m ∈ v'

/-- The same for the loop. -/
structure Calls (kids : ν → List ν) (str : ν → Str) (cs : List ν) (v : List Str) (ts : List (T ν)) (v' : List Str) : Prop where
  root : ts.map T.root = cs
  truth : ∀ n s bs, (n, s, bs) ∈ T.alls ts → if s then bs = [] else bs = kids n
  seen : ∀ x, x ∈ v' ↔ x ∈ v ∨ ∃ m bs, (m, false, bs) ∈ T.alls ts ∧ str m = x
  stops : ∀ m bs, (m, true, bs) ∈ T.alls ts → str m ∈ v'

theorem growLoop_calls (g : ν → List Str → Option (T ν × List Str)) (h : ∀ n v t v', g n v = some (t, v') → Call kids str n v t v') (cs : List ν) (v : List Str) (ts : List (T ν))
    (v' : List Str) (hg : growLoop g cs v = some (ts, v')) : Calls kids str cs v ts v' := by
  induction cs generalizing v ts v' with
  | nil =>
    simp only [growLoop, Option.some.injEq, Prod.mk.injEq] at hg
    obtain ⟨rfl, rfl⟩ := hg
    exact ⟨rfl, by simp [T.alls], by simp [T.alls], by simp [T.alls]⟩
  | cons c cs ih =>
    obtain ⟨t, v1, ts', h1, h2, rfl⟩ := (growLoop_cons g c cs v ts v').1 hg
    have C := h _ _ _ _ h1
    have D := ih _ _ _ h2
    refine ⟨by simp [C.root, D.root], ?_, ?_, ?_⟩
    · intro n s bs hm
      rw [T.alls, List.mem_append] at hm
      rcases hm with hm | hm
      · exact C.truth n s bs hm
      · exact D.truth n s bs hm
    · intro x
      rw [D.seen, C.seen]
      simp only [T.alls, List.mem_append]
      constructor
      · rintro ((hx | ⟨m, bs, hm, rfl⟩) | ⟨m, bs, hm, rfl⟩)
        · exact .inl hx
        · exact .inr ⟨m, bs, .inl hm, rfl⟩
        · exact .inr ⟨m, bs, .inr hm, rfl⟩
      · rintro (hx | ⟨m, bs, hm | hm, rfl⟩)
        · exact .inl (.inl hx)
        · exact .inl (.inr ⟨m, bs, hm, rfl⟩)
        · exact .inr ⟨m, bs, hm, rfl⟩
    · intro m bs hm
      rw [T.alls, List.mem_append] at hm
      rcases hm with hm | hm
      · exact (D.seen _).2 (.inl (C.stops m bs hm))
      · exact D.stops m bs hm

theorem call_node {n : ν} {v v' : List Str} {ts : List (T ν)} (D : Calls kids str (kids n) (str n :: v) ts v') : Call kids str n v (.node n false ts) v' := by
  refine ⟨rfl, ?_, ?_, ?_⟩
  · intro m s bs hm
    rw [T.all, List.mem_cons] at hm
    rcases hm with hm | hm
    · simp only [Prod.mk.injEq] at hm
      obtain ⟨rfl, rfl, rfl⟩ := hm
      simpa using D.root
    · exact D.truth m s bs hm
  · intro x
    rw [D.seen]
    simp only [T.all, List.mem_cons, Prod.mk.injEq]
    constructor
    · rintro ((rfl | hx) | ⟨m, bs, hm, rfl⟩)
      · exact .inr ⟨n, _, .inl ⟨rfl, trivial, rfl⟩, rfl⟩
      · exact .inl hx
      · exact .inr ⟨m, bs, .inr hm, rfl⟩
    · rintro (hx | ⟨m, bs, ⟨rfl, -, -⟩ | hm, rfl⟩)
      · exact .inl (.inr hx)
      · exact .inl (.inl rfl)
      · exact .inr ⟨m, bs, hm, rfl⟩
  · intro m bs hm
    simp only [T.all, List.mem_cons, Prod.mk.injEq] at hm
    rcases hm with ⟨-, hm, -⟩ | hm
    · simp at hm
    · exact D.stops m bs hm

theorem call_stop {n : ν} {v : List Str} (h : str n ∈ v) : Call kids str n v (.node n true []) v := by
  refine ⟨rfl, ?_, ?_, ?_⟩
  · intro m s bs hm
    simp only [T.all, T.alls, List.mem_cons, Prod.mk.injEq, List.not_mem_nil, or_false] at hm
    obtain ⟨rfl, rfl, rfl⟩ := hm
    simp
  · intro x; simp [T.all, T.alls]
  · intro m bs hm
    simp only [T.all, T.alls, List.mem_cons, Prod.mk.injEq, List.not_mem_nil, or_false] at hm
    obtain ⟨rfl, -⟩ := hm
    exact h

theorem growPrint_call (prune : Bool) (f : Nat) (n : ν) (v : List Str) (t : T ν) (v' : List Str) (h : growPrint kids str prune f n v = some (t, v')) : Call kids str n v t v' := by
  induction f generalizing n v t v' with
  | zero => simp [growPrint] at h
  | succ f ih =>
    rw [growPrint] at h
    split at h
    · rename_i hc
      simp only [Option.some.injEq, Prod.mk.injEq] at h
      obtain ⟨rfl, rfl⟩ := h
      simp only [Bool.and_eq_true, List.contains_iff_mem] at hc
      exact call_stop kids str hc.1.2
    · rcases hr : growLoop (growPrint kids str prune f) (kids n) (str n :: v) with _ | ⟨ts, v2⟩ <;> rw [hr] at h
      · simp at h
      · simp only [Option.some.injEq, Prod.mk.injEq] at h
        obtain ⟨rfl, rfl⟩ := h
        exact call_node kids str (growLoop_calls kids str _ ih _ _ _ _ hr)

/-! ## Reading the text -/

mutual
/-- Depth and text of each line. -/
def T.dl (str : ν → Str) : T ν → Nat → List (Nat × Str)
  | .node n s ts, d => (d, if s then '[' :: str n ++ [']'] else str n) :: T.dls str ts (d + 1)
def T.dls (str : ν → Str) : List (T ν) → Nat → List (Nat × Str)
  | [], _ => []
  | t :: ts, d => T.dl str t d ++ T.dls str ts d
end

theorem texts_map (ts : List (T ν)) : T.texts str ts = ts.map (T.text str) := by
  induction ts with
  | nil => rfl
  | cons t ts ih => simp [T.texts, ih]

theorem takeWhile_all {α : Type} (p : α → Bool) (a b : List α) (ha : ∀ x ∈ a, p x = true) (hb : ∀ x, b.head? = some x → p x = false) :
    (a ++ b).takeWhile p = a ∧ (a ++ b).dropWhile p = b := by
  induction a with
  | nil =>
    cases b with
    | nil => simp
    | cons x b => have := hb x rfl; simp [this]
  | cons x a ih =>
    have hx := ha x List.mem_cons_self
    have := ih fun y hy => ha y (List.mem_cons_of_mem _ hy)
    simp [hx, this.1, this.2]

mutual
theorem readUp_dl : ∀ (t : T ν) (d : Nat) (rest : List (Nat × Str)), (∀ p, (readUp rest).head? = some p → p.1 ≤ d) → readUp (t.dl str d ++ rest) = (d, t.text str) :: readUp rest
  | .node n s ts, d, rest, h => by
    rw [T.dl, List.cons_append, readUp]
    rw [readUp_dls ts d rest h]
    obtain ⟨h1, h2⟩ := takeWhile_all (fun p : Nat × T Str => decide (d < p.1)) (ts.map fun t => (d + 1, t.text str)) (readUp rest) (by simp) (by
      intro x hx; have := h x hx; simp; omega)
    rw [h1, h2, T.text, texts_map]
    simp
theorem readUp_dls : ∀ (ts : List (T ν)) (d : Nat) (rest : List (Nat × Str)), (∀ p, (readUp rest).head? = some p → p.1 ≤ d) →
    readUp (T.dls str ts (d + 1) ++ rest) = (ts.map fun t => (d + 1, t.text str)) ++ readUp rest
  | [], d, rest, h => by simp [T.dls]
  | t :: ts, d, rest, h => by
    have ih := readUp_dls ts d rest h
    rw [T.dls, List.append_assoc, readUp_dl t (d + 1) _ ?_, ih]
    · simp
    · intro p hp
      rw [ih] at hp
      cases ts with
      | nil => have := h p (by simpa using hp); omega
      | cons t' ts => simp at hp; simp [← hp]
end

/-- Depth and text of a line. -/
def Line.look (l : Line ν) : Nat × Str := (l.margins.length, if l.stop then '[' :: str l.node ++ [']'] else str l.node)

mutual
theorem look_lines : ∀ (t : T ν) (m : List Bool) (b : Bool), m ≠ [] → (t.lines kids m b).map (Line.look str) = t.dl str (m.length - 1)
  | .node n s ts, m, b, hm => by
    rw [T.lines, T.dl, List.map_cons, look_linesKids ts m]
    have : m.length - 1 + 1 = m.length := by
      have := List.length_pos_iff.2 hm; omega
    rw [this]
    simp [Line.look]
theorem look_linesKids : ∀ (ts : List (T ν)) (m : List Bool), (T.linesKids kids ts m).map (Line.look str) = T.dls str ts m.length
  | [], m => by simp [T.linesKids, T.dls]
  | [t], m => by
    rw [T.linesKids, look_lines t _ _ (by simp), T.dls, T.dls]; simp
  | t :: t' :: ts, m => by
    rw [T.linesKids, List.map_append, look_lines t _ _ (by simp), look_linesKids (t' :: ts) m]; simp [T.dls]
end

theorem readLine_ascii (l : Line ν) : readLine (l.ascii str) = some (l.look str) := by
  obtain ⟨m, n, s, b, k⟩ := l
  simp only [Line.ascii, Line.look]
  induction m with
  | nil => simp [readLine]
  | cons x m ih =>
    cases x <;> simp only [List.flatMap_cons, List.append_assoc, Bool.false_eq_true, ↓reduceIte, List.cons_append, List.nil_append, readLine] <;>
      (simp only [List.append_assoc, List.cons_append, List.nil_append] at ih; rw [ih]; simp)

/-- Names do not begin with the two characters that a line drawing may have before the name. -/
def NoBox (str : ν → Str) : Prop := ∀ n, (str n).head? ≠ some '┬' ∧ (str n).head? ≠ some '─'

theorem readBoxes_boxes (hs : NoBox str) (l : Line ν) : readBoxes (l.boxes str) = some (l.look str) := by
  obtain ⟨m, n, s, b, k⟩ := l
  simp only [Line.boxes, Line.look]
  induction m with
  | nil =>
    have key : ∀ r : Str, r.head? ≠ some '┬' → r.head? ≠ some '─' → (match r with | '┬' :: r' | '─' :: r' => some ((0 : Nat), r') | r => some (0, r)) = some (0, r) := by
      intro r h1 h2
      split
      · simp at h1
      · simp at h2
      · rfl
    have h0 := hs n
    have h1 := key _ h0.1 h0.2
    cases b <;> cases k <;> cases s <;> simp only [List.flatMap_nil, List.nil_append, List.cons_append, Bool.false_eq_true, ↓reduceIte, List.append_nil, readBoxes, List.length_nil] <;> first
      | rfl
      | exact h1
  | cons x m ih =>
    cases x <;> simp only [List.flatMap_cons, List.append_assoc, Bool.false_eq_true, ↓reduceIte, List.cons_append, List.nil_append, readBoxes] <;>
      (simp only [List.append_assoc, List.cons_append, List.nil_append] at ih; rw [ih]; simp)

theorem mapM_read {α β γ : Type} (f : α → β) (read : β → Option γ) (look : α → γ) (h : ∀ a, read (f a) = some (look a)) (ls : List α) : (ls.map f).mapM read = some (ls.map look) := by
  induction ls with
  | nil => rfl
  | cons l ls ih => rw [List.map_cons, List.mapM_cons, h, ih]; rfl

theorem readTree_lines (read : Str → Option (Nat × Str)) (f : Line ν → Str) (h : ∀ l, read (f l) = some (l.look str)) (t : T ν) (b : Bool) :
    readTree read ((t.lines kids [false] b).map f) = some (t.text str) := by
  rw [readTree, mapM_read f read _ h, look_lines kids str t _ _ (by simp)]
  simp only
  have := readUp_dl str t 0 [] (by simp [readUp])
  rw [List.append_nil] at this
  simp [this, readUp]

end Verif.Tree
