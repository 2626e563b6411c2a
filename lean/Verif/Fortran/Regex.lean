/-!
# A backtracking matcher for the patterns of `SCons/Scanner/Fortran.py`

CPython's `re` module tries alternatives in a fixed order and takes the first that leads to a
match of the whole pattern.  `run r s` is the list of *all* the ways `r` can match at the
position `s`, in that order; the first one is the match that `re` reports.  The patterns
themselves (`Verif.Fortran.Model`) are written as terms of `Re`, constructor by constructor
as they appear in the source.

Not modelled: characters outside ASCII (`\s`, `\w` and case folding are wider for them),
and loops over anything but one character class, which these patterns do not use.
-/

namespace Verif.Fortran

/-- A position in the text: is it the start of a line (`^` under `re.M`), what follows,
and what the capture group holds. -/
structure Pos where
  bol : Bool
  rest : List Char
  cap : List Char
deriving DecidableEq, Repr

/-- Pattern syntax, as used at `SCons/Scanner/Fortran.py` 186, 274, 306. -/
inductive Re where
  /-- `^` with `re.M` -/
  | bol
  /-- one character of a class -/
  | chr (p : Char → Bool)
  | seq (a b : Re)
  /-- `a|b` -/
  | alt (a b : Re)
  /-- `(?:a)?` -/
  | opt (a : Re)
  /-- `p*`, greedy -/
  | many (p : Char → Bool)
  /-- `p+?`, reluctant -/
  | lazy1 (p : Char → Bool)
  /-- `(?=a)` -/
  | ahead (a : Re)
  /-- `(?!a)` -/
  | notAhead (a : Re)
  /-- `(a)` -/
  | group (a : Re)

/-- One character further on: `^` holds after a newline only. -/
def Pos.next (s : Pos) (c : Char) (t : List Char) : Pos :=
  { bol := c == '\n', rest := t, cap := s.cap }

/-- Greedy repetition: the longest run first, then ever shorter ones. -/
def runMany (p : Char → Bool) (cap : List Char) : Bool → List Char → List Pos
  | b, [] => [⟨b, [], cap⟩]
  | b, c :: t => if p c then runMany p cap (c == '\n') t ++ [⟨b, c :: t, cap⟩] else [⟨b, c :: t, cap⟩]

/-- Reluctant repetition (at least one): the shortest run first. -/
def runLazy (p : Char → Bool) (cap : List Char) : List Char → List Pos
  | [] => []
  | c :: t => if p c then ⟨c == '\n', t, cap⟩ :: runLazy p cap t else []

/-- All matches of a pattern at a position, in the order in which `re` tries them. -/
def run : Re → Pos → List Pos
  | .bol, s => if s.bol then [s] else []
  | .chr p, s =>
    match s.rest with
    | [] => []
    | c :: t => if p c then [s.next c t] else []
  | .seq a b, s => (run a s).flatMap (run b)
  | .alt a b, s => run a s ++ run b s
  | .opt a, s => run a s ++ [s]
  | .many p, s => runMany p s.cap s.bol s.rest
  | .lazy1 p, s => runLazy p s.cap s.rest
  | .ahead a, s => if (run a s).isEmpty then [] else [s]
  | .notAhead a, s => if (run a s).isEmpty then [s] else []
  | .group a, s =>
    (run a s).map fun e => { e with cap := s.rest.take (s.rest.length - e.rest.length) }

/-- `p+`, greedy. -/
def Re.many1 (p : Char → Bool) : Re := .seq (.chr p) (.many p)

/-- A word, in any mixture of cases (the words in the patterns are given in lower case here). -/
def Re.word : List Char → Re
  | [] => .opt (.chr fun _ => false)
  | [k] => .chr fun c => c.toLower == k
  | k :: ks => .seq (.chr fun c => c.toLower == k) (Re.word ks)

/-- `re.findall` for a pattern with one group: at each position the first way to match, then on
from the end of that match; `skip` counts the characters of the last match still to pass over.
(A match of the empty string would be reported by `findall` at the end of the text too; none of
the patterns here matches the empty string.) -/
def findAll (r : Re) : Bool → Nat → List Char → List (List Char)
  | _, _, [] => []
  | _, n + 1, c :: t => findAll r (c == '\n') n t
  | b, 0, c :: t =>
    match run r ⟨b, c :: t, []⟩ with
    | [] => findAll r (c == '\n') 0 t
    | e :: _ => e.cap :: findAll r (c == '\n') (t.length - e.rest.length) t

/-! ## What every run obeys -/

/-- `e` lies further on in the text than `s` (or at the same place), and knows whether it is at
the start of a line. -/
def Onward (s e : Pos) : Prop :=
  (e.bol = s.bol ∧ e.rest = s.rest) ∨
    ∃ u c, s.rest = u ++ c :: e.rest ∧ e.bol = (c == '\n')

theorem Onward.refl (s : Pos) : Onward s s := Or.inl ⟨rfl, rfl⟩

theorem Onward.trans {a b c : Pos} (h : Onward a b) (h' : Onward b c) : Onward a c := by
  rcases h with ⟨h1, h2⟩ | ⟨u, x, h1, h2⟩
  · rcases h' with ⟨h3, h4⟩ | ⟨u', x', h3, h4⟩
    · exact Or.inl ⟨h3.trans h1, h4.trans h2⟩
    · exact Or.inr ⟨u', x', by rw [← h2, h3], h4⟩
  · rcases h' with ⟨h3, h4⟩ | ⟨u', x', h3, h4⟩
    · exact Or.inr ⟨u, x, by rw [h1, h4], h3.trans h2⟩
    · exact Or.inr ⟨u ++ x :: u', x', by rw [h1, h3]; simp, h4⟩

theorem runMany_onward (p cap) : ∀ (t : List Char) (b : Bool), ∀ e ∈ runMany p cap b t,
    Onward ⟨b, t, cap⟩ e
  | [], b, e, h => by simp [runMany] at h; subst h; exact Onward.refl _
  | c :: t, b, e, h => by
    have step : Onward ⟨b, c :: t, cap⟩ ⟨c == '\n', t, cap⟩ := Or.inr ⟨[], c, rfl, rfl⟩
    rw [runMany] at h
    split at h
    · rcases List.mem_append.1 h with h | h
      · exact step.trans (runMany_onward p cap t _ e h)
      · simp at h; subst h; exact Onward.refl _
    · simp at h; subst h; exact Onward.refl _

theorem runLazy_onward (p cap) : ∀ (t : List Char) (b : Bool), ∀ e ∈ runLazy p cap t,
    Onward ⟨b, t, cap⟩ e
  | [], b, e, h => by simp [runLazy] at h
  | c :: t, b, e, h => by
    have step : Onward ⟨b, c :: t, cap⟩ ⟨c == '\n', t, cap⟩ := Or.inr ⟨[], c, rfl, rfl⟩
    rw [runLazy] at h
    split at h
    · rcases List.mem_cons.1 h with h | h
      · subst h; exact step
      · exact step.trans (runLazy_onward p cap t _ e h)
    · simp at h

/-- A match never goes back, and always knows whether it stands at the start of a line. -/
theorem run_onward : ∀ (r : Re) (s e : Pos), e ∈ run r s → Onward s e
  | .bol, s, e, h => by
    simp only [run] at h
    split at h <;> simp at h
    subst h; exact Onward.refl _
  | .chr p, s, e, h => by
    simp only [run] at h
    split at h
    · simp at h
    · rename_i c t hr
      split at h <;> simp at h
      subst h
      exact Or.inr ⟨[], c, by simp [hr, Pos.next], rfl⟩
  | .seq a b, s, e, h => by
    simp only [run, List.mem_flatMap] at h
    obtain ⟨x, hx, he⟩ := h
    exact (run_onward a s x hx).trans (run_onward b x e he)
  | .alt a b, s, e, h => by
    simp only [run, List.mem_append] at h
    rcases h with h | h
    · exact run_onward a s e h
    · exact run_onward b s e h
  | .opt a, s, e, h => by
    simp only [run, List.mem_append, List.mem_singleton] at h
    rcases h with h | h
    · exact run_onward a s e h
    · subst h; exact Onward.refl _
  | .many p, s, e, h => runMany_onward p s.cap s.rest s.bol e h
  | .lazy1 p, s, e, h => runLazy_onward p s.cap s.rest s.bol e h
  | .ahead a, s, e, h => by
    simp only [run] at h
    split at h <;> simp at h
    subst h; exact Onward.refl _
  | .notAhead a, s, e, h => by
    simp only [run] at h
    split at h <;> simp at h
    subst h; exact Onward.refl _
  | .group a, s, e, h => by
    simp only [run, List.mem_map] at h
    obtain ⟨x, hx, he⟩ := h
    have := run_onward a s x hx
    subst he
    exact this

theorem findAll_skip (r : Re) : ∀ (u : List Char) (c : Char) (v : List Char) (b : Bool),
    findAll r b (u.length + 1) (u ++ c :: v) = findAll r (c == '\n') 0 v
  | [], c, v, b => by simp [findAll]
  | x :: u, c, v, b => by
    simp only [List.length_cons, List.cons_append, findAll]
    exact findAll_skip r u c v _

/-- After a match of at least one character the search goes on where the match ended. -/
theorem findAll_hit (r : Re) (b : Bool) (s : List Char) (e : Pos) (more : List Pos)
    (h : run r ⟨b, s, []⟩ = e :: more) (hne : e.rest.length < s.length) :
    findAll r b 0 s = e.cap :: findAll r e.bol 0 e.rest := by
  have on : Onward ⟨b, s, []⟩ e := run_onward r _ e (by rw [h]; simp)
  rcases on with ⟨_, h2⟩ | ⟨u, c, h1, h2⟩
  · simp only at h2; rw [h2] at hne; exact absurd hne (Nat.lt_irrefl _)
  · simp only at h1
    cases u with
    | nil =>
      subst h1
      simp only [List.nil_append] at h ⊢
      simp only [findAll, h, Nat.sub_self, h2]
    | cons x u =>
      subst h1
      simp only [List.cons_append] at h ⊢
      simp only [findAll, h, h2]
      have : (u ++ c :: e.rest).length - e.rest.length = u.length + 1 := by
        simp only [List.length_append, List.length_cons]; omega
      rw [this, findAll_skip]

theorem findAll_miss (r : Re) (b : Bool) (c : Char) (t : List Char)
    (h : run r ⟨b, c :: t, []⟩ = []) : findAll r b 0 (c :: t) = findAll r (c == '\n') 0 t := by
  simp only [findAll, h]

/-! ## Runs of greedy loops -/

/-- The position after all leading characters of a class. -/
def Pos.past (p : Char → Bool) (s : Pos) : Pos :=
  match s with
  | ⟨b, [], cap⟩ => ⟨b, [], cap⟩
  | ⟨b, c :: t, cap⟩ => if p c then Pos.past p ⟨c == '\n', t, cap⟩ else ⟨b, c :: t, cap⟩
termination_by s.rest.length

theorem Pos.past_cap (p) (s : Pos) : (s.past p).cap = s.cap := by
  fun_induction Pos.past p s <;> simp_all

theorem Pos.past_rest (p) (s : Pos) : (s.past p).rest = s.rest.dropWhile p := by
  fun_induction Pos.past p s <;> simp_all [List.dropWhile_cons]

theorem Pos.past_stop (p) (b : Bool) (c : Char) (t cap : List Char) (h : p c = false) :
    Pos.past p ⟨b, c :: t, cap⟩ = ⟨b, c :: t, cap⟩ := by
  rw [Pos.past]; simp [h]

theorem Pos.past_append (p) : ∀ (w : List Char) (c : Char) (t cap : List Char) (b : Bool),
    (∀ x ∈ w, p x = true) → p c = false →
    Pos.past p ⟨b, w ++ c :: t, cap⟩ = ⟨(w.getLast?.map (· == '\n')).getD b, c :: t, cap⟩
  | [], c, t, cap, b, _, h => by simp [Pos.past_stop p b c t cap h]
  | x :: w, c, t, cap, b, hw, h => by
    rw [List.cons_append, Pos.past]
    rw [if_pos (hw x (by simp)), Pos.past_append p w c t cap _ (fun y hy => hw y (by simp [hy])) h]
    cases w with
    | nil => simp
    | cons y w =>
      rw [List.getLast?_cons_cons]
      rcases h : (y :: w).getLast? with _ | z
      · simp at h
      · simp

/-- A greedy loop followed by something that cannot begin with a character of the loop
is as good as going past all of them. -/
theorem run_many_then (p : Char → Bool) (f : Pos → List Pos)
    (hf : ∀ b c t cap, p c = true → f ⟨b, c :: t, cap⟩ = []) (cap : List Char) :
    ∀ (t : List Char) (b : Bool),
      (runMany p cap b t).flatMap f = f (Pos.past p ⟨b, t, cap⟩)
  | [], b => by simp [runMany, Pos.past]
  | c :: t, b => by
    rw [runMany, Pos.past]
    split
    · rename_i hc
      rw [List.flatMap_append, run_many_then p f hf cap t]
      simp [hf b c t cap hc]
    · simp

/-- The first of the ways a greedy loop can go is the longest. -/
theorem runMany_head (p : Char → Bool) (cap : List Char) : ∀ (t : List Char) (b : Bool),
    ∃ more, runMany p cap b t = Pos.past p ⟨b, t, cap⟩ :: more
  | [], b => ⟨[], by simp [runMany, Pos.past]⟩
  | c :: t, b => by
    rw [runMany, Pos.past]
    split
    · obtain ⟨m, hm⟩ := runMany_head p cap t (c == '\n')
      exact ⟨m ++ [⟨b, c :: t, cap⟩], by rw [hm]; rfl⟩
    · exact ⟨[], rfl⟩

end Verif.Fortran
