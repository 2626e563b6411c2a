import Verif.Subst.Term
/-!
# C32, C33, C34: what substitution does to text, to `$$` and to `$( $)`
-/
namespace Verif.Subst

/-! ### Concatenation -/

theorem mapM_append_except {α β : Type} (f : α → Except Err β) (l l' : List α) :
    (l ++ l').mapM f = (do let a ← l.mapM f; let b ← l'.mapM f; pure (a ++ b)) := by
  induction l with
  | nil => simp [bind, Except.bind, pure, Except.pure]; cases l'.mapM f <;> rfl
  | cons x l ih =>
    simp only [List.cons_append, List.mapM_cons, ih, bind, Except.bind, pure, Except.pure]
    cases f x with
    | error e => rfl
    | ok y =>
      simp only
      cases l.mapM f with
      | error e => rfl
      | ok z => simp only; cases l'.mapM f <;> rfl

/-- The text `a` and what follows it and starts with a `$` expand separately. -/
theorem substV_append (E : Env) (m : Mode) (n : Nat) (lv : Vars) (a t : Str)
    (h : Tok.lone ∉ tokenize E.uw a) :
    substV E m (n + 1) lv (.str (a ++ '$' :: t)) =
      (do let x ← substV E m (n + 1) lv (.str a)
          let y ← substV E m (n + 1) lv (.str ('$' :: t))
          pure (x ++ y)) := by
  simp only [substV]
  rw [tokenize_append E.uw a t h, mapM_append_except]
  simp only [bind, Except.bind, pure, Except.pure]
  cases (tokenize E.uw a).mapM (tokText E (substV E m n) lv) with
  | error e => rfl
  | ok x =>
    simp only
    cases (tokenize E.uw ('$' :: t)).mapM (tokText E (substV E m n) lv) with
    | error e => rfl
    | ok y => simp

theorem substV_mark (E : Env) (m : Mode) (n : Nat) (lv : Vars) (t : Str) (c : Char)
    (hc : c = '$' ∨ c = '(' ∨ c = ')') :
    substV E m (n + 1) lv (.str ('$' :: c :: t)) =
      (do let y ← substV E m (n + 1) lv (.str t)
          pure ('$' :: c :: y)) := by
  simp only [substV]
  have : ∃ k, tokenize E.uw ('$' :: c :: t) = k :: tokenize E.uw t ∧
      tokText E (substV E m n) lv k = .ok ['$', c] := by
    rcases hc with rfl | rfl | rfl
    · exact ⟨.esc, tokenize_esc _ _, rfl⟩
    · exact ⟨.opn, tokenize_opn _ _, rfl⟩
    · exact ⟨.cls, tokenize_cls _ _, rfl⟩
  obtain ⟨k, hk, hk'⟩ := this
  rw [hk, List.mapM_cons, hk']
  simp only [bind, Except.bind, pure, Except.pure]
  cases (tokenize E.uw t).mapM (tokText E (substV E m n) lv) with
  | error e => rfl
  | ok y => simp

/-- Text without `$` stands for itself. -/
theorem mapM_text (E : Env) (rec) (lv) (uw) (t : Str) (h : '$' ∉ t) :
    (tokenize uw t).mapM (tokText E rec lv) = .ok ((tokenize uw t).map Tok.text) := by
  have key : ∀ k ∈ tokenize uw t, tokText E rec lv k = .ok k.text := by
    intro k hk
    have hsub : ∀ x ∈ k.text, x ∈ t := by
      intro x hx
      rw [← tokenize_lossless uw t]
      exact List.mem_flatten.2 ⟨_, List.mem_map.2 ⟨k, hk, rfl⟩, hx⟩
    cases k with
    | ref b key =>
      exfalso
      apply h
      apply hsub
      cases b <;> simp [Tok.text]
    | _ => rfl
  generalize tokenize uw t = l at key
  induction l with
  | nil => rfl
  | cons x l ih =>
    rw [List.mapM_cons, key x (by simp), ih fun k hk => key k (by simp [hk])]
    rfl

theorem substV_text (E : Env) (m : Mode) (n : Nat) (lv : Vars) (t : Str) (h : '$' ∉ t) :
    substV E m (n + 1) lv (.str t) = .ok t := by
  simp only [substV, mapM_text E _ lv E.uw t h, bind, Except.bind, pure, Except.pure,
    tokenize_lossless]

/-! ### `collapse` -/

theorem collapse_text (t u : Str) (h : '$' ∉ t) : collapse (t ++ u) = t ++ collapse u := by
  induction t with
  | nil => rfl
  | cons c r ih =>
    simp only [List.mem_cons, not_or] at h
    rw [List.cons_append, List.cons_append, ← ih h.2, collapse.eq_2]
    intro r' hc; exact fun _ => h.1 hc.symm

theorem collapse_text' (t : Str) (h : '$' ∉ t) : collapse t = t := by
  have := collapse_text t [] h
  simpa [collapse] using this

/-- What follows `r` is collapsed separately: `r` does not end in half an escape. -/
def Sep (r : Str) : Prop := ∀ t, collapse (r ++ t) = collapse r ++ collapse t

theorem Sep.nil : Sep [] := fun t => rfl
theorem Sep.text {t : Str} (h : '$' ∉ t) : Sep t := fun u => by
  rw [collapse_text t u h, collapse_text' t h]
theorem Sep.append {a b : Str} (ha : Sep a) (hb : Sep b) : Sep (a ++ b) := fun t => by
  rw [List.append_assoc, ha, hb, ha, List.append_assoc]
theorem Sep.esc : Sep ['$', '$'] := fun t => by simp [collapse]
theorem collapse_mark (c : Char) (t : Str) (h : c ≠ '$') : collapse ('$' :: c :: t) = '$' :: c :: collapse t := by
  rw [collapse.eq_2 _ _ (by intro r' _ hr; injection hr with h1; exact h h1),
    collapse.eq_2 _ _ (by intro r' hc; exact absurd hc h)]
theorem Sep.mark {c : Char} (h : c ≠ '$') : Sep ['$', c] := fun t => by
  rw [show ['$', c] ++ t = '$' :: c :: t from rfl, collapse_mark c t h, collapse_mark c [] h]; rfl
theorem Sep.flatten {l : List Str} (h : ∀ x ∈ l, Sep x) : Sep l.flatten := by
  induction l with
  | nil => exact Sep.nil
  | cons a l ih => exact Sep.append (h a (by simp)) (ih fun x hx => h x (by simp [hx]))
theorem Sep.joinSp {l : List Str} (h : ∀ x ∈ l, Sep x) : Sep (joinSp l) := by
  induction l with
  | nil => exact Sep.nil
  | cons a l ih =>
    cases l with
    | nil => exact h a (by simp)
    | cons b l =>
      show Sep (a ++ ([' '] ++ Verif.Subst.joinSp (b :: l)))
      exact Sep.append (h a (by simp)) (Sep.append (Sep.text (by decide))
        (ih fun x hx => h x (by simp [hx])))

/-! ### Clean environments -/

/-- No text in the value has a `$` that starts neither a reference nor `$$`, `$(`,
`$)`; the text of objects has no `$`. -/
inductive Clean (uw : Char → Bool) : Val → Prop
  | none : Clean uw .none
  | str (s) (h : Tok.lone ∉ tokenize uw s) : Clean uw (.str s)
  | obj (a b) (ha : '$' ∉ a) (hb : '$' ∉ b) : Clean uw (.obj a b)
  | seq (l) (h : ∀ v ∈ l, Clean uw v) : Clean uw (.seq l)
  | fn (v w) (hv : Clean uw v) (hw : Clean uw w) : Clean uw (.fn v w)

structure CleanEnv (E : Env) (lv : Vars) : Prop where
  lvars : ∀ k v, lv k = some v → Clean E.uw v
  gvars : ∀ k v, E.gvars k = some v → Clean E.uw v
  evals : ∀ k ns v, E.eval k ns = .val v → Clean E.uw v

theorem CleanEnv.blank {E lv} (h : CleanEnv E lv) (k) : CleanEnv E (blank lv k) where
  lvars k' v hv := by
    simp only [Verif.Subst.blank, Vars.set] at hv
    split at hv
    · cases hv; exact .str [] (by simp)
    · exact h.lvars k' v hv
  gvars := h.gvars
  evals := h.evals

theorem CleanEnv.lookup {E lv} (h : CleanEnv E lv) {k v} (hl : lookup E lv k = .ok (some v)) :
    Clean E.uw v := by
  unfold Verif.Subst.lookup at hl
  split at hl
  · rename_i he; cases checkNone_some hl; exact h.lvars _ _ he
  · split at hl
    · rename_i he; cases checkNone_some hl; exact h.gvars _ _ he
    · split at hl
      · cases hl
      · cases hl
      · rename_i he; cases checkNone_some hl; exact h.evals _ _ _ he

theorem mapM_mem {α β : Type} {f : α → Except Err β} {l : List α} {r : List β}
    (h : l.mapM f = .ok r) : ∀ y ∈ r, ∃ x ∈ l, f x = .ok y := by
  induction l generalizing r with
  | nil => cases h; simp
  | cons a l ih =>
    simp only [List.mapM_cons, bind, Except.bind] at h
    cases hfa : f a with
    | error e => rw [hfa] at h; cases h
    | ok b =>
      rw [hfa] at h
      simp only at h
      cases hl : l.mapM f with
      | error e => rw [hl] at h; cases h
      | ok r' =>
        rw [hl] at h
        cases h
        intro y hy
        rcases List.mem_cons.1 hy with hy | hy
        · subst hy; exact ⟨a, by simp, hfa⟩
        · obtain ⟨x, hx, hx'⟩ := ih hl y hy
          exact ⟨x, by simp [hx], hx'⟩

theorem sep_substV (E m) : ∀ n lv v r, CleanEnv E lv → Clean E.uw v →
    substV E m n lv v = .ok r → Sep r := by
  intro n
  induction n with
  | zero => intro lv v r _ _ h; cases h
  | succ n ih =>
    intro lv v r hE hv h
    cases hv with
    | none => cases h; exact Sep.nil
    | obj a b ha hb =>
      simp only [substV, Except.ok.injEq] at h
      subst h
      split
      · exact Sep.text hb
      · exact Sep.text ha
    | fn v w hv hw =>
      simp only [substV] at h
      refine ih lv _ r hE ?_ h
      split <;> assumption
    | seq l hl =>
      simp only [substV, bind, Except.bind] at h
      cases hr : l.mapM (substV E m n lv) with
      | error e => rw [hr] at h; cases h
      | ok rs =>
        rw [hr] at h
        cases h
        apply Sep.joinSp
        intro x hx
        obtain ⟨v, hv, hvx⟩ := mapM_mem hr x hx
        exact ih lv v x hE (hl v hv) hvx
    | str s hs =>
      simp only [substV, bind, Except.bind] at h
      cases hr : (tokenize E.uw s).mapM (tokText E (substV E m n) lv) with
      | error e => rw [hr] at h; cases h
      | ok rs =>
        rw [hr] at h
        cases h
        apply Sep.flatten
        intro x hx
        obtain ⟨t, ht, htx⟩ := mapM_mem hr x hx
        cases t with
        | esc => cases htx; exact Sep.esc
        | opn => cases htx; exact Sep.mark (by decide)
        | cls => cases htx; exact Sep.mark (by decide)
        | ws y => cases htx; exact Sep.text (tokenize_noDollar _ _ _ ht y (.inl rfl))
        | word y => cases htx; exact Sep.text (tokenize_noDollar _ _ _ ht y (.inr rfl))
        | lone => exact absurd ht hs
        | ref b k =>
          simp only [tokText, bind, Except.bind] at htx
          cases hl : lookup E lv k with
          | error e => rw [hl] at htx; cases htx
          | ok o =>
            rw [hl] at htx
            cases o with
            | none => cases htx; exact Sep.nil
            | some v =>
              simp only at htx
              cases hp : v.plain? with
              | some y =>
                rw [hp] at htx
                cases htx
                apply Sep.text
                cases v <;> simp only [Val.plain?, reduceCtorEq] at hp
                split at hp
                · cases hp
                · cases hp; assumption
              | none =>
                rw [hp] at htx
                exact ih _ _ _ (hE.blank k) (hE.lookup hl) htx

/-! ### C32, C33 -/

/-- The concatenation of two results. -/
def cat (x y : Except Err Str) : Except Err Str := do
  let a ← x
  let b ← y
  pure (a ++ b)

/-- **C32** a string without `$` is returned as it is, in every mode and in every
environment. -/
theorem C32_text_unchanged (E m n lv) (s : Str) (h : '$' ∉ s) : subst E m n lv s = .ok s := by
  simp [subst, h]

/-- **C32** the tokenizer loses and invents no character. -/
theorem C32_tokens_lossless (uw) (s : Str) : ((tokenize uw s).map Tok.text).flatten = s :=
  tokenize_lossless uw s

/-- Raw substitution of a string, whether or not it contains a `$`. -/
theorem subst_raw_eq (E n lv) (s : Str) :
    subst E .raw (n + 1) lv s = (do let r ← substV E .raw (n + 1) lv (.str s); pure (collapse r)) := by
  unfold subst
  split
  · rfl
  · rename_i h
    rw [substV_text E .raw n lv s h]
    simp only [bind, Except.bind, pure, Except.pure, collapse_text' s h]

/-- **C32** nothing outside of references is altered in raw mode: a text and what
follows it from a `$` on are substituted separately and concatenated. -/
theorem C32_raw_concatenation (E : Env) (n : Nat) (lv : Vars) (a t : Str) (hE : CleanEnv E lv)
    (h : Tok.lone ∉ tokenize E.uw a) :
    subst E .raw (n + 1) lv (a ++ '$' :: t) =
      cat (subst E .raw (n + 1) lv a) (subst E .raw (n + 1) lv ('$' :: t)) := by
  simp only [subst_raw_eq, cat, substV_append E .raw n lv a t h, bind, Except.bind, pure, Except.pure]
  cases ha : substV E .raw (n + 1) lv (.str a) with
  | error e => rfl
  | ok x =>
    simp only
    cases substV E .raw (n + 1) lv (.str ('$' :: t)) with
    | error e => rfl
    | ok y =>
      simp only
      rw [sep_substV E .raw (n + 1) lv _ x hE (.str a h) ha y]

/-- **C32** text in front of a reference is kept as it is. -/
theorem C32_text_prefix_kept (E : Env) (n : Nat) (lv : Vars) (a t : Str) (h : '$' ∉ a) :
    subst E .raw (n + 1) lv (a ++ '$' :: t) =
      cat (.ok a) (subst E .raw (n + 1) lv ('$' :: t)) := by
  have hl : Tok.lone ∉ tokenize E.uw a := by
    intro hm
    apply h
    rw [← tokenize_lossless E.uw a]
    exact List.mem_flatten.2 ⟨_, List.mem_map.2 ⟨_, hm, rfl⟩, by simp [Tok.text]⟩
  simp only [subst_raw_eq, cat, substV_append E .raw n lv a t hl, bind, Except.bind, pure, Except.pure,
    substV_text E .raw n lv a h]
  cases substV E .raw (n + 1) lv (.str ('$' :: t)) with
  | error e => rfl
  | ok y => simp only; rw [collapse_text a y h]

/-- **C33** `$$` gives exactly one `$`, whatever stands before and after it, and
what follows is not combined with it. -/
theorem C33_escape_partial (E : Env) (n : Nat) (lv : Vars) (a t : Str) (hE : CleanEnv E lv)
    (h : Tok.lone ∉ tokenize E.uw a) :
    subst E .raw (n + 1) lv (a ++ '$' :: '$' :: t) =
      cat (subst E .raw (n + 1) lv a) (cat (.ok ['$']) (subst E .raw (n + 1) lv t)) := by
  rw [C32_raw_concatenation E n lv a ('$' :: t) hE h]
  congr 1
  simp only [subst_raw_eq, cat, substV_mark E .raw n lv t '$' (.inl rfl), bind, Except.bind, pure,
    Except.pure]
  cases substV E .raw (n + 1) lv (.str t) with
  | error e => rfl
  | ok y => simp [collapse]

/-- **C33** a text of escapes and plain text is decoded in one pass. -/
theorem C33_escape_only (E : Env) (n : Nat) (lv : Vars) (l : List Str) (hl : ∀ x ∈ l, '$' ∉ x) :
    subst E .raw (n + 1) lv (l.map (· ++ ['$', '$'])).flatten =
      .ok (l.map (· ++ ['$'])).flatten := by
  rw [subst_raw_eq]
  have : substV E .raw (n + 1) lv (.str (l.map (· ++ ['$', '$'])).flatten) =
      .ok (l.map (· ++ ['$', '$'])).flatten := by
    induction l with
    | nil => rfl
    | cons x l ih =>
      have hx := hl x (by simp)
      have hlo : Tok.lone ∉ tokenize E.uw x := by
        intro hm
        apply hx
        rw [← tokenize_lossless E.uw x]
        exact List.mem_flatten.2 ⟨_, List.mem_map.2 ⟨_, hm, rfl⟩, by simp [Tok.text]⟩
      simp only [List.map_cons, List.flatten_cons, List.append_assoc, List.cons_append, List.nil_append]
      rw [substV_append E .raw n lv x _ hlo, substV_mark E .raw n lv _ '$' (.inl rfl),
        ih fun y hy => hl y (by simp [hy]), substV_text E .raw n lv x hx]
      rfl
  rw [this]
  simp only [bind, Except.bind, pure, Except.pure, Except.ok.injEq]
  clear this
  induction l with
  | nil => rfl
  | cons x l ih =>
    simp only [List.map_cons, List.flatten_cons, List.append_assoc]
    rw [collapse_text x _ (hl x (by simp))]
    simp [collapse, ih fun y hy => hl y (by simp [hy])]

/-! ### C34 -/

/-- Balanced sequences of text and markers. -/
inductive Bal : List Piece → Prop
  | nil : Bal []
  | text (t l) (h : Bal l) : Bal (.text t :: l)
  | wrap (p q) (hp : Bal p) (hq : Bal q) : Bal (.opn :: (p ++ .cls :: q))

theorem Bal.append {p q} (hp : Bal p) (hq : Bal q) : Bal (p ++ q) := by
  induction hp with
  | nil => exact hq
  | text t l h ih => exact .text t _ ih
  | wrap a b ha hb i1 i2 =>
    have := Bal.wrap a (b ++ q) ha i2
    simpa using this

theorem removeGo_inner {p} (hp : Bal p) : ∀ d l, removeGo (d + 1) (p ++ l) = removeGo (d + 1) l := by
  induction hp with
  | nil => intro d l; rfl
  | text t l' h ih => intro d l; simp only [List.cons_append, removeGo]; exact ih d l
  | wrap a b ha hb i1 i2 =>
    intro d l
    simp only [List.cons_append, List.append_assoc, removeGo]
    rw [i1 (d + 1)]
    simp only [removeGo]
    exact i2 d l

/-- The text outside of all markers. -/
def outside {p : List Piece} (_ : Bal p) : Option (List Str) := removeGo 0 p

theorem removeGo_outer {p} (hp : Bal p) : ∃ ts, ∀ l, removeGo 0 (p ++ l) = (removeGo 0 l).map (ts ++ ·) := by
  induction hp with
  | nil => exact ⟨[], fun l => by simp⟩
  | text t l' h ih =>
    obtain ⟨ts, ih⟩ := ih
    refine ⟨t :: ts, fun l => ?_⟩
    simp only [List.cons_append, removeGo, ih, Option.map_map]
    rfl
  | wrap a b ha hb i1 i2 =>
    obtain ⟨ts, i2⟩ := i2
    refine ⟨ts, fun l => ?_⟩
    simp only [List.cons_append, List.append_assoc, removeGo]
    rw [removeGo_inner ha 0]
    simp only [removeGo]
    exact i2 l

/-- Balanced up to `d` closing markers. -/
def BalD : Nat → List Piece → Prop
  | 0, l => Bal l
  | d + 1, l => ∃ p q, Bal p ∧ l = p ++ .cls :: q ∧ BalD d q

theorem BalD.text (t) : ∀ d l, BalD d l → BalD d (.text t :: l) := by
  intro d l h
  cases d with
  | zero => exact Bal.text t l h
  | succ d =>
    obtain ⟨p, q, hp, rfl, hq⟩ := h
    exact ⟨.text t :: p, q, .text t p hp, rfl, hq⟩

theorem BalD.opn : ∀ d l, BalD (d + 1) l → BalD d (.opn :: l) := by
  intro d l h
  obtain ⟨p, q, hp, rfl, hq⟩ := h
  cases d with
  | zero => exact Bal.wrap p q hp hq
  | succ d =>
    obtain ⟨p', q', hp', rfl, hq'⟩ := hq
    exact ⟨.opn :: (p ++ .cls :: p'), q', .wrap p p' hp hp', by simp, hq'⟩

theorem balD_of_removeGo : ∀ l d, removeGo d l ≠ none → BalD d l := by
  intro l
  induction l with
  | nil => intro d h; cases d with
    | zero => exact Bal.nil
    | succ d => simp [removeGo] at h
  | cons x l ih =>
    intro d h
    cases x with
    | text t =>
      apply BalD.text
      apply ih
      cases d with
      | zero => simpa [removeGo] using h
      | succ d => simpa [removeGo] using h
    | opn =>
      apply BalD.opn
      apply ih
      cases d <;> simpa [removeGo] using h
    | cls =>
      cases d with
      | zero => simp [removeGo] at h
      | succ d => exact ⟨[], l, .nil, rfl, ih d (by simpa [removeGo] using h)⟩

/-- `_remove_list` reports an error exactly for unbalanced markers. -/
theorem removeGo_none_iff (l : List Piece) : removeGo 0 l = none ↔ ¬ Bal l := by
  constructor
  · intro h hb
    obtain ⟨ts, hts⟩ := removeGo_outer hb
    have := hts []
    simp [removeGo, h] at this
  · intro h
    apply Classical.byContradiction
    intro hc
    exact h (balD_of_removeGo l 0 hc)

theorem splitM_mark (r : Str) : splitM false ('$' :: '(' :: r) = .text [] :: .opn :: splitM false r ∧
    splitM false ('$' :: ')' :: r) = .text [] :: .cls :: splitM false r := by
  constructor <;> simp [splitM]

theorem splitM_other (pd : Bool) (c : Char) (r : Str)
    (h : ¬ (c = '$' ∧ pd = false) ∨ (r.head? ≠ some '(' ∧ r.head? ≠ some ')')) :
    splitM pd (c :: r) = consHead c (splitM (c = '$') r) := by
  rw [splitM.eq_def]
  simp only
  by_cases hc : (c = '$' && !pd) = true
  · rw [if_pos hc]
    have hc' : c = '$' ∧ pd = false := by simpa using hc
    have h' : r.head? ≠ some '(' ∧ r.head? ≠ some ')' := h.resolve_left (fun f => f hc')
    split
    · simp at h'
    · simp at h'
    · simp [hc'.1]
  · rw [if_neg hc]

/-- Markers are recognised separately when the text before them does not end in `$`. -/
theorem splitM_append (b : Str) (c : Char) (k : Piece)
    (hc : (c = '(' ∧ k = .opn) ∨ (c = ')' ∧ k = .cls)) :
    ∀ (n : Nat) (a : Str) (pd : Bool), a.length ≤ n →
    (a = [] → pd = false) → a.getLast? ≠ some '$' →
    splitM pd (a ++ '$' :: c :: b) = splitM pd a ++ k :: splitM false b := by
  have hcons : ∀ (x : Char) (l l' : List Piece), l ≠ [] → consHead x (l ++ l') = consHead x l ++ l' := by
    intro x l l' h
    cases l with
    | nil => exact absurd rfl h
    | cons y l => cases y <;> rfl
  have hne : ∀ (n : Nat) (s : Str) pd, s.length ≤ n → splitM pd s ≠ [] := by
    intro n
    induction n with
    | zero => intro s pd h; cases s <;> simp_all [splitM]
    | succ n ih =>
      intro s pd h
      have hch : ∀ x l, consHead x l ≠ [] := by
        intro x l; cases l with
        | nil => simp [consHead]
        | cons y l => cases y <;> simp [consHead]
      cases s with
      | nil => simp [splitM]
      | cons x r =>
        rw [splitM.eq_def]
        simp only
        repeat' split
        all_goals first | exact hch _ _ | simp
  intro n
  induction n with
  | zero =>
    intro a pd hl hnil _
    have : a = [] := List.length_eq_zero_iff.1 (by omega)
    subst this
    rw [hnil rfl]
    rcases hc with ⟨rfl, rfl⟩ | ⟨rfl, rfl⟩ <;> simp [splitM]
  | succ n ih =>
    intro a pd hl hnil hlast
    cases a with
    | nil =>
      rw [hnil rfl]
      rcases hc with ⟨rfl, rfl⟩ | ⟨rfl, rfl⟩ <;> simp [splitM]
    | cons x r =>
      have hrl : r.length ≤ n := by simpa using hl
      have hlast' : r ≠ [] → r.getLast? ≠ some '$' := by
        intro hr
        rw [List.getLast?_cons_of_ne_nil hr] at hlast
        exact hlast
      rw [List.cons_append]
      by_cases hx : x = '$' ∧ pd = false
      · obtain ⟨rfl, rfl⟩ := hx
        cases r with
        | nil => simp at hlast
        | cons y r' =>
          have hr'len : r'.length ≤ n := by simp at hrl; omega
          have hlast'' : r'.getLast? ≠ some '$' := by
            cases r' with
            | nil => simp
            | cons z r'' =>
              have := hlast' (by simp)
              rwa [List.getLast?_cons_cons] at this
          by_cases hy1 : y = '('
          · subst hy1
            rw [List.cons_append, (splitM_mark _).1, (splitM_mark _).1,
              ih r' false hr'len (fun _ => rfl) hlast'']
            rfl
          · by_cases hy2 : y = ')'
            · subst hy2
              rw [List.cons_append, (splitM_mark _).2, (splitM_mark _).2,
                ih r' false hr'len (fun _ => rfl) hlast'']
              rfl
            · rw [splitM_other _ _ _ (.inr (by simp [hy1, hy2])), splitM_other _ _ _ (.inr (by simp [hy1, hy2])),
                ← hcons _ _ _ (hne _ _ _ (Nat.le_refl _)),
                ih (y :: r') _ hrl (by simp) (hlast' (by simp))]
      · rw [splitM_other _ _ _ (.inl hx), splitM_other _ _ _ (.inl hx),
          ← hcons _ _ _ (hne _ _ _ (Nat.le_refl _)), ih r _ hrl]
        · intro hr
          subst hr
          have : x ≠ '$' := by simpa using hlast
          simpa using this
        · by_cases hr : r = []
          · subst hr; simp
          · exact hlast' hr

theorem rmMarkers_cons (c : Char) (r : Str) (h : c ≠ '$' ∨ (r.head? ≠ some '(' ∧ r.head? ≠ some ')')) :
    rmMarkers (c :: r) = c :: rmMarkers r := by
  rw [rmMarkers.eq_3]
  · rintro r' rfl rfl; simp at h
  · rintro r' rfl rfl; simp at h

theorem rmMarkers_append (t : Str) : ∀ (n : Nat) (a : Str), a.length ≤ n → a.getLast? ≠ some '$' →
    rmMarkers (a ++ t) = rmMarkers a ++ rmMarkers t := by
  intro n
  induction n with
  | zero =>
    intro a hl _
    have : a = [] := List.length_eq_zero_iff.1 (by omega)
    subst this; rfl
  | succ n ih =>
    intro a hl hlast
    cases a with
    | nil => rfl
    | cons x r =>
      have hrl : r.length ≤ n := by simpa using hl
      cases r with
      | nil =>
        have hx : x ≠ '$' := by simpa using hlast
        show rmMarkers (x :: t) = _
        rw [rmMarkers_cons x t (.inl hx), rmMarkers_cons x [] (.inl hx)]
        rfl
      | cons y r' =>
        have hlr : (y :: r').getLast? ≠ some '$' := by rwa [List.getLast?_cons_cons] at hlast
        have hlr' : r'.getLast? ≠ some '$' := by
          cases r' with
          | nil => simp
          | cons z r'' => rwa [List.getLast?_cons_cons] at hlr
        have hr'l : r'.length ≤ n := by simp at hrl; omega
        by_cases hx : x = '$' ∧ (y = '(' ∨ y = ')')
        · obtain ⟨rfl, rfl | rfl⟩ := hx
          · simp only [List.cons_append, rmMarkers]; exact ih r' hr'l hlr'
          · simp only [List.cons_append, rmMarkers]; exact ih r' hr'l hlr'
        · have hcond : ∀ w : Str, x ≠ '$' ∨ ((y :: w).head? ≠ some '(' ∧ (y :: w).head? ≠ some ')') := by
            intro w
            by_cases h1 : x = '$'
            · right
              simp only [h1, true_and, not_or] at hx
              simpa using hx
            · left; exact h1
          simp only [List.cons_append]
          rw [rmMarkers_cons x _ (hcond _), rmMarkers_cons x _ (hcond _), ← List.cons_append,
            ih (y :: r') hrl hlr]
          rfl

/-- The expansion of `a $( x $) b`. -/
theorem substV_enclosed (E : Env) (m : Mode) (n : Nat) (lv : Vars) (a x b ra rx : Str)
    (ha : Tok.lone ∉ tokenize E.uw a) (hx : Tok.lone ∉ tokenize E.uw x)
    (hra : substV E m (n + 1) lv (.str a) = .ok ra) (hrx : substV E m (n + 1) lv (.str x) = .ok rx) :
    substV E m (n + 1) lv (.str (a ++ '$' :: '(' :: (x ++ '$' :: ')' :: b))) =
      (do let rb ← substV E m (n + 1) lv (.str b)
          pure (ra ++ '$' :: '(' :: (rx ++ '$' :: ')' :: rb))) := by
  rw [substV_append E m n lv a _ ha, hra, substV_mark E m n lv _ '(' (by simp),
    substV_append E m n lv x _ hx, hrx, substV_mark E m n lv _ ')' (by simp)]
  cases substV E m (n + 1) lv (.str b) <;> rfl

/-- **C34** the text enclosed in `$(` and `$)` does not influence the signature:
replacing it by nothing gives the same result. `a` and `x` contain no lone `$`;
their expansions `ra`, `rx` do not end in a `$` and the markers in `rx` are
balanced. -/
theorem C34_signature_ignores_enclosed_partial (E : Env) (n : Nat) (lv : Vars) (a x b ra rx : Str)
    (ha : Tok.lone ∉ tokenize E.uw a) (hx : Tok.lone ∉ tokenize E.uw x)
    (hra : substV E .sig (n + 1) lv (.str a) = .ok ra)
    (hrx : substV E .sig (n + 1) lv (.str x) = .ok rx)
    (hla : ra.getLast? ≠ some '$') (hlx : rx.getLast? ≠ some '$')
    (hbal : Bal (splitM false rx)) :
    subst E .sig (n + 1) lv (a ++ '$' :: '(' :: (x ++ '$' :: ')' :: b)) =
      subst E .sig (n + 1) lv (a ++ '$' :: '(' :: '$' :: ')' :: b) := by
  have h1 := substV_enclosed E .sig n lv a x b ra rx ha hx hra hrx
  have h2 := substV_enclosed E .sig n lv a [] b ra [] ha (by simp) hra (substV_text _ _ _ _ _ (by simp))
  unfold subst
  rw [if_pos (by simp), if_pos (by simp), h1]
  rw [List.nil_append] at h2
  rw [h2]
  cases substV E .sig (n + 1) lv (.str b) with
  | error e => rfl
  | ok rb =>
    simp only [bind, Except.bind, pure, Except.pure, post, List.nil_append]
    have e : removeGo 0 (splitM false (ra ++ '$' :: '(' :: (rx ++ '$' :: ')' :: rb))) =
        removeGo 0 (splitM false (ra ++ '$' :: '(' :: '$' :: ')' :: rb)) := by
      rw [splitM_append _ '(' .opn (by simp) _ ra false (Nat.le_refl _) (fun _ => rfl) hla,
        splitM_append rb ')' .cls (by simp) _ rx false (Nat.le_refl _) (fun _ => rfl) hlx,
        splitM_append ('$' :: ')' :: rb) '(' .opn (by simp) _ ra false (Nat.le_refl _) (fun _ => rfl) hla]
      have e3 := splitM_append rb ')' .cls (by simp) 0 [] false (by simp) (fun _ => rfl) (by simp)
      rw [List.nil_append] at e3
      rw [e3]
      -- both are `pre ++ opn :: balanced ++ cls :: rest`
      have gen : ∀ (pre : List Piece) (d : Nat) (p q rest : List Piece), Bal p → Bal q →
          removeGo d (pre ++ .opn :: (p ++ .cls :: rest)) =
          removeGo d (pre ++ .opn :: (q ++ .cls :: rest)) := by
        intro pre
        induction pre with
        | nil =>
          intro d p q rest hp hq
          cases d <;> simp only [List.nil_append, removeGo, removeGo_inner hp, removeGo_inner hq]
        | cons k pre ih =>
          intro d p q rest hp hq
          cases k with
          | text t => cases d <;> simp only [List.cons_append, removeGo, ih _ p q rest hp hq]
          | opn => cases d <;> simp only [List.cons_append, removeGo, ih _ p q rest hp hq]
          | cls => cases d <;> simp only [List.cons_append, removeGo, ih _ p q rest hp hq]
      exact gen _ _ _ _ _ hbal (.text [] [] .nil)
    rw [e]

/-- **C34** consequence: two command lines that differ only in what they enclose
have the same signature text. -/
theorem C34_same_signature_partial (E : Env) (n : Nat) (lv : Vars) (a x x' b ra rx rx' : Str)
    (ha : Tok.lone ∉ tokenize E.uw a) (hx : Tok.lone ∉ tokenize E.uw x)
    (hx' : Tok.lone ∉ tokenize E.uw x')
    (hra : substV E .sig (n + 1) lv (.str a) = .ok ra)
    (hrx : substV E .sig (n + 1) lv (.str x) = .ok rx)
    (hrx' : substV E .sig (n + 1) lv (.str x') = .ok rx')
    (hla : ra.getLast? ≠ some '$') (hlx : rx.getLast? ≠ some '$') (hlx' : rx'.getLast? ≠ some '$')
    (hbal : Bal (splitM false rx)) (hbal' : Bal (splitM false rx')) :
    subst E .sig (n + 1) lv (a ++ '$' :: '(' :: (x ++ '$' :: ')' :: b)) =
      subst E .sig (n + 1) lv (a ++ '$' :: '(' :: (x' ++ '$' :: ')' :: b)) := by
  rw [C34_signature_ignores_enclosed_partial E n lv a x b ra rx ha hx hra hrx hla hlx hbal,
    C34_signature_ignores_enclosed_partial E n lv a x' b ra rx' ha hx' hra hrx' hla hlx' hbal']

/-- **C34** text outside of the markers is never dropped from the signature:
without any marker in the expansion, all of the text counts. -/
theorem C34_signature_keeps_the_rest (E : Env) (n : Nat) (lv : Vars) (a x b ra rx rb : Str)
    (ha : Tok.lone ∉ tokenize E.uw a) (hx : Tok.lone ∉ tokenize E.uw x)
    (hra : substV E .sig (n + 1) lv (.str a) = .ok ra)
    (hrx : substV E .sig (n + 1) lv (.str x) = .ok rx)
    (hrb : substV E .sig (n + 1) lv (.str b) = .ok rb)
    (hda : '$' ∉ ra) (hdb : '$' ∉ rb) (hlx : rx.getLast? ≠ some '$')
    (hbal : Bal (splitM false rx)) :
    subst E .sig (n + 1) lv (a ++ '$' :: '(' :: (x ++ '$' :: ')' :: b)) =
      .ok (finish (ra ++ ' ' :: rb)) := by
  have hla : ra.getLast? ≠ some '$' := fun h => hda (List.mem_of_getLast? h)
  have hplain : ∀ (t : Str), '$' ∉ t → ∀ pd, splitM pd t = [.text t] := by
    intro t
    induction t with
    | nil => intro _ pd; simp [splitM]
    | cons c r ih =>
      intro h pd
      simp only [List.mem_cons, not_or] at h
      rw [splitM_other pd c r (.inl fun e => h.1 e.1.symm), ih h.2]
      rfl
  unfold subst
  rw [if_pos (by simp), substV_enclosed E .sig n lv a x b ra rx ha hx hra hrx, hrb]
  simp only [bind, Except.bind, pure, Except.pure, post]
  rw [splitM_append _ '(' .opn (by simp) _ ra false (Nat.le_refl _) (fun _ => rfl) hla,
    splitM_append rb ')' .cls (by simp) _ rx false (Nat.le_refl _) (fun _ => rfl) hlx,
    hplain ra hda, hplain rb hdb]
  simp only [List.cons_append, List.nil_append, removeGo]
  rw [removeGo_inner hbal 0]
  simp [removeGo, joinSp]

/-- **C34** in command mode the enclosed text is kept and only the two markers
are dropped. -/
theorem C34_command_keeps_enclosed (E : Env) (n : Nat) (lv : Vars) (a x b ra rx rb : Str)
    (ha : Tok.lone ∉ tokenize E.uw a) (hx : Tok.lone ∉ tokenize E.uw x)
    (hra : substV E .cmd (n + 1) lv (.str a) = .ok ra)
    (hrx : substV E .cmd (n + 1) lv (.str x) = .ok rx)
    (hrb : substV E .cmd (n + 1) lv (.str b) = .ok rb)
    (hda : '$' ∉ ra) (hdx : '$' ∉ rx) (hdb : '$' ∉ rb) :
    subst E .cmd (n + 1) lv (a ++ '$' :: '(' :: (x ++ '$' :: ')' :: b)) =
      .ok (finish (ra ++ rx ++ rb)) := by
  have hplain : ∀ (t : Str), '$' ∉ t → rmMarkers t = t := by
    intro t
    induction t with
    | nil => intro _; rfl
    | cons c r ih =>
      intro h
      simp only [List.mem_cons, not_or] at h
      rw [rmMarkers_cons c r (.inl fun e => h.1 e.symm), ih h.2]
  unfold subst
  rw [if_pos (by simp), substV_enclosed E .cmd n lv a x b ra rx ha hx hra hrx, hrb]
  simp only [bind, Except.bind, pure, Except.pure, post]
  rw [rmMarkers_append _ _ ra (Nat.le_refl _) (fun h => hda (List.mem_of_getLast? h))]
  simp only [rmMarkers]
  rw [rmMarkers_append _ _ rx (Nat.le_refl _) (fun h => hdx (List.mem_of_getLast? h))]
  simp only [rmMarkers]
  rw [hplain ra hda, hplain rx hdx, hplain rb hdb, List.append_assoc]

/-- **C34** unbalanced markers in the expanded text raise an error in signature
mode, balanced ones never do. -/
theorem C34_unbalanced_is_an_error (E : Env) (n : Nat) (lv : Vars) (s r : Str) (hs : '$' ∈ s)
    (hr : substV E .sig n lv (.str s) = .ok r) :
    subst E .sig n lv s = .error .user ↔ ¬ Bal (splitM false r) := by
  unfold subst
  rw [if_pos hs, hr]
  simp only [bind, Except.bind, post]
  rw [← removeGo_none_iff]
  cases removeGo 0 (splitM false r) <;> simp

end Verif.Subst
