import Verif.Subst.Props
/-!
# C35: how `scons_subst_list` separates arguments

The specification below does not mention the state of `ListSubber`: a string is
cut at new lines into command lines, a command line at white space into groups of
adjacent tokens, every token stands for a list of words, and the words of
adjacent tokens are glued at the ends.
-/
namespace Verif.Subst

/-! ### Specification -/

/-- Adjacent text: the last word of the left and the first word of the right
become one word, unless the left one ends in a redirection character. -/
def join2 : List Str → List Str → List Str
  | [], g => g
  | f, [] => f
  | f, h :: t =>
    match f.getLast? with
    | none => h :: t
    | some l => if isRedir l then f ++ h :: t else f.dropLast ++ (l ++ h) :: t

/-- The words of adjacent tokens. -/
def glueAll : List (List Str) → List Str
  | [] => []
  | f :: fs => join2 f (glueAll fs)

/-- Cut a list at the elements satisfying `p`. -/
def splitOn (p : Tok → Bool) : List Tok → List (List Tok)
  | [] => [[]]
  | t :: l =>
    if p t then [] :: splitOn p l
    else match splitOn p l with
      | g :: gs => (t :: g) :: gs
      | [] => [[t]]

/-- White space with a new line. -/
def isNl : Tok → Bool
  | .ws s => (s.head?.map isAsciiSpace).getD false && s.contains '\n'
  | _ => false

/-- White space within a line. In an element of a list (`wl`) it does not
separate words. -/
def isSep (wl : Bool) : Tok → Bool
  | .ws s => !wl && (s.head?.map isAsciiSpace).getD false && !s.contains '\n'
  | _ => false

/-- The words a token stands for. An undefined variable stands for nothing. -/
def tokWords (E : Env) (m : Mode) (rec : Vars → Val → Option (List Str)) (lv : Vars) :
    Tok → Option (List Str)
  | .esc => some [['$']]
  | .lone => some [['$']]
  | .word s => some [s]
  | .ws s => some [s]
  | .opn => some (if m = .raw then [['$', '(']] else [])
  | .cls => some (if m = .raw then [['$', ')']] else [])
  | .ref _ k =>
    match lookup E lv k with
    | .error _ => none
    | .ok none => some []
    | .ok (some v) => rec (blank lv k) v

def groupWords (E : Env) (m : Mode) (rec : Vars → Val → Option (List Str)) (lv : Vars)
    (g : List Tok) : Option (List Str) :=
  (g.mapM (tokWords E m rec lv)).map glueAll

/-- The words of the value of a variable (or of an element of a list, `wl`). The
specification says nothing (`none`) about values without any word, with new lines,
or with white space at the start. -/
def words (E : Env) (m : Mode) : Nat → Vars → Bool → Val → Option (List Str)
  | 0, _, _, _ => none
  | n + 1, lv, wl, .str s =>
    if (tokenize E.uw s).any isNl then none
    else
      match (splitOn (isSep wl) (tokenize E.uw s)).mapM
          (groupWords E m (fun lv v => words E m n lv false v) lv) with
      | some (w :: ws) => if w = [] then none else some (w ++ ws.flatten)
      | _ => none
  | n + 1, lv, _, .seq l =>
    match l.mapM (words E m n lv true) with
    | some (w :: ws) => some (w ++ ws.flatten)
    | _ => none
  | _ + 1, _, _, .obj a _ => some [a]
  | n + 1, lv, wl, .fn v _ => words E m n lv wl v
  | _ + 1, _, _, .none => none

/-- The words of one command line. -/
def lineWords (E : Env) (m : Mode) (n : Nat) (lv : Vars) (l : List Tok) : Option (List Str) :=
  ((splitOn (isSep false) l).mapM (groupWords E m (fun lv v => words E m n lv false v) lv)).map
    List.flatten

/-- The command lines of a string. -/
def cmdLines (E : Env) (m : Mode) (n : Nat) (lv : Vars) (s : Str) : Option (List (List Str)) :=
  (splitOn isNl (tokenize E.uw s)).mapM (lineWords E m n lv)

/-! ### The machine meets the specification -/

theorem join2_nil (f : List Str) : join2 f [] = f := by cases f <;> rfl

theorem join2_concat (i : List Str) (l h : Str) (t : List Str) :
    join2 (i ++ [l]) (h :: t) = if isRedir l then i ++ l :: h :: t else i ++ (l ++ h) :: t := by
  cases hi : i ++ [l] with
  | nil => simp at hi
  | cons a r =>
    simp only [join2]
    rw [← hi]
    simp

theorem join2_append (f g h : List Str) (hg : g ≠ []) : join2 f (g ++ h) = join2 f g ++ h := by
  cases g with
  | nil => exact absurd rfl hg
  | cons x g =>
    rcases List.eq_nil_or_concat f with rfl | ⟨i, l, rfl⟩
    · rfl
    · rw [List.concat_eq_append, List.cons_append, join2_concat, join2_concat]
      split <;> simp

theorem join2_ne_nil {f g : List Str} (h : f ≠ [] ∨ g ≠ []) : join2 f g ≠ [] := by
  cases g with
  | nil => rw [join2_nil]; simpa using h
  | cons x g =>
    rcases List.eq_nil_or_concat f with rfl | ⟨i, l, rfl⟩
    · simp [join2]
    · rw [List.concat_eq_append, join2_concat]; split <;> simp

theorem isRedir_append (l x : Str) (h : isRedir l = false) : isRedir (l ++ x) = isRedir x := by
  unfold isRedir at *
  rw [List.getLast?_append]
  cases x.getLast? with
  | none => simpa using h
  | some c => rfl

theorem join2_assoc (f g h : List Str) : join2 (join2 f g) h = join2 f (join2 g h) := by
  cases h with
  | nil => rw [join2_nil, join2_nil]
  | cons y h =>
    rcases List.eq_nil_or_concat g with rfl | ⟨j, k, rfl⟩
    · rw [join2_nil]; rfl
    · simp only [List.concat_eq_append]
      rcases List.eq_nil_or_concat f with rfl | ⟨i, l, rfl⟩
      · rfl
      · simp only [List.concat_eq_append]
        cases j with
        | nil =>
          rw [List.nil_append, join2_concat]
          cases hl : isRedir l with
          | true =>
            simp only [if_true]
            rw [show i ++ [l, k] = (i ++ [l]) ++ [k] by simp, join2_concat,
              show [k] = [] ++ [k] from rfl, join2_concat]
            split <;> simp only [List.nil_append] <;> rw [join2_concat] <;> simp [hl]
          | false =>
            simp only [Bool.false_eq_true, if_false]
            rw [join2_concat, isRedir_append l k hl, show [k] = [] ++ [k] from rfl, join2_concat]
            split <;> simp only [List.nil_append] <;> rw [join2_concat] <;> simp [hl]
        | cons z j =>
          rw [show (z :: j) ++ [k] = z :: (j ++ [k]) from rfl, join2_concat,
            show join2 (z :: (j ++ [k])) (y :: h) = join2 ((z :: j) ++ [k]) (y :: h) from rfl, join2_concat]
          cases hl : isRedir l with
          | true =>
            simp only [if_true]
            rw [show i ++ l :: z :: (j ++ [k]) = (i ++ l :: z :: j) ++ [k] by simp, join2_concat]
            split
            · rw [List.cons_append, join2_concat]; simp [hl]
            · rw [List.cons_append, join2_concat]; simp [hl]
          | false =>
            simp only [Bool.false_eq_true, if_false]
            rw [show i ++ (l ++ z) :: (j ++ [k]) = (i ++ (l ++ z) :: j) ++ [k] by simp, join2_concat]
            split
            · rw [List.cons_append, join2_concat]; simp [hl]
            · rw [List.cons_append, join2_concat]; simp [hl]

/-- Put words behind the current line. -/
def place (g : Bool) (cur ws : List Str) : List Str := if g then join2 cur ws else cur ++ ws

theorem place_nil (g cur) : place g cur [] = cur := by cases g <;> simp [place, join2_nil]

theorem place_append (g cur) (a b : List Str) (ha : a ≠ []) :
    place g cur (a ++ b) = place g cur a ++ b := by
  cases g
  · simp [place]
  · simp [place, join2_append _ _ _ ha]

/-- After at least one word, what follows is glued to it. -/
theorem place_glue (g cur) (a b : List Str) (ha : a ≠ []) :
    place true (place g cur a) b = place g cur (join2 a b) := by
  cases g
  · simp only [place, if_true, Bool.false_eq_true, if_false]
    rcases List.eq_nil_or_concat a with rfl | ⟨i, l, rfl⟩
    · exact absurd rfl ha
    · cases b with
      | nil => rw [join2_nil, join2_nil]
      | cons x b =>
        simp only [List.concat_eq_append]
        rw [show cur ++ (i ++ [l]) = (cur ++ i) ++ [l] by simp, join2_concat, join2_concat]
        split <;> simp
  · simp only [place, if_true]
    exact join2_assoc _ _ _

theorem append_place (m : Mode) (hm : m ≠ .sig) (st : LS) (x : Str) :
    (st.append m x).done = st.done ∧ (st.append m x).cur = place st.glue st.cur [x] ∧
    (st.append m x).glue = true := by
  have hd : decide (m = .sig) = false := by simpa using hm
  unfold LS.append LS.append2
  cases hg : st.glue with
  | false => simp [LS.addNew, hd, place]
  | true =>
    simp only [if_true, LS.addCur, hd, Bool.and_false, Bool.false_eq_true, if_false]
    rcases List.eq_nil_or_concat st.cur with hc | ⟨i, l, hc⟩
    · simp [hc, LS.addNew, hd, place, join2]
    · simp only [List.concat_eq_append] at hc
      rw [hc]
      simp only [List.getLast?_concat, List.dropLast_concat, place, if_true, join2_concat]
      split
      · simp [LS.addNew, hd, hc]
      · simp [hg]

/-- What it means that the machine puts the words `ws`. -/
def Puts (st : LS) (ws : List Str) (r : Except Err LS) : Prop :=
  ∃ st', r = .ok st' ∧ st'.done = st.done ∧ st'.cur = place st.glue st.cur ws

/-- The same for a token: the glue flag is known afterwards. -/
def PutsT (st : LS) (ws : List Str) (r : Except Err LS) : Prop :=
  ∃ st', r = .ok st' ∧ st'.done = st.done ∧ st'.cur = place st.glue st.cur ws ∧
    st'.glue = (st.glue || !ws.isEmpty)

theorem putsT_append (m : Mode) (hm : m ≠ .sig) (st : LS) (x : Str) :
    PutsT st [x] (.ok (st.append m x)) := by
  obtain ⟨h1, h2, h3⟩ := append_place m hm st x
  exact ⟨_, rfl, h1, h2, by simp [h3]⟩

theorem putsT_mark (m : Mode) (hm : m ≠ .sig) (st : LS) (b : Bool) :
    PutsT st (if m = .raw then [if b then ['$', '('] else ['$', ')']] else []) (.ok (st.mark m b)) := by
  unfold LS.mark
  by_cases h : m = .raw
  · obtain ⟨h1, h2, h3⟩ := append_place m hm st (if b then ['$', '('] else ['$', ')'])
    simp only [h, if_true] at *
    exact ⟨_, rfl, h1, h2, by simp [h3]⟩
  · simp only [h, if_false]
    exact ⟨_, rfl, rfl, (place_nil _ _).symm, by simp⟩

/-- A string of word characters is one word token. -/
theorem tokenize_word (uw) (s : Str) (hne : s ≠ []) (h : s.all isWordChar = true) :
    tokenize uw s = [.word s] := by
  cases s with
  | nil => exact absurd rfl hne
  | cons c r =>
    simp only [List.all_cons, Bool.and_eq_true] at h
    have hc := h.1
    simp only [isWordChar, Bool.and_eq_true, Bool.not_eq_true', bne_iff_ne] at hc
    have ht : r.takeWhile isWordChar = r ∧ r.dropWhile isWordChar = [] := by
      have hr := h.2
      clear h hne
      induction r with
      | nil => simp
      | cons d r ih =>
        simp only [List.all_cons, Bool.and_eq_true] at hr
        simp [List.takeWhile_cons, List.dropWhile_cons, hr.1, ih hr.2]
    rw [tokenize_cons]
    have : nextTok uw c r = (.word (c :: r), []) := by
      unfold nextTok
      rw [if_neg hc.2, hc.1]
      simp [ht.1, ht.2]
    rw [this]; rfl

theorem words_expanded (E m n lv wl) (v : Val) (s : Str) (hv : v.expanded? = some s) (ws)
    (h : words E m n lv wl v = some ws) : ws = [s] := by
  cases v with
  | str t =>
    cases n with
    | zero => cases h
    | succ n =>
      have : t = s ∧ s ≠ [] ∧ s.all isWordChar = true := by
        cases t with
        | nil => simp [Val.expanded?] at hv
        | cons c r =>
          simp only [Val.expanded?] at hv
          split at hv
          · cases hv; exact ⟨rfl, by simp, by assumption⟩
          · cases hv
      obtain ⟨rfl, hne, hall⟩ := this
      simp only [words, tokenize_word E.uw t hne hall] at h
      simp [isNl, splitOn, isSep, groupWords, tokWords, glueAll, join2] at h
      exact h.symm
  | _ => simp [Val.expanded?] at hv

/-- One token that is not white space between words. -/
theorem tokStep_puts (E : Env) (m : Mode) (hm : m ≠ .sig) (n : Nat) (lv : Vars) (wl : Bool) (st : LS)
    (t : Tok) (ws : List Str)
    (ih : ∀ lv v st ws, words E m n lv false v = some ws → ws ≠ [] ∧ Puts st ws (substL E m n lv false v st))
    (hnl : isNl t = false) (hsep : isSep wl t = false)
    (h : tokWords E m (fun lv v => words E m n lv false v) lv t = some ws) :
    PutsT st ws (tokStep E m (substL E m n) lv wl st t) := by
  cases t with
  | esc => cases h; exact putsT_append m hm st _
  | lone => cases h; exact putsT_append m hm st _
  | word s => cases h; exact putsT_append m hm st _
  | opn => cases h; exact putsT_mark m hm st true
  | cls => cases h; exact putsT_mark m hm st false
  | ws s =>
    cases h
    simp only [tokStep]
    split
    · rename_i ha
      simp only [isNl, ha, Bool.true_and, List.contains_eq_mem, decide_eq_false_iff_not] at hnl
      rw [if_neg hnl]
      cases wl with
      | true => exact putsT_append m hm st _
      | false => simp [isSep, ha, hnl] at hsep
    · exact putsT_append m hm st _
  | ref b k =>
    simp only [tokWords] at h
    simp only [tokStep, bind, Except.bind]
    cases hl : lookup E lv k with
    | error e => rw [hl] at h; cases h
    | ok o =>
      rw [hl] at h
      cases o with
      | none =>
        cases h
        exact ⟨st, rfl, rfl, (place_nil _ _).symm, by simp⟩
      | some v =>
        simp only at h ⊢
        cases hx : v.expanded? with
        | some s =>
          have := words_expanded E m n _ _ v s hx ws h
          subst this
          exact putsT_append m hm st _
        | none =>
          obtain ⟨hne, st', h1, h2, h3⟩ := ih (blank lv k) v st ws h
          simp only [h1, pure, Except.pure]
          refine ⟨st'.thisWord, rfl, h2, h3, ?_⟩
          cases ws with
          | nil => exact absurd rfl hne
          | cons x ws => simp [LS.thisWord]

theorem splitOn_ne_nil (p l) : splitOn p l ≠ [] := by
  cases l with
  | nil => simp [splitOn]
  | cons t l =>
    simp only [splitOn]
    split
    · simp
    · split <;> simp

/-- One line of tokens. -/
theorem line_puts (E : Env) (m : Mode) (hm : m ≠ .sig) (n : Nat) (lv : Vars) (wl : Bool)
    (ih : ∀ lv v st ws, words E m n lv false v = some ws → ws ≠ [] ∧ Puts st ws (substL E m n lv false v st)) :
    ∀ (l : List Tok) (st : LS) (g0 : List Tok) (gs : List (List Tok)) (w : List Str) (ws : List (List Str)),
    (∀ t ∈ l, isNl t = false) → splitOn (isSep wl) l = g0 :: gs →
    groupWords E m (fun lv v => words E m n lv false v) lv g0 = some w →
    gs.mapM (groupWords E m (fun lv v => words E m n lv false v) lv) = some ws →
    ∃ st', l.foldlM (tokStep E m (substL E m n) lv wl) st = .ok st' ∧ st'.done = st.done ∧
      st'.cur = place st.glue st.cur w ++ ws.flatten := by
  intro l
  induction l with
  | nil =>
    intro st g0 gs w ws _ hs hw hws
    simp only [splitOn, List.cons.injEq] at hs
    obtain ⟨rfl, rfl⟩ := hs
    simp only [List.mapM_nil, groupWords] at hw hws
    cases hw; cases hws
    exact ⟨st, rfl, rfl, by simp [glueAll, place_nil]⟩
  | cons t l ihl =>
    intro st g0 gs w ws hnl hs hw hws
    simp only [List.foldlM_cons, bind, Except.bind]
    have hnlt := hnl t (by simp)
    simp only [splitOn] at hs
    by_cases hsep : isSep wl t = true
    · rw [if_pos hsep, List.cons.injEq] at hs
      obtain ⟨rfl, rfl⟩ := hs
      cases hw
      -- white space: a new word starts
      have hst : tokStep E m (substL E m n) lv wl st t = .ok st.nextWord := by
        cases t with
        | ws s =>
          simp only [isSep, Bool.and_eq_true, Bool.not_eq_true', List.contains_eq_mem,
            decide_eq_false_iff_not] at hsep
          simp only [tokStep, hsep.1.2, if_true]
          rw [if_neg hsep.2, if_neg (by simp [hsep.1.1])]
        | _ => simp [isSep] at hsep
      rw [hst]
      cases hsl : splitOn (isSep wl) l with
      | nil => exact absurd hsl (splitOn_ne_nil _ _)
      | cons g1 gs1 =>
        rw [hsl, List.mapM_cons] at hws
        cases hg1 : groupWords E m (fun lv v => words E m n lv false v) lv g1 with
        | none => simp [hg1] at hws
        | some w1 =>
          simp only [hg1] at hws
          cases hgs1 : gs1.mapM (groupWords E m (fun lv v => words E m n lv false v) lv) with
          | none => simp [hgs1] at hws
          | some ws1 =>
            simp only [hgs1] at hws
            cases hws
            obtain ⟨st', h1, h2, h3⟩ := ihl st.nextWord g1 gs1 w1 ws1
              (fun t ht => hnl t (by simp [ht])) hsl hg1 hgs1
            refine ⟨st', h1, h2, ?_⟩
            rw [h3]
            simp [LS.nextWord, place, join2_nil, glueAll]
    · rw [if_neg hsep] at hs
      cases hsl : splitOn (isSep wl) l with
      | nil => exact absurd hsl (splitOn_ne_nil _ _)
      | cons g1 gs1 =>
        rw [hsl] at hs
        simp only [List.cons.injEq] at hs
        obtain ⟨rfl, rfl⟩ := hs
        simp only [groupWords, List.mapM_cons] at hw
        cases ht : tokWords E m (fun lv v => words E m n lv false v) lv t with
        | none => simp [ht] at hw
        | some wt =>
          simp only [ht] at hw
          cases hg1 : g1.mapM (tokWords E m (fun lv v => words E m n lv false v) lv) with
          | none => simp [hg1] at hw
          | some fs =>
            simp only [hg1] at hw
            have hw' : w = join2 wt (glueAll fs) := by cases hw; rfl
            obtain ⟨st1, hs1, hd1, hc1, hgl1⟩ := tokStep_puts E m hm n lv wl st t wt ih hnlt
              (by simpa using hsep) ht
            rw [hs1]
            obtain ⟨st', h1, h2, h3⟩ := ihl st1 g1 gs1 (glueAll fs) ws
              (fun t ht => hnl t (by simp [ht])) hsl (by simp [groupWords, hg1]) hws
            refine ⟨st', h1, by rw [h2, hd1], ?_⟩
            rw [h3, hc1, hgl1, hw']
            congr 1
            cases wt with
            | nil => rw [place_nil]; simp [join2]
            | cons x wt =>
              simp only [List.isEmpty_cons, Bool.not_false, Bool.or_true]
              exact place_glue _ _ _ _ (by simp)

theorem words_puts (E : Env) (m : Mode) (hm : m ≠ .sig) : ∀ n lv wl v st ws,
    words E m n lv wl v = some ws → ws ≠ [] ∧ Puts st ws (substL E m n lv wl v st) := by
  intro n
  induction n with
  | zero => intro lv wl v st ws h; cases h
  | succ n ih =>
    intro lv wl v st ws h
    cases v with
    | none => cases h
    | obj a b =>
      cases h
      obtain ⟨h1, h2, h3⟩ := append_place m hm st a
      refine ⟨by simp, st.append m a, ?_, h1, h2⟩
      simp [substL, hm, LS.append]
    | fn v w =>
      simp only [substL]
      rw [if_neg hm]
      exact ih lv wl v st ws h
    | str s =>
      simp only [words] at h
      split at h
      · cases h
      · rename_i hnl
        split at h
        · rename_i w ws' hmap
          split at h
          · cases h
          · rename_i hw
            cases h
            refine ⟨by simp [hw], ?_⟩
            cases hs : splitOn (isSep wl) (tokenize E.uw s) with
            | nil => exact absurd hs (splitOn_ne_nil _ _)
            | cons g0 gs =>
              rw [hs, List.mapM_cons] at hmap
              cases hg : groupWords E m (fun lv v => words E m n lv false v) lv g0 with
              | none => simp [hg] at hmap
              | some w0 =>
                simp only [hg] at hmap
                cases hgs : gs.mapM (groupWords E m (fun lv v => words E m n lv false v) lv) with
                | none => simp [hgs] at hmap
                | some ws0 =>
                  simp only [hgs] at hmap
                  cases hmap
                  obtain ⟨st', h1, h2, h3⟩ := line_puts E m hm n lv wl
                    (fun lv v st ws h => ih lv false v st ws h) _ st g0 gs w ws'
                    (by simpa using hnl) hs hg hgs
                  refine ⟨st', h1, h2, ?_⟩
                  rw [h3, place_append _ _ _ _ hw]
        · cases h
    | seq l =>
      simp only [words] at h
      split at h
      · rename_i w ws' hmap
        cases h
        simp only [substL]
        cases l with
        | nil => simp at hmap
        | cons v l =>
          rw [List.mapM_cons] at hmap
          cases hv : words E m n lv true v with
          | none => simp [hv] at hmap
          | some w1 =>
            simp only [hv] at hmap
            cases hl : l.mapM (words E m n lv true) with
            | none => simp [hl] at hmap
            | some ws1 =>
              simp only [hl] at hmap
              cases hmap
              obtain ⟨hne, st1, h1, h2, h3⟩ := ih lv true v st w hv
              refine ⟨by simp [hne], ?_⟩
              simp only [List.foldlM_cons, bind, Except.bind, h1, pure, Except.pure]
              have rest : ∀ (l : List Val) (wss : List (List Str)) (st : LS), st.glue = false →
                  l.mapM (words E m n lv true) = some wss →
                  ∃ st', l.foldlM (fun st v => do
                    let st ← substL E m n lv true v st
                    pure st.nextWord) st = .ok st' ∧ st'.done = st.done ∧
                    st'.cur = st.cur ++ wss.flatten := by
                intro l
                induction l with
                | nil => intro wss st _ h; cases h; exact ⟨st, rfl, rfl, by simp⟩
                | cons v l ihl =>
                  intro wss st hg h
                  rw [List.mapM_cons] at h
                  cases hv : words E m n lv true v with
                  | none => simp [hv] at h
                  | some w1 =>
                    simp only [hv] at h
                    cases hl : l.mapM (words E m n lv true) with
                    | none => simp [hl] at h
                    | some ws1 =>
                      simp only [hl] at h
                      cases h
                      obtain ⟨_, st2, k1, k2, k3⟩ := ih lv true v st w1 hv
                      obtain ⟨st3, j1, j2, j3⟩ := ihl ws1 st2.nextWord rfl hl
                      simp only [List.foldlM_cons, bind, Except.bind, k1, pure, Except.pure]
                      refine ⟨st3, j1, by rw [j2]; exact k2, ?_⟩
                      rw [j3]
                      simp only [LS.nextWord, k3, hg, place, Bool.false_eq_true, if_false]
                      simp
              obtain ⟨st', j1, j2, j3⟩ := rest l ws' st1.nextWord rfl hl
              refine ⟨st', j1, by rw [j2]; exact h2, ?_⟩
              rw [j3]
              simp only [LS.nextWord, h3]
              rw [place_append _ _ _ _ hne]
      · cases h

/-- All the lines of the top level string. -/
theorem lines_puts (E : Env) (m : Mode) (hm : m ≠ .sig) (n : Nat) (lv : Vars) :
    ∀ (l : List Tok) (st : LS) (l0 : List Tok) (ls : List (List Tok)) (w : List (List Str)) (w0 : List Str)
      (g0 : List Tok) (gs : List (List Tok)) (ws : List (List Str)),
    splitOn isNl l = l0 :: ls →
    splitOn (isSep false) l0 = g0 :: gs →
    groupWords E m (fun lv v => words E m n lv false v) lv g0 = some w0 →
    gs.mapM (groupWords E m (fun lv v => words E m n lv false v) lv) = some ws →
    ls.mapM (lineWords E m n lv) = some w →
    ∃ st', l.foldlM (tokStep E m (substL E m n) lv false) st = .ok st' ∧
      st'.result = st.done ++ (place st.glue st.cur w0 ++ ws.flatten) :: w := by
  have ih := fun lv v st ws h => words_puts E m hm n lv false v st ws h
  intro l
  induction l with
  | nil =>
    intro st l0 ls w w0 g0 gs ws hl hs hg hgs hls
    simp only [splitOn, List.cons.injEq] at hl
    obtain ⟨rfl, rfl⟩ := hl
    simp only [splitOn, List.cons.injEq] at hs
    obtain ⟨rfl, rfl⟩ := hs
    cases hgs; cases hls
    simp only [groupWords, List.mapM_nil] at hg
    cases hg
    exact ⟨st, rfl, by simp [LS.result, glueAll, place_nil]⟩
  | cons t l ihl =>
    intro st l0 ls w w0 g0 gs ws hl hs hg hgs hls
    simp only [List.foldlM_cons, bind, Except.bind]
    simp only [splitOn] at hl
    by_cases hnl : isNl t = true
    · rw [if_pos hnl, List.cons.injEq] at hl
      obtain ⟨rfl, rfl⟩ := hl
      simp only [splitOn, List.cons.injEq] at hs
      obtain ⟨rfl, rfl⟩ := hs
      cases hgs; cases hg
      have hst : tokStep E m (substL E m n) lv false st t = .ok st.nextLine := by
        cases t with
        | ws s =>
          simp only [isNl, Bool.and_eq_true, List.contains_eq_mem, decide_eq_true_eq] at hnl
          simp only [tokStep, hnl.1, if_true]
          rw [if_pos hnl.2]
        | _ => simp [isNl] at hnl
      rw [hst]
      cases hsl : splitOn isNl l with
      | nil => exact absurd hsl (splitOn_ne_nil _ _)
      | cons l1 ls1 =>
        rw [hsl, List.mapM_cons] at hls
        cases h1 : splitOn (isSep false) l1 with
        | nil => exact absurd h1 (splitOn_ne_nil _ _)
        | cons g1 gs1 =>
          have hlw : lineWords E m n lv l1 =
            ((g1 :: gs1).mapM (groupWords E m (fun lv v => words E m n lv false v) lv)).map List.flatten := by
            rw [lineWords, h1]
          rw [List.mapM_cons] at hlw
          cases hg1 : groupWords E m (fun lv v => words E m n lv false v) lv g1 with
          | none => simp [hlw, hg1] at hls
          | some v0 =>
            cases hgs1 : gs1.mapM (groupWords E m (fun lv v => words E m n lv false v) lv) with
            | none => simp [hlw, hg1, hgs1] at hls
            | some vs =>
              have hlw' : lineWords E m n lv l1 = some (v0 ++ vs.flatten) := by
                rw [hlw, hg1, hgs1]; rfl
              rw [hlw'] at hls
              cases hls1 : ls1.mapM (lineWords E m n lv) with
              | none => simp [hls1] at hls
              | some w1 =>
                rw [hls1] at hls
                cases hls
                obtain ⟨st', k1, k2⟩ := ihl st.nextLine l1 ls1 w1 v0 g1 gs1 vs hsl h1 hg1 hgs1 hls1
                refine ⟨st', k1, ?_⟩
                rw [k2]
                simp [LS.nextLine, place, glueAll, join2_nil]
    · rw [if_neg hnl] at hl
      cases hsl : splitOn isNl l with
      | nil => exact absurd hsl (splitOn_ne_nil _ _)
      | cons l1 ls1 =>
        rw [hsl] at hl
        simp only [List.cons.injEq] at hl
        obtain ⟨rfl, rfl⟩ := hl
        simp only [splitOn] at hs
        by_cases hsep : isSep false t = true
        · rw [if_pos hsep, List.cons.injEq] at hs
          obtain ⟨rfl, rfl⟩ := hs
          cases hg
          have hst : tokStep E m (substL E m n) lv false st t = .ok st.nextWord := by
            cases t with
            | ws s =>
              simp only [isSep, Bool.and_eq_true, Bool.not_eq_true', List.contains_eq_mem,
                decide_eq_false_iff_not] at hsep
              simp only [tokStep, hsep.1.2, if_true]
              rw [if_neg hsep.2, if_neg (by simp)]
            | _ => simp [isSep] at hsep
          rw [hst]
          cases h1 : splitOn (isSep false) l1 with
          | nil => exact absurd h1 (splitOn_ne_nil _ _)
          | cons g1 gs1 =>
            rw [h1, List.mapM_cons] at hgs
            cases hg1 : groupWords E m (fun lv v => words E m n lv false v) lv g1 with
            | none => simp [hg1] at hgs
            | some v0 =>
              simp only [hg1] at hgs
              cases hgs1 : gs1.mapM (groupWords E m (fun lv v => words E m n lv false v) lv) with
              | none => simp [hgs1] at hgs
              | some vs =>
                simp only [hgs1] at hgs
                cases hgs
                obtain ⟨st', k1, k2⟩ := ihl st.nextWord l1 ls1 w v0 g1 gs1 vs hsl h1 hg1 hgs1 hls
                refine ⟨st', k1, ?_⟩
                rw [k2]
                simp [LS.nextWord, place, glueAll, join2_nil]
        · rw [if_neg hsep] at hs
          cases h1 : splitOn (isSep false) l1 with
          | nil => exact absurd h1 (splitOn_ne_nil _ _)
          | cons g1 gs1 =>
            rw [h1] at hs
            simp only [List.cons.injEq] at hs
            obtain ⟨rfl, rfl⟩ := hs
            simp only [groupWords, List.mapM_cons] at hg
            cases ht : tokWords E m (fun lv v => words E m n lv false v) lv t with
            | none => simp [ht] at hg
            | some wt =>
              simp only [ht] at hg
              cases hg1 : g1.mapM (tokWords E m (fun lv v => words E m n lv false v) lv) with
              | none => simp [hg1] at hg
              | some fs =>
                simp only [hg1] at hg
                have hw' : w0 = join2 wt (glueAll fs) := by cases hg; rfl
                obtain ⟨st1, hs1, hd1, hc1, hgl1⟩ := tokStep_puts E m hm n lv false st t wt ih
                  (by simpa using hnl) (by simpa using hsep) ht
                rw [hs1]
                obtain ⟨st', k1, k2⟩ := ihl st1 l1 ls1 w (glueAll fs) g1 gs1 ws hsl h1
                  (by simp [groupWords, hg1]) hgs hls
                refine ⟨st', k1, ?_⟩
                rw [k2, hd1, hc1, hgl1, hw']
                congr 2
                cases wt with
                | nil => rw [place_nil]; simp [join2]
                | cons x wt =>
                  simp only [List.isEmpty_cons, Bool.not_false, Bool.or_true]
                  rw [place_glue _ _ _ _ (by simp)]

/-- **C35** `scons_subst_list` (commands and raw mode) cuts a string exactly as
the specification `cmdLines` says: new lines separate command lines, white space
separates groups of adjacent text, every variable contributes the words of its
value, and the words of adjacent text are glued at the ends only. -/
theorem C35_subst_list_words_partial (E : Env) (m : Mode) (hm : m ≠ .sig) (n : Nat) (lv : Vars) (s : Str)
    (lines : List (List Str)) (h : cmdLines E m n lv s = some lines) :
    substList E m (n + 1) lv (.str s) = .ok lines := by
  unfold cmdLines at h
  cases hsl : splitOn isNl (tokenize E.uw s) with
  | nil => exact absurd hsl (splitOn_ne_nil _ _)
  | cons l1 ls1 =>
    rw [hsl, List.mapM_cons] at h
    cases h1 : splitOn (isSep false) l1 with
    | nil => exact absurd h1 (splitOn_ne_nil _ _)
    | cons g1 gs1 =>
      have hlw : lineWords E m n lv l1 =
        ((g1 :: gs1).mapM (groupWords E m (fun lv v => words E m n lv false v) lv)).map List.flatten := by
        rw [lineWords, h1]
      rw [List.mapM_cons] at hlw
      cases hg1 : groupWords E m (fun lv v => words E m n lv false v) lv g1 with
      | none => simp [hlw, hg1] at h
      | some v0 =>
        cases hgs1 : gs1.mapM (groupWords E m (fun lv v => words E m n lv false v) lv) with
        | none => simp [hlw, hg1, hgs1] at h
        | some vs =>
          have hlw' : lineWords E m n lv l1 = some (v0 ++ vs.flatten) := by
            rw [hlw, hg1, hgs1]; rfl
          rw [hlw'] at h
          cases hls1 : ls1.mapM (lineWords E m n lv) with
          | none => simp [hls1] at h
          | some w1 =>
            rw [hls1] at h
            cases h
            obtain ⟨st', k1, k2⟩ := lines_puts E m hm n lv _ .init l1 ls1 w1 v0 g1 gs1 vs hsl h1 hg1 hgs1 hls1
            simp only [substList, substL, bind, Except.bind, k1, pure, Except.pure]
            rw [k2]
            simp [LS.init, place]

/-! ### Lists: n elements, n arguments -/

theorem glue_texts (ts : List Str) (hr : ∀ t ∈ ts, isRedir t = false) :
    glueAll (ts.map ([·])) = if ts = [] then [] else [ts.flatten] := by
  induction ts with
  | nil => rfl
  | cons t ts ih =>
    simp only [List.map_cons, glueAll, ih fun t ht => hr t (by simp [ht])]
    have h1 := hr t (by simp)
    cases ts with
    | nil => simp [join2]
    | cons u us =>
      simp only [reduceCtorEq, if_false]
      rw [show [t] = [] ++ [t] from rfl, join2_concat, h1]
      simp

theorem splitOn_true (l : List Tok) : splitOn (isSep true) l = [l] := by
  induction l with
  | nil => rfl
  | cons t l ih =>
    have : isSep true t = false := by cases t <;> simp [isSep]
    simp only [splitOn, this, ih]
    simp

/-- An element of a list, of any text without `$`, new lines and redirection
characters, is one word: white space in it does not separate. -/
theorem words_element (E m n lv) (s : Str) (hne : s ≠ []) (hd : '$' ∉ s) (hn : '\n' ∉ s)
    (hr : ∀ c ∈ s, c ≠ '<' ∧ c ≠ '>' ∧ c ≠ '|') :
    words E m (n + 1) lv true (.str s) = some [s] := by
  have hmem : ∀ t ∈ tokenize E.uw s, ∀ c ∈ t.text, c ∈ s := by
    intro t ht c hc
    rw [← tokenize_lossless E.uw s]
    exact List.mem_flatten.2 ⟨_, List.mem_map.2 ⟨t, ht, rfl⟩, hc⟩
  have hkind : ∀ t ∈ tokenize E.uw s, tokWords E m (fun lv v => words E m n lv false v) lv t =
      some [t.text] := by
    intro t ht
    have hdt : '$' ∉ t.text := fun h => hd (hmem t ht _ h)
    cases t with
    | ref b k => exfalso; apply hdt; cases b <;> simp [Tok.text]
    | ws s => rfl
    | word s => rfl
    | _ => simp [Tok.text] at hdt
  have hmap : (tokenize E.uw s).mapM (tokWords E m (fun lv v => words E m n lv false v) lv) =
      some ((tokenize E.uw s).map fun t => [t.text]) := by
    generalize tokenize E.uw s = l at hkind
    induction l with
    | nil => rfl
    | cons t l ih =>
      rw [List.mapM_cons, hkind t (by simp), ih fun t ht => hkind t (by simp [ht])]
      rfl
  have hnl : (tokenize E.uw s).any isNl = false := by
    rw [Bool.eq_false_iff]
    intro h
    obtain ⟨t, ht, h⟩ := List.any_eq_true.1 h
    cases t with
    | ws x =>
      simp only [isNl, Bool.and_eq_true, List.contains_eq_mem, decide_eq_true_eq] at h
      exact hn (hmem _ ht _ h.2)
    | _ => simp [isNl] at h
  have hne' : (tokenize E.uw s).map Tok.text ≠ [] := by
    intro h
    have := tokenize_lossless E.uw s
    rw [h] at this
    exact hne this.symm
  simp only [words, hnl, splitOn_true, List.mapM_cons, List.mapM_nil, groupWords, hmap]
  have hg : glueAll ((tokenize E.uw s).map fun t => [t.text]) = [s] := by
    have := glue_texts ((tokenize E.uw s).map Tok.text) (by
      intro x hx
      obtain ⟨t, ht, rfl⟩ := List.mem_map.1 hx
      unfold isRedir
      split
      · rename_i c hc
        have := hr c (hmem t ht c (List.mem_of_getLast? hc))
        simp [this]
      · rfl)
    rw [if_neg hne', tokenize_lossless, List.map_map] at this
    exact this
  simp [hg]

/-- **C35** a variable that is a list of `n ≥ 1` strings and stands as a word of
its own yields exactly these `n` arguments, also when they contain white space. -/
theorem C35_list_elements_are_arguments_partial (E : Env) (m : Mode) (hm : m ≠ .sig) (n : Nat) (lv : Vars)
    (X : Str) (l : List Str) (hX : '}' ∉ X) (hlook : lookup E lv X = .ok (some (.seq (l.map .str))))
    (hl : l ≠ []) (hne : ∀ s ∈ l, s ≠ []) (hd : ∀ s ∈ l, '$' ∉ s) (hn : ∀ s ∈ l, '\n' ∉ s)
    (hr : ∀ s ∈ l, ∀ c ∈ s, c ≠ '<' ∧ c ≠ '>' ∧ c ≠ '|') :
    substList E m (n + 3) lv (.str ('$' :: '{' :: X ++ ['}'])) = .ok [l] := by
  apply C35_subst_list_words_partial E m hm
  unfold cmdLines
  have htok : tokenize E.uw ('$' :: '{' :: X ++ ['}']) = [.ref true X] := tokenize_braced E.uw X hX
  rw [htok]
  have hmap : ∀ (l : List Str), (∀ s ∈ l, words E m (n + 1) (blank lv X) true (.str s) = some [s]) →
      (l.map Val.str).mapM (words E m (n + 1) (blank lv X) true) = some (l.map ([·])) := by
    intro l
    induction l with
    | nil => intro _; rfl
    | cons s l ih =>
      intro h
      rw [List.map_cons, List.mapM_cons, h s (by simp), ih fun s hs => h s (by simp [hs])]
      rfl
  have hw : words E m (n + 2) (blank lv X) false (.seq (l.map .str)) = some l := by
    simp only [words]
    rw [hmap l fun s hs => words_element E m n _ s (hne s hs) (hd s hs) (hn s hs) (hr s hs)]
    cases l with
    | nil => exact absurd rfl hl
    | cons a l =>
      simp only [List.map_cons]
      congr 1
      simp only [List.cons_append, List.nil_append, List.cons.injEq, true_and]
      clear hlook hl hne hd hn hr hmap
      induction l with
      | nil => rfl
      | cons b l ih => simp [ih]
  simp [splitOn, isNl, lineWords, isSep, groupWords, tokWords, hlook, hw, glueAll, join2_nil]

/-! ### Markers and commands -/

/-- The state without the `in_strip` flag. -/
def LS.norm (st : LS) : LS := { st with strip := false }

theorem append2_norm (st : LS) (x x') :
    (st.append2 .cmd x x').norm = (st.norm.append2 .cmd x x') := by
  have : decide (Mode.cmd = Mode.sig) = false := by decide
  unfold LS.append2 LS.addCur LS.addNew LS.norm
  simp only [this, Bool.and_false, Bool.false_eq_true, if_false]
  cases st.glue
  · simp
  · simp only [if_true]
    cases st.cur.getLast? with
    | none => rfl
    | some w => simp only; split <;> rfl

theorem foldlM_norm {α : Type} (f : LS → α → Except Err LS) (l : List α)
    (h : ∀ st, ∀ a ∈ l, (f st a).map LS.norm = (f st.norm a).map LS.norm) :
    ∀ st, (l.foldlM f st).map LS.norm = (l.foldlM f st.norm).map LS.norm := by
  induction l with
  | nil => intro st; simp [pure, Except.pure, Except.map, LS.norm]
  | cons a l ih =>
    intro st
    have ha := h st a (by simp)
    have ih := ih fun st a ha => h st a (by simp [ha])
    simp only [List.foldlM_cons, bind, Except.bind]
    cases h1 : f st a with
    | error e =>
      cases h2 : f st.norm a with
      | error e' => simpa [h1, h2, Except.map] using ha
      | ok s => simp [h1, h2, Except.map] at ha
    | ok s =>
      cases h2 : f st.norm a with
      | error e' => simp [h1, h2, Except.map] at ha
      | ok s' =>
        simp only [h1, h2, Except.map, Except.ok.injEq] at ha
        simp only
        rw [ih s, ih s', ha]

theorem tokStep_norm (E : Env) (rec : Vars → Bool → Val → LS → Except Err LS) (lv wl)
    (hrec : ∀ lv wl v st, (rec lv wl v st).map LS.norm = (rec lv wl v st.norm).map LS.norm)
    (st : LS) (t : Tok) :
    (tokStep E .cmd rec lv wl st t).map LS.norm = (tokStep E .cmd rec lv wl st.norm t).map LS.norm := by
  have happ : ∀ x, (Except.ok (LS.append .cmd st x) : Except Err LS).map LS.norm =
      (Except.ok (LS.append .cmd st.norm x) : Except Err LS).map LS.norm := by
    intro x
    simp only [Except.map, LS.append, append2_norm]
    rfl
  cases t with
  | esc => exact happ _
  | lone => exact happ _
  | word s => exact happ _
  | opn => simp [tokStep, LS.mark, Except.map, LS.norm]
  | cls => simp [tokStep, LS.mark, Except.map, LS.norm]
  | ws s =>
    simp only [tokStep]
    split
    · split
      · simp [Except.map, LS.norm, LS.nextLine]
      · split
        · exact happ _
        · simp [Except.map, LS.norm, LS.nextWord]
    · exact happ _
  | ref b k =>
    simp only [tokStep, bind, Except.bind]
    cases lookup E lv k with
    | error e => rfl
    | ok o =>
      cases o with
      | none => simp [pure, Except.pure, Except.map, LS.norm]
      | some v =>
        simp only
        cases v.expanded? with
        | some s => exact happ s
        | none =>
          have := hrec (blank lv k) false v st
          simp only
          cases h1 : rec (blank lv k) false v st <;> cases h2 : rec (blank lv k) false v st.norm <;>
            simp [h1, h2, Except.map] at this
          · simp [Except.map, this]
          · simp only [LS.norm, LS.mk.injEq] at this
            simp [Except.map, pure, Except.pure, LS.thisWord, LS.norm, this]

theorem substL_norm (E : Env) : ∀ n lv wl v st,
    (substL E .cmd n lv wl v st).map LS.norm = (substL E .cmd n lv wl v st.norm).map LS.norm := by
  intro n
  induction n with
  | zero => intro lv wl v st; rfl
  | succ n ih =>
    intro lv wl v st
    cases v with
    | none => simp [substL, Except.map, LS.norm, LS.thisWord]
    | obj a b =>
      simp only [substL, Except.map, Except.ok.injEq]
      rw [append2_norm, append2_norm]; rfl
    | fn v w => exact ih lv wl _ st
    | str s =>
      simp only [substL]
      exact foldlM_norm _ _ (fun st t _ => tokStep_norm E _ lv wl ih st t) st
    | seq l =>
      simp only [substL]
      apply foldlM_norm
      intro st v _
      have := ih lv true v st
      simp only [bind, Except.bind]
      cases h1 : substL E .cmd n lv true v st <;> cases h2 : substL E .cmd n lv true v st.norm <;>
        simp [h1, h2, Except.map] at this
      · simp [Except.map, this]
      · simp only [LS.norm, LS.mk.injEq] at this
        simp [Except.map, pure, Except.pure, LS.nextWord, LS.norm, this]

/-- **C34** for command lines: in command mode `$(` and `$)` leave no trace in the
arguments: a string `s'` with the tokens of `s` except the markers gives the same
command lines, that is, the enclosed text is kept. -/
theorem C34_markers_vanish_from_commands (E : Env) (n : Nat) (lv : Vars) (s s' : Str)
    (hs : tokenize E.uw s' = (tokenize E.uw s).filter fun t => t != .opn && t != .cls) :
    substList E .cmd (n + 1) lv (.str s') = substList E .cmd (n + 1) lv (.str s) := by
  have step := fun st t => tokStep_norm E (substL E .cmd n) lv false (substL_norm E n) st t
  have key : ∀ (l : List Tok) (st : LS),
      ((l.filter fun t => t != .opn && t != .cls).foldlM (tokStep E .cmd (substL E .cmd n) lv false) st).map
        LS.norm = (l.foldlM (tokStep E .cmd (substL E .cmd n) lv false) st).map LS.norm := by
    intro l
    induction l with
    | nil => intro st; rfl
    | cons t l ih =>
      intro st
      by_cases ht : (t != .opn && t != .cls) = true
      · simp only [List.filter_cons, ht, if_true, List.foldlM_cons, bind, Except.bind]
        cases tokStep E .cmd (substL E .cmd n) lv false st t with
        | error e => rfl
        | ok st' => exact ih st'
      · simp only [List.filter_cons, ht, List.foldlM_cons, bind, Except.bind]
        have : t = .opn ∨ t = .cls := by
          by_cases h1 : t = .opn
          · exact .inl h1
          · right; simpa [h1] using ht
        have hm : ∃ b, tokStep E .cmd (substL E .cmd n) lv false st t = .ok { st with strip := b } := by
          rcases this with rfl | rfl
          · exact ⟨true, rfl⟩
          · exact ⟨false, rfl⟩
        obtain ⟨b, hm⟩ := hm
        rw [hm]
        simp only [Bool.false_eq_true, if_false]
        rw [ih st, foldlM_norm _ l (fun st t _ => step st t) st,
          foldlM_norm _ l (fun st t _ => step st t) { st with strip := b }]
        rfl
  have := key (tokenize E.uw s) .init
  rw [← hs] at this
  simp only [substList, substL, bind, Except.bind]
  cases h1 : (tokenize E.uw s').foldlM (tokStep E .cmd (substL E .cmd n) lv false) .init <;>
    cases h2 : (tokenize E.uw s).foldlM (tokStep E .cmd (substL E .cmd n) lv false) .init <;>
    simp [h1, h2, Except.map] at this
  · simp [this]
  · simp only [LS.norm, LS.mk.injEq] at this
    simp [pure, Except.pure, LS.result, this]

end Verif.Subst
