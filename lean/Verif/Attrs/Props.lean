import Verif.Attrs.Spec
import Mathlib.Data.List.Infix

/-!
# C111: the pieces of a path fit together
-/

namespace Verif.Attrs
open Verif.FS (Str walk GoodName lab intercalate_cons walk_good walk_append)

/-! ## splitext -/

theorem rfind_spec (c : Char) (s : Str) : (rfind c s = -1 ∧ c ∉ s) ∨ ∃ a b, s = a ++ c :: b ∧ c ∉ b ∧ rfind c s = a.length := by
  induction s with
  | nil => left; simp [rfind]
  | cons x s ih =>
    rcases ih with ⟨h1, h2⟩ | ⟨a, b, h1, h2, h3⟩
    · by_cases hx : x = c
      · right; exact ⟨[], s, by simp [hx], h2, by simp [rfind, h1, hx]⟩
      · left; simp [rfind, h1, hx, h2, Ne.symm hx]
    · right
      refine ⟨x :: a, b, by simp [h1], h2, ?_⟩
      simp [rfind, h3]

theorem rfind_of (c : Char) {s a b : Str} (h : s = a ++ c :: b) (hb : c ∉ b) : rfind c s = a.length := by
  subst h
  induction a with
  | nil =>
    rcases rfind_spec c b with ⟨h1, -⟩ | ⟨a, b', h1, -, -⟩
    · simp [rfind, h1]
    · subst h1; simp at hb
  | cons x a ih => simp only [List.cons_append, rfind, ih]; simp

theorem rfind_none (c : Char) {s : Str} (h : c ∉ s) : rfind c s = -1 := by
  rcases rfind_spec c s with ⟨h1, -⟩ | ⟨a, b', h1, -, -⟩
  · exact h1
  · subst h1; simp at h

theorem isdigit_false (digit : Char → Bool) (t : Str) : isdigit digit t = false ↔ (t = [] ∨ ∃ c ∈ t, digit c = false) := by
  cases t with
  | nil => simp [isdigit]
  | cons x t =>
    simp only [isdigit, List.isEmpty_cons, Bool.not_false, Bool.true_and, List.all_eq_false, reduceCtorEq, false_or]
    simp

/-- A suffix at the end is what `splitext` takes off. -/
theorem splitext_ext (digit : Char → Bool) (b e : Str) (h : IsExt digit e) : splitext digit (b ++ e) = (b, e) := by
  obtain ⟨t, rfl, h1, h2, h3⟩ := h
  have hd : rfind '.' (b ++ '.' :: t) = b.length := rfind_of '.' rfl h1
  have hs : rfind '/' (b ++ '.' :: t) < b.length := by
    rcases rfind_spec '/' (b ++ '.' :: t) with ⟨h, -⟩ | ⟨a, b', h, h', h''⟩
    · omega
    · rw [h'']
      rcases List.append_eq_append_iff.1 h with ⟨as, ha, hb⟩ | ⟨bs, ha, hb⟩
      · cases as with
        | nil => simp at hb
        | cons y as =>
          simp only [List.cons_append, List.cons.injEq] at hb
          exact absurd (by rw [hb.2]; simp) h2
      · cases bs with
        | nil => simp at hb
        | cons y bs => rw [ha]; simp; omega
  have hn : isdigit digit t = false := (isdigit_false digit t).2 h3
  have hdrop : (b ++ '.' :: t).drop ((b.length : Int) + 1).toNat = t := by
    have : ((b.length : Int) + 1).toNat = b.length + 1 := by omega
    rw [this]; simp
  rw [splitext, hd, hdrop, hn]
  simp [hs]

/-- If no suffix stands at the end, `splitext` takes nothing off. -/
theorem splitext_none (digit : Char → Bool) (p : Str) (h : ∀ b e, b ++ e = p → ¬ IsExt digit e) : splitext digit p = (p, []) := by
  rw [splitext]
  split
  · rename_i hc
    exfalso
    simp only [gt_iff_lt, Bool.and_eq_true, decide_eq_true_eq, Bool.not_eq_true'] at hc
    rcases rfind_spec '.' p with ⟨h1, -⟩ | ⟨a, b, h1, h2, h3⟩
    · rw [h1] at hc
      rcases rfind_spec '/' p with ⟨h4, -⟩ | ⟨a, b, -, -, h4⟩ <;> rw [h4] at hc <;> omega
    · rw [h3] at hc
      have hdrop : p.drop ((a.length : Int) + 1).toNat = b := by
        have : ((a.length : Int) + 1).toNat = a.length + 1 := by omega
        rw [this, h1]; simp
      rw [hdrop, isdigit_false] at hc
      refine h a ('.' :: b) h1.symm ⟨⟨b, rfl, h2, ?_, hc.2⟩⟩
      intro hb
      rcases rfind_spec '/' p with ⟨h4, h5⟩ | ⟨a', b', h5, h6, h4⟩
      · exact h5 (by rw [h1]; simp [hb])
      · rw [h4] at hc
        have hlt : a'.length < a.length := by omega
        rw [h1] at h5
        rcases List.append_eq_append_iff.1 h5 with ⟨as, ha, hb'⟩ | ⟨bs, ha, hb'⟩
        · rw [ha] at hlt; simp at hlt; omega
        · cases bs with
          | nil => simp at ha; rw [ha] at hlt; omega
          | cons y bs =>
            simp only [List.cons_append, List.cons.injEq] at hb'
            exact h6 (by rw [hb'.2]; simp [hb])
  · rfl

/-- **C111**: `splitext` splits off the suffix — a last dot and what follows it, unless that is a number — and nothing when there is none, whatever the name and whatever counts as a digit. -/
theorem C111_splitext (digit : Char → Bool) (p : Str) : Splits digit p (splitext digit p).1 (splitext digit p).2 := by
  by_cases h : ∃ b e, b ++ e = p ∧ IsExt digit e
  · obtain ⟨b, e, rfl, he⟩ := h
    rw [splitext_ext digit b e he]
    refine ⟨rfl, .inl he, ?_⟩
    rintro rfl
    obtain ⟨t, ht, -⟩ := he.shape
    simp at ht
  · have h' : ∀ b e, b ++ e = p → ¬ IsExt digit e := fun b e hb he => h ⟨b, e, hb, he⟩
    rw [splitext_none digit p h']
    exact ⟨by simp, .inr rfl, fun _ => h'⟩

/-- **C111**: there is only one such split. -/
theorem C111_splitext_unique (digit : Char → Bool) (p b e : Str) (h : Splits digit p b e) : splitext digit p = (b, e) := by
  rcases h.ext with he | he
  · rw [← h.whole]; exact splitext_ext digit b e he
  · have hb : b = p := by rw [← h.whole, he]; simp
    rw [splitext_none digit p (h.none he), hb, he]

/-! ## Paths -/

theorem index_map (p a r : Path) : index (p ++ a) ((a ++ r).inits.map (p ++ ·)) = some a.length := by
  induction a generalizing p with
  | nil => cases r <;> simp [index]
  | cons x a ih =>
    have := ih (p ++ [x])
    simp only [List.append_assoc, List.singleton_append] at this
    simp only [List.cons_append, List.inits_cons, List.map_cons, List.map_map, index, List.append_nil]
    rw [if_neg (by simp)]
    have e : ((fun t => p ++ t) ∘ fun t => x :: t) = fun t => p ++ x :: t := rfl
    rw [e, this]; rfl

theorem index_prefix (a r : Path) : index a (elements (a ++ r)) = some a.length := by
  have := index_map [] a r
  have e : (fun t : Path => [] ++ t) = id := by funext t; rfl
  rw [e, List.map_id] at this
  exact this

theorem index_absent (a : Path) (l : List Path) (h : a ∉ l) : index a l = none := by
  induction l with
  | nil => rfl
  | cons x l ih =>
    simp only [List.mem_cons, not_or] at h
    simp [index, Ne.symm h.1, ih h.2]

theorem dirnames (a s : Path) : ((a ++ s).inits.drop (a.length + 1)).flatMap dirname = s.flatMap (· ++ ['/']) := by
  induction s using List.reverseRecOn with
  | nil => rw [List.drop_eq_nil_of_le (by simp)]; rfl
  | append_singleton s z ih =>
    have h1 : (a ++ (s ++ [z])).inits = (a ++ s).inits ++ [a ++ s ++ [z]] := by
      rw [← List.append_assoc, List.inits_append]; simp
    rw [h1, List.drop_append_of_le_length (by simp), List.flatMap_append, ih]
    simp [dirname]

theorem flat_inter (s : List Str) (y : Str) : s.flatMap (· ++ ['/']) ++ y = ['/'].intercalate (s ++ [y]) := by
  induction s with
  | nil => simp
  | cons x s ih =>
    rw [List.flatMap_cons, List.append_assoc, ih]
    cases s with
    | nil => simp [intercalate_cons, lab]
    | cons z s => simp [intercalate_cons, lab]

/-- The path of a node below the current directory. -/
theorem getPath_below (cwd r : Path) (hr : r ≠ []) : getPath cwd (cwd ++ r) = ['/'].intercalate r := by
  obtain ⟨s, y, rfl⟩ : ∃ s y, r = s ++ [y] := by
    rcases List.eq_nil_or_concat r with h | ⟨s, y, h⟩
    · exact absurd h hr
    · exact ⟨s, y, by simpa using h⟩
  rw [getPath, if_neg (by simp)]
  simp only [index_prefix]
  have h1 : elements (cwd ++ (s ++ [y])) = (cwd ++ s).inits ++ [cwd ++ s ++ [y]] := by
    rw [elements, ← List.append_assoc, List.inits_append]; simp
  rw [h1, List.drop_append_of_le_length (by simp), List.dropLast_concat, dirnames, ← flat_inter]
  simp [name]

/-- The absolute path. -/
theorem abspath_eq (n : Path) (h : ∀ c ∈ n, c ≠ []) : abspath n = '/' :: ['/'].intercalate n := by
  have h4 : ∀ xs acc, acc ≠ ['/'] → acc ≠ [] → absFrom acc xs = acc ++ lab xs := by
    intro xs
    induction xs with
    | nil => intro acc _ _; simp [absFrom, lab]
    | cons x xs ih =>
      intro acc ha ha'
      rw [absFrom, if_neg ha, ih _ (by cases acc with | nil => exact absurd rfl ha' | cons => simp) (by simp)]
      simp [lab]
  cases n with
  | nil => simp [abspath, absFrom]
  | cons x xs =>
    have hx := h x List.mem_cons_self
    rw [abspath, absFrom, if_pos rfl, h4 _ _ (by simpa using hx) (by simp), intercalate_cons]
    simp

/-- The path of any other node. -/
theorem getPath_elsewhere (cwd n : Path) (hn : ∀ c ∈ n, c ≠ []) (h : ¬ cwd <+: n) : getPath cwd n = abspath n := by
  have hc : n ≠ cwd := by rintro rfl; exact h (List.prefix_refl _)
  rw [getPath, if_neg hc]
  have hi : index cwd (elements n) = none := index_absent _ _ (by simpa [elements] using h)
  simp only [hi]
  rw [abspath_eq n hn]
  rcases List.eq_nil_or_concat n with rfl | ⟨s, y, rfl⟩
  · simp [elements, name]
  · have h1 : (elements (s.concat y)).dropLast = s.inits := by
      rw [elements, List.concat_eq_append, List.inits_append]; simp
    have h2 : s.inits.flatMap dirname = '/' :: s.flatMap (· ++ ['/']) := by
      have := dirnames [] s
      simp only [List.nil_append, List.length_nil] at this
      rw [← this]
      cases s <;> simp [dirname]
    rw [h1, h2, List.cons_append]
    have h3 : name (s.concat y) = y := by simp [name]
    rw [h3, flat_inter, List.concat_eq_append]

theorem split_inter (n : Path) (hn : ∀ c ∈ n, '/' ∉ c) (h : n ≠ []) : (['/'].intercalate n).splitOn '/' = n :=
  List.splitOn_intercalate '/' hn h

theorem inter_head (n : Path) (hn : Proper n) (h : n ≠ []) : ∃ c s, ['/'].intercalate n = c :: s ∧ c ≠ '/' := by
  cases n with
  | nil => exact absurd rfl h
  | cons x xs =>
    rw [intercalate_cons]
    obtain ⟨h1, -, -, h4⟩ := hn x List.mem_cons_self
    cases x with
    | nil => exact absurd rfl h1
    | cons c x => exact ⟨c, x ++ lab xs, rfl, fun hc => h4 (by simp [hc])⟩

theorem opens_rel (cwd : Path) {s : Str} {c : Char} {t : Str} (h : s = c :: t) (hc : c ≠ '/') : opens cwd s = some (walk cwd (s.splitOn '/')) := by
  subst h
  unfold opens
  split
  · rename_i e; simp at e
  · rename_i e; exact absurd (List.cons.inj e).1 hc
  · rfl

theorem opens_abs (cwd : Path) (s : Str) : opens cwd ('/' :: s) = some (walk [] (s.splitOn '/')) := rfl

/-- **C111**: the absolute path of a node names that node, from any directory. -/
theorem C111_abspath (cwd n : Path) (hn : Proper n) : opens cwd (abspath n) = some n := by
  rw [abspath_eq n fun c hc => (hn c hc).1, opens_abs]
  by_cases h : n = []
  · subst h; decide
  · rw [split_inter n (fun c hc => (hn c hc).2.2.2) h, walk_good _ _ hn, List.nil_append]

/-- **C111**: the path of a node names that node for a command run in the current directory. -/
theorem C111_path (cwd n : Path) (hn : Proper n) : opens cwd (getPath cwd n) = some n := by
  by_cases hc : n = cwd
  · subst hc
    rw [getPath, if_pos rfl, opens_rel n rfl (by decide)]
    have : ['.'].splitOn '/' = [['.']] := by decide
    rw [this]; simp [walk]
  by_cases hp : cwd <+: n
  · obtain ⟨r, rfl⟩ := hp
    have hr : r ≠ [] := by rintro rfl; simp at hc
    have hr' : Proper r := fun c h => hn c (List.mem_append_right _ h)
    obtain ⟨c, s, h1, h2⟩ := inter_head r hr' hr
    rw [getPath_below cwd r hr, opens_rel cwd h1 h2, split_inter r (fun c hc => (hr' c hc).2.2.2) hr, walk_good _ _ hr']
  · rw [getPath_elsewhere cwd n (fun c h => (hn c h).1) hp]
    exact C111_abspath cwd n hn

theorem parts_abspath (n : Path) (hn : Proper n) : parts (abspath n) = n := by
  rw [abspath_eq n fun c hc => (hn c hc).1, parts]
  by_cases h : n = []
  · subst h; decide
  · have h1 : ('/' :: ['/'].intercalate n).splitOn '/' = [] :: n := by
      have := List.splitOn_intercalate '/' (ls := [] :: n) (by simpa using fun c hc => (hn c hc).2.2.2) (by simp)
      rw [intercalate_cons] at this
      rw [← this]
      congr 1
      cases n with
      | nil => exact absurd rfl h
      | cons x xs => rw [intercalate_cons]; simp [lab]
    rw [h1]
    simp only [List.isEmpty_nil, Bool.not_true, Bool.false_eq_true, not_false_eq_true, List.filter_cons_of_neg]
    rw [List.filter_eq_self]
    intro c hc
    have := (hn c hc).1
    cases c <;> simp_all

theorem common_spec (s p : List Str) : common s p ≤ s.length ∧ common s p ≤ p.length ∧ s.take (common s p) = p.take (common s p) := by
  induction s generalizing p with
  | nil => simp [common]
  | cons x s ih =>
    cases p with
    | nil => simp [common]
    | cons y p =>
      by_cases h : x = y
      · simp [common, h, ih p]
      · simp [common, h]

theorem walk_up (k : Nat) (a : Path) : walk a (List.replicate k ['.', '.']) = a.take (a.length - k) := by
  induction k generalizing a with
  | zero => simp [walk]
  | succ k ih =>
    rw [List.replicate_succ, walk]
    simp only [List.cons_ne_nil, List.cons.injEq, and_false, or_self, ↓reduceIte, ih, List.length_dropLast]
    rw [List.dropLast_eq_take, List.take_take]
    congr 1; omega

/-- **C111**: the relative path of a node names that node for a command run in the directory of the SConstruct. -/
theorem C111_relpath (W : World) (n : Path) (hn : Proper n) (ht : Proper W.sconstruct) : opens W.sconstruct (relpath W n) = some n := by
  rw [relpath, relpathOs]
  simp only [parts_abspath n hn, parts_abspath _ ht]
  obtain ⟨h1, h2, h3⟩ := common_spec W.sconstruct n
  generalize hi : common W.sconstruct n = i at h1 h2 h3
  generalize W.sconstruct = t at *
  have hw : walk t (List.replicate (t.length - i) ['.', '.'] ++ n.drop i) = n := by
    rw [walk_append, walk_up, walk_good _ _ fun c hc => hn c (List.mem_of_mem_drop hc)]
    have : t.length - (t.length - i) = i := by omega
    rw [this, h3, List.take_append_drop]
  split
  · rename_i h
    rw [h] at hw
    rw [opens_rel t rfl (by decide)]
    have : ['.'].splitOn '/' = [['.']] := by decide
    rw [this]; simpa [walk] using hw
  · rename_i h
    have hs : ∀ c ∈ List.replicate (t.length - i) ['.', '.'] ++ n.drop i, '/' ∉ c ∧ c ≠ [] := by
      intro c hc
      rcases List.mem_append.1 hc with hc | hc
      · rw [(List.mem_replicate.1 hc).2]; decide
      · have := hn c (List.mem_of_mem_drop hc); exact ⟨this.2.2.2, this.1⟩
    generalize List.replicate (t.length - i) ['.', '.'] ++ n.drop i = r at *
    have hh : ∃ c s, ['/'].intercalate r = c :: s ∧ c ≠ '/' := by
      cases r with
      | nil => exact absurd rfl h
      | cons x xs =>
        rw [intercalate_cons]
        obtain ⟨h1, h4⟩ := hs x List.mem_cons_self
        cases x with
        | nil => exact absurd rfl h4
        | cons c x => exact ⟨c, x ++ lab xs, rfl, fun hc => h1 (by simp [hc])⟩
    obtain ⟨c, s, e, hc⟩ := hh
    rw [opens_rel t e hc, split_inter r (fun c hc => (hs c hc).1) h, hw]

end Verif.Attrs
