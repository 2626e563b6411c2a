import Mathlib.Data.List.Basic
import Mathlib.Data.List.Infix

/-!
# Prefixes and suffixes on the command line: CPPPATH, LIBPATH, LIBS (C55)

Models `_concat_ixes` (SCons/Defaults.py 431-466) and `_stripixes` (469-550), which make `-I`, `-L` and `-l` flags out of lists.

Simplifications: the items, prefixes and suffixes are those after substitution (`PathList.subst_path`, `env.subst`); strings are lists of characters, an item is a string or a `File` node; the
optional function `c` is `_concat_ixes`.
-/

namespace Verif.Shell.Ixes

abbrev Str := List Char

/-- An item of the list, and of the result: text (or a Dir, whose text is used), or a File node, which is passed on as it is. -/
inductive Item where
  | text (s : Str)
  | file (n : Nat)
deriving DecidableEq

/-- One round of the loop of `_concat_ixes` (Defaults.py 446-464). -/
def concatOne (pre suf : Str) : Item → List Item
  | .file n => [.file n]
  | .text x =>
    if x = [] then []
    else
      -- the prefix (451-455)
      let sep := pre ≠ [] ∧ pre.getLast? = some ' '
      let before := if sep then [Item.text pre.dropLast] else []
      let x := if pre ≠ [] ∧ ¬ sep ∧ x.take pre.length ≠ pre then pre ++ x else x
      -- the suffix (459-463); `x[-n:]` is the whole of `x` when it is shorter
      if suf = [] then before ++ [.text x]
      else if suf.head? = some ' ' then before ++ [.text x, .text suf.tail]
      else if x.drop (x.length - suf.length) ≠ suf then before ++ [.text (x ++ suf)]
      else before ++ [.text x]

/-- `_concat_ixes` (Defaults.py 431-466). -/
def concatIxes (pre suf : Str) (items : List Item) : List Item := items.flatMap (concatOne pre suf)

/-- The prefix loop (Defaults.py 533-538): the first that fits is taken off. -/
def stripPrefix (l : Str) : List Str → Str
  | [] => l
  | p :: ps => if l.take p.length = p then l.drop p.length else stripPrefix l ps

/-- The suffix loop (Defaults.py 540-545).  `l[-0:]` is all of `l`, so an empty suffix fits only an empty `l`, and `l[:-0]` is empty anyway. -/
def stripSuffix (l : Str) : List Str → Str
  | [] => l
  | s :: ss =>
    let tail := if s = [] then l else l.drop (l.length - s.length)
    if tail = s then (if s = [] then [] else l.take (l.length - s.length)) else stripSuffix l ss

/-- One round of the loop of `_stripixes` (Defaults.py 521-547). -/
def stripOne (sp ss : List Str) (litPre : Str) : Item → Item
  | .file n => .file n
  | .text l => if litPre ≠ [] ∧ l.take litPre.length = litPre then .text l else .text (stripSuffix (stripPrefix l sp) ss)

/-- `_stripixes` (Defaults.py 469-550). -/
def stripIxes (pre suf : Str) (sp ss : List Str) (litPre : Str) (items : List Item) : List Item :=
  concatIxes pre suf (items.map (stripOne sp ss litPre))

/-! ## CPPPATH and the like -/

/-- A prefix such as `-I`, not empty and without a blank at its end. -/
def Tight (pre : Str) : Prop := pre ≠ [] ∧ pre.getLast? ≠ some ' '

/-- The flag of a directory: the prefix is put before it unless it is there already. -/
def flag (pre x : Str) : Str := if pre <+: x then x else pre ++ x

theorem take_eq_iff (p x : Str) : x.take p.length = p ↔ p <+: x := by
  rw [List.prefix_iff_eq_take]; exact eq_comm

/-- **C55, flags.**  Each non-empty directory gives exactly one flag, in the order of the list, and File nodes are passed on. -/
theorem C55_one_flag_each (pre : Str) (hp : Tight pre) (items : List Item) :
    concatIxes pre [] items = (items.filter (· ≠ .text [])).map fun i => match i with | .text x => .text (flag pre x) | .file n => .file n := by
  induction items with
  | nil => rfl
  | cons i items ih =>
    rw [concatIxes, List.flatMap_cons, ← concatIxes, ih]
    cases i with
    | file n => simp [concatOne]
    | text x =>
      by_cases hx : x = []
      · simp [concatOne, hx]
      · have h1 : ¬ (pre ≠ [] ∧ pre.getLast? = some ' ') := fun h => hp.2 h.2
        by_cases h2 : pre <+: x
        · simp [concatOne, hx, flag, h2, h1, hp.1, take_eq_iff, hp.2]
        · simp [concatOne, hx, flag, h2, h1, hp.1, take_eq_iff, hp.2]

/-- **C55.**  Flags that are already flags are left alone: adding the prefix twice is the same as once. -/
theorem C55_flags_idempotent (pre : Str) (hp : Tight pre) (items : List Item) :
    concatIxes pre [] (concatIxes pre [] items) = concatIxes pre [] items := by
  rw [C55_one_flag_each pre hp items, C55_one_flag_each pre hp]
  rw [List.filter_eq_self.2, List.map_map]
  · apply List.map_congr_left
    intro i _
    cases i with
    | file n => rfl
    | text x =>
      simp only [Function.comp, Item.text.injEq]
      have : pre <+: flag pre x := by
        unfold flag; split
        · assumption
        · exact List.prefix_append _ _
      conv_lhs => rw [flag]
      simp [this]
  · intro i hi
    obtain ⟨j, hj, rfl⟩ := List.mem_map.1 hi
    cases j with
    | file n => simp
    | text x =>
      have hx : x ≠ [] := by
        intro e; subst e
        simpa using (List.mem_filter.1 hj).2
      by_cases h : pre <+: x <;> simp [flag, h, hx, hp.1]

/-- **C55.**  Directories that do not look like flags can be told from their flags: different lists give different command lines. -/
theorem C55_flags_determine_directories (pre : Str) (hp : Tight pre) (xs ys : List Str) (hx : ∀ x ∈ xs, x ≠ [] ∧ ¬ pre <+: x) (hy : ∀ y ∈ ys, y ≠ [] ∧ ¬ pre <+: y)
    (h : concatIxes pre [] (xs.map .text) = concatIxes pre [] (ys.map .text)) : xs = ys := by
  have key : ∀ zs : List Str, (∀ z ∈ zs, z ≠ [] ∧ ¬ pre <+: z) → concatIxes pre [] (zs.map .text) = zs.map (fun z => .text (pre ++ z)) := by
    intro zs hz
    rw [C55_one_flag_each pre hp, List.filter_eq_self.2, List.map_map]
    · apply List.map_congr_left
      intro z hz'
      simp [flag, (hz z hz').2]
    · intro i hi
      obtain ⟨z, hz', rfl⟩ := List.mem_map.1 hi
      simp [(hz z hz').1]
  rw [key xs hx, key ys hy] at h
  refine List.map_injective_iff.2 ?_ h
  intro a b hab
  simpa using hab

/-- **C55, separate words.**  With a blank at the end of the prefix, each non-empty directory gives two words: the prefix without the blank and the directory itself. -/
theorem C55_separate_words (pre : Str) (xs : List Str) : concatIxes (pre ++ [' ']) [] (xs.map .text) =
    (xs.filter (· ≠ [])).flatMap fun x => [.text pre, .text x] := by
  induction xs with
  | nil => rfl
  | cons x xs ih =>
    rw [List.map_cons, concatIxes, List.flatMap_cons, ← concatIxes, ih]
    by_cases hx : x = []
    · simp [concatOne, hx]
    · simp [concatOne, hx]

/-! ## LIBS -/

theorem stripPrefix_fit (p x : Str) (ps : List Str) : stripPrefix (p ++ x) (p :: ps) = x := by simp [stripPrefix]

theorem stripPrefix_none (l : Str) (ps : List Str) (h : ∀ p ∈ ps, ¬ p <+: l) : stripPrefix l ps = l := by
  induction ps with
  | nil => rfl
  | cons p ps ih =>
    rw [stripPrefix, if_neg (by rw [take_eq_iff]; exact h p List.mem_cons_self), ih (fun q hq => h q (List.mem_cons_of_mem _ hq))]

theorem drop_eq_iff (s l : Str) (hs : s ≠ []) : l.drop (l.length - s.length) = s ↔ s <:+ l := by
  rw [List.suffix_iff_eq_drop]; exact eq_comm

theorem stripSuffix_none (l : Str) (hl : l ≠ []) (ss : List Str) (h : ∀ s ∈ ss, s ≠ [] → ¬ s <:+ l) : stripSuffix l ss = l := by
  induction ss with
  | nil => rfl
  | cons s ss ih =>
    rw [stripSuffix]
    have ih := ih (fun q hq => h q (List.mem_cons_of_mem _ hq))
    by_cases hs : s = []
    · simp [hs, hl, ih]
    · have := h s List.mem_cons_self hs
      rw [← drop_eq_iff s l hs] at this
      simp [hs, this, ih]

theorem stripSuffix_fit (l s : Str) (hs : s ≠ []) (ss1 ss2 : List Str) (h : ∀ t ∈ ss1, t ≠ [] ∧ ¬ t <:+ l ++ s) : stripSuffix (l ++ s) (ss1 ++ s :: ss2) = l := by
  induction ss1 with
  | nil => simp [stripSuffix, hs]
  | cons t ss ih =>
    rw [List.cons_append, stripSuffix]
    obtain ⟨h1, h2⟩ := h t List.mem_cons_self
    rw [← drop_eq_iff t _ h1] at h2
    have ih := ih (fun q hq => h q (List.mem_cons_of_mem _ hq))
    simp only [h1, if_false]
    rw [if_neg h2, ih]

/-- **C55, libraries.**  A library given by its plain name and the same library given by its file name, `lib` + name + `.a`, give the same flag `-l` + name, provided the plain name itself does not begin with one of the
prefixes to be taken off or end with one of the suffixes. -/
theorem C55_library_names_partial (pre : Str) (hp : Tight pre) (name p s : Str) (sp ss : List Str) (hn : name ≠ [])
    (hsp : p ∈ sp) (hsp1 : ∀ q ∈ sp, ¬ q <+: name) (hspd : ∀ q ∈ sp, q <+: p ++ (name ++ s) → q = p)
    (hss : s ∈ ss) (hs : s ≠ []) (hss1 : ∀ q ∈ ss, q ≠ [] ∧ ¬ q <:+ name) (hssd : ∀ q ∈ ss, q <:+ name ++ s → q = s) (hl : ¬ pre <+: name) :
    stripIxes pre [] sp ss [] [.text name] = [.text (pre ++ name)] ∧ stripIxes pre [] sp ss [] [.text (p ++ (name ++ s))] = [.text (pre ++ name)] := by
  have base : concatIxes pre [] [.text name] = [.text (pre ++ name)] := by
    rw [C55_one_flag_each pre hp]; simp [hn, flag, hl]
  constructor
  · simp only [stripIxes, List.map_cons, List.map_nil, stripOne, ne_eq, not_true_eq_false, false_and, if_false]
    rw [stripPrefix_none _ _ hsp1, stripSuffix_none _ hn _ (fun q hq _ => (hss1 q hq).2), base]
  · simp only [stripIxes, List.map_cons, List.map_nil, stripOne, ne_eq, not_true_eq_false, false_and, if_false]
    have h1 : stripPrefix (p ++ (name ++ s)) sp = name ++ s := by
      clear hsp1
      induction sp with
      | nil => cases hsp
      | cons q qs ih =>
        by_cases hq : q = p
        · subst hq; exact stripPrefix_fit _ _ _
        · have : p ∈ qs := by
            rcases List.mem_cons.1 hsp with e | h
            · exact absurd e.symm hq
            · exact h
          rw [stripPrefix, if_neg]
          · exact ih this (fun r hr => hspd r (List.mem_cons_of_mem _ hr))
          · rw [take_eq_iff]; exact fun h => hq (hspd q List.mem_cons_self h)
    rw [h1]
    have h2 : ∀ (ss : List Str), s ∈ ss → (∀ q ∈ ss, q ≠ []) → (∀ q ∈ ss, q <:+ name ++ s → q = s) → stripSuffix (name ++ s) ss = name := by
      intro ss
      induction ss with
      | nil => intro h; cases h
      | cons q qs ih =>
        intro h1 h2 h3
        by_cases hq : q = s
        · subst hq; exact stripSuffix_fit name q (h2 q List.mem_cons_self) [] qs (by simp)
        · have hm : s ∈ qs := by
            rcases List.mem_cons.1 h1 with e | h
            · exact absurd e.symm hq
            · exact h
          rw [stripSuffix]
          have hq0 := h2 q List.mem_cons_self
          simp only [hq0, if_false]
          rw [if_neg]
          · exact ih hm (fun r hr => h2 r (List.mem_cons_of_mem _ hr)) (fun r hr => h3 r (List.mem_cons_of_mem _ hr))
          · rw [drop_eq_iff _ _ hq0]; exact fun h => hq (h3 q List.mem_cons_self h)
    rw [h2 ss hss (fun q hq => (hss1 q hq).1) hssd, base]

/-- **C55.**  A library marked with the literal prefix, and a File node, are never taken apart. -/
theorem C55_literal_libraries (pre litPre rest : Str) (sp ss : List Str) (hl : litPre ≠ []) (n : Nat) :
    stripIxes pre [] sp ss litPre [.text (litPre ++ rest), .file n] = concatIxes pre [] [.text (litPre ++ rest)] ++ [.file n] := by
  simp [stripIxes, stripOne, hl, concatIxes, concatOne]

/-! ## Counterexamples and a concrete case -/

def lib : Str := "lib".toList
def dotA : Str := ".a".toList

/-- **Counterexample.**  A library whose plain name begins with `lib`, such as `library`, gives the flag `-lrary`: another library.  A library called `lib` gives no flag at all. -/
theorem C55_counterexample_name_starts_with_lib :
    stripIxes "-l".toList [] [lib] [dotA] [] [.text "library".toList] = [.text "-lrary".toList] ∧
    stripIxes "-l".toList [] [lib] [dotA] [] [.text "lib".toList, .text "z".toList] = [.text "-lz".toList] := by decide +kernel

/-- **Counterexample.**  A directory whose name begins with the text of the flag is used as if it were a flag already: `-Include` is not searched. -/
theorem C55_counterexample_directory_looks_like_flag :
    concatIxes "-I".toList [] [.text "-Include".toList] = [.text "-Include".toList] := by decide +kernel

theorem C55_nonvacuous :
    stripIxes "-l".toList [] [lib] [dotA, ".so".toList] ":".toList [.text "z".toList, .text "libm.so".toList, .file 3, .text ":libx.a".toList] =
      [.text "-lz".toList, .text "-lm".toList, .file 3, .text "-l:libx.a".toList] ∧
    Tight "-l".toList ∧ concatIxes "-isystem ".toList [] [.text "a".toList] = [.text "-isystem".toList, .text "a".toList] := by
  refine ⟨by decide +kernel, ⟨by decide, by decide⟩, by decide +kernel⟩

end Verif.Shell.Ixes
