import Mathlib.Data.List.Basic
import Mathlib.Data.List.Nodup
import Mathlib.Data.List.SplitOn

/-!
# PrependPath and AppendPath (C53)

Models SCons/Util/envs.py 43-132 (`PrependPath`) and 154-242 (`AppendPath`), which do the work of `env.PrependENVPath` and `env.AppendENVPath` (SCons/Environment.py 1684-1718, 2181-2215).

`norm` is `os.path.normpath(os.path.normcase(path))` and `empty` is `not path`; the theorems hold for any functions in their place.  Not modelled: tuples as arguments (on which some combinations raise).
-/

namespace Verif.Util.Path
variable {π ν : Type} [DecidableEq ν] (norm : π → ν) (empty : π → Bool)

/-- The loop `for path in ...: if path and normpath not in normpaths: append both` (envs.py 116-121 and so on): the paths added, with `seen` = `normpaths`. -/
def uniq : List ν → List π → List π
  | _, [] => []
  | seen, p :: ps => if empty p then uniq seen ps else if norm p ∈ seen then uniq seen ps else p :: uniq (seen ++ [norm p]) ps

/-- `PrependPath` on lists (envs.py 89-128).  Second component: what the caller's own `newpath` list looks like afterwards. -/
def prependPath (canonicalize : Option (π → π)) (deleteExisting : Bool) (old new : List π) : List π × List π :=
  let newpaths := match canonicalize with | some f => new.map f | none => new
  if deleteExisting then (uniq norm empty [] (newpaths ++ old), new)
  else
    let result := uniq norm empty [] old
    -- `newpaths.reverse()` works in place: on the caller's list when there was no canonicalize
    let newpaths := newpaths.reverse
    ((uniq norm empty (result.map norm) newpaths).reverse ++ result, match canonicalize with | some _ => new | none => newpaths)

/-- `AppendPath` on lists (envs.py 196-242). -/
def appendPath (canonicalize : Option (π → π)) (deleteExisting : Bool) (old new : List π) : List π :=
  let newpaths := match canonicalize with | some f => new.map f | none => new
  if deleteExisting then (uniq norm empty [] (old ++ newpaths).reverse).reverse
  else
    let result := old.filter (fun p => !empty p)
    result ++ uniq norm empty (result.map norm) newpaths

/-! ## Specification -/

/-- Of paths that are the same up to `norm`, keep the first. -/
def firsts : List π → List π
  | [] => []
  | p :: ps => p :: (firsts ps).filter (fun q => norm q ≠ norm p)

/-- Of paths that are the same up to `norm`, keep the last. -/
def lasts (ps : List π) : List π := (firsts norm ps.reverse).reverse

/-- The paths that count. -/
def proper (ps : List π) : List π := ps.filter (fun p => !empty p)

theorem firsts_filter (ps : List π) (f : π → Bool) (hf : ∀ p q, norm p = norm q → f p = f q) :
    firsts norm (ps.filter f) = (firsts norm ps).filter f := by
  induction ps with
  | nil => rfl
  | cons p ps ih =>
    by_cases hp : f p = true
    · rw [List.filter_cons_of_pos hp, firsts, ih, firsts, List.filter_cons_of_pos hp]
      simp only [List.filter_filter]
      congr 1
      apply List.filter_congr; intro q _; exact Bool.and_comm _ _
    · rw [List.filter_cons_of_neg hp, ih, firsts, List.filter_cons_of_neg hp, List.filter_filter]
      apply List.filter_congr
      intro q _
      by_cases hq : f q = true
      · have : norm q ≠ norm p := fun e => hp ((hf q p e) ▸ hq)
        simp [this]
      · simp [hq]

theorem uniq_eq (ps : List π) : ∀ seen, uniq norm empty seen ps = (firsts norm (proper empty ps)).filter (fun p => norm p ∉ seen) := by
  induction ps with
  | nil => intro seen; rfl
  | cons p ps ih =>
    intro seen
    by_cases he : empty p = true
    · simp [uniq, he, ih, proper]
    · have hpr : proper empty (p :: ps) = p :: proper empty ps := by simp [proper, he]
      rw [hpr, firsts]
      by_cases hs : norm p ∈ seen
      · simp only [uniq, he, if_false, hs, if_true, Bool.false_eq_true, ih]
        rw [List.filter_cons_of_neg (by simpa using hs), List.filter_filter]
        apply List.filter_congr
        intro q _
        by_cases hq : norm q ∈ seen
        · simp [hq]
        · have : norm q ≠ norm p := fun e => hq (e ▸ hs)
          simp [this]
      · simp only [uniq, he, if_false, hs, Bool.false_eq_true, ih]
        rw [List.filter_cons_of_pos (by simpa using hs), List.filter_filter]
        congr 1
        apply List.filter_congr
        intro q _
        simp [not_or]

theorem mem_firsts {ps : List π} {p : π} (h : p ∈ firsts norm ps) : p ∈ ps := by
  induction ps with
  | nil => cases h
  | cons q ps ih =>
    rw [firsts] at h
    rcases List.mem_cons.1 h with rfl | h
    · exact List.mem_cons_self
    · exact List.mem_cons_of_mem _ (ih (List.mem_of_mem_filter h))

theorem firsts_covers {ps : List π} {p : π} (h : p ∈ ps) : ∃ q ∈ firsts norm ps, norm q = norm p := by
  induction ps with
  | nil => cases h
  | cons a ps ih =>
    rw [firsts]
    by_cases e : norm a = norm p
    · exact ⟨a, List.mem_cons_self, e⟩
    · rcases List.mem_cons.1 h with rfl | h
      · exact absurd rfl e
      · obtain ⟨q, hq, hn⟩ := ih h
        exact ⟨q, List.mem_cons_of_mem _ (List.mem_filter.2 ⟨hq, by simpa [hn] using fun e2 => e e2.symm⟩), hn⟩

theorem firsts_nodup (ps : List π) : ((firsts norm ps).map norm).Nodup := by
  induction ps with
  | nil => simp [firsts]
  | cons a ps ih =>
    rw [firsts, List.map_cons, List.nodup_cons]
    refine ⟨?_, ih.sublist (List.Sublist.map _ List.filter_sublist)⟩
    simp only [List.mem_map, List.mem_filter, not_exists, not_and, decide_eq_true_eq]
    exact fun q hq e => hq.2 e

theorem firsts_of_nodup {ps : List π} (h : (ps.map norm).Nodup) : firsts norm ps = ps := by
  induction ps with
  | nil => rfl
  | cons a ps ih =>
    rw [List.map_cons, List.nodup_cons] at h
    rw [firsts, ih h.2, List.filter_eq_self.2]
    intro q hq
    simp only [decide_eq_true_eq]
    exact fun e => h.1 (List.mem_map.2 ⟨q, hq, e⟩)

theorem lasts_nodup (ps : List π) : ((lasts norm ps).map norm).Nodup := by
  rw [lasts, List.map_reverse, List.nodup_reverse]; exact firsts_nodup norm _

theorem mem_lasts {ps : List π} {p : π} (h : p ∈ lasts norm ps) : p ∈ ps := by
  rw [lasts, List.mem_reverse] at h; exact List.mem_reverse.1 (mem_firsts norm h)

theorem lasts_covers {ps : List π} {p : π} (h : p ∈ ps) : ∃ q ∈ lasts norm ps, norm q = norm p := by
  obtain ⟨q, hq, hn⟩ := firsts_covers norm (List.mem_reverse.2 h)
  exact ⟨q, List.mem_reverse.2 hq, hn⟩

/-- **C53, PrependPath (the default).**  The new paths followed by the old ones; of those that are the same only the first stays. -/
theorem C53_prependPath (old new : List π) : (prependPath norm empty none true old new).1 = firsts norm (proper empty (new ++ old)) := by
  simp [prependPath, uniq_eq]

/-- **C53, PrependPath with delete_existing=False.**  The old paths (first ones kept) stay in place, with the new ones that are not among them in front; of new ones that are the same the *last* stays. -/
theorem C53_prependPath_keep (old new : List π) : (prependPath norm empty none false old new).1 =
    (lasts norm (proper empty new)).filter (fun p => ∀ q ∈ firsts norm (proper empty old), norm q ≠ norm p) ++ firsts norm (proper empty old) := by
  simp only [prependPath, Bool.false_eq_true, if_false, uniq_eq, List.not_mem_nil, not_false_eq_true, decide_true, List.filter_true]
  congr 1
  rw [← List.filter_reverse, lasts]
  have : proper empty new.reverse = (proper empty new).reverse := by simp [proper]
  rw [this]
  apply List.filter_congr
  intro p _
  simp [List.mem_map]

/-- **C53, AppendPath with delete_existing.**  The old paths followed by the new ones; of those that are the same only the last stays. -/
theorem C53_appendPath (old new : List π) : appendPath norm empty none true old new = lasts norm (proper empty (old ++ new)) := by
  simp only [appendPath, if_true, uniq_eq, List.not_mem_nil, not_false_eq_true, decide_true, List.filter_true, lasts]
  congr 2
  simp [proper]

/-- **C53, AppendPath with delete_existing=False** (the default of AppendENVPath).  All the old paths, followed by the new ones that are not among them; of new ones that are the same the *first* stays. -/
theorem C53_appendPath_keep (old new : List π) : appendPath norm empty none false old new =
    proper empty old ++ (firsts norm (proper empty new)).filter (fun p => ∀ q ∈ proper empty old, norm q ≠ norm p) := by
  simp only [appendPath, Bool.false_eq_true, if_false, uniq_eq]
  congr 1
  apply List.filter_congr
  intro p _
  simp [List.mem_map, proper]

/-- **C53, each path once (partial).**  No two paths of the result are the same, in every case but AppendPath with delete_existing=False; there it holds if the old paths had no duplicates.
Missing: duplicates among the old paths stay in that case, see `C53_counterexample_append_keeps_duplicates`. -/
theorem C53_each_path_once_partial (old new : List π) :
    ((prependPath norm empty none true old new).1.map norm).Nodup ∧ ((prependPath norm empty none false old new).1.map norm).Nodup ∧
    ((appendPath norm empty none true old new).map norm).Nodup ∧
    (((proper empty old).map norm).Nodup → ((appendPath norm empty none false old new).map norm).Nodup) := by
  refine ⟨?_, ?_, ?_, ?_⟩
  · rw [C53_prependPath]; exact firsts_nodup norm _
  · rw [C53_prependPath_keep, List.map_append, List.nodup_append]
    refine ⟨(lasts_nodup norm _).sublist (List.Sublist.map _ List.filter_sublist), firsts_nodup norm _, ?_⟩
    intro a ha b hb e
    obtain ⟨p, hp, rfl⟩ := List.mem_map.1 ha
    obtain ⟨q, hq, rfl⟩ := List.mem_map.1 hb
    have := (List.mem_filter.1 hp).2
    simp only [decide_eq_true_eq] at this
    exact this q hq e.symm
  · rw [C53_appendPath]; exact lasts_nodup norm _
  · intro h
    rw [C53_appendPath_keep, List.map_append, List.nodup_append]
    refine ⟨h, (firsts_nodup norm _).sublist (List.Sublist.map _ List.filter_sublist), ?_⟩
    intro a ha b hb e
    obtain ⟨q, hq, rfl⟩ := List.mem_map.1 ha
    obtain ⟨p, hp, rfl⟩ := List.mem_map.1 hb
    have := (List.mem_filter.1 hp).2
    simp only [decide_eq_true_eq] at this
    exact this q hq e

/-- **C53, nothing lost, nothing invented.**  In all four cases every non-empty path of either list is, up to `norm`, in the result, and every path of the result is one of them. -/
theorem C53_nothing_lost (de : Bool) (old new : List π) (p : π) (hp : p ∈ old ∨ p ∈ new) (he : empty p = false) :
    (∃ q ∈ (prependPath norm empty none de old new).1, norm q = norm p) ∧ (∃ q ∈ appendPath norm empty none de old new, norm q = norm p) := by
  have pm : ∀ {l : List π}, p ∈ l → p ∈ proper empty l := fun h => List.mem_filter.2 ⟨h, by simp [he]⟩
  cases de with
  | true =>
    rw [C53_prependPath, C53_appendPath]
    refine ⟨firsts_covers norm (pm ?_), lasts_covers norm (pm ?_)⟩
    · rcases hp with h | h <;> simp [h]
    · rcases hp with h | h <;> simp [h]
  | false =>
    rw [C53_prependPath_keep, C53_appendPath_keep]
    rcases hp with h | h
    · refine ⟨?_, p, List.mem_append_left _ (pm h), rfl⟩
      obtain ⟨q, hq, hn⟩ := firsts_covers norm (pm h)
      exact ⟨q, List.mem_append_right _ hq, hn⟩
    · constructor
      · by_cases hx : ∃ q ∈ firsts norm (proper empty old), norm q = norm p
        · obtain ⟨q, hq, hn⟩ := hx; exact ⟨q, List.mem_append_right _ hq, hn⟩
        · obtain ⟨q, hq, hn⟩ := lasts_covers norm (pm h)
          refine ⟨q, List.mem_append_left _ (List.mem_filter.2 ⟨hq, ?_⟩), hn⟩
          simp only [decide_eq_true_eq]
          exact fun r hr e => hx ⟨r, hr, e.trans hn⟩
      · by_cases hx : ∃ q ∈ proper empty old, norm q = norm p
        · obtain ⟨q, hq, hn⟩ := hx; exact ⟨q, List.mem_append_left _ hq, hn⟩
        · obtain ⟨q, hq, hn⟩ := firsts_covers norm (pm h)
          refine ⟨q, List.mem_append_right _ (List.mem_filter.2 ⟨hq, ?_⟩), hn⟩
          simp only [decide_eq_true_eq]
          exact fun r hr e => hx ⟨r, hr, e.trans hn⟩

theorem C53_nothing_invented (de : Bool) (old new : List π) (p : π)
    (h : p ∈ (prependPath norm empty none de old new).1 ∨ p ∈ appendPath norm empty none de old new) : (p ∈ old ∨ p ∈ new) ∧ empty p = false := by
  have pm : ∀ {l : List π}, p ∈ proper empty l → p ∈ l ∧ empty p = false := fun h => by
    obtain ⟨a, b⟩ := List.mem_filter.1 h; exact ⟨a, by simpa using b⟩
  cases de with
  | true =>
    rw [C53_prependPath, C53_appendPath] at h
    rcases h with h | h
    · obtain ⟨a, b⟩ := pm (mem_firsts norm h); exact ⟨(List.mem_append.1 a).symm, b⟩
    · obtain ⟨a, b⟩ := pm (mem_lasts norm h); exact ⟨List.mem_append.1 a, b⟩
  | false =>
    rw [C53_prependPath_keep, C53_appendPath_keep] at h
    rcases h with h | h <;> rcases List.mem_append.1 h with h | h
    · obtain ⟨a, b⟩ := pm (mem_lasts norm (List.mem_of_mem_filter h)); exact ⟨.inr a, b⟩
    · obtain ⟨a, b⟩ := pm (mem_firsts norm h); exact ⟨.inl a, b⟩
    · obtain ⟨a, b⟩ := pm h; exact ⟨.inl a, b⟩
    · obtain ⟨a, b⟩ := pm (mem_firsts norm (List.mem_of_mem_filter h)); exact ⟨.inr a, b⟩

/-! ### What the search path is for: finding the first directory that has a file -/

/-- The directory a search finds, up to `norm`; `has` says which directories have the file. -/
def search (has : ν → Bool) (ps : List π) : Option ν := (ps.map norm).find? has

theorem search_append (has : ν → Bool) (a b : List π) : search norm has (a ++ b) = (search norm has a).or (search norm has b) := by
  simp [search, List.find?_append]

theorem search_filter_ne (has : ν → Bool) (ps : List π) (n : ν) (hn : has n = false) : search norm has (ps.filter (fun q => norm q ≠ n)) = search norm has ps := by
  induction ps with
  | nil => rfl
  | cons p ps ih =>
    unfold search at ih ⊢
    by_cases e : norm p = n
    · rw [List.filter_cons_of_neg (by simpa using e), ih]; simp [e, hn]
    · rw [List.filter_cons_of_pos (by simpa using e)]; simp only [List.map_cons, List.find?_cons]; rw [ih]

/-- Dropping later duplicates does not change what is found. -/
theorem search_firsts (has : ν → Bool) (ps : List π) : search norm has (firsts norm ps) = search norm has ps := by
  induction ps with
  | nil => rfl
  | cons p ps ih =>
    rw [firsts]
    by_cases hp : has (norm p) = true
    · simp [search, hp]
    · have hp : has (norm p) = false := by simpa using hp
      have h1 := search_filter_ne norm has (firsts norm ps) (norm p) hp
      unfold search at ih h1 ⊢
      simp only [List.map_cons, List.find?_cons, hp]
      rw [h1, ih]

/-- **C53, search order.**  After PrependPath a search looks in the new paths first, in their order, and then in the old ones; after AppendPath with delete_existing=False in the old ones first and then in the new ones;
for any file, that is for any set of directories that have it. -/
theorem C53_search_order (has : ν → Bool) (old new : List π) :
    search norm has (prependPath norm empty none true old new).1 = (search norm has (proper empty new)).or (search norm has (proper empty old)) ∧
    search norm has (appendPath norm empty none false old new) = (search norm has (proper empty old)).or (search norm has (proper empty new)) := by
  constructor
  · rw [C53_prependPath, search_firsts]
    have : proper empty (new ++ old) = proper empty new ++ proper empty old := by simp [proper]
    rw [this, search_append]
  · rw [C53_appendPath_keep, search_append]
    cases ho : search norm has (proper empty old) with
    | some x => simp
    | none =>
      simp only [Option.none_or]
      rw [← search_firsts norm has (proper empty new)]
      have hno : ∀ q ∈ proper empty old, has (norm q) = false := by
        intro q hq
        have := List.find?_eq_none.1 ho (norm q) (List.mem_map.2 ⟨q, hq, rfl⟩)
        simpa using this
      generalize firsts norm (proper empty new) = L
      induction L with
      | nil => rfl
      | cons p L ih =>
        unfold search at ih ⊢
        by_cases hp : ∀ q ∈ proper empty old, norm q ≠ norm p
        · rw [List.filter_cons_of_pos (by simpa using hp)]
          simp only [List.map_cons, List.find?_cons]
          rw [ih]
        · rw [List.filter_cons_of_neg (by simpa using hp)]
          push Not at hp
          obtain ⟨q, hq, e⟩ := hp
          have : has (norm p) = false := e ▸ hno q hq
          simp only [List.map_cons, List.find?_cons, this]
          exact ih

/-- **C53, idempotence.**  Adding the same paths again changes nothing, for the two default modes (PrependENVPath, AppendENVPath). -/
theorem C53_idempotent (old new : List π) :
    (prependPath norm empty none true (prependPath norm empty none true old new).1 new).1.map norm = (prependPath norm empty none true old new).1.map norm ∧
    appendPath norm empty none false (appendPath norm empty none false old new) new = appendPath norm empty none false old new := by
  constructor
  · rw [C53_prependPath, C53_prependPath]
    have hfe : ∀ ps : List π, proper empty (firsts norm (proper empty ps)) = firsts norm (proper empty ps) := by
      intro ps; rw [proper, List.filter_eq_self]; intro p hp
      exact (List.mem_filter.1 (mem_firsts norm hp)).2
    have e1 : proper empty (new ++ firsts norm (proper empty (new ++ old))) = proper empty new ++ firsts norm (proper empty (new ++ old)) := by
      rw [proper, List.filter_append]; congr 1; exact hfe _
    have e2 : proper empty (new ++ old) = proper empty new ++ proper empty old := by simp [proper]
    rw [e1, e2]
    generalize proper empty new = N
    generalize proper empty old = O
    -- firsts (N ++ firsts (N ++ O)) = firsts (N ++ O)
    have key : ∀ (N L : List π), firsts norm (N ++ L) = firsts norm N ++ (firsts norm L).filter (fun p => ∀ q ∈ N, norm q ≠ norm p) := by
      intro N
      induction N with
      | nil => intro L; simp [firsts]
      | cons a N ih =>
        intro L
        rw [List.cons_append, firsts, ih, firsts, List.filter_append, List.cons_append, List.filter_filter]
        congr 2
        apply List.filter_congr
        intro p _
        by_cases h1 : norm a = norm p
        · simp [h1]
        · have h1' : ¬ norm p = norm a := fun e => h1 e.symm
          simp [h1, h1']
    rw [key N (firsts norm (N ++ O)), firsts_of_nodup norm (firsts_nodup norm (N ++ O)), key N O, List.filter_append]
    have h0 : (firsts norm N).filter (fun p => ∀ q ∈ N, norm q ≠ norm p) = [] := by
      rw [List.filter_eq_nil_iff]; intro p hp
      simp only [decide_eq_true_eq]
      exact fun h => h p (mem_firsts norm hp) rfl
    rw [h0, List.nil_append, List.filter_filter]
    simp
  · rw [C53_appendPath_keep norm empty (appendPath norm empty none false old new) new]
    have hpr : proper empty (appendPath norm empty none false old new) = appendPath norm empty none false old new := by
      rw [proper, List.filter_eq_self]
      intro p hp
      simpa using (C53_nothing_invented norm empty false old new p (.inr hp)).2
    rw [hpr]
    have : (firsts norm (proper empty new)).filter (fun p => ∀ q ∈ appendPath norm empty none false old new, norm q ≠ norm p) = [] := by
      rw [List.filter_eq_nil_iff]
      intro p hp
      simp only [decide_eq_true_eq]
      intro hall
      obtain ⟨hp1, hp2⟩ := List.mem_filter.1 (mem_firsts norm hp)
      obtain ⟨q, hq, hn⟩ := (C53_nothing_lost norm empty false old new p (.inr hp1) (by simpa using hp2)).2
      exact hall q hq hn
    rw [this, List.append_nil]

/-- Canonicalizing first is the same as passing canonicalized paths. -/
theorem canonicalize_first (f : π → π) (de : Bool) (old new : List π) :
    (prependPath norm empty (some f) de old new).1 = (prependPath norm empty none de old (new.map f)).1 ∧
    appendPath norm empty (some f) de old new = appendPath norm empty none de old (new.map f) := by
  constructor
  · cases de <;> rfl
  · rfl

/-- **C53, the caller's list (partial).**  The list of new paths the caller passed is unchanged, when paths are canonicalized (as by `env.PrependENVPath`) or existing ones deleted.
Missing: without both it is reversed, see `C53_counterexample_callers_list_reversed`. -/
theorem C53_argument_unchanged_partial (c : Option (π → π)) (de : Bool) (old new : List π) (h : c.isSome = true ∨ de = true) :
    (prependPath norm empty c de old new).2 = new := by
  cases c with
  | some f => cases de <;> rfl
  | none => cases de with
    | true => rfl
    | false => simp at h

/-! ## Strings -/

/-- `PrependPath` and `AppendPath` when both arguments are strings: split at `sep`, join the result (envs.py 77-80, 82-83, 130-131). -/
def onStrings (f : List (List Char) → List (List Char) → List (List Char)) (sep : Char) (old new : List Char) : List Char :=
  [sep].intercalate (f (old.splitOn sep) (new.splitOn sep))

/-- The directories a path string stands for. -/
def dirs (sep : Char) (s : List Char) : List (List Char) := proper List.isEmpty (s.splitOn sep)

theorem dirs_join (sep : Char) (ps : List (List Char)) (h1 : ∀ p ∈ ps, sep ∉ p) (h2 : ∀ p ∈ ps, p.isEmpty = false) :
    dirs sep ([sep].intercalate ps) = ps := by
  by_cases e : ps = []
  · subst e; simp [dirs, proper, List.intercalate]
  · rw [dirs, List.splitOn_intercalate sep h1 e, proper, List.filter_eq_self]
    intro p hp; simp [h2 p hp]

theorem not_mem_splitOn (sep : Char) (s p : List Char) (h : p ∈ s.splitOn sep) : sep ∉ p := by
  induction s generalizing p with
  | nil => simp at h; subst h; simp
  | cons c s ih =>
    by_cases e : c = sep
    · subst e
      rw [List.splitOn_cons_eq_if_modifyHead, if_pos (by simp)] at h
      rcases List.mem_cons.1 h with rfl | h
      · simp
      · exact ih p h
    · have hne := List.splitOn_ne_nil (xs := s) sep
      cases hs : s.splitOn sep with
      | nil => exact absurd hs hne
      | cons q qs =>
        rw [List.splitOn_cons_eq_if_modifyHead, if_neg (by simpa using e), hs] at h
        simp only [List.modifyHead_cons] at h
        rcases List.mem_cons.1 h with rfl | h
        · have := ih q (by rw [hs]; exact List.mem_cons_self)
          simp [this, Ne.symm e]
        · exact ih p (by rw [hs]; exact List.mem_cons_of_mem _ h)

/-- **C53, strings.**  On path strings the functions give the string whose directories are what the list versions give: nothing is lost or merged by splitting and joining. -/
theorem C53_strings (norm : List Char → ν) (sep : Char) (de : Bool) (old new : List Char) :
    dirs sep (onStrings (fun o n => (prependPath norm List.isEmpty none de o n).1) sep old new) =
      (prependPath norm List.isEmpty none de (old.splitOn sep) (new.splitOn sep)).1 ∧
    dirs sep (onStrings (appendPath norm List.isEmpty none de) sep old new) = appendPath norm List.isEmpty none de (old.splitOn sep) (new.splitOn sep) := by
  constructor
  · apply dirs_join
    · intro p hp
      rcases (C53_nothing_invented norm List.isEmpty de _ _ p (.inl hp)).1 with h | h <;> exact not_mem_splitOn sep _ p h
    · intro p hp; exact (C53_nothing_invented norm List.isEmpty de _ _ p (.inl hp)).2
  · apply dirs_join
    · intro p hp
      rcases (C53_nothing_invented norm List.isEmpty de _ _ p (.inr hp)).1 with h | h <;> exact not_mem_splitOn sep _ p h
    · intro p hp; exact (C53_nothing_invented norm List.isEmpty de _ _ p (.inr hp)).2

/-! ## Counterexamples and concrete cases -/

/-- **Counterexample.**  `AppendPath(delete_existing=False)` keeps duplicates among the old paths, although each path is to be there only once. -/
theorem C53_counterexample_append_keeps_duplicates : appendPath id String.isEmpty none false ["/a", "/a"] ["/b"] = ["/a", "/a", "/b"] := by decide +kernel

/-- **Counterexample.**  `PrependPath(delete_existing=False)` without canonicalize reverses the list passed by the caller. -/
theorem C53_counterexample_callers_list_reversed : (prependPath id String.isEmpty none false [] ["/a", "/b"]).2 = ["/b", "/a"] := by decide +kernel

/-- **Counterexample.**  Of new paths that are the same, PrependPath is said to leave the first; with delete_existing=False it leaves the last.  AppendPath is said to leave the last; with delete_existing=False it leaves the first. -/
theorem C53_counterexample_which_instance :
    (prependPath id String.isEmpty none false [] ["/a", "/b", "/a"]).1 = ["/b", "/a"] ∧ (prependPath id String.isEmpty none true [] ["/a", "/b", "/a"]).1 = ["/a", "/b"] ∧
    appendPath id String.isEmpty none false [] ["/a", "/b", "/a"] = ["/a", "/b"] ∧ appendPath id String.isEmpty none true [] ["/a", "/b", "/a"] = ["/b", "/a"] := by decide +kernel

/-- The docstrings' examples. -/
theorem C53_nonvacuous :
    (prependPath id String.isEmpty none true ["/foo/bar", "/foo"] ["/biz/boom", "/foo"]).1 = ["/biz/boom", "/foo", "/foo/bar"] ∧
    (prependPath id String.isEmpty none false ["/foo/bar", "/foo"] ["/biz/boom", "/foo"]).1 = ["/biz/boom", "/foo/bar", "/foo"] ∧
    appendPath id String.isEmpty none true ["/foo/bar", "/foo"] ["/biz/boom", "/foo"] = ["/foo/bar", "/biz/boom", "/foo"] ∧
    appendPath id String.isEmpty none false ["/foo/bar", "/foo"] ["/biz/boom", "/foo"] = ["/foo/bar", "/foo", "/biz/boom"] := by decide +kernel

end Verif.Util.Path
