import Verif.FS.DupPlain

/-! # Repositories over a history, and what `srcdir_duplicate` gives (C66) -/

namespace Verif.FS.Variant

/-- The argument of a `Repository` call. -/
def Op.repo? : Op → Option Path
  | .repository r => some r
  | _ => none

theorem step_repos {top : Path} {C C' : Conf} {o : Op} (h : step top C o = some C') :
    (∀ p, p ≠ top → C'.repos p = C.repos p) ∧ C'.repos top = match o.repo? with
      | some r => if r = top ∨ r ∈ C.repos top then C.repos top else C.repos top ++ [r]
      | none => C.repos top := by
  cases o with
  | lookup p => simp only [step, Option.some.injEq] at h; subst h; simp [Op.repo?, (touch_srcdir C p).2.1]
  | variantDir v s dup => have := (C66_variantDir_accepted h).2.2.1; simp [Op.repo?, this]
  | repository r =>
    simp only [step, Option.some.injEq, addRepository] at h
    have e := (touch_srcdir C r).2.1
    subst h
    simp only [Op.repo?, e]
    split
    · rename_i hc
      refine ⟨fun p hp => by simp [clearUnder, hp, e], ?_⟩
      rw [if_neg (by rintro (h | h); exact hc.1 h; exact hc.2 h)]
      simp [clearUnder]
    · rename_i hc
      refine ⟨fun p _ => by rw [e], ?_⟩
      rw [if_pos (by by_contra hh; exact hc ⟨fun h => hh (.inl h), fun h => hh (.inr h)⟩), e]
  | srcdirs d =>
    simp only [step, Option.some.injEq, srcdirListM] at h
    subst h
    split
    · simp [Op.repo?]
    · simp [Op.repo?, (touchAll_srcdir C _).2.1]
  | rdirs d k =>
    simp only [step, allRdirsM] at h
    split at h
    · simp only [Option.map_some, Option.some.injEq] at h; subst h; simp [Op.repo?]
    · cases hl : allRdirs C k d with
      | none => simp [hl] at h
      | some l =>
        simp only [hl, Option.bind_eq_bind, Option.bind_some, Option.map_some, Option.some.injEq] at h
        subst h
        simp [Op.repo?, (touchAll_srcdir C _).2.1]

/-- **C66** After any sequence of calls, the repositories are those given with `Repository`, in the order of the calls, each once, without the top directory; no other directory has any. -/
theorem C66_repositories {top : Path} {ops : List Op} {C : Conf} (h : run top Conf.init ops = some C) :
    C.repos top = ((ops.filterMap Op.repo?).filter (· ≠ top)).eraseDups ∧ ∀ p, p ≠ top → C.repos p = [] := by
  induction ops using List.reverseRecOn generalizing C with
  | nil =>
    simp only [run, List.foldlM_nil, Option.pure_def, Option.some.injEq] at h
    subst h
    exact ⟨rfl, fun _ _ => rfl⟩
  | append_singleton ops o ih =>
    simp only [run, List.foldlM_append, Option.bind_eq_bind, Option.bind_eq_some_iff] at h
    obtain ⟨C1, h1, h2⟩ := h
    simp only [List.foldlM_cons, List.foldlM_nil, Option.bind_eq_bind, Option.bind_eq_some_iff, Option.pure_def, Option.some.injEq] at h2
    obtain ⟨C2, h2, rfl⟩ := h2
    obtain ⟨i1, i2⟩ := ih h1
    obtain ⟨s1, s2⟩ := step_repos h2
    refine ⟨?_, fun p hp => by rw [s1 p hp, i2 p hp]⟩
    rw [s2, List.filterMap_append, List.filter_append, List.eraseDups_append]
    cases hr : o.repo? with
    | none => simp [hr, i1]
    | some r =>
      simp only [List.filterMap_cons, hr, List.filterMap_nil]
      generalize ops.filterMap Op.repo? = L at i1 ⊢
      have hm : r ∈ C1.repos top ↔ r ∈ L.filter (· ≠ top) := by rw [i1, List.mem_eraseDups]
      rw [i1] at hm ⊢
      by_cases ht : r = top
      · simp [ht]
      · by_cases hL : r ∈ L.filter (· ≠ top)
        · rw [if_pos (.inr (hm.2 hL))]
          rw [List.filter_cons_of_pos (by simpa using ht), List.filter_nil]
          simp only [List.removeAll, List.elem_eq_mem, decide_eq_true hL, List.filter_cons, Bool.not_true]
          simp
        · rw [if_neg (by rintro (h | h); exact ht h; exact hL (hm.1 h))]
          rw [List.filter_cons_of_pos (by simpa using ht), List.filter_nil]
          simp only [List.removeAll, List.elem_eq_mem, decide_eq_false hL, List.filter_cons, Bool.not_false]
          simp [List.eraseDups_cons]

/-- `look` of a path not above `d` does not change whether a known `d` duplicates. -/
theorem look_dup {X : S} {p : Path} {b : Bool} {d : Path} (hk : X.conf.known d = true) : (X.look p b).conf.dup d = X.conf.dup d := by
  simp only [S.look]
  generalize X.conf = C at hk ⊢
  induction p with
  | nil => rfl
  | cons n q ih =>
    simp only [touch]
    split
    · exact ih
    · rename_i hn
      dsimp only
      split
      · rename_i he
        exact absurd (he ▸ touch_known_mono C q d hk) hn
      · exact ih

/-- **C66** A name a variant directory has no file of, in a directory that does not duplicate: the answer is the file in the first source directory that has one, the disk is as it was, and nothing counts as copied; when no source directory
has one, there is no answer. -/
theorem C66_srcdir_plain (U : Setup) (k : Nat) {X : S} {d : Path} {n : String} (hk : X.conf.known d = true) (hd : X.conf.dup d = false) (l : List Path) (hu : ∀ s ∈ l, ¬ s <:+ d) :
    ∃ X', srcdirDuplicate U k X d n l = some (X', (l.find? fun s => (X.disk.obj (n :: s)).isSome).map (n :: ·)) ∧ X'.disk = X.disk ∧ X'.linked = X.linked := by
  induction l with
  | nil => exact ⟨X, rfl, rfl, rfl⟩
  | cons s ss ih =>
    have h1 : isUnder d s = false := by rw [← Bool.not_eq_true, isUnder_iff]; exact hu s (by simp)
    simp only [srcdirDuplicate, h1, Bool.false_eq_true, if_false]
    by_cases ho : X.disk.obj (n :: s) = none
    · simp only [ho, ne_eq, not_true, if_false, List.find?_cons, Option.isSome_none]
      exact ih fun s hs => hu s (by simp [hs])
    · have hs : (X.disk.obj (n :: s)).isSome = true := by cases h : X.disk.obj (n :: s) <;> simp_all
      rw [if_pos ho]
      have hdup := look_dup (p := n :: s) (b := decide (stat X.disk (n :: s) = some .dir)) hk
      rw [hd] at hdup
      rw [hdup]
      simp only [Bool.false_eq_true, if_false, List.find?_cons, hs, Option.map_some]
      exact ⟨_, rfl, rfl, rfl⟩

/-- **C66** And in a directory that duplicates, when the name's node is not a directory's: the answer is the name in the variant directory itself, copied from the first source directory that has one. -/
theorem C66_srcdir_dup {U : Setup} {k : Nat} {X X' : S} {d : Path} {n : String} {o : Option Path} (hk : X.conf.known d = true) (hd : X.conf.dup d = true) (l : List Path) (hu : ∀ s ∈ l, ¬ s <:+ d)
    (h : srcdirDuplicate U k X d n l = some (X', o)) :
    (o = none ∧ X' = X ∧ ∀ s ∈ l, X.disk.obj (n :: s) = none) ∨
      o = some (n :: d) ∧ ∃ s X1, (l.find? fun s => (X.disk.obj (n :: s)).isSome) = some s ∧ X1.disk = X.disk ∧ X1.linked = X.linked ∧ duplicateNode U k X1 (n :: d) (n :: s) = some X' := by
  induction l with
  | nil =>
    simp only [srcdirDuplicate, Option.some.injEq, Prod.mk.injEq] at h
    exact .inl ⟨h.2.symm, h.1.symm, by simp⟩
  | cons s ss ih =>
    have h1 : isUnder d s = false := by rw [← Bool.not_eq_true, isUnder_iff]; exact hu s (by simp)
    simp only [srcdirDuplicate, h1, Bool.false_eq_true, if_false] at h
    by_cases ho : X.disk.obj (n :: s) = none
    · simp only [ho, ne_eq, not_true, if_false, List.find?_cons, Option.isSome_none] at h ⊢
      rcases ih (fun s hs => hu s (by simp [hs])) h with ⟨a, b, c⟩ | h
      · exact .inl ⟨a, b, fun t ht => by rcases List.mem_cons.1 ht with rfl | ht; exact ho; exact c t ht⟩
      · exact .inr h
    · have hs : (X.disk.obj (n :: s)).isSome = true := by cases h : X.disk.obj (n :: s) <;> simp_all
      rw [if_pos ho] at h
      have hdup := look_dup (p := n :: s) (b := decide (stat X.disk (n :: s) = some .dir)) hk
      rw [hd] at hdup
      rw [hdup] at h
      simp only [if_true, Option.map_eq_some_iff, Prod.mk.injEq] at h
      obtain ⟨X2, h2, rfl, rfl⟩ := h
      refine .inr ⟨rfl, s, _, by simp [List.find?_cons, hs], ?_, ?_, h2⟩ <;> rfl

/-- A case. -/
theorem C66_srcdir_nonvacuous : ∃ C, run ["top"] Conf.init [.variantDir ["build", "top"] ["src", "top"] false, .repository ["rep"], .repository ["rep2"], .repository ["rep"], .repository ["top"]] = some C ∧
    C.repos ["top"] = [["rep"], ["rep2"]] ∧ C.known ["build", "top"] = true ∧ C.dup ["build", "top"] = false ∧ srcdirList C ["build", "top"] = [["src", "top"]] ∧ ¬ ["src", "top"] <:+ ["build", "top"] :=
  ⟨_, rfl, rfl, rfl, rfl, rfl, by decide⟩

end Verif.FS.Variant
