import Verif.Util.Path

/-!
# Locating a tool (C129)

Models `find_program_path` (SCons/Tool/__init__.py 900-938) on `AppendENVPath` (C53; `delete_existing` is false) and `WhereIs` (Util/__init__.py 768-799, Environment.py 2354-2404; C85), for one program: what counts of a file system is which directories have it.
The first word of what `subst` makes of the name is the name; there is a `PATH` in `ENV`.
-/

namespace Verif.Util.FindProg
open Verif.Util.Path

/-- The world: directories are written `π`. -/
structure World (π ν : Type) where
  /-- The program is there, and can be run. -/
  has : π → Bool
  /-- `os.path.dirname(os.path.normpath(os.path.join(p, key_program)))` -/
  dirOf : π → π
  /-- `os.path.normpath(os.path.normcase(p))` -/
  norm : π → ν
  /-- `not p` -/
  empty : π → Bool
  /-- `env._canonicalize` (Environment.py 1674-1683) -/
  canon : π → π

variable {π ν : Type} [DecidableEq ν] (W : World π ν)

/-- `WhereIs`: the directory of the program that is found. -/
def whereIs (path : List π) : Option π := (path.find? W.has).map W.dirOf

/-- `env.AppendENVPath('PATH', ...)` -/
def append (path new : List π) : List π := appendPath W.norm W.empty (some W.canon) false path new

/-- `find_program_path`: the directory of what is found, and the `PATH` in `ENV` afterwards.  Each of the defaults may have several directories. -/
def find (env os : List π) (defaults : Option (List (List π))) (add : Bool) : Option π × List π :=
  match whereIs W env with
  | some d => (some d, env)
  | none => match whereIs W os with
    | some d => (some d, if add then append W env [d] else env)
    | none => match defaults with
      | none => (none, env)
      | some ds =>
        match whereIs W (ds.foldl (append W) env) with
        | some d => (some d, if add then append W env [d] else env)
        | none => (none, env)

/-! ## Specification -/

/-- What is known of paths: two that are the same when normalised are one directory. -/
def World.Fair : Prop := ∀ p q, W.norm p = W.norm q → W.has p = W.has q

/-- The directories that are asked, in order. -/
def asked (env os : List π) (defaults : Option (List (List π))) : List π :=
  env ++ os ++ ((defaults.getD []).flatten.map W.canon).filter fun p => !W.empty p

/-! ## Proofs -/

theorem uniq_find (hW : W.Fair) (ys : List π) (seen : List ν) (hs : ∀ p, W.norm p ∈ seen → W.has p = false) :
    (uniq W.norm W.empty seen ys).find? W.has = (ys.filter fun p => !W.empty p).find? W.has := by
  induction ys generalizing seen with
  | nil => rfl
  | cons y ys ih =>
    unfold uniq
    by_cases he : W.empty y = true
    · rw [if_pos he, List.filter_cons_of_neg (by simp [he]), ih seen hs]
    · rw [if_neg he, List.filter_cons_of_pos (by simp [he])]
      by_cases hm : W.norm y ∈ seen
      · rw [if_pos hm, List.find?_cons_of_neg (by simp [hs y hm]), ih seen hs]
      · rw [if_neg hm]
        by_cases hy : W.has y = true
        · rw [List.find?_cons_of_pos hy, List.find?_cons_of_pos hy]
        · rw [List.find?_cons_of_neg hy, List.find?_cons_of_neg hy]
          apply ih
          intro p hp
          rw [List.mem_append, List.mem_singleton] at hp
          rcases hp with hp | hp
          · exact hs p hp
          · rw [hW p y hp]; simpa using hy

theorem append_eq (P xs : List π) : append W P xs = P.filter (fun p => !W.empty p) ++ uniq W.norm W.empty ((P.filter fun p => !W.empty p).map W.norm) (xs.map W.canon) := rfl

theorem append_find (hW : W.Fair) (P xs : List π) : (append W P xs).find? W.has = (P.filter (fun p => !W.empty p) ++ (xs.map W.canon).filter fun p => !W.empty p).find? W.has := by
  rw [append_eq, List.find?_append, List.find?_append]
  rcases h : (P.filter fun p => !W.empty p).find? W.has with _ | p
  · rw [Option.none_or, Option.none_or]
    apply uniq_find W hW
    intro p hp
    obtain ⟨q, hq, e⟩ := List.mem_map.1 hp
    rw [hW p q e.symm]
    simpa using List.find?_eq_none.1 h q hq
  · rfl

theorem append_proper (P xs : List π) : ∀ p ∈ append W P xs, W.empty p = false := by
  intro p hp
  rw [append_eq, List.mem_append] at hp
  rcases hp with hp | hp
  · simpa using (List.mem_filter.1 hp).2
  · generalize (P.filter fun p => !W.empty p).map W.norm = seen at hp
    generalize xs.map W.canon = ys at hp
    induction ys generalizing seen with
    | nil => cases hp
    | cons y ys ih =>
      unfold uniq at hp
      split at hp
      · exact ih _ hp
      · rename_i he
        split at hp
        · exact ih _ hp
        · rcases List.mem_cons.1 hp with rfl | hp
          · simpa using he
          · exact ih _ hp

omit [DecidableEq ν] in
theorem drop_empty (P l : List π) (hP : ∀ p ∈ P, W.empty p = true → W.has p = false) : (P.filter (fun p => !W.empty p) ++ l).find? W.has = (P ++ l).find? W.has := by
  induction P with
  | nil => rfl
  | cons p P ih =>
    have ih := ih fun q hq => hP q (by simp [hq])
    by_cases he : W.empty p = true
    · rw [List.filter_cons_of_neg (by simp [he]), List.cons_append, List.find?_cons_of_neg (by simp [hP p (by simp) he]), ih]
    · rw [List.filter_cons_of_pos (by simp [he]), List.cons_append, List.cons_append, List.find?_cons, List.find?_cons, ih]

theorem fold_find (hW : W.Fair) (ds : List (List π)) (P : List π) (hP : ∀ p ∈ P, W.empty p = true → W.has p = false) :
    (ds.foldl (append W) P).find? W.has = (P ++ (ds.flatten.map W.canon).filter fun p => !W.empty p).find? W.has := by
  induction ds generalizing P with
  | nil => simp
  | cons x ds ih =>
    rw [List.foldl_cons, ih _ fun p hp he => by rw [append_proper W P x p hp] at he; cases he]
    rw [List.find?_append, append_find W hW, ← List.find?_append, List.append_assoc, drop_empty W _ _ hP]
    simp

omit [DecidableEq ν] in
theorem none_of {l : List π} (h : whereIs W l = none) : l.find? W.has = none := by
  unfold whereIs at h
  simpa using h

/-- What is found is in the first directory that has it: of those in `PATH`, then of those of the environment of SCons, then of the defaults.  Nothing is found only if none has it. -/
theorem C129_found (hW : W.Fair) (env os : List π) (defaults : Option (List (List π))) (add : Bool) :
    (find W env os defaults add).1 = ((asked W env os defaults).find? W.has).map W.dirOf := by
  unfold find asked
  rw [List.append_assoc, List.find?_append, List.find?_append]
  rcases h1 : whereIs W env with _ | d
  · have n1 := none_of W h1
    rw [n1, Option.none_or]
    simp only
    rcases h2 : whereIs W os with _ | d
    · have n2 := none_of W h2
      rw [n2, Option.none_or]
      simp only
      cases defaults with
      | none => rfl
      | some ds =>
        have hf := fold_find W hW ds env fun p hp _ => by simpa using List.find?_eq_none.1 n1 p hp
        rw [List.find?_append, n1, Option.none_or] at hf
        have : whereIs W (ds.foldl (append W) env) = (((ds.flatten.map W.canon).filter fun p => !W.empty p).find? W.has).map W.dirOf := by
          unfold whereIs; rw [hf]
        simp only [Option.getD_some]
        rw [← this]
        cases whereIs W (ds.foldl (append W) env) <;> rfl
    · unfold whereIs at h2
      rw [Option.map_eq_some_iff] at h2
      obtain ⟨p, hp, rfl⟩ := h2
      rw [hp]; rfl
  · unfold whereIs at h1
    rw [Option.map_eq_some_iff] at h1
    obtain ⟨p, hp, rfl⟩ := h1
    rw [hp]; rfl

/-- The `PATH` of commands stays as it is if nothing should be added, if nothing is found, and if it finds the program already. -/
theorem C129_kept (env os : List π) (defaults : Option (List (List π))) (add : Bool)
    (h : add = false ∨ (find W env os defaults add).1 = none ∨ ∃ p ∈ env, W.has p = true) : (find W env os defaults add).2 = env := by
  unfold find at h ⊢
  rcases h1 : whereIs W env with _ | d
  · have n1 := none_of W h1
    rw [h1] at h
    simp only at h ⊢
    have hno : ¬ ∃ p ∈ env, W.has p = true := fun ⟨p, hp, e⟩ => List.find?_eq_none.1 n1 p hp e
    rcases h2 : whereIs W os with _ | d
    · rw [h2] at h
      simp only at h ⊢
      cases defaults with
      | none => rfl
      | some ds =>
        simp only at h ⊢
        rcases h3 : whereIs W (ds.foldl (append W) env) with _ | d
        · rfl
        · rw [h3] at h
          rcases h with rfl | h | h
          · rfl
          · cases h
          · exact absurd h hno
    · rw [h2] at h
      rcases h with rfl | h | h
      · rfl
      · cases h
      · exact absurd h hno
  · rfl

/-- With `add_path`, commands find the same program afterwards, and the old directories are still asked first.  (What is missing: programs in the current directory, see the counterexample.) -/
theorem C129_added_partial (hW : W.Fair) (env os : List π) (defaults : Option (List (List π))) (d : π)
    (hf : (find W env os defaults true).1 = some d)
    (hd : W.empty d = false ∧ W.has d = true ∧ W.dirOf d = d ∧ W.canon d = d) :
    whereIs W (find W env os defaults true).2 = some d ∧ (env.filter fun p => !W.empty p) <+: (find W env os defaults true).2.filter fun p => !W.empty p := by
  obtain ⟨he, hh, hdd, hc⟩ := hd
  have key : whereIs W env = none → whereIs W (append W env [d]) = some d := by
    intro h1
    have n1 := none_of W h1
    have := append_find W hW env [d]
    rw [drop_empty W _ _ (fun p hp _ => by simpa using List.find?_eq_none.1 n1 p hp), List.find?_append, n1, Option.none_or] at this
    unfold whereIs
    rw [this]
    simp [hc, he, hh, hdd]
  have pre : (env.filter fun p => !W.empty p) <+: (append W env [d]).filter fun p => !W.empty p := by
    rw [append_eq, List.filter_append, List.filter_filter]
    simp only [Bool.and_self]
    exact List.prefix_append _ _
  unfold find at hf ⊢
  rcases h1 : whereIs W env with _ | x
  · rw [h1] at hf
    simp only at hf ⊢
    rcases h2 : whereIs W os with _ | x
    · rw [h2] at hf
      simp only at hf ⊢
      cases defaults with
      | none => cases hf
      | some ds =>
        simp only at hf ⊢
        rcases h3 : whereIs W (ds.foldl (append W) env) with _ | x
        · rw [h3] at hf; cases hf
        · rw [h3] at hf
          injection hf with hf
          subst hf
          exact ⟨key h1, pre⟩
    · rw [h2] at hf
      injection hf with hf
      subst hf
      exact ⟨key h1, pre⟩
  · rw [h1] at hf
    injection hf with hf
    subst hf
    exact ⟨h1, List.prefix_refl _⟩

/-! ## Cases -/

/-- Some directories, with `yacc` in some. -/
def world (l : List String) : World String String where
  has p := p ∈ l
  dirOf p := if p = "." then "" else p
  norm p := if p = "" then "." else p
  empty p := p = ""
  canon p := p

theorem world_fair (l : List String) (h : "." ∈ l ↔ "" ∈ l) : (world l).Fair := by
  intro p q e
  have e : (if p = "" then "." else p) = (if q = "" then "." else q) := e
  show decide (p ∈ l) = decide (q ∈ l)
  split at e <;> split at e
  · subst_vars; rfl
  · subst_vars; rw [decide_eq_decide]; exact h.symm
  · subst_vars; rw [decide_eq_decide]; exact h
  · rw [e]

/-- The hypotheses are met. -/
theorem C129_sample : find (world ["/opt/b", "/opt/c"]) ["/bin"] ["/usr/bin"] (some [["/opt/a", "/opt/b"], ["/opt/c"]]) true = (some "/opt/b", ["/bin", "/opt/b"]) ∧
    whereIs (world ["/opt/b", "/opt/c"]) ["/bin", "/opt/b"] = some "/opt/b" := by
  have e : find (world ["/opt/b", "/opt/c"]) ["/bin"] ["/usr/bin"] (some [["/opt/a", "/opt/b"], ["/opt/c"]]) true = (some "/opt/b", ["/bin", "/opt/b"]) := by decide +kernel
  have h := (C129_added_partial (world ["/opt/b", "/opt/c"]) (world_fair _ (by decide)) ["/bin"] ["/usr/bin"] (some [["/opt/a", "/opt/b"], ["/opt/c"]]) "/opt/b" (by rw [e]) (by decide +kernel)).1
  rw [e] at h
  exact ⟨e, h⟩

theorem C129_sample_kept : (find (world ["/opt/b"]) ["/bin"] ["/usr/bin"] (some [["/opt/b"]]) false).2 = ["/bin"] ∧ (find (world ["/opt/b"]) ["/bin"] ["/usr/bin"] (some [["/opt/b"]]) false).1 = some "/opt/b" :=
  ⟨C129_kept _ _ _ _ _ (.inl rfl), by rw [C129_found _ (world_fair _ (by decide))]; decide +kernel⟩

/-! ## Where it fails -/

/-- A program that is found through `.` in the search path of SCons has no directory in its name: with `add_path` nothing is added, and commands do not find it. -/
theorem C129_current_counterexample : find (world [".", ""]) ["/bin"] ["."] none true = (some "", ["/bin"]) ∧ whereIs (world [".", ""]) ["/bin"] = none := by decide +kernel

/-- The directories in `PATH` are rewritten when one is added: an empty one, the current directory, is lost. -/
theorem C129_empty_counterexample : (find (world ["/opt/b"]) ["", "/bin"] ["/opt/b"] none true).2 = ["/bin", "/opt/b"] := by decide +kernel

end Verif.Util.FindProg
