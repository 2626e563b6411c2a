import Verif.Env.Flags

set_option linter.unusedSimpArgs false
set_option linter.unusedVariables false

namespace Verif.Env.Flags

/-! ## ParseFlags -/

/-- The options whose argument is the next word. -/
def takesArgument (a : Str) : Bool :=
  a ∈ ["-L".toList, "-l".toList, "-I".toList, "-D".toList, "-F".toList, "-framework".toList, "-dylib_file".toList, "-include".toList, "-imacros".toList, "-isysroot".toList,
    "-isystem".toList, "-iquote".toList, "-idirafter".toList, "-arch".toList, "--param".toList]

/-- The words of a string grouped into flags: an option with its argument, or a word of its own; `none` if the last option lacks its argument. -/
def units : List Str → Option (List (List Str))
  | [] => some []
  | [a] => if takesArgument a then none else some [[a]]
  | a :: b :: r => if takesArgument a then (units r).map ([a, b] :: ·) else (units (b :: r)).map ([a] :: ·)

/-- The elements of variable `v`. -/
def ofVar (es : List (Var × Ent)) (v : Var) : List Ent := (es.filter fun e => e.1 = v).map Prod.snd

/-- The flag `u` is distributed as `es`: to one variable at least, and in each it is the flag itself, maybe in another spelling. -/
def Distributed (u : List Str) (es : List (Var × Ent)) : Prop :=
  es ≠ [] ∧ ∀ v, ofVar es v ≠ [] → Same u ((ofVar es v).flatMap (render v))

theorem take_drop {a p : Str} {n : Nat} (h : a.take n = p) : a = p ++ a.drop n := by rw [← h, List.take_append_drop]

theorem take_of_prefix {a p q : Str} {n k : Nat} (h : a.take n = p) (hk : k ≤ n) (hq : p.take k = q) : a.take k = q := by
  rw [← hq, ← h, List.take_take, Nat.min_eq_left hk]

theorem render_define (s : Str) : render .cppdefines (mkDefine s) = ["-D".toList ++ s] := by
  unfold mkDefine
  split
  · rename_i h
    simp only [render, List.append_assoc]
    congr 2
    have h1 := List.takeWhile_append_dropWhile (p := fun c : Char => decide (c ≠ '=')) (l := s)
    have h2 : s.dropWhile (fun c => decide (c ≠ '=')) = '=' :: (s.dropWhile (fun c => decide (c ≠ '='))).drop 1 := by
      clear h1
      induction s with
      | nil => cases h
      | cons c r ih =>
        by_cases hc : c = '='
        · subst hc; rfl
        · rw [List.dropWhile_cons_of_pos (by simpa using hc)]
          exact ih (by simpa [Ne.symm hc] using h)
    rw [← h2, h1]
  · rfl

theorem mkDefine_var (s : Str) : ∀ v, ofVar [(.cppdefines, mkDefine s)] v ≠ [] → v = .cppdefines := by
  intro v; cases v <;> simp [ofVar]

theorem distributed_one (u : List Str) (v : Var) (e : Ent) (h : Same u (render v e)) : Distributed u [(v, e)] := by
  refine ⟨by simp, fun w hw => ?_⟩
  by_cases hv : v = w
  · subst hv; simpa [ofVar] using h
  · simp [ofVar, hv] at hw

theorem distributed_two (u : List Str) (v v' : Var) (e e' : Ent) (hne : v ≠ v') (h : Same u (render v e)) (h' : Same u (render v' e')) : Distributed u [(v, e), (v', e')] := by
  refine ⟨by simp, fun w hw => ?_⟩
  by_cases hv : v = w
  · subst hv
    simpa [ofVar, hne.symm] using h
  · by_cases hv' : v' = w
    · subst hv'; simpa [ofVar, hne] using h'
    · simp [ofVar, hv, hv'] at hw

theorem ite_elim {α : Type} (P : α → Prop) {c : Prop} [Decidable c] {x y : α} (h1 : c → P x) (h2 : ¬ c → P y) : P (if c then x else y) := by
  split
  · exact h1 ‹_›
  · exact h2 ‹_›

theorem opts_take : ∀ a ∈ ["-include".toList, "-imacros".toList, "-isysroot".toList, "-isystem".toList, "-iquote".toList, "-idirafter".toList, "-arch".toList, "--param".toList],
    takesArgument a = true := by decide +kernel

/-- A word that is a flag of its own. -/
theorem first_single {a : Str} (h0 : a ≠ []) (ht : takesArgument a = false) : ∃ es, first a = some (es, none) ∧ Distributed [a] es := by
  have ne : ∀ o : Str, takesArgument o = true → a ≠ o := by rintro o ho rfl; rw [ho] at ht; cases ht
  have nodrop : ∀ {o : Str} {n : Nat}, a.take n = o → takesArgument o = true → a.drop n ≠ [] := by
    intro o n h ho hd
    have := take_drop h
    rw [hd, List.append_nil] at this
    exact ne o ho this
  have att : ∀ {o : Str} {n : Nat} {v : Var}, a.take n = o → (∀ s, render v (.word s) = [o ++ s]) → Distributed [a] [(v, .word (a.drop n))] := by
    intro o n v h hr
    refine distributed_one _ _ _ ?_
    rw [hr, ← take_drop h]
    exact .refl _
  have self1 : ∀ v : Var, render v (.word a) = [a] → Distributed [a] [(v, .word a)] := fun v hv => distributed_one _ _ _ (by rw [hv]; exact .refl _)
  let P : Option (List (Var × Ent) × Option Wait) → Prop := fun o => ∃ es, o = some (es, none) ∧ Distributed [a] es
  show P (first a)
  unfold first
  refine ite_elim P (fun h => absurd h h0) fun _ => ?_
  refine ite_elim P (fun h => ?_) fun _ => ?_
  · exact ⟨_, rfl, distributed_one _ _ _ (.refl _)⟩
  refine ite_elim P (fun h => ?_) fun _ => ?_
  · exact absurd h (ne _ (by decide))
  refine ite_elim P (fun h => ?_) fun _ => ?_
  · unfold attached; rw [if_pos (nodrop h (by decide))]; exact ⟨_, rfl, att h fun s => rfl⟩
  refine ite_elim P (fun h => ?_) fun _ => ?_
  · unfold attached; rw [if_pos (nodrop h (by decide))]; exact ⟨_, rfl, att h fun s => rfl⟩
  refine ite_elim P (fun h => ?_) fun _ => ?_
  · unfold attached; rw [if_pos (nodrop h (by decide))]; exact ⟨_, rfl, att h fun s => rfl⟩
  refine ite_elim P (fun h => ?_) fun _ => ?_
  · refine ⟨_, rfl, distributed_two _ _ _ _ _ (by decide) ?_ (.refl _)⟩
    have : render .asflags (.word (a.drop 4)) = [a] := by
      show ["-Wa,".toList ++ a.drop 4] = [a]
      rw [← take_drop h]
    rw [this]; exact .refl _
  refine ite_elim P (fun h => ?_) fun _ => ?_
  · refine ite_elim P (fun h => ?_) fun _ => ?_
    · exact ⟨_, rfl, att h fun s => rfl⟩
    refine ite_elim P (fun h => ?_) fun _ => ?_
    · refine ⟨_, rfl, distributed_one _ _ _ ?_⟩
      have : Same ["-Wl,-R,".toList ++ a.drop 7] (render .rpath (.word (a.drop 7))) := .rcomma _
      rwa [← take_drop h] at this
    refine ite_elim P (fun h => ?_) fun _ => ?_
    · refine ⟨_, rfl, distributed_one _ _ _ ?_⟩
      have : Same ["-Wl,-R".toList ++ a.drop 6] (render .rpath (.word (a.drop 6))) := .r _
      rwa [← take_drop h] at this
    · exact ⟨_, rfl, self1 _ rfl⟩
  refine ite_elim P (fun h => ?_) fun _ => ?_
  · exact ⟨_, rfl, self1 _ rfl⟩
  refine ite_elim P (fun h => ?_) fun _ => ?_
  · rw [if_pos (nodrop h (by decide))]
    refine ⟨_, rfl, distributed_one _ _ _ ?_⟩
    rw [render_define, ← take_drop h]; exact .refl _
  refine ite_elim P (fun h => ?_) fun _ => ?_
  · exact absurd h (ne _ (by decide))
  refine ite_elim P (fun h => ?_) fun _ => ?_
  · refine ⟨_, rfl, distributed_one _ _ _ ?_⟩
    have : Same ["-frameworkdir=".toList ++ a.drop 14] (render .frameworkpath (.word (a.drop 14))) := .frameworkdir _
    rwa [← take_drop h] at this
  refine ite_elim P (fun h => ?_) fun _ => ?_
  · unfold attached; rw [if_pos (nodrop h (by decide))]; exact ⟨_, rfl, att h fun s => rfl⟩
  refine ite_elim P (fun h => ?_) fun _ => ?_
  · exact ⟨_, rfl, distributed_two _ _ _ _ _ (by decide) (.refl _) (.refl _)⟩
  refine ite_elim P (fun h => ?_) fun _ => ?_
  · exact ⟨_, rfl, self1 _ rfl⟩
  refine ite_elim P (fun h => ?_) fun _ => ?_
  · refine ⟨_, rfl, self1 _ ?_⟩
    split <;> rfl
  refine ite_elim P (fun h => ?_) fun _ => ?_
  · exact ⟨_, rfl, self1 _ rfl⟩
  refine ite_elim P (fun h => ?_) fun _ => ?_
  · exact ⟨_, rfl, distributed_two _ _ _ _ _ (by decide) (.refl _) (.refl _)⟩
  refine ite_elim P (fun h => ?_) fun _ => ?_
  · exfalso
    rw [opts_take a h] at ht; cases ht
  · exact ⟨_, rfl, self1 _ rfl⟩

/-- An option and its argument. -/
theorem first_pair {a : Str} (b : Str) (ht : takesArgument a = true) : ∃ es w, first a = some (es, some w) ∧ Distributed [a, b] (es ++ second w b) := by
  simp only [takesArgument, List.mem_cons, List.not_mem_nil, or_false, decide_eq_true_eq] at ht
  have ap : ∀ {o : Str} {v : Var}, o ∈ ["-L".toList, "-l".toList, "-I".toList, "-D".toList, "-F".toList] → (∀ s, render v (.word s) = [o ++ s]) → Distributed [o, b] [(v, .word b)] := by
    intro o v ho hr
    refine distributed_one _ _ _ ?_
    rw [hr]; exact .apart _ _ ho
  rcases ht with rfl | rfl | rfl | rfl | rfl | rfl | rfl | rfl | rfl | rfl | rfl | rfl | rfl | rfl | rfl
  · exact ⟨[], .var .libpath, by decide +kernel, ap (by simp) fun s => rfl⟩
  · exact ⟨[], .var .libs, by decide +kernel, ap (by simp) fun s => rfl⟩
  · exact ⟨[], .var .cpppath, by decide +kernel, ap (by simp) fun s => rfl⟩
  · refine ⟨[], .var .cppdefines, by decide +kernel, distributed_one _ _ _ ?_⟩
    rw [render_define]; exact .apart _ _ (by simp)
  · exact ⟨[], .var .frameworkpath, by decide +kernel, ap (by simp) fun s => rfl⟩
  · exact ⟨[], .var .frameworks, by decide +kernel, distributed_one _ _ _ (.refl _)⟩
  · refine ⟨[(.linkflags, .word "-dylib_file".toList)], .var .linkflags, by decide +kernel, by simp, fun v hv => ?_⟩
    have : v = .linkflags := by cases v <;> simp [ofVar, second] at hv ⊢
    subst this
    exact .refl _
  · exact ⟨[], .opt "-include".toList, by decide +kernel, distributed_one _ _ _ (.refl _)⟩
  · exact ⟨[], .opt "-imacros".toList, by decide +kernel, distributed_one _ _ _ (.refl _)⟩
  · exact ⟨[], .opt "-isysroot".toList, by decide +kernel, distributed_two _ _ _ _ _ (by decide) (.refl _) (.refl _)⟩
  · exact ⟨[], .opt "-isystem".toList, by decide +kernel, distributed_one _ _ _ (.refl _)⟩
  · exact ⟨[], .opt "-iquote".toList, by decide +kernel, distributed_one _ _ _ (.refl _)⟩
  · exact ⟨[], .opt "-idirafter".toList, by decide +kernel, distributed_one _ _ _ (.refl _)⟩
  · exact ⟨[], .opt "-arch".toList, by decide +kernel, distributed_two _ _ _ _ _ (by decide) (.refl _) (.refl _)⟩
  · exact ⟨[], .opt "--param".toList, by decide +kernel, distributed_one _ _ _ (.refl _)⟩

/-- **C65, no flag is lost, made up or moved.**  If no option lacks its argument and no flag is the empty word, `ParseFlags` of a string distributes its flags one after the other: each goes to at least one
variable, and in every variable it goes to it is that flag. -/
theorem C65_every_flag_arrives (ws : List Str) {us : List (List Str)} (hu : units ws = some us) (h0 : [[]] ∉ us) :
    ∃ ess, parseWords none ws = some ess.flatten ∧ List.Forall₂ Distributed us ess := by
  induction ws using units.induct generalizing us with
  | case1 => simp only [units, Option.some.injEq] at hu; subst hu; exact ⟨[], rfl, .nil⟩
  | case2 a h => simp [units, h] at hu
  | case3 a h =>
    simp only [units, h, Bool.false_eq_true, if_false, Option.some.injEq] at hu
    subst hu
    obtain ⟨es, h1, h2⟩ := first_single (a := a) (by rintro rfl; exact h0 (by simp)) (by simpa using h)
    exact ⟨[es], by simp [parseWords, h1], .cons h2 .nil⟩
  | case4 a b r h ih =>
    simp only [units, h, if_true, Option.map_eq_some_iff] at hu
    obtain ⟨us', hu', rfl⟩ := hu
    obtain ⟨ess, i1, i2⟩ := ih hu' (by intro hm; exact h0 (List.mem_cons_of_mem _ hm))
    obtain ⟨es, w, h1, h2⟩ := first_pair b h
    exact ⟨(es ++ second w b) :: ess, by simp [parseWords, h1, i1], .cons h2 i2⟩
  | case5 a b r h ih =>
    simp only [units, h, Bool.false_eq_true, if_false, Option.map_eq_some_iff] at hu
    obtain ⟨us', hu', rfl⟩ := hu
    obtain ⟨ess, i1, i2⟩ := ih hu' (by intro hm; exact h0 (List.mem_cons_of_mem _ hm))
    obtain ⟨es, h1, h2⟩ := first_single (a := a) (by rintro rfl; exact h0 (by simp)) (by simpa using h)
    exact ⟨es :: ess, by rw [parseWords.eq_def]; simp [h1, i1], .cons h2 i2⟩

/-- **C65, one string or several.**  A string of flags may be cut anywhere but between an option and its argument: the result is the same. -/
theorem C65_strings_may_be_joined (xs ys : List Str) (h : (units xs).isSome) :
    parseWords none (xs ++ ys) = match parseWords none xs, parseWords none ys with
      | some a, some b => some (a ++ b)
      | _, _ => none := by
  induction xs using units.induct with
  | case1 => simp only [List.nil_append, parseWords]; cases parseWords none ys <;> simp
  | case2 a h' => simp [units, h'] at h
  | case3 a h' =>
    by_cases ha : a = []
    · subst ha
      have : first [] = none := rfl
      simp [parseWords, this]
    · obtain ⟨es, h1, -⟩ := first_single ha (by simpa using h')
      simp only [List.cons_append, List.nil_append, parseWords, h1]
      cases parseWords none ys <;> simp
  | case4 a b r h' ih =>
    obtain ⟨es, w, h1, -⟩ := first_pair b h'
    have ih := ih (by simpa [units, h'] using h)
    simp only [List.cons_append, parseWords, h1, ih]
    cases parseWords none r <;> cases parseWords none ys <;> simp
  | case5 a b r h' ih =>
    have ih := ih (by simpa [units, h'] using h)
    by_cases ha : a = []
    · subst ha
      have : first [] = none := rfl
      simp [parseWords, this]
    · obtain ⟨es, h1, -⟩ := first_single ha (by simpa using h')
      have e : ∀ zs, parseWords none (a :: zs) = (parseWords none zs).map (es ++ ·) := by
        intro zs; rw [parseWords.eq_def]; simp only [h1]
      rw [List.cons_append, e, e, ih]
      cases parseWords none (b :: r) <;> cases parseWords none ys <;> simp

/-- **C65, where flags go**: the table of the manual, for all arguments. -/
theorem C65_table (x : Str) (hx : x ≠ []) (a : Str) :
    parseWords none ["-I".toList ++ x] = some [(.cpppath, .word x)] ∧ parseWords none ["-I".toList, a] = some [(.cpppath, .word a)] ∧
    parseWords none ["-L".toList ++ x] = some [(.libpath, .word x)] ∧ parseWords none ["-L".toList, a] = some [(.libpath, .word a)] ∧
    parseWords none ["-l".toList ++ x] = some [(.libs, .word x)] ∧ parseWords none ["-l".toList, a] = some [(.libs, .word a)] ∧
    parseWords none ["-D".toList ++ x] = some [(.cppdefines, mkDefine x)] ∧ parseWords none ["-D".toList, a] = some [(.cppdefines, mkDefine a)] ∧
    parseWords none ["-F".toList ++ x] = some [(.frameworkpath, .word x)] ∧ parseWords none ["-F".toList, a] = some [(.frameworkpath, .word a)] ∧
    parseWords none ["-framework".toList, a] = some [(.frameworks, .word a)] ∧ parseWords none ["-frameworkdir=".toList ++ a] = some [(.frameworkpath, .word a)] ∧
    parseWords none ["-Wa,".toList ++ a] = some [(.asflags, .word a), (.ccflags, .word ("-Wa,".toList ++ a))] ∧
    parseWords none ["-Wp,".toList ++ a] = some [(.cppflags, .word ("-Wp,".toList ++ a))] ∧
    parseWords none ["-Wl,-rpath=".toList ++ a] = some [(.rpath, .word a)] ∧ parseWords none ["-Wl,-R,".toList ++ a] = some [(.rpath, .word a)] ∧
    parseWords none ["-fsanitize".toList ++ a] = some [(.ccflags, .word ("-fsanitize".toList ++ a)), (.linkflags, .word ("-fsanitize".toList ++ a))] ∧
    parseWords none ['+' :: a] = some [(.ccflags, .word ('+' :: a)), (.linkflags, .word ('+' :: a))] ∧
    parseWords none ["-arch".toList, a] = some [(.ccflags, .pair "-arch".toList a), (.linkflags, .pair "-arch".toList a)] ∧
    parseWords none ["-isysroot".toList, a] = some [(.ccflags, .pair "-isysroot".toList a), (.linkflags, .pair "-isysroot".toList a)] ∧
    parseWords none ["-include".toList, a] = some [(.ccflags, .filePair "-include".toList a)] ∧
    parseWords none ["-isystem".toList, a] = some [(.ccflags, .pair "-isystem".toList a)] ∧
    parseWords none ["-std=".toList ++ a] = some [(if "++".toList <:+: a then .cxxflags else .cflags, .word ("-std=".toList ++ a))] ∧
    parseWords none ["-pthread".toList] = some [(.ccflags, .word "-pthread".toList), (.linkflags, .word "-pthread".toList)] := by
  obtain ⟨c, r, rfl⟩ := List.exists_cons_of_ne_nil hx
  refine ⟨?_, rfl, ?_, rfl, ?_, rfl, ?_, rfl, ?_, rfl, rfl, ?_, ?_, ?_, ?_, ?_, ?_, ?_, rfl, rfl, rfl, rfl, ?_, rfl⟩ <;>
    simp [parseWords, first, attached, List.prefix_append]

/-- A plain word is a library file, whatever it is. -/
theorem C65_table_files (c : Char) (r : Str) (h : c ≠ '-') (h' : c ≠ '+') : parseWords none [c :: r] = some [(.libs, .file (c :: r))] := by
  simp [parseWords, first, h, h']

/-- Words beginning with a hyphen that mean nothing to `ParseFlags` go to CCFLAGS. -/
theorem C65_table_others (a : Str) (h : a.head? = some '-') (ht : takesArgument a = false)
    (hp : ∀ p ∈ ["-L", "-l", "-I", "-Wa,", "-Wl,", "-Wp,", "-D", "-frameworkdir=", "-F", "-fsanitize", "-std=", "-stdlib="], ¬ p.toList <+: a)
    (hm : a ∉ ["-mno-cygwin".toList, "-pthread".toList, "-openmp".toList, "-fmerge-all-constants".toList, "-fopenmp".toList, "-mwindows".toList]) :
    parseWords none [a] = some [(.ccflags, .word a)] := by
  have ne : ∀ o : Str, takesArgument o = true → a ≠ o := by rintro o ho rfl; rw [ho] at ht; cases ht
  have np : ∀ (p : String) (n : Nat), p ∈ ["-L", "-l", "-I", "-Wa,", "-Wl,", "-Wp,", "-D", "-frameworkdir=", "-F", "-fsanitize", "-std=", "-stdlib="] → ¬ a.take n = p.toList := by
    intro p n hmem e
    exact hp p hmem (e ▸ List.take_prefix n a)
  simp only [List.mem_cons, List.not_mem_nil, or_false, not_or] at hm
  have hwl : ¬ a.take 4 = "-Wl,".toList := np _ _ (by simp)
  have h1 : first a = some ([(.ccflags, .word a)], none) := by
    let P : Option (List (Var × Ent) × Option Wait) → Prop := fun o => o = some ([(.ccflags, .word a)], none)
    show P (first a)
    unfold first
    refine ite_elim P (fun g => absurd g (by rintro rfl; cases h)) fun _ => ?_
    refine ite_elim P (fun g => absurd g (by rw [h]; simp)) fun _ => ?_
    refine ite_elim P (fun g => absurd g (ne _ (by decide))) fun _ => ?_
    refine ite_elim P (fun g => absurd g (np "-L" 2 (by simp))) fun _ => ?_
    refine ite_elim P (fun g => absurd g (np "-l" 2 (by simp))) fun _ => ?_
    refine ite_elim P (fun g => absurd g (np "-I" 2 (by simp))) fun _ => ?_
    refine ite_elim P (fun g => absurd g (np "-Wa," 4 (by simp))) fun _ => ?_
    refine ite_elim P (fun g => absurd g (np "-Wl," 4 (by simp))) fun _ => ?_
    refine ite_elim P (fun g => absurd g (np "-Wp," 4 (by simp))) fun _ => ?_
    refine ite_elim P (fun g => absurd g (np "-D" 2 (by simp))) fun _ => ?_
    refine ite_elim P (fun g => absurd g (ne _ (by decide))) fun _ => ?_
    refine ite_elim P (fun g => absurd g (np "-frameworkdir=" 14 (by simp))) fun _ => ?_
    refine ite_elim P (fun g => absurd g (np "-F" 2 (by simp))) fun _ => ?_
    refine ite_elim P (fun g => ?_) fun _ => ?_
    · simp only [List.mem_cons, List.not_mem_nil, or_false] at g
      rcases g with (g | g | g | g | g) | g
      · exact absurd g hm.1
      · exact absurd g hm.2.1
      · exact absurd g hm.2.2.1
      · exact absurd g hm.2.2.2.1
      · exact absurd g hm.2.2.2.2.1
      · exact absurd g (hp "-fsanitize" (by simp))
    refine ite_elim P (fun g => absurd g (hm.2.2.2.2.2)) fun _ => ?_
    refine ite_elim P (fun g => absurd g (np "-std=" 5 (by simp))) fun _ => ?_
    refine ite_elim P (fun g => absurd g (hp "-stdlib=" (by simp))) fun _ => ?_
    refine ite_elim P (fun g => absurd g (by rw [h]; simp)) fun _ => ?_
    refine ite_elim P (fun hmem => ?_) fun _ => ?_
    · exfalso
      rw [opts_take a hmem] at ht; cases ht
    · rfl
  simp [parseWords, h1]

/-! ## MergeFlags -/

open Verif.Env.Append

variable (split : String → List String)

/-- The elements a variable contributes to the merge: none if it does not exist or is empty; a string is one element, or its words if it or the new value is a `CLVar`. -/
def oldElems (words : Bool) : Option Val → List Item
  | none => []
  | some o => if o.truthy then parts split (o.isClvar || words) o else []

theorem keepLeft_eq (xs : List Item) : ∀ t, keepLeft t xs = t ++ (xs.filter (· ∉ t)).eraseDups := by
  induction xs with
  | nil => intro t; simp [keepLeft]
  | cons x xs ih =>
    intro t
    by_cases h : x ∈ t
    · simp [keepLeft, h, ih]
    · simp only [keepLeft, h, if_false, ih, List.filter_cons, not_false_eq_true, decide_true, if_true, List.eraseDups_cons, List.filter_filter, List.append_assoc, List.singleton_append]
      congr 3
      apply List.filter_congr
      intro y _
      simp [List.mem_append, not_or, beq_eq_decide, Bool.and_comm]

theorem keepRight_eq (xs : List Item) : ∀ t, keepRight t xs = (xs.filter (· ∉ t)).eraseDups.reverse ++ t := by
  induction xs with
  | nil => intro t; simp [keepRight]
  | cons x xs ih =>
    intro t
    by_cases h : x ∈ t
    · simp [keepRight, h, ih]
    · simp only [keepRight, h, if_false, ih, List.filter_cons, not_false_eq_true, decide_true, if_true, List.eraseDups_cons, List.filter_filter, List.reverse_cons, List.append_assoc, List.singleton_append]
      congr 3
      apply List.filter_congr
      intro y _
      simp [List.mem_cons, not_or, beq_eq_decide]

/-- The first occurrences, or the last ones. -/
def once (isPath : Bool) (xs : List Item) : List Item := if isPath then firsts xs else lasts xs

theorem keep_eq (isPath : Bool) (xs : List Item) : (if isPath then keepLeft [] xs else keepRight [] xs.reverse) = once isPath xs := by
  cases isPath <;> simp [once, keepLeft_eq, keepRight_eq, firsts, lasts]

theorem splitVal_listy (v : Val) : (splitVal split v).listy = true ∧ (splitVal split v).isClvar = v.isClvar := by
  cases v with
  | sc x => cases x <;> exact ⟨rfl, rfl⟩
  | _ => exact ⟨rfl, rfl⟩

/-- **C65, MergeFlags.**  A variable for which there are flags becomes the list of its old elements followed by the new ones, each once: the first occurrences for variables named `...PATH`, the last ones for others. -/
theorem C65_merge (isPath : Bool) (old : Option Val) (value : Val) (ht : value.truthy = true) :
    (merge1 split isPath old value).1 = some (.list (once isPath (oldElems split value.isClvar old ++ values (splitVal split value)))) := by
  obtain ⟨h1, h2⟩ := splitVal_listy split value
  generalize hv : splitVal split value = v at h1 h2
  unfold merge1
  rw [ht]
  simp only [Bool.true_eq_false, if_false, keep_eq, hv, oldElems]
  cases old with
  | none => simp
  | some o =>
    dsimp only
    by_cases ho : o.truthy = true
    · simp only [ho, Bool.true_eq_false, if_false, if_true]
      rw [← h2]
      cases v with
      | sc x => simp [Val.listy] at h1
      | dict d => simp [Val.listy] at h1
      | clvar ys =>
        cases o with
        | sc x => cases x <;> simp [add, Val.isClvar, parts, clItems, values]
        | list xs => simp [add, Val.isClvar, parts, clItems, values]
        | clvar xs => simp [add, Val.isClvar, parts, clItems, values]
        | dict d => simp [add, Val.isClvar, parts, clItems, values]
      | list ys =>
        cases o with
        | sc x => cases x <;> simp_all [add, Val.isClvar, parts, clItems, values, Val.asItem, Val.truthy]
        | list xs => simp [add, Val.isClvar, parts, clItems, values]
        | clvar xs => simp [add, Val.isClvar, parts, clItems, values]
        | dict d => simp_all [add, Val.isClvar, parts, clItems, values, Val.asItem, Val.truthy]
    · rw [Bool.not_eq_true] at ho
      simp [ho]

/-- A variable for which there are no flags stays as it is, with its duplicates. -/
theorem C65_merge_nothing (isPath : Bool) (old : Option Val) (value : Val) (ht : value.truthy = false) : merge1 split isPath old value = (old, value) := by
  unfold merge1; rw [if_pos ht]

/-- **C65, all flags and nothing else, once each.** -/
theorem C65_merge_elements (isPath : Bool) (old : Option Val) (value : Val) (ht : value.truthy = true) :
    ∃ r, (merge1 split isPath old value).1 = some r ∧ (values r).Nodup ∧
      ∀ x, x ∈ values r ↔ x ∈ oldElems split value.isClvar old ∨ x ∈ values (splitVal split value) := by
  refine ⟨_, C65_merge split isPath old value ht, ?_, fun x => ?_⟩ <;> cases isPath <;> simp only [values, once, if_true, Bool.false_eq_true, if_false]
  · exact lasts_nodup _
  · exact firsts_nodup _
  · simp [lasts_mem]
  · simp [firsts_mem]

theorem removeAll_of_subset {α : Type} [BEq α] [LawfulBEq α] {xs ys : List α} (h : ∀ x ∈ xs, x ∈ ys) : xs.removeAll ys = [] := by
  unfold List.removeAll
  rw [List.filter_eq_nil_iff]
  intro x hx
  simp [h x hx]

theorem eraseDups_of_nodup {xs : List Item} (h : xs.Nodup) : xs.eraseDups = xs := by
  induction xs with
  | nil => rfl
  | cons x xs ih =>
    rw [List.nodup_cons] at h
    rw [List.eraseDups_cons]
    have : xs.filter (fun b => !b == x) = xs := by
      rw [List.filter_eq_self]
      intro y hy
      simp only [Bool.not_eq_eq_eq_not, Bool.not_true, beq_eq_false_iff_ne, ne_eq]
      rintro rfl; exact h.1 hy
    rw [this, ih h.2]

/-- Elements that are already there are not moved by a merge of a path, … -/
theorem firsts_append_of_subset {xs ys : List Item} (hn : xs.Nodup) (h : ∀ y ∈ ys, y ∈ xs) : firsts (xs ++ ys) = xs := by
  unfold firsts
  rw [List.eraseDups_append, removeAll_of_subset h, eraseDups_of_nodup hn]
  simp

theorem lasts_append_append (xs ys : List Item) : lasts (lasts (xs ++ ys) ++ ys) = lasts (xs ++ ys) := by
  unfold lasts
  simp only [List.reverse_append, List.reverse_reverse, List.eraseDups_append]
  congr 2
  have h1 : ∀ (A B : List Item), (A.eraseDups ++ B.removeAll A).removeAll A = B.removeAll A := by
    intro A B
    unfold List.removeAll
    rw [List.filter_append, List.filter_filter]
    have : A.eraseDups.filter (fun x => !A.elem x) = [] := by
      rw [List.filter_eq_nil_iff]; intro x hx; simp [List.mem_eraseDups.1 hx]
    rw [this, List.nil_append]
    simp
  have h2 : ∀ (A B : List Item), (A.eraseDups ++ (B.removeAll A).eraseDups).removeAll A = (B.removeAll A).eraseDups := by
    intro A B
    unfold List.removeAll
    rw [List.filter_append]
    have : A.eraseDups.filter (fun x => !A.elem x) = [] := by
      rw [List.filter_eq_nil_iff]; intro x hx; simp [List.mem_eraseDups.1 hx]
    rw [this, List.nil_append, List.filter_eq_self]
    intro x hx
    have := List.mem_eraseDups.1 hx
    simpa using (List.mem_filter.1 this).2
  rw [h2, eraseDups_of_nodup (eraseDups_nodup _)]

/-- **C65, merging the same flags again changes nothing.** -/
theorem C65_merge_idempotent (isPath : Bool) (old : Option Val) (value : Val) :
    (merge1 split isPath (merge1 split isPath old value).1 value).1 = (merge1 split isPath old value).1 := by
  by_cases ht : value.truthy = true
  swap
  · rw [Bool.not_eq_true] at ht
    rw [C65_merge_nothing split _ _ _ ht, C65_merge_nothing split _ _ _ ht]
  rw [C65_merge split isPath _ value ht, C65_merge split isPath old value ht]
  generalize oldElems split value.isClvar old = A
  generalize values (splitVal split value) = B
  have e : oldElems split value.isClvar (some (.list (once isPath (A ++ B)))) = once isPath (A ++ B) := by
    unfold oldElems
    by_cases h : once isPath (A ++ B) = []
    · rw [h]; rfl
    · have : (Val.list (once isPath (A ++ B))).truthy = true := by
        cases h' : once isPath (A ++ B) with
        | nil => exact absurd h' h
        | cons a l => rfl
      dsimp only; rw [if_pos this]; rfl
  rw [e]
  congr 2
  cases isPath
  · exact lasts_append_append A B
  · exact firsts_append_of_subset (firsts_nodup _) fun y hy => by simp [once, firsts_mem, hy]

/-- **C65, the flags passed are left alone** — unless the variable is a string (or a dict, or a single object) and the flags are a plain list: then the caller's list is changed. -/
theorem C65_arguments_unchanged_partial (isPath : Bool) (old : Option Val) (value : Val)
    (h : ∀ o xs, old = some o → value = .list xs → o.listy = true ∨ o.truthy = false) : (merge1 split isPath old value).2 = value := by
  unfold merge1
  split
  · rfl
  cases old with
  | none => rfl
  | some o =>
    dsimp only
    split
    · rfl
    rename_i ho
    cases hv : value with
    | sc x => cases x <;> dsimp only [splitVal] <;> cases add split o _ <;> rfl
    | dict d => dsimp only [splitVal]; cases add split o _ <;> rfl
    | clvar ys =>
      cases o with
      | sc x => rfl
      | list xs => rfl
      | clvar xs => rfl
      | dict d => rfl
    | list ys =>
      rcases h o ys rfl hv with h | h
      · cases o with
        | sc x => simp [Val.listy] at h
        | dict d => simp [Val.listy] at h
        | list xs => rfl
        | clvar xs => rfl
      · exact absurd h ho

/-! ## Witnesses and counterexamples -/

theorem C65_nonvacuous :
    units ["-I".toList, "inc".toList, "-Lfoo".toList, "-lm".toList, "-DA=b=c".toList, "-O2".toList, "-pthread".toList] =
      some [["-I".toList, "inc".toList], ["-Lfoo".toList], ["-lm".toList], ["-DA=b=c".toList], ["-O2".toList], ["-pthread".toList]] ∧
    parseWords none ["-I".toList, "inc".toList, "-Lfoo".toList, "-lm".toList, "-DA=b=c".toList, "-O2".toList, "-pthread".toList] =
      some [(.cpppath, .word "inc".toList), (.libpath, .word "foo".toList), (.libs, .word "m".toList), (.cppdefines, .defineVal "A".toList "b=c".toList),
        (.ccflags, .word "-O2".toList), (.ccflags, .word "-pthread".toList), (.linkflags, .word "-pthread".toList)] ∧
    merge1 demoSplit false (some (.sc (.str "-O2 -Wall"))) (.clvar [S "-g", S "-O2"]) = (some (.list [S "-Wall", S "-g", S "-O2"]), .clvar [S "-g", S "-O2"]) ∧
    merge1 demoSplit true (some (.list [S "a", S "b"])) (.list [S "c", S "a"]) = (some (.list [S "a", S "b", S "c"]), .list [S "c", S "a"]) := by
  refine ⟨?_, ?_, ?_, ?_⟩ <;> decide +kernel

/-- **Counterexample.**  An option in a string of its own is lost, and its argument becomes a library: `env.ParseFlags(['-I', 'inc'])`. -/
theorem C65_counterexample_separate_strings :
    parseStrings (strings (.list [.str ["-I".toList], .str ["inc".toList]])) = some [(.libs, .file "inc".toList)] := by decide +kernel

/-- **Counterexample.**  An empty word raises IndexError. -/
theorem C65_counterexample_empty_word : parseWords none ["-O2".toList, []] = none := by decide +kernel

/-- **Counterexample.**  Repeated words that belong to what follows them are dropped by the merge: `-Xlinker -a -Xlinker -b` becomes `-a -Xlinker -b`. -/
theorem C65_counterexample_repeated_word :
    parseWords none ["-Xlinker".toList, "-a".toList, "-Xlinker".toList, "-b".toList] =
      some [(.ccflags, .word "-Xlinker".toList), (.ccflags, .word "-a".toList), (.ccflags, .word "-Xlinker".toList), (.ccflags, .word "-b".toList)] ∧
    (merge1 demoSplit false none (.clvar [S "-Xlinker", S "-a", S "-Xlinker", S "-b"])).1 = some (.list [S "-a", S "-Xlinker", S "-b"]) := by
  constructor <;> decide +kernel

/-- **Counterexample.**  Flags from one environment get into another: with `LIBS = 'm'` in the first, merging the same parsed flags into both gives the second one `m` as well. -/
theorem C65_counterexample_leak :
    let flags : Val := .list [S "foo"]
    let r1 := merge1 demoSplit false (some (.sc (.str "m"))) flags
    (merge1 demoSplit false none r1.2).1 = some (.list [S "m", S "foo"]) ∧ (merge1 demoSplit false none flags).1 = some (.list [S "foo"]) := by
  constructor <;> decide +kernel

end Verif.Env.Flags
