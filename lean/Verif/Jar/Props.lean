import Verif.Jar.Model
import Mathlib.Data.List.Infix

/-!
# The Jar builder (C125): specification and proofs
-/

namespace Verif.Jar

/-! ## Specification: what `jar` does with its arguments -/

/-- An archive: where it is written, the manifest it gets, and of each entry the file that is read and the name it has in the archive. -/
structure Archive where
  file : Option Path
  manifest : Option Path
  entries : List (Path × Path)
  deriving DecidableEq

/-- The letters take their operands in order: `f` the archive, `m` the manifest. -/
def operands : Str → List Arg → Archive → Option (Archive × List Arg)
  | [], as, A => some (A, as)
  | 'f' :: l, .path p :: as, A => operands l as { A with file := some p }
  | 'm' :: l, .path p :: as, A => operands l as { A with manifest := some p }
  | c :: l, as, A => if c = 'f' ∨ c = 'm' then none else operands l as A

/-- The rest: files, each perhaps after `-C` and a directory. -/
def entries : List Arg → Option (List (Path × Path))
  | [] => some []
  | .path p :: as => (entries as).map fun es => (p, p) :: es
  | .word w :: .path d :: .path p :: as => if w = "-C".toList then (entries as).map fun es => (d ++ p, p) :: es else none
  | .word _ :: _ => none

/-- An option for the virtual machine, which the program does not see. -/
def forVm : Arg → Bool
  | .word w => "-J".toList.isPrefixOf w
  | .path _ => false

def run (as : List Arg) : Option Archive :=
  match as.filter (!forVm ·) with
  | .word l :: as => do
    let (A, as) ← operands l as { file := none, manifest := none, entries := [] }
    let es ← entries as
    return { A with entries := es }
  | _ => none

/-- The letters of `JARFLAGS`: one word, with one `f`, without `m` and without `e`, which takes an operand too. -/
structure Letters (l : Str) : Prop where
  word : ' ' ∉ l
  vm : ¬ "-J".toList <+: l
  f : ∃ a b, l = a ++ 'f' :: b ∧ 'f' ∉ a ∧ 'f' ∉ b
  m : 'm' ∉ l
  e : 'e' ∉ l

/-- The name a source has in the archive: its path below the directory it is taken from. -/
def Stored (E : Env) (s : Source) (n : Path) : Prop := match E.dir s with
  | some d => s.path = d ++ n
  | none => n = s.path

/-- What a text given as source stands for. -/
inductive Wants (W : World) (s : Str) : Str → Prop
  | file : W.isDir s = false → W.java s = false → Wants W s s
  | java {n} : W.isDir s = false → W.java s = true → n ∈ W.fileClasses s → Wants W s n
  | dir {n} : W.isDir s = true → n ∈ W.dirClasses s → Wants W s n
  | plain : W.isDir s = true → W.dirClasses s = [] → Wants W s s

/-! ## The command -/

theorem forVm_path (p : Path) : forVm (.path p) = false := rfl

theorem words_one (l : Str) (h : ' ' ∉ l) (hne : l ≠ []) : words l = [l] := by
  induction l with
  | nil => exact absurd rfl hne
  | cons c t ih =>
    simp only [List.mem_cons, not_or] at h
    cases t with
    | nil => simp [words, Ne.symm h.1]
    | cons x t =>
      have hx : x ≠ ' ' := fun e => h.2 (by simp [e])
      have := ih h.2 (by simp)
      unfold words
      simp only [this]
      rw [if_neg (Ne.symm h.1), if_neg (by simp [hx])]

theorem operands_skip (a l : Str) (as : List Arg) (A : Archive) (h : 'f' ∉ a) (h' : 'm' ∉ a) : operands (a ++ l) as A = operands l as A := by
  induction a with
  | nil => rfl
  | cons c a ih =>
    simp only [List.mem_cons, not_or] at h h'
    rw [List.cons_append, operands, if_neg (by rintro (e | e); exact h.1 e.symm; exact h'.1 e.symm), ih h.2 h'.2]
    all_goals intros; simp_all

theorem operands_flags (l : Str) (hl : Letters l) (x : Str) (t : Path) (as : List Arg) (A : Archive) : operands (l ++ x) (.path t :: as) A = operands x as { A with file := some t } := by
  obtain ⟨a, b, rfl, ha, hb⟩ := hl.f
  have hm := hl.m
  simp only [List.mem_append, List.mem_cons, not_or] at hm
  rw [List.append_assoc, operands_skip a _ _ _ ha hm.1, List.cons_append, operands, operands_skip b _ _ _ hb hm.2.2]

theorem isPrefix_drop {d p : Path} (h : d <+: p) : d ++ p.drop d.length = p := by
  obtain ⟨r, rfl⟩ := h
  rw [List.drop_left]

theorem filter_sources (E : Env) (ss : List Source) : (E.sources ss).filter (!forVm ·) = E.sources ss := by
  rw [List.filter_eq_self]
  intro a ha
  obtain ⟨s, -, ha⟩ := List.mem_flatMap.1 ha
  split at ha
  · cases ha
  · split at ha
    · simp only [List.mem_cons, List.not_mem_nil, or_false] at ha
      rcases ha with rfl | rfl | rfl
      · decide
      · rfl
      · rfl
    · rw [List.mem_singleton] at ha; subst ha; rfl

theorem entries_sources (E : Env) (ss : List Source) (hd : ∀ s ∈ ss, ∀ d, E.dir s = some d → d <+: s.path) :
    ∃ es, entries (E.sources ss) = some es ∧ List.Forall₂ (fun s e => e.1 = s.path ∧ Stored E s e.2) (ss.filter (!·.manifest)) es := by
  induction ss with
  | nil => exact ⟨[], rfl, .nil⟩
  | cons s ss ih =>
    obtain ⟨es, h1, h2⟩ := ih fun x hx => hd x (by simp [hx])
    have hs := hd s (by simp)
    unfold Env.sources at h1 ⊢
    rw [List.flatMap_cons]
    cases hm : s.manifest with
    | true => exact ⟨es, by simpa using h1, by simpa [hm] using h2⟩
    | false =>
      cases hdir : E.dir s with
      | none =>
        refine ⟨(s.path, s.path) :: es, ?_, ?_⟩
        · simp only [Bool.false_eq_true, if_false, List.cons_append, List.nil_append, entries, h1, if_true]
          rfl
        · simp only [hm, Bool.not_false, List.filter_cons_of_pos]
          exact .cons ⟨rfl, by unfold Stored; rw [hdir]⟩ h2
      | some d =>
        have hp := hs d hdir
        have hg : getPath s.path d = s.path.drop d.length := if_pos (List.isPrefixOf_iff_prefix.2 hp)
        refine ⟨(d ++ getPath s.path d, getPath s.path d) :: es, ?_, ?_⟩
        · simp only [Bool.false_eq_true, if_false, List.cons_append, List.nil_append, entries, h1, if_true]
          rfl
        · simp only [hm, Bool.not_false, List.filter_cons_of_pos]
          refine .cons ⟨by rw [hg]; exact isPrefix_drop hp, ?_⟩ h2
          unfold Stored; rw [hdir, hg]; exact (isPrefix_drop hp).symm

theorem letters_ne {l : Str} (h : Letters l) : l ≠ [] := by
  obtain ⟨a, b, rfl, -, -⟩ := h.f
  simp

/-- The archive is the target; it has every source that is no manifest, read from where it is and under its name below its directory, in order, and nothing else; its manifest is the first one among the sources. -/
theorem C125_archive_partial (E : Env) (target : Path) (ss : List Source) (hl : Letters E.flags) (hd : ∀ s ∈ ss, ∀ d, E.dir s = some d → d <+: s.path) :
    ∃ A, run (E.command target ss) = some A ∧ A.file = some target ∧ List.Forall₂ (fun s e => e.1 = s.path ∧ Stored E s e.2) (ss.filter (!·.manifest)) A.entries ∧
      ((∀ s ∈ ss, s.manifest = false) → A.manifest = none) ∧
      ∀ a s b, ss = a ++ s :: b → s.manifest = true → (∀ x ∈ a, x.manifest = false) → A.manifest = some s.path := by
  obtain ⟨es, h1, h2⟩ := entries_sources E ss hd
  have hvm : forVm (.word E.flags) = false := by
    rw [Bool.eq_false_iff]
    exact fun h => hl.vm (List.isPrefixOf_iff_prefix.1 h)
  have hvm' : forVm (.word (E.flags ++ ['m'])) = false := by
    rw [Bool.eq_false_iff]
    intro h
    have h := List.isPrefixOf_iff_prefix.1 h
    apply hl.vm
    by_cases h2 : 2 ≤ E.flags.length
    · exact List.prefix_of_prefix_length_le h (List.prefix_append _ _) h2
    · exfalso
      obtain ⟨r, hr⟩ := h
      obtain ⟨a, b, e, -, -⟩ := hl.f
      rw [e] at hr h2
      have ha : a = [] := by cases a with
        | nil => rfl
        | cons x a => simp at h2
      subst ha
      injection hr with hr _
      exact absurd hr (by decide)
  cases hany : ss.any (·.manifest) with
  | false =>
    rw [List.any_eq_false] at hany
    have hnone : ss.find? (·.manifest) = none := by rw [List.find?_eq_none]; exact hany
    have hfl : E.flagsFor ss = E.flags := by unfold Env.flagsFor; rw [if_neg]; rintro ⟨h, -⟩; rw [List.any_eq_true] at h; obtain ⟨x, hx, hm⟩ := h; exact hany x hx hm
    refine ⟨{ file := some target, manifest := none, entries := es }, ?_, rfl, h2, fun _ => rfl, ?_⟩
    · unfold run Env.command
      rw [hfl, words_one _ hl.word (letters_ne hl)]
      have hman : manifest ss = [] := by unfold manifest; rw [hnone]
      rw [hman]
      have hf : ((([E.flags].map Arg.word) ++ [Arg.path target] ++ []) ++ E.sources ss).filter (!forVm ·) = .word E.flags :: .path target :: E.sources ss := by
        rw [List.filter_append, filter_sources]
        simp [hvm, forVm_path]
      rw [hf]
      have ho := operands_flags E.flags hl [] target (E.sources ss) { file := none, manifest := none, entries := [] }
      rw [List.append_nil] at ho
      simp [ho, operands, h1]
    · rintro a s b rfl hm -
      exact absurd hm (hany s (by simp))
  | true =>
    have hfl : E.flagsFor ss = E.flags ++ ['m'] := if_pos ⟨hany, hl.m⟩
    obtain ⟨s, hs⟩ : ∃ s, ss.find? (·.manifest) = some s := by
      rw [← Option.isSome_iff_exists, List.find?_isSome]
      simpa using hany
    refine ⟨{ file := some target, manifest := some s.path, entries := es }, ?_, rfl, h2, ?_, ?_⟩
    · unfold run Env.command
      rw [hfl, words_one _ (by simpa using hl.word) (by simp)]
      have hman : manifest ss = [.path s.path] := by unfold manifest; rw [hs]
      rw [hman]
      have hf : ((([E.flags ++ ['m']].map Arg.word) ++ [Arg.path target] ++ [Arg.path s.path]) ++ E.sources ss).filter (!forVm ·) = .word (E.flags ++ ['m']) :: .path target :: .path s.path :: E.sources ss := by
        rw [List.filter_append, filter_sources]
        simp [hvm', forVm_path]
      rw [hf]
      have ho := operands_flags E.flags hl ['m'] target (.path s.path :: E.sources ss) { file := none, manifest := none, entries := [] }
      simp [ho, operands, h1]
    · intro h
      have := List.find?_some hs
      rw [h s (List.mem_of_find?_eq_some hs)] at this; cases this
    · rintro a s' b rfl hm ha
      have : (a ++ s' :: b).find? (·.manifest) = some s' := by rw [List.find?_eq_some_iff_append]; exact ⟨hm, a, b, rfl, by simpa using ha⟩
      rw [this] at hs; injection hs with hs; rw [hs]

/-! ## The pseudo-builder -/

theorem convert_iff (W : World) (s n : Str) : n ∈ W.convert s ↔ Wants W s n := by
  unfold World.convert
  constructor
  · intro h
    split at h
    · rename_i hd
      split at h
      · rename_i he; rw [List.mem_singleton] at h; subst h; exact .plain hd he
      · exact .dir hd h
    · rename_i hd
      split at h
      · rename_i hj; exact .java (by simpa using hd) hj h
      · rename_i hj; rw [List.mem_singleton] at h; subst h; exact .file (by simpa using hd) (by simpa using hj)
  · intro h
    cases h with
    | file h1 h2 => simp [h1, h2]
    | java h1 h2 h3 => simp [h1, h2, h3]
    | dir h1 h2 => rw [if_pos h1, if_neg (List.ne_nil_of_mem h2)]; exact h2
    | plain h1 h2 => simp [h1, h2]

/-- Every target of a list is built by a call of its own, from what all the sources stand for; a single target likewise; without a target it is named after the first source. -/
theorem C125_calls_partial (W : World) (cwd : Str) (ss : List Str) :
    (∀ ts, ss ≠ [] → ((W.jar cwd (.many ts) (.many ss)).map (·.1) = ts.map fun t => [t]) ∧ ∀ c ∈ W.jar cwd (.many ts) (.many ss), ∀ n, n ∈ c.2 ↔ ∃ s ∈ ss, Wants W s n) ∧
    (∀ t, ∃ ns, W.jar cwd (.one t) (.many ss) = [([t], ns)] ∧ ∀ n, n ∈ ns ↔ ∃ s ∈ ss, Wants W s n) ∧
    (∀ t s, ∃ ns, W.jar cwd (.one t) (.one s) = [([t], ns)] ∧ ∀ n, n ∈ ns ↔ Wants W s n) ∧
    ∀ s r, ss = s :: r → ∃ ns, W.jar cwd .none (.many ss) = [([W.stem s ++ W.suffix], ns)] ∧ ∀ n, n ∈ ns ↔ ∃ s ∈ ss, Wants W s n := by
  have key : ∀ n, n ∈ ss.flatMap W.convert ↔ ∃ s ∈ ss, Wants W s n := fun n => by simp [List.mem_flatMap, convert_iff]
  refine ⟨fun ts hne => ?_, fun t => ⟨_, rfl, key⟩, fun t s => ⟨_, rfl, convert_iff W s⟩, ?_⟩
  · cases ss with
    | nil => exact absurd rfl hne
    | cons s r =>
      have e : W.jar cwd (.many ts) (.many (s :: r)) = ts.map fun t => W.call [t] (.many (s :: r)) := rfl
      rw [e]
      refine ⟨by simp [World.call, Function.comp_def], fun c hc => ?_⟩
      obtain ⟨t, -, rfl⟩ := List.mem_map.1 hc
      exact key
  · rintro s r rfl
    exact ⟨_, rfl, key⟩

/-- The order of the sources is kept, for a list of them. -/
theorem C125_order (W : World) (cwd t : Str) (a b : List Str) : ∃ x y, W.jar cwd (.one t) (.many a) = [([t], x)] ∧ W.jar cwd (.one t) (.many b) = [([t], y)] ∧ W.jar cwd (.one t) (.many (a ++ b)) = [([t], x ++ y)] :=
  ⟨_, _, rfl, rfl, by simp [World.jar, World.call]⟩

/-! ## Cases -/

def p (s : List String) : Path := s.map String.toList

def src (s : List String) (m : Bool) (d : Option (List String)) : Source := { path := p s, manifest := m, classdir := d.map p }

def env (f : String) (d : Option (List String)) : Env := { flags := f.toList, chdir := d.map p }

theorem letters_cf : Letters (env "cf" none).flags := ⟨by decide, by decide, ⟨['c'], [], by decide, by decide, by decide⟩, by decide, by decide⟩

def three : List Source := [src ["cls", "a", "B.class"] false (some ["cls"]), src ["m.mf"] true none, src ["x.txt"] false none]

theorem C125_sample : run ((env "cf" none).command (p ["o.jar"]) three) =
    some { file := some (p ["o.jar"]), manifest := some (p ["m.mf"]), entries := [(p ["cls", "a", "B.class"], p ["a", "B.class"]), (p ["x.txt"], p ["x.txt"])] } := by decide +kernel

/-- The hypotheses are met. -/
theorem C125_sample_archive : ∃ A, run ((env "cf" none).command (p ["o.jar"]) three) = some A ∧ A.manifest = some (p ["m.mf"]) := by
  obtain ⟨A, h, -, -, -, h2⟩ := C125_archive_partial (env "cf" none) (p ["o.jar"]) three letters_cf (by
    intro s hs d hd
    simp only [three, List.mem_cons, List.not_mem_nil, or_false] at hs
    rcases hs with rfl | rfl | rfl
    · injection hd with hd; subst hd; decide
    · cases hd
    · cases hd)
  exact ⟨A, h, h2 [src ["cls", "a", "B.class"] false (some ["cls"])] (src ["m.mf"] true none) [src ["x.txt"] false none] rfl rfl (by decide)⟩

def world : World where
  isDir s := s = "src".toList ∨ s = "res".toList
  java s := s = "A.java".toList
  fileClasses _ := ["A.class".toList]
  dirClasses s := if s = "src".toList then ["src/B.class".toList] else []
  stem s := s.takeWhile (· ≠ '.')
  suffix := ".jar".toList

def show' (l : List (List Str × List Str)) : List (List String × List String) := l.map fun c => (c.1.map String.ofList, c.2.map String.ofList)

theorem C125_sample_calls : show' (world.jar "dir".toList (.many ["x".toList, "y".toList]) (.many ["A.java".toList, "src".toList, "res".toList, "n.txt".toList])) =
    [(["x"], ["A.class", "src/B.class", "res", "n.txt"]), (["y"], ["A.class", "src/B.class", "res", "n.txt"])] := by decide +kernel

/-! ## Where it fails -/

/-- An option with an `m` in `JARFLAGS`: the manifest is neither the manifest nor an entry, and the path given for it is one. -/
theorem C125_flags_counterexample : run ((env "cf -J-Xmx512m" none).command (p ["o.jar"]) three) =
    some { file := some (p ["o.jar"]), manifest := none, entries := [(p ["m.mf"], p ["m.mf"]), (p ["cls", "a", "B.class"], p ["a", "B.class"]), (p ["x.txt"], p ["x.txt"])] } := by decide +kernel

/-- The letter is put after the last option, and becomes a part of it. -/
theorem C125_option_counterexample : (env "cf -J-Dk=v" none).command (p ["o.jar"]) [src ["m.mf"] true none] = [.word "cf".toList, .word "-J-Dk=vm".toList, .path (p ["o.jar"]), .path (p ["m.mf"])] := by decide +kernel

/-- With `m` before `f` in `JARFLAGS` the manifest is overwritten by the archive. -/
theorem C125_order_counterexample : (run ((env "cmf" none).command (p ["o.jar"]) three)).map (fun A => (A.file, A.manifest)) = some (some (p ["m.mf"]), some (p ["o.jar"])) := by decide +kernel

/-- A source that is not below `JARCHDIR` is looked for there all the same. -/
theorem C125_chdir_counterexample : (run ((env "cf" (some ["cls"])).command (p ["o.jar"]) [src ["res", "x.txt"] false none])).map (·.entries) = some [(p ["cls", "res", "x.txt"], p ["res", "x.txt"])] := by decide +kernel

/-- A second manifest is dropped. -/
theorem C125_manifests_counterexample : run ((env "cf" none).command (p ["o.jar"]) [src ["m.mf"] true none, src ["n.mf"] true none]) = some { file := some (p ["o.jar"]), manifest := some (p ["m.mf"]), entries := [] } := by decide +kernel

/-- A text as the only source: the archive is named after its first letter. -/
theorem C125_letter_counterexample : show' (world.jar "dir".toList .none (.one "foo.class".toList)) = [(["f.jar"], ["foo.class"])] := by decide +kernel

/-- Two targets and a text as source: one call with both targets, whose command makes the first one only. -/
theorem C125_text_counterexample : show' (world.jar "dir".toList (.many ["x.jar".toList, "y.jar".toList]) (.one "n.txt".toList)) = [(["x.jar", "y.jar"], ["n.txt"])] := by decide +kernel

end Verif.Jar
