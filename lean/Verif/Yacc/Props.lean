import Verif.Yacc.Model

/-!
# The emitters of yacc and lex (C122): specification and proofs
-/

namespace Verif.Yacc

/-! ## Specification -/

/-- The files bison is asked to write besides the parser (bison(1), Output Files), for an output with this base: `all` for every way of asking, else for those with an option of its own and a long option with its file. -/
inductive Bison (all : Bool) (c : Call) : Str → Prop
  | header {o} : o ∈ ["-d".toList, "-H".toList, "--header".toList, "--defines".toList] → o ∈ c.flags → Bison all c (c.base ++ c.hsuf)
  | graph {o} : o ∈ ["-g".toList, "--graph".toList] → o ∈ c.flags → Bison all c (c.base ++ c.gsuf)
  | report : "-v".toList ∈ c.flags → Bison all c (c.base ++ ".output".toList)
  | file {o f} : o ∈ ["--defines=".toList, "--header=".toList, "--graph=".toList] → o ++ f ∈ c.flags → strip f = f → Bison all c f
  | reportLong {o} : all = true → o ∈ ["--verbose".toList, "--report=all".toList] → o ∈ c.flags → Bison all c (c.base ++ ".output".toList)
  | cluster {l} : all = true → '-' :: l ∈ c.flags → (∀ x ∈ l, x ∈ "dtlvky".toList) → 'd' ∈ l → Bison all c (c.base ++ c.hsuf)
  | joined {o f} : all = true → o ∈ ["-H".toList, "-g".toList] → o ++ f ∈ c.flags → f ≠ [] → Bison all c f

/-- The files flex is asked to write besides the scanner. -/
inductive Flex (c : Call) : Str → Prop
  | file {o f} : o ∈ ["--header-file=".toList, "--tables-file=".toList] → o ++ f ∈ c.flags → strip f = f → Flex c f

/-- What a variable that has not been changed asks for. -/
def Var (f : Str → Str) (c : Call) (n : Str) : Prop := f c.source = n ∧ n ≠ []

/-! ## Options -/

theorem mem_files {os flags : List Str} {n : Str} : n ∈ files os flags ↔ ∃ o ∈ os, ∃ f, o ++ f ∈ flags ∧ strip f = n := by
  unfold files fileOf
  simp only [List.mem_flatMap, List.mem_filterMap]
  constructor
  · rintro ⟨g, hg, o, ho, h⟩
    split at h
    · rename_i e
      injection h with h
      exact ⟨o, ho, g.drop o.length, by rw [show o ++ g.drop o.length = g from by conv => { rhs; rw [← List.take_append_drop o.length g, e] }]; exact hg, h⟩
    · cases h
  · rintro ⟨o, ho, f, hf, rfl⟩
    exact ⟨o ++ f, hf, o, ho, by simp⟩

theorem yacc_env (objc : Bool) (E : Env) (c : Call) : (yacc objc E c).1 = ⟨(fileVar c E.first).1, (fileVar c E.second).1⟩ := rfl
theorem lex_env (E : Env) (c : Call) : (lex E c).1 = ⟨(fileVar c E.first).1, (fileVar c E.second).1⟩ := rfl
theorem yacc_first {objc : Bool} {E : Env} {c : Call} {n : File} (h : n ∈ (fileVar c E.first).2) : n ∈ (yacc objc E c).2.1 := List.mem_append_left _ (List.mem_append_right _ h)
theorem lex_first {E : Env} {c : Call} {n : File} (h : n ∈ (fileVar c E.first).2) : n ∈ (lex E c).2 := List.mem_append_left _ (List.mem_append_right _ h)
theorem fileVar_unset {f : Str → Str} {c : Call} (h : f c.source = []) : fileVar c (.text f) = (.text f, []) := if_pos h
theorem fileVar_set {f : Str → Str} {c : Call} (h : f c.source ≠ []) : fileVar c (.text f) = (.node (c.cwd, f c.source), [(c.cwd, f c.source)]) := if_neg h

/-! ## The claims -/

/-- Every file bison is asked to write is a target or a side effect. -/
theorem C122_yacc_partial (objc : Bool) (E : Env) (c : Call) (n : Str) (h : Bison false c n) : (c.cwd, n) ∈ (yacc objc E c).2.1 ∨ (c.cwd, n) ∈ (yacc objc E c).2.2 := by
  cases h with
  | @header o ho hf =>
    left
    have : "-d".toList ∈ c.flags ∨ "-H".toList ∈ c.flags ∨ "--header".toList ∈ c.flags ∨ "--defines".toList ∈ c.flags := by
      simp only [List.mem_cons, List.not_mem_nil, or_false] at ho
      rcases ho with rfl | rfl | rfl | rfl
      · exact .inl hf
      · exact .inr (.inl hf)
      · exact .inr (.inr (.inl hf))
      · exact .inr (.inr (.inr hf))
    simp only [yacc, if_pos this, List.mem_append, List.mem_map]
    exact .inl (.inl ⟨_, .inl (.inl (.inr (List.mem_singleton.2 rfl))), rfl⟩)
  | @graph o ho hf =>
    left
    have : "-g".toList ∈ c.flags ∨ "--graph".toList ∈ c.flags := by
      simp only [List.mem_cons, List.not_mem_nil, or_false] at ho
      rcases ho with rfl | rfl
      · exact .inl hf
      · exact .inr hf
    simp only [yacc, if_pos this, List.mem_append, List.mem_map]
    exact .inl (.inl ⟨_, .inl (.inr (List.mem_singleton.2 rfl)), rfl⟩)
  | report hf =>
    right
    simp only [yacc, if_pos hf, List.mem_map]
    exact ⟨_, List.mem_singleton.2 rfl, rfl⟩
  | @file o f ho hf hs =>
    left
    simp only [yacc, List.mem_append, List.mem_map]
    exact .inl (.inl ⟨n, .inr (mem_files.2 ⟨o, ho, n, hf, hs⟩), rfl⟩)
  | reportLong h => cases h
  | cluster h => cases h
  | joined h => cases h

theorem C122_lex (E : Env) (c : Call) (n : Str) (h : Flex c n) : (c.cwd, n) ∈ (lex E c).2 := by
  cases h with
  | @file o f ho hf hs =>
    simp only [lex, List.mem_append, List.mem_map]
    exact .inl (.inl ⟨n, .inr (mem_files.2 ⟨o, ho, n, hf, hs⟩), rfl⟩)

/-- The first target of lex: for Objective-C, a source that ends in `.lm`, the source with `.m`, else the target asked for; that of yacc: with `.m` for Objective-C, else the target asked for. -/
theorem C122_first (objc : Bool) (E : Env) (c : Call) :
    (c.sourceExt = ".lm".toList → (lex E c).2.head? = some (c.cwd, c.source ++ ".m".toList)) ∧ (c.sourceExt ≠ ".lm".toList → (lex E c).2.head? = some (c.cwd, c.base ++ c.suffix)) ∧
    (objc = true → (yacc objc E c).2.1.head? = some (c.cwd, c.base ++ ".m".toList)) ∧ (objc = false → (yacc objc E c).2.1.head? = some (c.cwd, c.base ++ c.suffix)) := by
  refine ⟨fun h => ?_, fun h => ?_, fun h => ?_, fun h => ?_⟩
  · simp only [lex, if_pos h]; rfl
  · simp only [lex, if_neg h]; rfl
  · subst h; rfl
  · subst h; rfl

/-- With texts in the variables, what they ask for is a target, in the directory of the SConscript. -/
theorem C122_variables (objc : Bool) (v w : Str → Str) (c : Call) (n : Str) (h : Var v c n ∨ Var w c n) :
    (c.cwd, n) ∈ (yacc objc ⟨.text v, .text w⟩ c).2.1 ∧ (c.cwd, n) ∈ (lex ⟨.text v, .text w⟩ c).2 := by
  rcases h with ⟨rfl, h⟩ | ⟨rfl, h⟩
  · simp only [yacc, lex, fileVar, if_neg h, List.mem_append]
    exact ⟨.inl (.inr (List.mem_singleton.2 rfl)), .inl (.inr (List.mem_singleton.2 rfl))⟩
  · simp only [yacc, lex, fileVar, if_neg h, List.mem_append]
    exact ⟨.inr (List.mem_singleton.2 rfl), .inr (List.mem_singleton.2 rfl)⟩

/-- Nothing else is a target: the parser, the other targets, what the flags and the variables ask for. -/
theorem C122_only (v w : Str → Str) (c : Call) (x : File) (h : x ∈ (yacc false ⟨.text v, .text w⟩ c).2.1) (hs : ∀ f ∈ c.flags, ' ' ∉ f) :
    x.1 = c.cwd ∧ (x.2 = c.base ++ c.suffix ∨ x.2 ∈ c.others ∨ Bison false c x.2 ∨ Var v c x.2 ∨ Var w c x.2) := by
  have hv : ∀ (u : Str → Str), x ∈ (fileVar c (.text u)).2 → x.1 = c.cwd ∧ Var u c x.2 := by
    intro u hx
    by_cases hu : u c.source = []
    · rw [fileVar_unset hu] at hx; cases hx
    · rw [fileVar_set hu] at hx
      rw [List.mem_singleton] at hx; subst hx
      exact ⟨rfl, rfl, hu⟩
  simp only [yacc, List.mem_append, List.mem_map, Bool.false_eq_true, if_false] at h
  rcases h with (⟨n, h, rfl⟩ | h) | h
  · refine ⟨rfl, ?_⟩
    rcases h with ((h | h) | h) | h
    · rcases List.mem_cons.1 h with h | h
      · exact .inl h
      · exact .inr (.inl h)
    · right; right; left
      split at h
      · rename_i hf
        rw [List.mem_singleton] at h
        show Bison false c n
        rw [h]
        rcases hf with hf | hf | hf | hf
        · exact .header (by simp) hf
        · exact .header (by simp) hf
        · exact .header (by simp) hf
        · exact .header (by simp) hf
      · cases h
    · right; right; left
      split at h
      · rename_i hf
        rw [List.mem_singleton] at h
        show Bison false c n
        rw [h]
        rcases hf with hf | hf
        · exact .graph (by simp) hf
        · exact .graph (by simp) hf
      · cases h
    · right; right; left
      obtain ⟨o, ho, f, hf, e⟩ := mem_files.1 h
      have hb : ' ' ∉ f := fun hh => hs _ hf (List.mem_append_right _ hh)
      have dw : ∀ s : Str, ' ' ∉ s → s.dropWhile (· = ' ') = s := by
        intro s h
        cases s with
        | nil => rfl
        | cons y s =>
          rw [List.dropWhile_cons, if_neg]
          simp only [List.mem_cons, not_or] at h
          simpa using fun e => h.1 e.symm
      have hst : strip f = f := by
        unfold strip
        rw [dw f hb, dw f.reverse (by simpa using hb), List.reverse_reverse]
      have e : f = n := hst.symm.trans e
      subst e
      exact .file ho hf hst
  · obtain ⟨h1, h2⟩ := hv v h; exact ⟨h1, .inr (.inr (.inr (.inl h2)))⟩
  · obtain ⟨h1, h2⟩ := hv w h; exact ⟨h1, .inr (.inr (.inr (.inr h2)))⟩

/-- The variables expand to nothing for these calls: each call has the targets it would have alone. -/
theorem C122_apart_partial (objc : Bool) (v w : Str → Str) (cs : List Call) (h : ∀ c ∈ cs, v c.source = [] ∧ w c.source = []) :
    calls (fun E c => ((yacc objc E c).1, (yacc objc E c).2.1)) ⟨.text v, .text w⟩ cs = cs.map (fun c => (yacc objc ⟨.text v, .text w⟩ c).2.1) ∧
      calls lex ⟨.text v, .text w⟩ cs = cs.map (fun c => (lex ⟨.text v, .text w⟩ c).2) := by
  have key : ∀ (f : Env → Call → Env × List File), (∀ c ∈ cs, (f ⟨.text v, .text w⟩ c).1 = ⟨.text v, .text w⟩) → calls f ⟨.text v, .text w⟩ cs = cs.map fun c => (f ⟨.text v, .text w⟩ c).2 := by
    intro f
    clear h
    induction cs with
    | nil => intro _; rfl
    | cons c cs ih =>
      intro hf
      rw [calls, hf c (by simp), ih fun d hd => hf d (by simp [hd]), List.map_cons]
  refine ⟨key (fun E c => ((yacc objc E c).1, (yacc objc E c).2.1)) fun c hc => ?_, key lex fun c hc => ?_⟩
  · obtain ⟨h1, h2⟩ := h c hc
    dsimp only
    rw [yacc_env]; simp only [fileVar_unset h1, fileVar_unset h2]
  · obtain ⟨h1, h2⟩ := h c hc
    rw [lex_env]; simp only [fileVar_unset h1, fileVar_unset h2]

/-- **Counterexample.** Once a variable has been used, its file is a target of every call after it, whatever grammar is given and in whatever directory: the variable is expanded once. -/
theorem C122_frozen_counterexample (v w : Str → Str) (c : Call) (cs : List Call) (hv : v c.source ≠ []) :
    (∀ l ∈ calls lex ⟨.text v, .text w⟩ (c :: cs), (c.cwd, v c.source) ∈ l) ∧
      ∀ objc, ∀ l ∈ calls (fun E c => ((yacc objc E c).1, (yacc objc E c).2.1)) ⟨.text v, .text w⟩ (c :: cs), (c.cwd, v c.source) ∈ l := by
  have key : ∀ (f : Env → Call → Env × List File) (n : File), (∀ E c, E.first = .node n → (f E c).1.first = .node n ∧ n ∈ (f E c).2) →
      ∀ (cs : List Call) (E : Env), E.first = .node n → ∀ l ∈ calls f E cs, n ∈ l := by
    intro f n hf cs
    induction cs with
    | nil => intro E _ l hl; cases hl
    | cons d cs ih =>
      intro E hE l hl
      rw [calls] at hl
      obtain ⟨h1, h2⟩ := hf E d hE
      rcases List.mem_cons.1 hl with rfl | hl
      · exact h2
      · exact ih _ h1 l hl
  have fst : ∀ (E : Env) (d : Call), E.first = .node (c.cwd, v c.source) → fileVar d E.first = (.node (c.cwd, v c.source), [(c.cwd, v c.source)]) := by
    intro E d hE; rw [hE]; rfl
  constructor
  · intro l hl
    rw [calls] at hl
    rcases List.mem_cons.1 hl with rfl | hl
    · exact lex_first (by rw [fileVar_set hv]; simp)
    · refine key lex (c.cwd, v c.source) (fun E d hE => ⟨?_, lex_first ?_⟩) cs _ ?_ l hl
      · rw [lex_env, fst E d hE]
      · rw [fst E d hE]; simp
      · rw [lex_env, fileVar_set hv]
  · intro objc l hl
    rw [calls] at hl
    rcases List.mem_cons.1 hl with rfl | hl
    · exact yacc_first (E := ⟨.text v, .text w⟩) (by rw [fileVar_set hv]; simp)
    · refine key (fun E c => ((yacc objc E c).1, (yacc objc E c).2.1)) (c.cwd, v c.source) (fun E d hE => ⟨?_, yacc_first ?_⟩) cs _ ?_ l hl
      · dsimp only
        rw [yacc_env, fst E d hE]
      · rw [fst E d hE]; simp
      · dsimp only
        rw [yacc_env, fileVar_set hv]

/-! ## Cases -/

def call (src : String) (flags : List String) : Call :=
  { cwd := [], base := src.toList, suffix := ".c".toList, others := [], source := src.toList, sourceExt := ".y".toList, flags := flags.map String.toList, hsuf := ".h".toList, gsuf := ".gv".toList }

def empty : Env := ⟨.text fun _ => [], .text fun _ => []⟩

/-- `${SOURCE.base}.tab.h` -/
def perSource : Env := ⟨.text fun s => s ++ ".tab.h".toList, .text fun _ => []⟩

def names (l : List File) : List String := l.map fun f => String.ofList f.2

theorem C122_sample : names (yacc false empty (call "g" ["-d", "-v", "--graph=x.dot"])).2.1 = ["g.c", "g.h", "x.dot"] ∧ names (yacc false empty (call "g" ["-d", "-v", "--graph=x.dot"])).2.2 = ["g.output"] := by decide +kernel

theorem C122_sample_asked : Bison false (call "g" ["-d", "-v", "--graph=x.dot"]) "x.dot".toList := .file (o := "--graph=".toList) (by decide) (by decide) (by decide)

theorem C122_sample_frozen : (calls lex perSource [call "a" [], call "b" []]).map names = [["a.c", "a.tab.h"], ["b.c", "a.tab.h"]] ∧ names (lex perSource (call "b" [])).2 = ["b.c", "b.tab.h"] := by decide +kernel

/-- **Counterexample.** Two options in one word: bison writes the header, which is not a target. -/
theorem C122_cluster_counterexample : Bison true (call "g" ["-dv"]) "g.h".toList ∧ names (yacc false empty (call "g" ["-dv"])).2.1 = ["g.c"] ∧ (yacc false empty (call "g" ["-dv"])).2.2 = [] :=
  ⟨.cluster (l := "dv".toList) rfl (by decide) (by decide) (by decide), by decide +kernel, by decide +kernel⟩

/-- **Counterexample.** A short option with its file. -/
theorem C122_joined_counterexample : Bison true (call "g" ["-Hh.h"]) "h.h".toList ∧ names (yacc false empty (call "g" ["-Hh.h"])).2.1 = ["g.c"] :=
  ⟨.joined (o := "-H".toList) rfl (by decide) (by decide) (by decide), by decide +kernel⟩

/-- **Counterexample.** The long form of `-v`. -/
theorem C122_verbose_counterexample : Bison true (call "g" ["--verbose"]) "g.output".toList ∧ names (yacc false empty (call "g" ["--verbose"])).2.1 = ["g.c"] ∧ (yacc false empty (call "g" ["--verbose"])).2.2 = [] :=
  ⟨.reportLong (o := "--verbose".toList) rfl (by decide) (by decide), by decide +kernel, by decide +kernel⟩

/-- **Counterexample.** For Objective-C the targets that were given besides the first are dropped. -/
theorem C122_objc_counterexample : names (yacc true empty { call "g" [] with others := ["extra.txt".toList] }).2.1 = ["g.m"] := by decide +kernel

end Verif.Yacc
