import Verif.Script.OptionsProps

/-!
# C78: examples and counterexamples
-/

namespace Verif.Options.Ex

def str (x : Text) : Option Val := some (.str x)

/-- Decimal digits. -/
def digits (x : Text) : Option Int := if x ≠ [] ∧ x.all Char.isDigit then some (x.foldl (fun n c => 10 * n + (c.toNat - 48 : Nat)) 0) else none

def num (x : Text) : Option Val := (digits x).map .int

def jobs : Opt := ⟨[t "--jobs"], ['j'], t "num_jobs", .many 1, .store, .int 1, false, num⟩
def warn : Opt := ⟨[t "--warn"], [], t "warn", .many 1, .extend, .strs [], false, str⟩
def silent : Opt := ⟨[t "--silent"], ['s'], t "silent", .zero, .const (.bool true), .bool false, false, str⟩

def table : List Opt := [jobs, warn, silent]

def settable : List Text := [t "num_jobs", t "warn", t "silent", t "hash_chunksize", t "md5_chunksize", t "implicit_deps_changed", t "no_progress", t "duplicate"]

def defaults : Dict := fun d =>
  if d = t "num_jobs" then some (.int 1) else if d = t "warn" then some (.strs []) else if d = t "silent" then some (.bool false)
  else if d = t "md5_chunksize" then some (.int 64) else if d = t "implicit_deps_changed" then some (.bool false) else if d = t "implicit_cache" then some (.bool false)
  else if d = t "no_progress" then some (.bool false) else if d = t "duplicate" then some (.str (t "hard-soft-copy")) else none

/-- Local options. -/
def prefixO : Opt := ⟨[t "--prefix"], [], t "prefix", .many 1, .store, .str (t "/opt"), true, str⟩
def level : Opt := ⟨[t "--level"], [], t "level", .many 1, .store, .int 0, false, num⟩
def define : Opt := ⟨[t "--define"], ['D'], t "define", .many 1, .append, .none, false, str⟩

def disk (_ : Val) : Option Val := none

abbrev begin (flags argv : List String) : Option Parser := start table settable defaults (flags.map t) (argv.map t)

/-- The whole run. -/
abbrev run (flags argv : List String) (cs : List Cmd) : Option Parser := (begin flags argv).bind fun p => (readScripts digits disk p cs).bind Parser.finish

/-- What `GetOption` gives at the end. -/
abbrev final (flags argv : List String) (cs : List Cmd) (d : String) : Option (Option Val) := (run flags argv cs).map fun p => p.vals.get (t d)

/-! ## The hypotheses can be met -/

def flags : List String := ["--silent", "--jobs=2"]
def argv : List String := ["prog", "--jobs=4", "--define=A", "--prefix=/a", "x=1", "--define=B", "--prefix=/b"]
def scripts : List Cmd := [.set (t "num_jobs") (.int 8), .add define, .set (t "silent") (.bool false), .add prefixO, .set (t "prefix") (.str (t "/c")), .add level]

theorem begin_some : (begin flags argv).isSome = true := by decide +kernel
def p0 : Parser := (begin flags argv).get begin_some
theorem last_some : ((readScripts digits disk p0 scripts).bind Parser.finish).isSome = true := by decide +kernel
def p2 : Parser := ((readScripts digits disk p0 scripts).bind Parser.finish).get last_some

theorem theRun : Run digits disk table settable defaults (flags.map t) (argv.map t) scripts p0 p2 :=
  ⟨(Option.some_get begin_some).symm, (Option.some_get last_some).symm⟩

theorem largs0 : p0.largs = ["prog", "--define=A", "--prefix=/a", "x=1", "--define=B", "--prefix=/b"].map t := by decide +kernel

theorem plain0 : Plain p0.largs := by rw [largs0]; unfold Plain; decide +kernel

theorem plainLine : Plain (flags.map t ++ argv.map t) := by unfold Plain; decide +kernel

theorem attachedLine : ∀ o ∈ table, Attached o (flags.map t ++ argv.map t) := by
  intro o ho e he
  simp only [table, List.mem_cons, List.not_mem_nil, or_false] at ho
  rcases ho with rfl | rfl | rfl
  · have : given jobs (flags.map t ++ argv.map t) = [some (t "2"), some (t "4")] := by decide +kernel
    rw [this] at he
    simp only [List.mem_cons, List.not_mem_nil, or_false] at he
    rcases he with rfl | rfl <;> exact Or.inr (Or.inl ⟨rfl, rfl⟩)
  · have : given warn (flags.map t ++ argv.map t) = [] := by decide +kernel
    rw [this] at he; cases he
  · have : given silent (flags.map t ++ argv.map t) = [none] := by decide +kernel
    rw [this, List.mem_singleton] at he
    exact Or.inl ⟨rfl, he⟩

theorem given_prefix : given prefixO p0.largs = [some (t "/a"), some (t "/b")] := by rw [largs0]; decide +kernel
theorem given_define : given define p0.largs = [some (t "A"), some (t "B")] := by rw [largs0]; decide +kernel
theorem given_level : given level p0.largs = [] := by rw [largs0]; decide +kernel

theorem attached0 : ∀ o ∈ declared scripts, Attached o p0.largs := by
  intro o ho e he
  simp only [declared, scripts, List.mem_cons, List.not_mem_nil, or_false] at ho
  rcases ho with rfl | rfl | rfl
  · rw [given_define] at he
    simp only [List.mem_cons, List.not_mem_nil, or_false] at he
    rcases he with rfl | rfl <;> exact Or.inr (Or.inl ⟨rfl, rfl⟩)
  · rw [given_prefix] at he
    simp only [List.mem_cons, List.not_mem_nil, or_false] at he
    rcases he with rfl | rfl <;> exact Or.inr (Or.inl ⟨rfl, rfl⟩)
  · rw [given_level] at he; cases he

/-- The command line's number of jobs (not `SCONSFLAGS`, not `SetOption`); the flag; the last prefix; all definitions; the default level. -/
theorem nonvacuous :
    p0.vals.cmd (t "num_jobs") = some (.int 4) ∧ p2.vals.get (t "num_jobs") = some (.int 4) ∧ p2.vals.get (t "silent") = some (.bool true) ∧
    p2.vals.get (t "prefix") = some (.str (t "/b")) ∧ p2.vals.get (t "define") = some (.strs [t "A", t "B"]) ∧ p2.vals.get (t "level") = some (.int 0) ∧
    p2.largs = ["prog", "x=1"].map t ∧ p0.words = ([t "prog"], [t "x=1"]) := by decide +kernel

/-- The theorems apply to this run. -/
theorem applied :
    p0.vals.cmd (t "num_jobs") = some (.int 4) ∧ p2.vals.get (t "num_jobs") = some (.int 4) ∧ (∃ x, valueOf prefixO (some (t "/b")) = some x ∧ p2.vals.get (t "prefix") = some x) ∧
    p2.vals.get (t "define") = some (.strs [t "A", t "B"]) := by
  have hjobs : p0.vals.cmd (t "num_jobs") = some (.int 4) := by
    have := (C78_first_parse (Option.some_get begin_some).symm plainLine attachedLine).2.2 jobs (by simp [table]) (Or.inl rfl)
      (by intro n hn; simp only [jobs, List.mem_singleton] at hn; subst hn; simp [findLong, table, jobs])
      (by
        intro o ho htc
        simp only [table, List.mem_cons, List.not_mem_nil, or_false] at ho
        rcases ho with rfl | rfl | rfl
        · rfl
        · rcases htc with h | h
          · exact absurd h (by decide +kernel)
          · cases h
        · rcases htc with h | h
          · exact absurd h (by decide +kernel)
          · cases h)
    have h2 : ((given jobs (argv.map t)).getLast?.or (given jobs (flags.map t)).getLast?).bind (valueOf jobs) = some (.int 4) := by decide +kernel
    exact this.trans h2
  have hno : ∀ (d : Text), d ≠ t "define" → d ≠ t "prefix" → d ≠ t "level" → ∀ o ∈ declared scripts, ¬ o.touches d := by
    intro d h1 h2 h3 o ho
    simp only [declared, scripts, List.mem_cons, List.not_mem_nil, or_false] at ho
    rcases ho with rfl | rfl | rfl
    · rintro (h | h)
      · exact h1 h.symm
      · cases h
    · rintro (h | h)
      · exact h2 h.symm
      · cases h
    · rintro (h | h)
      · exact h3 h.symm
      · cases h
  have htab : ∀ (d : Text), d ≠ t "num_jobs" → d ≠ t "warn" → d ≠ t "silent" → ∀ o ∈ table, ¬ o.touches d := by
    intro d h1 h2 h3 o ho
    simp only [table, List.mem_cons, List.not_mem_nil, or_false] at ho
    rcases ho with rfl | rfl | rfl
    · rintro (h | h)
      · exact h1 h.symm
      · cases h
    · rintro (h | h)
      · exact h2 h.symm
      · cases h
    · rintro (h | h)
      · exact h3 h.symm
      · cases h
  refine ⟨hjobs, (C78_precedence theRun plain0 attached0 (hno _ (by decide +kernel) (by decide +kernel) (by decide +kernel))).1 _ hjobs, ?_, ?_⟩
  · refine (C78_local_option theRun plain0 attached0 (pre := [.set (t "num_jobs") (.int 8), .add define, .set (t "silent") (.bool false)])
      (post := [.set (t "prefix") (.str (t "/c")), .add level]) (o := prefixO) rfl (Or.inl rfl) (htab _ (by decide +kernel) (by decide +kernel) (by decide +kernel)) ?_
      (by decide +kernel)).1 _ (by rw [given_prefix]; rfl)
    intro o ho
    simp only [declared, List.mem_append, List.mem_cons, List.not_mem_nil, or_false] at ho
    rcases ho with rfl | rfl
    · rintro (h | h)
      · exact absurd h (by decide +kernel)
      · cases h
    · rintro (h | h)
      · exact absurd h (by decide +kernel)
      · cases h
  · have := C78_append_option theRun plain0 attached0 (pre := [.set (t "num_jobs") (.int 8)])
      (post := [.set (t "silent") (.bool false), .add prefixO, .set (t "prefix") (.str (t "/c")), .add level]) (o := define) rfl rfl rfl (fun _ => rfl) rfl
      (htab _ (by decide +kernel) (by decide +kernel) (by decide +kernel))
      (by
        intro o ho
        simp only [declared, List.mem_append, List.mem_cons, List.not_mem_nil, or_false, false_or] at ho
        rcases ho with rfl | rfl
        · rintro (h | h)
          · exact absurd h (by decide +kernel)
          · cases h
        · rintro (h | h)
          · exact absurd h (by decide +kernel)
          · cases h)
      (by decide +kernel) (by decide +kernel) (by rw [given_define]; nofun)
    rw [given_define] at this
    exact this

/-! ## Where the documented precedence fails -/

/-- The value of a local option, given as a separate argument, is also a target. -/
theorem value_is_a_target : (begin [] ["--prefix", "/usr", "all"]).map (fun p => p.words.1) = some [t "/usr", t "all"] ∧
    final [] ["--prefix", "/usr", "all"] [.add prefixO] "prefix" = some (some (.str (t "/usr"))) := by decide +kernel

/-- Two local options with separate values: the second is torn from its value, and the run ends with an error; either order of declarations. -/
theorem two_separate_values : run [] ["--prefix", "/usr", "--level", "3"] [.add prefixO, .add level] |>.isNone := by decide +kernel
theorem two_separate_values' : run [] ["--prefix", "/usr", "--level", "3"] [.add level, .add prefixO] |>.isNone := by decide +kernel
/-- With attached values the same options work. -/
theorem two_attached_values : final [] ["--prefix=/usr", "--level=3"] [.add prefixO, .add level] "level" = some (some (.int 3)) := by decide +kernel

def on : Opt := ⟨[t "--on"], [], t "flag", .zero, .const (.bool true), .none, false, str⟩
def off : Opt := ⟨[t "--off"], [], t "flag", .zero, .const (.bool false), .none, false, str⟩

/-- Two local options for one name: not the last on the command line counts, but the last declared. -/
theorem last_declared_wins : final [] ["--off", "--on"] [.add on, .add off] "flag" = some (some (.bool false)) ∧
    final [] ["--off", "--on"] [.add off, .add on] "flag" = some (some (.bool true)) := by decide +kernel

def vv : Opt := ⟨[], ['v'], t "verbosity", .zero, .count, .int 0, false, str⟩
def ww : Opt := ⟨[], ['w'], t "width", .zero, .count, .int 0, false, str⟩

/-- Letters of one argument: an option declared first is counted again when the second is declared. -/
theorem counted_twice : final [] ["-vw"] [.add vv, .add ww] "verbosity" = some (some (.int 2)) ∧ final [] ["-v", "-w"] [.add vv, .add ww] "verbosity" = some (some (.int 1)) := by
  decide +kernel

/-- Warnings of the command line are put into the list of defaults, which `SetOption` then hides. -/
theorem warn_not_on_command_line : final [] ["--warn=all"] [] "warn" = some (some (.strs [t "all"])) ∧
    final [] ["--warn=all"] [.set (t "warn") (.str (t "none"))] "warn" = some (some (.strs [t "none"])) := by decide +kernel

def list : Opt := ⟨[t "--add"], [], t "list", .many 1, .append, .strs [t "d"], true, str⟩

/-- So it is with a local option that collects and has a list as its default. -/
theorem append_with_default : final [] ["--add=x"] [.add list] "list" = some (some (.strs [t "d", t "x"])) ∧
    final [] ["--add=x"] [.add list, .set (t "list") (.strs [t "y"])] "list" = some (some (.strs [t "y"])) := by decide +kernel

/-- `SetOption('hash_chunksize')` stores under another name, and `GetOption('hash_chunksize')` is an error. -/
theorem hash_chunksize : final [] [] [.set (t "hash_chunksize") (.int 128)] "hash_chunksize" = some none ∧
    final [] [] [.set (t "hash_chunksize") (.int 128)] "md5_chunksize" = some (some (.int 128)) := by decide +kernel

/-- `SetOption('implicit_deps_changed')`: what is in force is the value before the scripts; only the implicit cache is switched on. -/
theorem implicit_deps_changed :
    ((begin [] []).bind fun p => (run [] [] [.set (t "implicit_deps_changed") (.bool true)]).map fun q => (inForce p q (t "implicit_deps_changed"), q.vals.get (t "implicit_deps_changed"),
      inForce p q (t "implicit_cache"))) = some (some (.bool false), some (.bool true), some (.bool true)) := by decide +kernel

/-- `SetOption('no_progress', False)` switches the progress display off. -/
theorem no_progress_false : ((run [] [] [.set (t "no_progress") (.bool false)]).map fun p => (p.progress, p.vals.get (t "no_progress"))) = some (false, some (.bool false)) := by
  decide +kernel

/-- An option that is not settable cannot be set; one with a name that is taken cannot be declared; an unknown option is an error at the end. -/
theorem errors : (run [] [] [.add level, .set (t "level") (.int 1)]).isNone = true ∧ (run [] [] [.add ⟨[t "--jobs"], [], t "x", .zero, .store, .none, false, str⟩]).isNone = true ∧
    (run [] ["--level=1"] []).isNone = true ∧ (run [] [] [.set (t "num_jobs") (.int 0)]).isNone = true := by decide +kernel

/-- Words after `--` are targets, whatever they look like. -/
theorem words_applied : p0.words = ([t "prog"], [t "x=1"]) ∧
    (begin flags (argv ++ ["--", "-q", "y=2"])).map Parser.words = some ([t "prog", t "-q", t "y=2"], [t "x=1"]) := by
  have e1 : ((flags.map t ++ argv.map t).filter fun a => decide (isLong a = false ∧ '=' ∉ a ∧ a ≠ [] ∧ a ≠ t "\"\"" ∧ a ≠ t "''")) = [t "prog"] := by decide +kernel
  have e2 : ((flags.map t ++ argv.map t).filter fun a => decide (isLong a = false ∧ '=' ∈ a)) = [t "x=1"] := by decide +kernel
  constructor
  · have := C78_words (dd := []) (more := []) (Option.some_get begin_some).symm (List.append_nil _).symm (.inl ⟨rfl, rfl⟩) plainLine attachedLine
    rw [e1, e2] at this
    exact Prod.ext this.1 this.2
  · have h : (begin flags (argv ++ ["--", "-q", "y=2"])).isSome := by decide +kernel
    obtain ⟨p, hp⟩ := Option.isSome_iff_exists.1 h
    have := C78_words (ws := flags.map t ++ argv.map t) (dd := ["--", "-q", "y=2"].map t) (more := ["-q", "y=2"].map t) hp (by simp) (.inr rfl) plainLine attachedLine
    rw [e1, e2] at this
    rw [hp]
    exact congrArg some (Prod.ext this.1 this.2)

end Verif.Options.Ex
