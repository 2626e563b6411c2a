import Verif.Warn.Model

/-!
# C97: theorems

Specification: the types of the manual (doc/man/scons.xml, `--warn`), written out, what each is about, and which are on by default.
-/

namespace Verif.Warn

/-! ### Specification -/

/-- The types of the manual, the undocumented ones and what they are about. -/
def about : List (String × List Cls) :=
  [("all", [.scons, .onByDefault, .link, .cacheVersion, .cacheWriteError, .cacheCleanupError, .corruptSConsign, .dependency,
     .developmentVersion, .duplicateEnvironment, .fortranCxxMix, .futureReservedVariable, .misleadingKeywords,
     .missingSConscript, .noObjectCount, .noParallelSupport, .reservedVariable, .stackSize, .targetNotBuilt,
     .visualCMissing, .visualVersionMismatch, .visualStudioMissing, .futureDeprecated, .deprecated,
     .mandatoryDeprecated, .pythonVersion, .deprecatedOptions, .deprecatedDebugOptions, .foreign]),
   ("cache-version", [.cacheVersion]),
   ("cache-write-error", [.cacheWriteError]),
   ("cache-cleanup-error", [.cacheCleanupError]),
   ("corrupt-sconsign", [.corruptSConsign]),
   ("dependency", [.dependency]),
   ("deprecated", [.deprecated, .mandatoryDeprecated, .pythonVersion, .deprecatedOptions, .deprecatedDebugOptions]),
   ("duplicate-environment", [.duplicateEnvironment]),
   ("fortran-cxx-mix", [.fortranCxxMix]),
   ("future-reserved-variable", [.futureReservedVariable]),
   ("future-deprecated", [.futureDeprecated]),
   ("link", [.link, .fortranCxxMix]),
   ("misleading-keywords", [.misleadingKeywords]),
   ("missing-sconscript", [.missingSConscript]),
   ("no-object-count", [.noObjectCount]),
   ("no-parallel-support", [.noParallelSupport]),
   ("python-version", [.pythonVersion]),
   ("reserved-variable", [.reservedVariable]),
   ("stack-size", [.stackSize]),
   ("target-not-built", [.targetNotBuilt]),
   ("development-version", [.developmentVersion]),
   ("mandatory-deprecated", [.mandatoryDeprecated, .deprecatedOptions, .deprecatedDebugOptions]),
   ("deprecated-options", [.deprecatedOptions]),
   ("deprecated-debug-options", [.deprecatedDebugOptions])]

/-- The warnings that are said to be mandatory. -/
def mandatory : List Cls := [.mandatoryDeprecated, .deprecatedOptions, .deprecatedDebugOptions]

/-- On by default, says the manual, or has the name of the base class for that. -/
def byDefault : List Cls :=
  [.onByDefault, .link, .cacheVersion, .corruptSConsign, .developmentVersion, .duplicateEnvironment, .fortranCxxMix,
   .futureReservedVariable, .misleadingKeywords, .missingSConscript, .noObjectCount, .noParallelSupport, .reservedVariable,
   .stackSize, .visualCMissing, .visualVersionMismatch, .deprecated, .mandatoryDeprecated, .pythonVersion,
   .deprecatedOptions, .deprecatedDebugOptions]

/-- A request. -/
structure Req where
  enable : Bool
  type : Nat
  ok : type < about.length

def Req.name (r : Req) : String := (about[r.type]'r.ok).1
def Req.covers (r : Req) (c : Cls) : Bool := (about[r.type]'r.ok).2.contains c

/-- How it is written. -/
def Req.text (r : Req) : Str := (if r.enable then "" else "no-").toList ++ r.name.toList

/-- A request that is refused: to disable nothing but mandatory warnings. -/
def Req.refused (r : Req) : Bool :=
  !r.enable && ["mandatory-deprecated", "deprecated-options", "deprecated-debug-options"].contains r.name

/-- What the requests say about a warning: the last that covers it. -/
def verdict (rs : List Req) (c : Cls) : Option Bool :=
  (rs.reverse.find? fun r => r.covers c && !r.refused).map Req.enable

/-! ### One request -/

/-- What a request does to the list. -/
def entry (r : Req) : Option (Cls × Bool) :=
  match classOf (splitNo r.text).2 with
  | none => none
  | some c =>
    if (splitNo r.text).1 then some (c, true)
    else if c.isA .mandatoryDeprecated then none
    else some (c, false)

theorem process1_entry (E : Enabled) (r : Req) : process1 E r.text = (entry r).toList ++ E := by
  unfold process1 entry
  cases classOf (splitNo r.text).2 with
  | none => rfl
  | some c =>
    simp only
    split
    · rfl
    · split <;> rfl

/-- All types, both ways, checked by evaluation. -/
def tableOk : Bool :=
  (List.range about.length).all fun i => [true, false].all fun b =>
    if h : i < about.length then
      let r : Req := ⟨b, i, h⟩
      match entry r with
      | none => r.refused
      | some (d, f) => (f == b) && !r.refused && (Cls.foreign :: classes).all fun c => c.isA d == r.covers c
    else true

set_option maxRecDepth 100000 in
theorem tableOk_true : tableOk = true := by decide +kernel

theorem mem_classes (c : Cls) : c ∈ Cls.foreign :: classes := by cases c <;> decide

theorem entry_spec (r : Req) :
    (entry r = none ∧ r.refused = true) ∨
      ∃ d, entry r = some (d, r.enable) ∧ r.refused = false ∧ ∀ c, c.isA d = r.covers c := by
  have h := tableOk_true
  unfold tableOk at h
  rw [List.all_eq_true] at h
  have h1 := h r.type (List.mem_range.2 r.ok)
  rw [List.all_eq_true] at h1
  have h2 := h1 r.enable (by cases r.enable <;> simp)
  rw [dif_pos r.ok] at h2
  simp only at h2
  have hr : (⟨r.enable, r.type, r.ok⟩ : Req) = r := rfl
  rw [hr] at h2
  rcases he : entry r with _ | ⟨d, f⟩
  · rw [he] at h2; exact .inl ⟨rfl, h2⟩
  · rw [he] at h2
    simp only [Bool.and_eq_true, beq_iff_eq, Bool.not_eq_true', List.all_eq_true] at h2
    obtain ⟨⟨h3, h4⟩, h5⟩ := h2
    subst h3
    exact .inr ⟨d, rfl, h4, fun c => h5 c (mem_classes c)⟩

/-! ### Lists of requests -/

theorem shows_process1 (E : Enabled) (r : Req) (c : Cls) :
    shows (process1 E r.text) c = if r.covers c && !r.refused then r.enable else shows E c := by
  rw [process1_entry]
  rcases entry_spec r with ⟨h1, h2⟩ | ⟨d, h1, h2, h3⟩
  · rw [h1, h2]; simp
  · rw [h1, h2]
    simp only [Option.toList_some, List.cons_append, List.nil_append, shows, List.find?_cons, h3]
    cases r.covers c <;> simp

theorem verdict_append (a b : List Req) (c : Cls) :
    verdict (a ++ b) c = (verdict b c).or (verdict a c) := by
  unfold verdict
  rw [List.reverse_append, List.find?_append]
  cases List.find? (fun r => r.covers c && !r.refused) b.reverse <;> simp

theorem verdict_one (r : Req) (c : Cls) :
    verdict [r] c = if r.covers c && !r.refused then some r.enable else none := by
  unfold verdict
  simp only [List.reverse_cons, List.reverse_nil, List.nil_append, List.find?_cons, List.find?_nil]
  cases r.covers c && !r.refused <;> simp

theorem shows_process (E : Enabled) (rs : List Req) (c : Cls) :
    shows (process E (rs.map Req.text)) c = (verdict rs c).getD (shows E c) := by
  induction rs generalizing E with
  | nil => rfl
  | cons r rs ih =>
    show shows (process (process1 E r.text) (rs.map Req.text)) c = _
    rw [ih, shows_process1, show r :: rs = [r] ++ rs from rfl, verdict_append, verdict_one]
    cases verdict rs c <;> simp
    split <;> simp

theorem shows_default (c : Cls) :
    shows ((.deprecated, true) :: (.onByDefault, true) :: []) c = byDefault.contains c := by
  cases c <;> rfl

/-! ### Sessions -/

/-- The things that happen, with requests written out. -/
inductive REv where
  | set (rs : List Req)
  | endRead

def REv.ev : REv → Ev
  | .set rs => .set (rs.map Req.text)
  | .endRead => .endRead

/-- All requests made by `SetOption`. -/
def REv.reqs : REv → List Req
  | .set rs => rs
  | .endRead => []

def settings (evs : List REv) : List Req := evs.flatMap REv.reqs

/-- Known of a state: what is shown, and what would be replayed. -/
structure Inv (cmd : List Req) (sets : List Req) (s : St) : Prop where
  shown : ∀ c, shows s.enabled c = ((verdict sets c).or (verdict cmd c)).getD (byDefault.contains c)
  cmd : s.cmd = cmd.map Req.text
  setting : s.setting = some (sets.map Req.text) ∨ (s.setting = none ∧ sets = [])

theorem inv_start (cmd : List Req) : Inv cmd [] (start (cmd.map Req.text)) where
  shown c := by
    show shows (process _ _) c = _
    rw [shows_process, shows_default]
    simp [verdict]
  cmd := rfl
  setting := .inr ⟨rfl, rfl⟩

theorem or_self_getD (a b : Option Bool) (d : Bool) : a.getD ((a.or b).getD d) = (a.or b).getD d := by
  cases a <;> rfl

theorem inv_ev {cmd sets : List Req} {s : St} (h : Inv cmd sets s) (e : REv) :
    Inv cmd (sets ++ e.reqs) (s.ev e.ev) := by
  cases e with
  | set rs =>
    have hv : s.setting.getD [] ++ rs.map Req.text = (sets ++ rs).map Req.text := by
      rcases h.setting with h1 | ⟨h1, h2⟩
      · rw [h1]; simp
      · rw [h1, h2]; simp
    refine ⟨fun c => ?_, h.cmd, .inl ?_⟩
    · show shows (process s.enabled (s.setting.getD [] ++ rs.map Req.text)) c = _
      rw [hv, shows_process, h.shown]
      simp only [REv.reqs]
      rw [verdict_append]
      cases verdict rs c <;> cases verdict sets c <;> cases verdict cmd c <;> rfl
    · show some (s.setting.getD [] ++ rs.map Req.text) = _
      rw [hv]; rfl
  | endRead =>
    refine ⟨fun c => ?_, h.cmd, ?_⟩
    · show shows (process s.enabled s.warn) c = _
      simp only [REv.reqs, List.append_nil]
      unfold St.warn
      rcases h.setting with h1 | ⟨h1, h2⟩
      · rw [h1]
        simp only [Option.getD_some]
        rw [shows_process, h.shown, or_self_getD]
      · rw [h1]
        simp only [Option.getD_none]
        rw [h.cmd, shows_process, h.shown, h2]
        cases verdict cmd c <;> rfl
    · have := h.setting
      simp only [REv.reqs, List.append_nil]
      exact this

theorem inv_run (cmd : List Req) (evs : List REv) :
    Inv cmd (settings evs) (run (cmd.map Req.text) (evs.map REv.ev)) := by
  have key : ∀ (evs : List REv) (sets : List Req) (s : St), Inv cmd sets s →
      Inv cmd (sets ++ settings evs) ((evs.map REv.ev).foldl St.ev s) := by
    intro evs
    induction evs with
    | nil => intro sets s h; simpa [settings] using h
    | cons e evs ih =>
      intro sets s h
      have := ih _ _ (inv_ev h e)
      simpa [settings, List.append_assoc] using this
  exact key evs [] _ (inv_start cmd)

/-! ### Theorems -/

/-- C97: at every moment, a warning is shown according to the last request of `SetOption` that covers it,
else to the last of the command line, else to the default. -/
theorem C97_last_request_decides (cmd : List Req) (evs : List REv) (c : Cls) :
    shows (run (cmd.map Req.text) (evs.map REv.ev)).enabled c =
      ((verdict (settings evs) c).or (verdict cmd c)).getD (byDefault.contains c) :=
  (inv_run cmd evs).shown c

/-- C97: a request of the command line cannot be undone by requests that do not cover the warning. -/
theorem C97_command_line_partial (cmd : List Req) (evs : List REv) (c : Cls) (b : Bool)
    (hc : verdict cmd c = some b) (hs : ∀ r ∈ settings evs, r.covers c = false ∨ r.enable = b) :
    shows (run (cmd.map Req.text) (evs.map REv.ev)).enabled c = b := by
  rw [C97_last_request_decides, hc]
  rcases hv : verdict (settings evs) c with _ | b'
  · rfl
  · unfold verdict at hv
    rw [Option.map_eq_some_iff] at hv
    obtain ⟨r, h1, h2⟩ := hv
    have h3 := List.find?_some h1
    have h4 := List.mem_reverse.1 (List.mem_of_find?_eq_some h1)
    simp only [Bool.and_eq_true] at h3
    rcases hs r h4 with h | h
    · rw [h] at h3; simp at h3
    · simp [← h2, h]

/-- C97: mandatory warnings are shown, unless a request is about all warnings or all deprecated features. -/
theorem C97_mandatory_partial (cmd : List Req) (evs : List REv) (c : Cls) (hc : c ∈ mandatory)
    (hr : ∀ r ∈ cmd ++ settings evs, r.text ≠ "no-all".toList ∧ r.text ≠ "no-deprecated".toList) :
    shows (run (cmd.map Req.text) (evs.map REv.ev)).enabled c = true := by
  have key : ∀ rs : List Req, (∀ r ∈ rs, r.text ≠ "no-all".toList ∧ r.text ≠ "no-deprecated".toList) →
      verdict rs c ≠ some false := by
    intro rs h hv
    unfold verdict at hv
    rw [Option.map_eq_some_iff] at hv
    obtain ⟨r, h1, h2⟩ := hv
    have h3 := List.find?_some h1
    have h4 := h r (List.mem_reverse.1 (List.mem_of_find?_eq_some h1))
    clear h1
    revert h2 h3 h4
    have : ∀ i : Fin about.length, ∀ c ∈ mandatory, (⟨false, i.1, i.2⟩ : Req).covers c && !(⟨false, i.1, i.2⟩ : Req).refused →
        (⟨false, i.1, i.2⟩ : Req).text = "no-all".toList ∨ (⟨false, i.1, i.2⟩ : Req).text = "no-deprecated".toList := by
      decide +kernel
    intro h2 h3 h4
    obtain ⟨b, i, hi⟩ := r
    simp only at h2
    subst h2
    rcases this ⟨i, hi⟩ c hc h3 with h | h
    · exact h4.1 h
    · exact h4.2 h
  rw [C97_last_request_decides]
  have h1 := key cmd fun r h => hr r (List.mem_append_left _ h)
  have h2 := key (settings evs) fun r h => hr r (List.mem_append_right _ h)
  have h3 : byDefault.contains c = true := by
    have : ∀ c ∈ mandatory, byDefault.contains c = true := by decide
    exact this c hc
  rw [h3]
  rcases hv1 : verdict cmd c with _ | _ | _ <;> rcases hv2 : verdict (settings evs) c with _ | _ | _ <;> simp_all

/-- C97: a text that names no type changes nothing. -/
theorem C97_unknown_type (cmd : List Req) (evs : List REv) (x : Str) (h : classOf (splitNo x).2 = none) :
    process1 (run (cmd.map Req.text) (evs.map REv.ev)).enabled x = (run (cmd.map Req.text) (evs.map REv.ev)).enabled := by
  unfold process1; rw [h]

/-! ### Concrete cases -/

namespace Ex

/-- A request by its type. -/
def req (b : Bool) (i : Nat) (h : i < about.length := by decide) : Req := ⟨b, i, h⟩

def noDeprecated := req false 6
def pythonVersion := req true 16
def noAll := req false 0
def link := req true 11
def noLink := req false 11
def fortran := req true 8

/-- `--warn=no-deprecated --warn=python-version`, then `SetOption('warn', ['no-link', 'fortran-cxx-mix'])`. -/
theorem applied :
    [noDeprecated, pythonVersion].map Req.text = ["no-deprecated".toList, "python-version".toList] ∧
    verdict [noDeprecated, pythonVersion] .pythonVersion = some true ∧
    (∀ r ∈ settings [.set [noLink, fortran], .endRead], r.covers .pythonVersion = false ∨ r.enable = true) ∧
    (let s := run ([noDeprecated, pythonVersion].map Req.text) ([REv.set [noLink, fortran], .endRead].map REv.ev)
     shows s.enabled .pythonVersion = true ∧ shows s.enabled .deprecated = false ∧ shows s.enabled .link = false ∧
     shows s.enabled .fortranCxxMix = true ∧ shows s.enabled .stackSize = true ∧ shows s.enabled .dependency = false) := by
  decide +kernel

theorem applied_mandatory :
    (∀ r ∈ [req false 22, pythonVersion] ++ settings [.set [noLink], .endRead],
      r.text ≠ "no-all".toList ∧ r.text ≠ "no-deprecated".toList) ∧ Cls.deprecatedOptions ∈ mandatory := by
  decide +kernel

theorem unknown : classOf (splitNo "no-such-thing".toList).2 = none ∧
    classOf (splitNo "visual-version-mismatch".toList).2 = none := by decide +kernel

end Ex

/-- A value given by `SetOption` overrides the command line, and not the other way round. -/
theorem C97_counterexample_precedence :
    verdict [Ex.noLink] .link = some false ∧
    shows (run ([Ex.noLink].map Req.text) ([REv.set [Ex.link], .endRead].map REv.ev)).enabled .link = true := by
  decide +kernel

/-- `no-deprecated` and `no-all` disable mandatory warnings too. -/
theorem C97_counterexample_mandatory :
    Cls.deprecatedOptions ∈ mandatory ∧
    shows (run ([Ex.noDeprecated].map Req.text) []).enabled .deprecatedOptions = false ∧
    shows (run ([Ex.noAll].map Req.text) []).enabled .deprecatedOptions = false := by
  decide +kernel

/-- `reserved-variable`, which the manual says is disabled by default, is enabled. -/
theorem C97_counterexample_reserved : shows (start []).enabled .reservedVariable = true := by decide +kernel

end Verif.Warn
