import Verif.Vars.Save

/-!
# Package variables (C126)

Models `_converter`, `_validator` and `PackageVariable` (SCons/Variables/PackageVariable.py 66-133), without `searchfunc`, which is not documented.
`os.path.exists` is a parameter.
-/

namespace Verif.Vars

/-! ## The model -/

def enableStrings : List Str := ["1".toList, "yes".toList, "true".toList, "on".toList, "enable".toList, "search".toList]
def disableStrings : List Str := ["0".toList, "no".toList, "false".toList, "off".toList, "disable".toList]

/-- `default in ENABLE_STRINGS + DISABLE_STRINGS`: as it is written. -/
def isWord : Val → Bool
  | .str s => decide (s ∈ enableStrings ++ disableStrings)
  | _ => false

/-- `_converter` (PackageVariable.py 66-93). -/
def packageConv (default : Val) (v : Val) : Option Val :=
  match v with
  | .list .. => none                                                   -- AttributeError in fact
  | v =>
    if lower v.show ∈ disableStrings then some (.bool false)
    else if lower v.show ∈ enableStrings then some (if isWord default then .bool true else default)
    else some v

/-- `_validator` (PackageVariable.py 96-108). -/
def packageValid (ex : Str → Bool) (key : Str) (v : Val) (e : Env) : Bool :=
  match e key with
  | some (.bool _) => true
  | some (.str []) => true
  | _ => match v with
    | .str s => ex s
    | _ => false

/-- `PackageVariable` (PackageVariable.py 112-133). -/
def packageVar (ex : Str → Bool) (key : Str) (default : Val) : Opt :=
  { key := key, default := some default, conv := some (packageConv default), valid := some (packageValid ex key) }

/-! ## Specification -/

/-- A word, in any case, that means yes, or no. -/
def Enabling (s : Str) : Prop := lower s ∈ ["1", "yes", "true", "on", "enable", "search"].map String.toList
def Disabling (s : Str) : Prop := lower s ∈ ["0", "no", "false", "off", "disable"].map String.toList

/-- What the manual says a text produces, where the text `d` is the default. -/
inductive Produces (d s : Str) : Val → Prop
  | enabled : Enabling s → Enabling d ∨ Disabling d → Produces d s (.bool true)
  | disabled : Disabling s → Produces d s (.bool false)
  | default : Enabling s → ¬ Enabling d → ¬ Disabling d → Produces d s (.str d)
  | path : ¬ Enabling s → ¬ Disabling s → Produces d s (.str s)

/-! ## Proofs -/

theorem enab_disab (s : Str) (h : Enabling s) : ¬ Disabling s := by
  have : ∀ w ∈ enableStrings, w ∉ disableStrings := by decide +kernel
  exact this _ h

theorem isWord_iff (d : Str) (hd : Enabling d ∨ Disabling d → lower d = d) : isWord (.str d) = true ↔ Enabling d ∨ Disabling d := by
  have low : ∀ w ∈ enableStrings ++ disableStrings, lower w = w := by decide +kernel
  unfold isWord
  rw [decide_eq_true_eq]
  constructor
  · intro h
    have e := low d h
    rcases List.mem_append.1 h with h | h
    · left; unfold Enabling; rw [e]; exact h
    · right; unfold Disabling; rw [e]; exact h
  · intro h
    have e := hd h
    rcases h with h | h
    · unfold Enabling at h; rw [e] at h; exact List.mem_append_left _ h
    · unfold Disabling at h; rw [e] at h; exact List.mem_append_right _ h

theorem conv_iff (d s : Str) (hd : Enabling d ∨ Disabling d → lower d = d) (v : Val) : packageConv (.str d) (.str s) = some v ↔ Produces d s v := by
  have hw := isWord_iff d hd
  have he : Enabling s ↔ lower (Val.show (.str s)) ∈ enableStrings := Iff.rfl
  have hdis : Disabling s ↔ lower (Val.show (.str s)) ∈ disableStrings := Iff.rfl
  unfold packageConv
  simp only
  constructor
  · intro h
    split at h
    · rename_i h1; injection h with h; subst h; exact .disabled h1
    · rename_i h1
      split at h
      · rename_i h2
        injection h with h
        split at h
        · rename_i h3; subst h; exact .enabled h2 (hw.1 h3)
        · rename_i h3; subst h
          rw [hw] at h3
          exact .default h2 (fun hh => h3 (.inl hh)) fun hh => h3 (.inr hh)
      · rename_i h2; injection h with h; subst h; exact .path h2 h1
  · intro h
    cases h with
    | enabled h1 h2 => rw [if_neg (hdis.not.1 (enab_disab _ h1)), if_pos (he.1 h1), if_pos (hw.2 h2)]
    | disabled h1 => rw [if_pos (hdis.1 h1)]
    | default h1 h2 h3 => rw [if_neg (hdis.not.1 (enab_disab _ h1)), if_pos (he.1 h1), if_neg (fun hh => (hw.1 hh).elim h2 h3)]
    | path h1 h2 => rw [if_neg (hdis.not.1 h2), if_neg (he.not.1 h1)]

/-- After `Update` a package variable has what the manual says that the last source, or the default, produces; a path that is produced exists, or is empty. -/
theorem C126_value_partial (ex : Str → Bool) (V : Vars) (files : List (List (Str × Val))) (args : List (Str × Val)) (e e' : Env) (V' : Vars)
    (hdecl : Declared V.options) (h : Updated litSub V files args e e' V') (key d : Str) (ho : packageVar ex key (.str d) ∈ V.options)
    (hf : ∀ f ∈ files, OneName (packageVar ex key (.str d)) f) (ha : OneName (packageVar ex key (.str d)) args)
    (hd : Enabling d ∨ Disabling d → lower d = d) (s : Str) (hs : (said (packageVar ex key (.str d)) files args).or (some (.str d)) = some (.str s)) :
    ∃ v, e' key = some v ∧ Produces d s v ∧ ∀ p, v = .str p → p ≠ [] → ex p = true := by
  obtain ⟨-, h2⟩ := C61_converted_partial litSub V files args e e' V' hdecl h _ ho hf ha (packageConv (.str d)) rfl
  obtain ⟨e'', h3, -, h4, h5⟩ := h2 (.str s) hs
  have e1 : litSub e'' (packageVar ex key (.str d)).key = s := by simp [litSub, h3, Val.expand, Val.show]
  have h4 : e' key = packageConv (.str d) (.str s) := by
    rw [e1] at h4; exact h4
  obtain ⟨v, hv⟩ := Option.ne_none_iff_exists'.1 h5
  have hv : e' key = some v := hv
  refine ⟨v, hv, (conv_iff d s hd v).1 (h4 ▸ hv), ?_⟩
  rintro p rfl hp
  have h6 := (C61_validated litSub V files args e e' V' h _ ho (packageValid ex key) rfl (.str p) hv (.inl (by simp [packageVar]))).2.2 p rfl rfl
  have e2 : litSub e' (packageVar ex key (.str d)).key = p := by
    have : e' (packageVar ex key (.str d)).key = some (.str p) := hv
    simp [litSub, this, Val.expand, Val.show]
  rw [e2] at h6
  unfold packageValid at h6
  rw [hv] at h6
  cases p with
  | nil => exact absurd rfl hp
  | cons c p => exact h6

/-- If what is produced is no path, or one that exists, there is no error. -/
theorem C126_accepted (ex : Str → Bool) (key d s : Str) (e : Env) (hd : Enabling d ∨ Disabling d → lower d = d) (v : Val) (hp : Produces d s v) (hv : ∀ p, v = .str p → ex p = true) :
    ∃ V' e', Updated litSub { options := [packageVar ex key (.str d)] } [] [(key, .str s)] e e' V' ∧ e' key = some v := by
  have hc := (conv_iff d s hd v).2 hp
  have hg : (gather { options := [packageVar ex key (.str d)] } [] [(key, .str s)]).values key = some (.str s) := by
    simp [gather, assignAll, assign, toDict, dictSet, packageVar, Opt.names]
  have hput : (putAll [packageVar ex key (.str d)] (gather { options := [packageVar ex key (.str d)] } [] [(key, .str s)]).values e) = e.set key (.str s) := by
    have hk : (packageVar ex key (.str d)).key = key := rfl
    simp [putAll, hk, hg]
  have hset : (e.set key (.str s)) key = some (.str s) := by simp [Env.set]
  have hset2 : ((e.set key (.str s)).set key v) key = some v := by simp [Env.set]
  have hconv : convertAll litSub (gather { options := [packageVar ex key (.str d)] } [] [(key, .str s)]).values [packageVar ex key (.str d)] (e.set key (.str s)) = some ((e.set key (.str s)).set key v) := by
    unfold convertAll
    have e1 : litSub (e.set key (.str s)) key = s := by simp [litSub, hset, Val.expand, Val.show]
    simp only [packageVar, hset, e1]
    have hg' := hg
    simp only [packageVar] at hg'
    rw [hg']
    simp [hc, convertAll]
  have hval : validateAll litSub (gather { options := [packageVar ex key (.str d)] } [] [(key, .str s)]).values [packageVar ex key (.str d)] ((e.set key (.str s)).set key v) = true := by
    unfold validateAll
    have hg' := hg
    simp only [packageVar] at hg'
    simp only [packageVar, List.all_cons, List.all_nil, Bool.and_true, hset2]
    rw [hg']
    simp only [packageValid, hset2]
    cases v with
    | bool b => rfl
    | list a b => cases hp
    | str p =>
      cases p with
      | nil => rfl
      | cons c p =>
        have e2 : litSub ((e.set key (.str s)).set key (.str (c :: p))) key = c :: p := by simp [litSub, hset2, Val.expand, Val.show]
        simp only [if_true, e2]
        exact hv _ rfl
  have : ({ options := [packageVar ex key (.str d)] } : Vars).update litSub [] [(key, .str s)] e ≠ none := by
    unfold Vars.update
    simp only [hput]
    rw [hconv, Option.bind_some, if_pos hval]
    simp
  obtain ⟨⟨e', V'⟩, hu⟩ := Option.ne_none_iff_exists'.1 this
  refine ⟨V', e', hu, ?_⟩
  unfold Vars.update at hu
  simp only [hput] at hu
  rw [hconv, Option.bind_some, if_pos hval] at hu
  injection hu with hu
  injection hu with h1 h2
  rw [← h1, hset2]

/-! ## Cases -/

def onlyUsr (s : Str) : Bool := s = "/usr/X11".toList

def x11 (default : Val) : Vars := { options := [packageVar onlyUsr "x11".toList default] }

/-- The value afterwards, `none` for an error. -/
def after (default : Val) (args : List (Str × Val)) : Option (Option Val) := ((x11 default).update litSub [] args fun _ => none).map fun r => r.1 "x11".toList

theorem C126_sample : after (.str "no".toList) [("x11".toList, .str "Search".toList)] = some (some (.bool true)) ∧ after (.str "yes".toList) [("x11".toList, .str "OFF".toList)] = some (some (.bool false)) ∧
    after (.str "/usr/X11".toList) [("x11".toList, .str "yes".toList)] = some (some (.str "/usr/X11".toList)) ∧ after (.str "no".toList) [("x11".toList, .str "/usr/X11".toList)] = some (some (.str "/usr/X11".toList)) ∧
    after (.str "no".toList) [("x11".toList, .str "/opt".toList)] = none ∧ after (.str "no".toList) [] = some (some (.bool false)) := by decide +kernel

/-- The hypotheses are met. -/
theorem C126_sample_value : ∃ e' V', Updated litSub (x11 (.str "/usr/X11".toList)) [] [("x11".toList, .str "yes".toList)] (fun _ => none) e' V' ∧ e' "x11".toList = some (.str "/usr/X11".toList) := by
  obtain ⟨V', e', h1, h2⟩ := C126_accepted onlyUsr "x11".toList "/usr/X11".toList "yes".toList (fun _ => none) (by
      rintro (h | h)
      · exact absurd h (by unfold Enabling; decide +kernel)
      · exact absurd h (by unfold Disabling; decide +kernel)) (.str "/usr/X11".toList)
    (.default (by unfold Enabling; decide +kernel) (by unfold Enabling; decide +kernel) (by unfold Disabling; decide +kernel)) (by rintro p h; injection h with h; subst h; decide)
  exact ⟨e', V', h1, h2⟩

theorem C126_sample_last (e' : Env) (V' : Vars) (h : Updated litSub (x11 (.str "no".toList)) [[("x11".toList, .str "/opt".toList)]] [("x11".toList, .str "ON".toList)] (fun _ => none) e' V') :
    ∃ v, e' "x11".toList = some v ∧ Produces "no".toList "ON".toList v ∧ ∀ p, v = .str p → p ≠ [] → onlyUsr p = true :=
  C126_value_partial onlyUsr (x11 (.str "no".toList)) _ _ _ e' V' (by unfold Declared; decide +kernel) h "x11".toList "no".toList (by simp [x11])
    (by unfold OneName; decide +kernel) (by unfold OneName; decide +kernel) (fun _ => by decide +kernel) "ON".toList (by decide +kernel)

theorem C126_sample_last_met : ∃ e' V', Updated litSub (x11 (.str "no".toList)) [[("x11".toList, .str "/opt".toList)]] [("x11".toList, .str "ON".toList)] (fun _ => none) e' V' := ⟨_, _, rfl⟩

/-! ## Where it fails -/

/-- A default in capitals: `yes` gives it back as a path, which is an error; without an argument it is, too.  With `No` as default `yes` is an error. -/
theorem C126_case_counterexample : after (.str "Yes".toList) [("x11".toList, .str "yes".toList)] = none ∧ after (.str "Yes".toList) [] = none ∧ after (.str "No".toList) [("x11".toList, .str "yes".toList)] = none ∧
    Produces "Yes".toList "yes".toList (.bool true) :=
  ⟨by decide +kernel, by decide +kernel, by decide +kernel, .enabled (by unfold Enabling; decide +kernel) (.inl (by unfold Enabling; decide +kernel))⟩

/-- A default that is the value `False`: `yes` gives `False`. -/
theorem C126_false_counterexample : after (.bool false) [("x11".toList, .str "yes".toList)] = some (some (.bool false)) := by decide +kernel

/-- An empty text is a path that is not looked for. -/
theorem C126_empty_counterexample : after (.str "no".toList) [("x11".toList, .str [])] = some (some (.str [])) ∧ onlyUsr [] = false := by decide +kernel

end Verif.Vars
