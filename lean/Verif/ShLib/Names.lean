import Verif.ShLib.Props

/-!
# Versioned shared libraries: the names, and versions side by side (C105)
-/

namespace Verif.ShLib

/-- A name for `SharedLibrary` without anything that could be taken for an extension. -/
def Plain (n : Str) : Prop := n ≠ [] ∧ '.' ∉ n

/-- The name without the prefix. -/
def bare (pre n : Str) : Str := if pre <+: n ∧ n ≠ pre then n.drop pre.length else n

theorem afterDot_none {n : Str} (h : '.' ∉ n) : afterDot n = none := by
  induction n with
  | nil => rfl
  | cons c n ih =>
    simp only [List.mem_cons, not_or] at h
    have : c ≠ '.' := fun e => h.1 e.symm
    simp [afterDot, ih h.2, this]

theorem prefix_drop {a b : Str} (h : a <+: b) : a ++ b.drop a.length = b := by
  obtain ⟨c, rfl⟩ := h; simp

/-- With the prefix it is the prefix and the bare name. -/
theorem with_prefix (pre n : Str) (hn : n ≠ []) :
    (if pre ≠ [] ∧ (¬ pre <+: n ∨ n = pre) then pre ++ n else n) = pre ++ bare pre n ∧ bare pre n ≠ [] := by
  unfold bare
  by_cases h0 : pre = []
  · subst h0
    simp [hn]
  · by_cases h1 : pre <+: n
    · by_cases h2 : n = pre
      · simp [h0, h2]
      · rw [if_neg, if_pos ⟨h1, h2⟩, prefix_drop h1]
        · refine ⟨rfl, ?_⟩
          intro e
          apply h2
          have := prefix_drop h1
          rw [e, List.append_nil] at this
          exact this.symm
        · rintro ⟨-, h | h⟩ <;> contradiction
    · rw [if_pos ⟨h0, Or.inl h1⟩, if_neg (fun h => h1 h.1)]
      exact ⟨rfl, hn⟩

/-- **C105, names.** The library is called as it should be: prefix, name, suffix, version. -/
theorem C105_lib_name {v : Vars} {n : Str} (hn : Plain n) (hp : '.' ∉ v.pre) (hv : v.version ≠ []) :
    v.libName n = v.pre ++ bare v.pre n ++ v.suf ++ '.' :: v.version := by
  obtain ⟨h1, -⟩ := with_prefix v.pre n hn.1
  unfold Vars.libName adjustixes Vars.libSuffix
  rw [h1, if_neg hv]
  have hdot : '.' ∉ v.pre ++ bare v.pre n := by
    simp only [List.mem_append, not_or]
    refine ⟨hp, ?_⟩
    unfold bare
    split
    · exact fun h => hn.2 (List.mem_of_mem_drop h)
    · exact hn.2
  simp only
  rw [if_pos, List.append_assoc, List.append_assoc, List.append_assoc]
  refine ⟨by simp, ?_, ?_⟩
  · intro h
    apply hdot
    exact h.subset (by simp)
  · simp [hasExt, afterDot_none hdot]

theorem afterDot_last (a : Str) {ds : Str} (h : '.' ∉ ds) : afterDot (a ++ '.' :: ds) = some ds := by
  induction a with
  | nil => simp [afterDot, afterDot_none h]
  | cons c a ih => rw [List.cons_append, afterDot, ih]

/-- **C105, names.** A number at the end of the name, as in `gtk-3.0`, whatever is before it, is not taken for an extension. -/
theorem C105_lib_name_number {v : Vars} {a ds : Str} (hd : ds ≠ []) (hds : ∀ c ∈ ds, c.isDigit = true) (hv : v.version ≠ [])
    (hsuf : ¬ (v.suf ++ '.' :: v.version) <:+ v.pre ++ (a ++ '.' :: ds)) :
    v.libName (a ++ '.' :: ds) = v.pre ++ bare v.pre (a ++ '.' :: ds) ++ v.suf ++ '.' :: v.version := by
  have hs : ¬ (v.suf ++ '.' :: v.version) <:+ (a ++ '.' :: ds) := fun h => hsuf (h.trans (List.suffix_append _ _))
  have hdot : '.' ∉ ds := fun h => by have := hds _ h; revert this; decide
  obtain ⟨h1, -⟩ := with_prefix v.pre (a ++ '.' :: ds) (by simp)
  have hx : (v.pre ++ bare v.pre (a ++ '.' :: ds) = v.pre ++ (a ++ '.' :: ds)) ∨ (v.pre ++ bare v.pre (a ++ '.' :: ds) = a ++ '.' :: ds) := by
    rw [← h1]; split
    · exact Or.inl rfl
    · exact Or.inr rfl
  unfold Vars.libName adjustixes Vars.libSuffix
  rw [h1, if_neg hv]
  simp only
  rw [if_pos, List.append_assoc, List.append_assoc, List.append_assoc]
  refine ⟨by simp, ?_, ?_⟩
  · rcases hx with hx | hx <;> rw [hx] <;> assumption
  · have hdig : ds.all Char.isDigit = true := by rw [List.all_eq_true]; exact hds
    rcases hx with hx | hx <;> rw [hx]
    · have : afterDot (v.pre ++ (a ++ '.' :: ds)) = some ds := by rw [← List.append_assoc]; exact afterDot_last _ hdot
      simp [hasExt, this, hd, hdig]
    · simp [hasExt, afterDot_last _ hdot, hd, hdig]

/-- **C105, names.** Without a version: prefix, name, suffix. -/
theorem C105_lib_name_plain {v : Vars} {n : Str} (hn : Plain n) (hp : '.' ∉ v.pre) (hv : v.version = []) (hs : '.' ∈ v.suf) :
    v.libName n = v.pre ++ bare v.pre n ++ v.suf := by
  obtain ⟨h1, -⟩ := with_prefix v.pre n hn.1
  unfold Vars.libName adjustixes Vars.libSuffix
  rw [h1, if_pos hv]
  have hdot : '.' ∉ v.pre ++ bare v.pre n := by
    simp only [List.mem_append, not_or]
    refine ⟨hp, ?_⟩
    unfold bare
    split
    · exact fun h => hn.2 (List.mem_of_mem_drop h)
    · exact hn.2
  simp only [List.append_nil]
  rw [if_pos]
  refine ⟨by rintro e; simp [e] at hs, ?_, ?_⟩
  · intro h
    exact hdot (h.subset hs)
  · simp [hasExt, afterDot_none hdot]

/-- **C105, names.** `SONAME` is used as it is given; together with `SOVERSION` it is refused, and nothing is touched. -/
theorem C105_soname {v : Vars} {s : Str} (hs : v.soname = some s) (lib : Str) :
    (v.soversion = none → v.so lib = some s ∧
      (v.version ≠ [] → v.nolinks = false → s ≠ lib → v.links lib = some [(s, lib), (v.dev lib, lib)])) ∧
    (v.soversion ≠ none → v.version ≠ [] → v.nolinks = false → ∀ c d, build v lib c d = (d, false)) := by
  constructor
  · intro h
    have : v.so lib = some s := by simp [Vars.so, hs, h]
    refine ⟨this, fun hv hn hne => ?_⟩
    simp [Vars.links, hn, hv, this, hne]
  · intro h hv hn c d
    have h' : v.soversion.isSome = true := by cases hx : v.soversion <;> simp_all
    simp [build, Vars.links, hn, hv, Vars.so, hs, h']

/-- The stem of such a name. -/
theorem stem_name {v : Vars} {b : Str} (hb : b ≠ []) (hv : v.version ≠ []) :
    v.stem (v.pre ++ b ++ v.suf ++ '.' :: v.version) = b := by
  unfold Vars.stem
  have hs : v.libSuffix = v.suf ++ '.' :: v.version := by rw [Vars.libSuffix, if_neg hv]
  have h1 : v.libSuffix ≠ [] ∧ v.libSuffix <:+ v.pre ++ b ++ v.suf ++ '.' :: v.version := by
    rw [hs]
    exact ⟨by simp, ⟨v.pre ++ b, by simp⟩⟩
  rw [if_pos h1]
  have h2 : (v.pre ++ b ++ v.suf ++ '.' :: v.version).take ((v.pre ++ b ++ v.suf ++ '.' :: v.version).length - v.libSuffix.length) = v.pre ++ b := by
    have e : v.pre ++ b ++ v.suf ++ '.' :: v.version = (v.pre ++ b) ++ v.libSuffix := by rw [hs]; simp
    rw [e, List.length_append, Nat.add_sub_cancel, List.take_left']
    simp
  simp only [h2]
  by_cases hp : v.pre = []
  · simp [hp]
  · rw [if_pos]
    · simp
    · exact ⟨hp, ⟨b, rfl⟩, by simp [hb]⟩

/-- **C105, names.** The name for the linker is without version, the one for the loader has the first part of the version, or `SOVERSION`. -/
theorem C105_link_names {v : Vars} {n : Str} (hn : Plain n) (hp : '.' ∉ v.pre) (hv : v.version ≠ []) (hso : v.soname = none) :
    v.dev (v.libName n) = v.pre ++ bare v.pre n ++ v.suf ∧
    v.so (v.libName n) = some (v.pre ++ bare v.pre n ++ v.suf ++ '.' :: (match v.soversion with | some s => s | none => major v.version)) := by
  obtain ⟨-, hb⟩ := with_prefix v.pre n hn.1
  rw [C105_lib_name hn hp hv]
  constructor
  · rw [Vars.dev, stem_name hb hv]
  · rw [Vars.so, hso]
    simp only
    rw [stem_name hb hv, Vars.sover]
    cases v.soversion with
    | none => simp [hv]
    | some s => rfl

theorem cons_dot_inj {a x y : Str} (h : a ++ '.' :: x = a ++ '.' :: y) : x = y := by simpa using h

theorem major_major (ver : Str) : major (major ver) = major ver := by
  induction ver with
  | nil => rfl
  | cons c r ih =>
    by_cases h : c = '.'
    · simp [major, h]
    · simp only [major, ne_eq, decide_not] at ih ⊢
      simp [h, ih]

/-- **C105, side by side.** A version with another first number is built later in the same directory: the loader still finds the first
one under its name, the linker finds the second. -/
theorem C105_side_by_side {v w : Vars} {n : Str} {d : Dir} (c c' : Nat) (hn : Plain n) (hp : '.' ∉ v.pre)
    (hpre : w.pre = v.pre) (hsuf : w.suf = v.suf) (hv : v.version ≠ []) (hw : w.version ≠ []) (hmaj : major v.version ≠ major w.version)
    (hvs : v.soname = none ∧ v.soversion = none ∧ v.nolinks = false) (hws : w.soname = none ∧ w.soversion = none ∧ w.nolinks = false)
    (hempty : ∀ x, v.pre ++ bare v.pre n ++ v.suf <+: x → d x = none) :
    ∃ s s', v.so (v.libName n) = some s ∧ w.so (w.libName n) = some s' ∧
      (build v (v.libName n) c d).2 = true ∧ (build w (w.libName n) c' (build v (v.libName n) c d).1).2 = true ∧
      (build w (w.libName n) c' (build v (v.libName n) c d).1).1.open s = some (.file c (some s)) ∧
      (build w (w.libName n) c' (build v (v.libName n) c d).1).1.open s' = some (.file c' (some s')) ∧
      (build w (w.libName n) c' (build v (v.libName n) c d).1).1.open (v.dev (v.libName n)) = some (.file c' (some s')) := by
  obtain ⟨hd1, hs1⟩ := C105_link_names hn hp hv hvs.1
  obtain ⟨hd2, hs2⟩ := C105_link_names (v := w) hn (hpre ▸ hp) hw hws.1
  have hl1 := C105_lib_name hn hp hv
  have hl2 := C105_lib_name (v := w) hn (hpre ▸ hp) hw
  rw [hvs.2.1] at hs1
  rw [hws.2.1] at hs2
  simp only [hpre, hsuf] at hd2 hs2 hl2
  simp only at hs1 hs2
  generalize v.libName n = L1 at *
  generalize w.libName n = L2 at *
  generalize hB : v.pre ++ bare v.pre n ++ v.suf = B at *
  subst hl1; subst hl2
  have nd1 : ∀ y : Str, B ≠ B ++ '.' :: y := by intro y h; simpa using congrArg List.length h
  have k1 : ∀ x y : Str, B ++ '.' :: x = B ++ '.' :: y → x = y := fun x y h => cons_dot_inj h
  have b1 := C105_build_partial (v := v) (s := B ++ '.' :: major v.version) (d := d) c hv hvs.2.2 hs1 (by rw [hd1]; exact nd1 _)
    (by rw [hempty _ ⟨_, rfl⟩]; simp) (fun _ => Or.inl (hempty _ ⟨_, rfl⟩)) (Or.inl (hempty _ (by rw [hd1]; exact List.prefix_refl _)))
  refine ⟨_, _, hs1, hs2, b1.1, ?_⟩
  generalize (build v (B ++ '.' :: v.version) c d).1 = d1 at *
  have r1 := b1.2
  have mm1 := major_major v.version
  have mm2 := major_major w.version
  have hother : ∀ x : Str, B <+: x → x ≠ B ++ '.' :: v.version → x ≠ B ++ '.' :: major v.version → x ≠ B → d1 x = none := by
    intro x h0 h1 h2 h3
    rw [r1.rest x h1 h2 (by rw [hd1]; exact h3)]
    exact hempty x h0
  have n1 : B ++ '.' :: w.version ≠ B ++ '.' :: v.version := fun h => hmaj (by rw [k1 _ _ h])
  have n2 : B ++ '.' :: w.version ≠ B ++ '.' :: major v.version := fun h => hmaj (by rw [k1 _ _ h, mm1])
  have n3 : B ++ '.' :: major w.version ≠ B ++ '.' :: v.version := fun h => hmaj (by rw [← k1 _ _ h, mm2])
  have n4 : B ++ '.' :: major w.version ≠ B ++ '.' :: major v.version := fun h => hmaj (k1 _ _ h).symm
  have b2 := C105_build_partial (v := w) (s := B ++ '.' :: major w.version) (d := d1) c' hw hws.2.2 hs2 (by rw [hd2]; exact nd1 _)
    (by rw [hother _ ⟨_, rfl⟩ n1 n2 (fun h => nd1 _ h.symm)]; simp)
    (fun _ => Or.inl (hother _ ⟨_, rfl⟩ n3 n4 (fun h => nd1 _ h.symm)))
    (Or.inr ⟨_, by rw [hd2, ← hd1]; exact r1.devLink⟩)
  obtain ⟨ok, r2⟩ := b2
  refine ⟨ok, ?_, r2.atSo, by rw [hd1]; have h := r2.atDev; rw [hd2] at h; exact h⟩
  generalize (build w (B ++ '.' :: w.version) c' d1).1 = d2 at *
  have keepLib : d2 (B ++ '.' :: v.version) = some (.file c (some (B ++ '.' :: major v.version))) := by
    rw [r2.rest _ (Ne.symm n1) (Ne.symm n3) (by rw [hd2]; exact fun h => nd1 _ h.symm)]
    exact r1.atLib
  by_cases e : B ++ '.' :: major v.version = B ++ '.' :: v.version
  · rw [e] at keepLib ⊢; exact open_file keepLib
  · refine open_link ?_ keepLib
    rw [r2.rest _ (Ne.symm n2) (Ne.symm n4) (by rw [hd2]; exact fun h => nd1 _ h.symm)]
    exact r1.soLink e

/-! ## Examples and counterexamples -/

def exVars (ver : String) : Vars := ⟨"lib".toList, ".so".toList, ver.toList, none, none, false⟩

def emptyDir : Dir := fun _ => none

example : (exVars "1.2.3").libName "foo".toList = "libfoo.so.1.2.3".toList ∧
    (exVars "1.2.3").links "libfoo.so.1.2.3".toList =
      some [("libfoo.so.1".toList, "libfoo.so.1.2.3".toList), ("libfoo.so".toList, "libfoo.so.1.2.3".toList)] := by decide +kernel

example : Plain "foo".toList ∧ '.' ∉ (exVars "1.2.3").pre ∧ (exVars "1.2.3").version ≠ [] ∧
    major (exVars "1.2.3").version ≠ major (exVars "2.0").version := by
  refine ⟨⟨by decide, by decide⟩, by decide, by decide, by decide⟩

/-- **Counterexample.** The version is changed from `1` to `1.2`: the library of the first build is where the link for the loader is to
be, and making the link fails. The other way round is fine (`C105_build_partial`). -/
theorem C105_counterexample_upgrade :
    (build (exVars "1.2") "libfoo.so.1.2".toList 8 (build (exVars "1") "libfoo.so.1".toList 7 emptyDir).1).2 = false := by decide +kernel

/-- **Counterexample.** A library from the cache comes without its links: the loader does not find it. -/
theorem C105_counterexample_cache :
    let d := (build (exVars "1.2") "libfoo.so.1.2".toList 8 emptyDir).1
    ∃ o, d "libfoo.so.1.2".toList = some o ∧ d.open "libfoo.so.1".toList = some o ∧
      (retrieve "libfoo.so.1.2".toList o emptyDir).open "libfoo.so.1".toList = none ∧
      (retrieve "libfoo.so.1.2".toList o emptyDir).open "libfoo.so".toList = none := by
  exact ⟨.file 8 (some "libfoo.so.1".toList), by decide +kernel, by decide +kernel, by decide +kernel, by decide +kernel⟩

/-- **Counterexample.** `SharedLibrary('libfoo.so', SHLIBVERSION='1.2.3')`: the suffix is taken for a part of the name. -/
theorem C105_counterexample_suffix_given :
    (exVars "1.2.3").libName "libfoo.so".toList = "libfoo.so".toList ∧
    (exVars "1.2.3").links "libfoo.so".toList =
      some [("libfoo.so.so.1".toList, "libfoo.so".toList), ("libfoo.so.so".toList, "libfoo.so".toList)] := by decide +kernel

/-- **Counterexample.** A dot in the name, `SharedLibrary('gtk-3.x')`: no suffix and no version. -/
theorem C105_counterexample_dot :
    (exVars "1.2.3").libName "gtk-3.x".toList = "libgtk-3.x".toList := by decide +kernel

/-- **Counterexample.** `SOVERSION` or `SONAME` without `SHLIBVERSION` does nothing at all. -/
theorem C105_counterexample_soversion_only (lib : Str) (c : Nat) (s t : Option Str) (pre suf : Str) (nl : Bool) :
    (build ⟨pre, suf, [], s, t, nl⟩ lib c emptyDir) = (emptyDir.set lib none |>.set lib (some (.file c none)), true) := by
  cases nl <;> simp [build, Vars.links, emptyDir, createLinks]

/-- **Counterexample.** With `SHLIBNOVERSIONSYMLINKS` the library still carries the name of a link that is not there. -/
theorem C105_counterexample_nolinks :
    let d := (build { exVars "1.2" with nolinks := true } "libfoo.so.1.2".toList 8 emptyDir).1
    d "libfoo.so.1.2".toList = some (.file 8 (some "libfoo.so.1".toList)) ∧ d.open "libfoo.so.1".toList = none := by decide +kernel

example : (exVars "1.2").libName "gtk.x-3.0".toList = "libgtk.x-3.0.so.1.2".toList := by decide +kernel

end Verif.ShLib
