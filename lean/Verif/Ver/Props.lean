import Verif.Ver.Model

/-!
# Demands on the version (C128): specification and proofs
-/

namespace Verif.Ver

/-! ## Specification -/

/-- The text of a version: three numbers, the last perhaps not written, after the second and the third a tag such as `b1`, then other things. -/
structure Version where
  major : Nat
  minor : Nat
  tag : Str
  rev : Option (Nat × Str)
  /-- What follows: begins with a blank, or with a dot if there is a third number. -/
  rest : Str

/-- The digits of a number, as everybody writes it. -/
def digits (n : Nat) : Str := (toString n).toList

def Version.text (v : Version) : Str :=
  digits v.major ++ ".".toList ++ digits v.minor ++ v.tag ++ (match v.rev with
    | some (n, t) => ".".toList ++ digits n ++ t
    | none => []) ++ v.rest

def Tag (t : Str) : Prop := '.' ∉ t ∧ ' ' ∉ t ∧ ∀ c, t.head? = some c → c.isDigit = false

structure Version.Ok (v : Version) : Prop where
  tag : Tag v.tag
  rev : ∀ n t, v.rev = some (n, t) → Tag t
  rest : ∀ c, v.rest.head? = some c → c = ' ' ∨ (c = '.' ∧ v.rev ≠ none)

/-- The third number: 0 if it is not written. -/
def Version.third (v : Version) : Nat := match v.rev with
  | some (n, _) => n
  | none => 0

/-- The version is not late enough. -/
def Older (a b c x y z : Nat) : Prop := a < x ∨ (a = x ∧ b < y) ∨ (a = x ∧ b = y ∧ c < z)

/-! ## Reading a version -/

theorem digits_eq (n : Nat) : digits n = Nat.toDigits 10 n := by
  unfold digits
  show (Nat.repr n).toList = _
  simp [Nat.repr]

theorem digits_ne (n : Nat) : digits n ≠ [] := by rw [digits_eq]; exact Nat.toDigits_ne_nil

theorem digits_all (n : Nat) (c : Char) (h : c ∈ digits n) : c.isDigit = true := by
  rw [digits_eq] at h
  exact Nat.isDigit_of_mem_toDigits (by decide) (by decide) h

theorem digits_val (n : Nat) : Nat.ofDigitChars 10 (digits n) 0 = n := by rw [digits_eq]; exact Nat.ofDigitChars_ten_toDigits

theorem digits_not (n : Nat) (c : Char) (hc : c.isDigit = false) : c ∉ digits n := fun h => by
  rw [digits_all n c h] at hc; cases hc

theorem parts_dot (a t : Str) (ha : '.' ∉ a) : parts (a ++ '.' :: t) = a :: parts t := by
  induction a with
  | nil => simp [parts]
  | cons c a ih =>
    simp only [List.mem_cons, not_or] at ha
    rw [List.cons_append, parts, if_neg (fun e => ha.1 e.symm), ih ha.2]

theorem parts_one (a : Str) (ha : '.' ∉ a) : parts a = [a] := by
  induction a with
  | nil => rfl
  | cons c a ih =>
    simp only [List.mem_cons, not_or] at ha
    rw [parts, if_neg (fun e => ha.1 e.symm), ih ha.2]

theorem parts_ne (t : Str) : ∃ p ps, parts t = p :: ps := by
  cases t with
  | nil => exact ⟨_, _, rfl⟩
  | cons c t =>
    unfold parts
    split
    · exact ⟨_, _, rfl⟩
    · split <;> exact ⟨_, _, rfl⟩

theorem whole_digits (n : Nat) : whole (digits n) = some n := by
  unfold whole
  rw [if_neg, digits_val]
  rintro (h | h)
  · exact digits_ne n h
  · rw [List.any_eq_true] at h
    obtain ⟨c, hc, h⟩ := h
    rw [digits_all n c hc] at h; cases h

theorem leading_digits (n : Nat) (t : Str) (ht : ∀ c, t.head? = some c → c.isDigit = false) : leading (digits n ++ t) = some n := by
  have h : (digits n ++ t).takeWhile Char.isDigit = digits n := by
    rw [List.takeWhile_append_of_pos (digits_all n)]
    cases t with
    | nil => simp
    | cons c t => simp [ht c rfl]
  unfold leading
  rw [h, if_neg (digits_ne n), digits_val]

theorem cut (a r : Str) (ha : ' ' ∉ a) : (a ++ r).takeWhile (· ≠ ' ') = a ++ r.takeWhile (· ≠ ' ') :=
  List.takeWhile_append_of_pos fun c hc => by
    have : c ≠ ' ' := fun e => ha (e ▸ hc)
    simpa using this

/-- `GetSConsVersion` gives the three numbers of the version. -/
theorem C128_version (v : Version) (h : v.Ok) : revision v.text = some (v.major, v.minor, v.third) := by
  obtain ⟨a, b, t, r, s⟩ := v
  obtain ⟨ht, hr, hs⟩ := h
  simp only at ht hr hs
  have sp : ∀ n, ' ' ∉ digits n := fun n => digits_not n ' ' (by decide)
  have dt : ∀ n, '.' ∉ digits n := fun n => digits_not n '.' (by decide)
  have hd : '.' ∉ digits b ++ t := by simp [dt, ht.1]
  cases r with
  | none =>
    have e : (Version.text ⟨a, b, t, none, s⟩).takeWhile (· ≠ ' ') = digits a ++ '.' :: (digits b ++ t) := by
      have : Version.text ⟨a, b, t, none, s⟩ = (digits a ++ '.' :: (digits b ++ t)) ++ s := by simp [Version.text]
      rw [this, cut _ _ (by simp [sp, ht.2.1])]
      cases s with
      | nil => simp
      | cons c s =>
        rcases hs c rfl with rfl | ⟨-, h⟩
        · simp
        · exact absurd rfl h
    unfold revision
    rw [e, parts_dot _ _ (dt a), parts_one _ hd]
    simp [whole_digits, leading_digits b t ht.2.2, Version.third]
  | some x =>
    obtain ⟨c, u⟩ := x
    have hu := hr c u rfl
    have hd2 : '.' ∉ digits c ++ u := by simp [dt, hu.1]
    obtain ⟨q, hq, e⟩ : ∃ q : Str, (q = [] ∨ q.head? = some '.') ∧
        (Version.text ⟨a, b, t, some (c, u), s⟩).takeWhile (· ≠ ' ') = digits a ++ '.' :: (digits b ++ t ++ '.' :: ((digits c ++ u) ++ q)) := by
      have : Version.text ⟨a, b, t, some (c, u), s⟩ = (digits a ++ '.' :: (digits b ++ t ++ '.' :: (digits c ++ u))) ++ s := by simp [Version.text]
      refine ⟨s.takeWhile (· ≠ ' '), ?_, ?_⟩
      · cases s with
        | nil => left; rfl
        | cons d s =>
          rcases hs d rfl with rfl | ⟨rfl, -⟩
          · left; simp
          · right; simp
      · rw [this, cut _ _ (by simp [sp, ht.2.1, hu.2.1])]
        simp
    have hp : ∃ ps, parts ((digits c ++ u) ++ q) = (digits c ++ u) :: ps := by
      rcases hq with rfl | hq
      · exact ⟨[], by rw [List.append_nil]; exact parts_one _ hd2⟩
      · cases q with
        | nil => cases hq
        | cons d q =>
          injection hq with hq
          subst hq
          exact ⟨parts q, parts_dot _ _ hd2⟩
    obtain ⟨ps, hp⟩ := hp
    unfold revision
    rw [e, parts_dot _ _ (dt a), parts_dot _ _ hd, hp]
    simp [whole_digits, leading_digits b t ht.2.2, leading_digits c u hu.2.2, Version.third]

/-! ## The demands -/

theorem less_iff (a b c x y z : Nat) : less (a, b, c) (x, y, z) = true ↔ Older a b c x y z := by
  unfold less Older
  simp only
  split
  · simp only [decide_eq_true_eq]; omega
  · split
    · simp only [decide_eq_true_eq]; omega
    · simp only [decide_eq_true_eq]; omega

theorem notDevelopment (v : Version) (h : v.Ok) : v.text ≠ "__VERSION__".toList := by
  intro e
  have := C128_version v h
  rw [e] at this
  have h2 : revision "__VERSION__".toList = none := by decide +kernel
  rw [h2] at this; cases this

/-- `EnsureSConsVersion` ends SCons with a status that is not 0 just if the version is older than what is demanded, and says both; else it does nothing. -/
theorem C128_scons (v : Version) (h : v.Ok) (major minor rev : Nat) :
    (Older v.major v.minor v.third major minor rev → ∃ m s, ensure v.text major minor rev = .exits m s ∧ s ≠ 0 ∧ v.text <:+ m ∧
      "SCons ".toList ++ digits major ++ ".".toList ++ digits minor ++ (if rev = 0 then [] else ".".toList ++ digits rev) ++ " or greater required".toList <+: m) ∧
    (¬ Older v.major v.minor v.third major minor rev → ensure v.text major minor rev = .returns false) := by
  have e : ensure v.text major minor rev = if less (v.major, v.minor, v.third) (major, minor, rev) then
        .exits ("SCons ".toList ++ (if rev ≠ 0 then dec major ++ '.' :: dec minor ++ '.' :: dec rev else dec major ++ '.' :: dec minor) ++
          " or greater required, but you have SCons ".toList ++ v.text) 2
      else .returns false := by
    unfold ensure
    rw [if_neg (notDevelopment v h), C128_version v h]
  constructor
  · intro ho
    refine ⟨_, _, by rw [e, if_pos ((less_iff ..).2 ho)], by decide, ⟨_, rfl⟩, ?_⟩
    refine ⟨", but you have SCons ".toList ++ v.text, ?_⟩
    have : ∀ n, dec n = digits n := fun n => (digits_eq n).symm
    simp only [this]
    have h3 : " or greater required, but you have SCons ".toList = " or greater required".toList ++ ", but you have SCons ".toList := by decide +kernel
    rw [h3]
    by_cases hr : rev = 0 <;> simp [hr]
  · intro ho
    rw [e, if_neg (fun hh => ho ((less_iff ..).1 hh))]

/-- A demand that is met stays met if less is demanded, and if SCons gets newer. -/
theorem C128_monotone (v w : Version) (hv : v.Ok) (hw : w.Ok) (major minor rev x y z : Nat) (hn : ¬ Older w.major w.minor w.third v.major v.minor v.third)
    (hd : ¬ Older major minor rev x y z) (h : ensure v.text major minor rev = .returns false) : ensure w.text x y z = .returns false := by
  have h1 : ¬ Older v.major v.minor v.third major minor rev := fun ho => by
    obtain ⟨m, s, e, -⟩ := (C128_scons v hv major minor rev).1 ho
    rw [h] at e; cases e
  refine (C128_scons w hw x y z).2 ?_
  unfold Older at *
  omega

/-- `EnsurePythonVersion` ends SCons with a status that is not 0 just if Python is older. -/
theorem C128_python (a b : Nat) (text : Str) (major minor : Nat) :
    (Older a b 0 major minor 0 → ∃ m s, ensurePython (a, b) text major minor = .exits m s ∧ s ≠ 0 ∧ text <:+ m ∧
      "Python ".toList ++ digits major ++ ".".toList ++ digits minor ++ " or greater required".toList <+: m) ∧
    (¬ Older a b 0 major minor 0 → ensurePython (a, b) text major minor = .returns false) := by
  have hl : pyLess (a, b) major minor = true ↔ Older a b 0 major minor 0 := by
    unfold pyLess Older
    simp only
    split
    · simp only [decide_eq_true_eq]; omega
    · split
      · simp only [decide_eq_true_eq]; omega
      · simp; omega
  constructor
  · intro ho
    refine ⟨_, _, by unfold ensurePython; rw [if_pos (hl.2 ho)], by decide, ⟨_, rfl⟩, ?_⟩
    refine ⟨", but you have Python ".toList ++ text, ?_⟩
    have : ∀ n, dec n = digits n := fun n => (digits_eq n).symm
    simp only [this]
    have h3 : " or greater required, but you have Python ".toList = " or greater required".toList ++ ", but you have Python ".toList := by decide +kernel
    rw [h3]
    simp
  · intro ho
    unfold ensurePython
    rw [if_neg (fun hh => ho (hl.1 hh))]

/-! ## Cases -/

/-- The version of this commit. -/
def here : Version := { major := 4, minor := 10, tag := [], rev := some (2, []), rest := [] }

theorem here_text : here.text = "4.10.2".toList := by decide +kernel

theorem here_ok : here.Ok := ⟨⟨by decide, by decide, by intro c hc; cases hc⟩, by intro n t e; injection e with e; injection e with _ e; subst e; exact ⟨by decide, by decide, by intro c hc; cases hc⟩,
  by intro c hc; cases hc⟩

/-- The hypotheses are met, and 10 is more than 9. -/
theorem C128_sample : ensure "4.10.2".toList 4 9 3 = .returns false ∧ ∃ m s, ensure "4.10.2".toList 4 10 3 = .exits m s ∧ s ≠ 0 := by
  rw [← here_text]
  refine ⟨(C128_scons here here_ok 4 9 3).2 (by unfold Older; decide), ?_⟩
  obtain ⟨m, s, h1, h2, -⟩ := (C128_scons here here_ok 4 10 3).1 (by unfold Older; decide)
  exact ⟨m, s, h1, h2⟩

def beta : Version := { major := 3, minor := 2, tag := "b1".toList, rev := none, rest := " x".toList }

theorem C128_sample_tag : revision "3.2b1 x".toList = some (3, 2, 0) := by
  have h := C128_version beta ⟨⟨by decide, by decide, by intro c hc; injection hc with hc; subst hc; decide⟩, (by intro n t e; cases e),
    by intro c hc; injection hc with hc; exact .inl hc.symm⟩
  have e : beta.text = "3.2b1 x".toList := by decide +kernel
  rwa [e] at h

/-! ## What is not compared -/

/-- A version before a release passes for the release: `3.2b1` is late enough for 3.2. -/
theorem C128_tag : ensure "3.2b1".toList 3 2 0 = .returns false ∧ ensure "4.0.1rc1".toList 4 0 1 = .returns false := by decide +kernel

/-- The version of a source tree that was not built meets every demand, with a warning. -/
theorem C128_development (major minor rev : Nat) : ensure "__VERSION__".toList major minor rev = .returns true := rfl

end Verif.Ver
