import Verif.Link.Model
import Mathlib.Data.List.Induction

/-!
# Linking (C117): specification and proofs
-/

namespace Verif.Link

/-! ## Specification -/

/-- The targets of a call. -/
def Call.targets : Call → List Nat
  | .object ts | .sharedObject ts | .sharedLib ts | .other ts => ts

/-- Calls that make objects or shared libraries, the ones that tell how a file was made. -/
def Call.tells : Call → Bool
  | .other _ => false
  | _ => true

def Call.isShared : Call → Bool
  | .sharedObject _ | .sharedLib _ => true
  | _ => false

/-- The last call that tells how `n` was made is a shared one. -/
def MadeShared (h : List Call) (n : Nat) : Prop :=
  ∃ pre c post, h = pre ++ c :: post ∧ n ∈ c.targets ∧ c.isShared = true ∧ ∀ c' ∈ post, c'.tells = true → n ∉ c'.targets

/-- Python's idea of false, and the two texts that look like it. -/
def Off : Val → Prop
  | .unset | .none | .bool false | .int 0 => True
  | .str s => s = "" ∨ s = "0" ∨ s = "False"
  | _ => False

/-- Something of the language is among what the sources were made from. -/
def Has (ok : String → Prop) (ss : List Src) : Prop := ∃ s ∈ ss, ∃ e r, s.sources = e :: r ∧ ok e

def HasCxx (ss : List Src) : Prop := Has (fun e => e ∈ [".cpp", ".cc", ".cxx", ".c++", ".C++", ".mm", ".C"]) ss
def HasFortran (E : Env) (ss : List Src) : Prop := Has (fun e => ∃ l, E.fortran = some l ∧ e ∈ l) ss
def HasD (ss : List Src) : Prop := Has (fun e => e = ".d") ss

/-- The linker that fits. -/
inductive Fits (E : Env) (ss : List Src) : Linker → Prop
  | d : HasD ss → Fits E ss .dc
  | cxx : ¬ HasD ss → HasCxx ss → Fits E ss .cxx
  | fortran : ¬ HasD ss → ¬ HasCxx ss → HasFortran E ss → Fits E ss .fortran
  | cc : ¬ HasD ss → ¬ HasCxx ss → ¬ HasFortran E ss → Fits E ss .cc

/-! ## Static and shared -/

theorem setAll_eq (a : Attrs) (v : Bool) (ts : List Nat) (n : Nat) : setAll a v ts n = if n ∈ ts then some v else a n := by
  induction ts generalizing a with
  | nil => simp [setAll]
  | cons t ts ih =>
    rw [setAll, ih]
    by_cases h1 : n ∈ ts
    · simp [h1]
    · by_cases h2 : n = t <;> simp [h1, h2]

theorem emit_eq (a : Attrs) (c : Call) (n : Nat) : emit a c n = if c.tells = true ∧ n ∈ c.targets then some c.isShared else a n := by
  cases c <;> simp [emit, setAll_eq, Call.tells, Call.targets, Call.isShared]

theorem attrs_true (h : List Call) (n : Nat) : ((h.foldl emit fun _ => none) n).getD false = true ↔ MadeShared h n := by
  induction h using List.reverseRecOn with
  | nil => simp [MadeShared]
  | append_singleton h c ih =>
    rw [List.foldl_append, List.foldl_cons, List.foldl_nil, emit_eq]
    by_cases hc : c.tells = true ∧ n ∈ c.targets
    · rw [if_pos hc]
      constructor
      · intro hs
        exact ⟨h, c, [], by simp, hc.2, by simpa using hs, by simp⟩
      · rintro ⟨pre, c', post, he, hn, hs, hp⟩
        rcases List.eq_nil_or_concat post with rfl | ⟨post', d, rfl⟩
        · have := List.append_inj_right' (by rw [he] : h ++ [c] = pre ++ [c']) rfl
          simp at this; subst this; simp [hs]
        · have h2 : h ++ [c] = (pre ++ c' :: post') ++ [d] := by rw [he]; simp
          have := List.append_inj_right' h2 rfl
          simp at this; subst this
          exact absurd hc.2 (hp c (by simp) hc.1)
    · rw [if_neg hc, ih]
      constructor
      · rintro ⟨pre, c', post, rfl, hn, hs, hp⟩
        refine ⟨pre, c', post ++ [c], by simp, hn, hs, ?_⟩
        intro d hd ht
        rcases List.mem_append.1 hd with hd | hd
        · exact hp d hd ht
        · simp at hd; subst hd; exact fun hh => hc ⟨ht, hh⟩
      · rintro ⟨pre, c', post, he, hn, hs, hp⟩
        rcases List.eq_nil_or_concat post with rfl | ⟨post', d, rfl⟩
        · have := List.append_inj_right' (by rw [he] : h ++ [c] = pre ++ [c']) rfl
          simp at this; subst this
          refine absurd ⟨?_, hn⟩ hc
          cases c <;> simp_all [Call.isShared, Call.tells]
        · have h2 : h ++ [c] = (pre ++ c' :: post') ++ [d] := by rw [he]; simp
          have h3 := List.append_inj_left' h2 rfl
          exact ⟨pre, c', post', h3, hn, hs, fun d' hd' => hp d' (by simp [hd'])⟩

theorem off_iff (v : Val) : (text v = "0" ∨ text v = "" ∨ text v = "False") ↔ Off v ∨ ∃ n : Int, v = .int n ∧ n ≠ 0 ∧ (toString n = "0" ∨ toString n = "" ∨ toString n = "False") := by
  cases v with
  | unset => simp [text, Off]
  | none => simp [text, Off]
  | bool b => cases b <;> simp [text, Off]
  | str s => simp only [text, Off]; constructor
             · rintro (h | h | h) <;> simp [h]
             · rintro ((h | h | h) | ⟨n, h, _⟩)
               · simp [h]
               · simp [h]
               · simp [h]
               · cases h
  | int n =>
    by_cases h0 : n = 0
    · subst h0
      simp only [text, Off, true_or, iff_true]
      left; rfl
    · simp only [text]
      constructor
      · intro h; right; exact ⟨n, rfl, h0, h⟩
      · rintro (h | ⟨m, hm, _, h⟩)
        · cases n with
          | ofNat k => cases k with
            | zero => exact absurd rfl h0
            | succ k => exact h.elim
          | negSucc k => exact h.elim
        · injection hm with hm; subst hm; exact h

theorem checker_none (a : Attrs) (v : Val) (ss : List Nat) (hv : text v = "0" ∨ text v = "" ∨ text v = "False") : checker a v ss = none ↔ ∀ s ∈ ss, (a s).getD false = true := by
  induction ss with
  | nil => simp [checker]
  | cons s ss ih =>
    rw [checker, if_pos hv]
    by_cases h : (a s).getD false = true
    · rw [if_pos h, ih]; simp [h]
    · rw [if_neg h]; simp [h]

theorem checker_same (a : Attrs) (v : Val) (ss : List Nat) (hv : ¬ (text v = "0" ∨ text v = "" ∨ text v = "False")) : checker a v ss = none := by
  cases ss with
  | nil => rfl
  | cons s ss => rw [checker, if_neg hv]

/-- **C117.** Where static and shared objects are not the same, a shared library is linked exactly if all its sources were made as shared ones, whatever calls there were in whatever order. -/
theorem C117_shared (h : List Call) (v : Val) (hv : Off v) (ss : List Nat) : checker (h.foldl emit fun _ => none) v ss = none ↔ ∀ s ∈ ss, MadeShared h s := by
  rw [checker_none _ _ _ ((off_iff v).2 (.inl hv))]
  simp only [attrs_true]

/-- The complaint is about the first that was not. -/
theorem C117_first (h : List Call) (v : Val) (ss : List Nat) (s : Nat) (hs : checker (h.foldl emit fun _ => none) v ss = some s) :
    ∃ pre post, ss = pre ++ s :: post ∧ (∀ p ∈ pre, MadeShared h p) ∧ ¬ MadeShared h s := by
  induction ss with
  | nil => simp [checker] at hs
  | cons x ss ih =>
    rw [checker] at hs
    split at hs
    · split at hs
      · rename_i hx
        obtain ⟨pre, post, h1, h2, h3⟩ := ih hs
        exact ⟨x :: pre, post, by simp [h1], by simpa using ⟨(attrs_true h x).1 hx, h2⟩, h3⟩
      · rename_i hx
        simp at hs; subst hs
        exact ⟨[], ss, rfl, by simp, fun hm => hx ((attrs_true h x).2 hm)⟩
    · simp at hs

/-- Where they are the same nothing is complained about. -/
theorem C117_same (a : Attrs) (v : Val) (hv : v = .bool true ∨ v = .int 1 ∨ v = .str "1" ∨ v = .str "True") (ss : List Nat) : checker a v ss = none := by
  refine checker_same a v ss ?_
  rcases hv with rfl | rfl | rfl | rfl <;> decide

/-- **Counterexample.** A file that no builder of objects made, a shared object from elsewhere or a static library, is refused. -/
theorem C117_prebuilt_refused (h : List Call) (n : Nat) (hn : ∀ c ∈ h, c.tells = true → n ∉ c.targets) (v : Val) (hv : Off v) (ss : List Nat) : checker (h.foldl emit fun _ => none) v (n :: ss) = some n := by
  have hm : ¬ MadeShared h n := by
    rintro ⟨pre, c, post, rfl, hc, hs, _⟩
    refine hn c (by simp) ?_ hc
    cases c <;> simp_all [Call.isShared, Call.tells]
  rw [checker, if_pos ((off_iff v).2 (.inl hv)), if_neg (fun hh => hm ((attrs_true h n).1 hh))]

/-- **Counterexample.** `'false'`, `'no'`, `'off'` and `'0.0'` count as true: static objects go into shared libraries. -/
theorem C117_false_is_true (a : Attrs) (s : String) (hs : s ∈ ["false", "no", "off", "0.0", "n", "none"]) (ss : List Nat) : checker a (.str s) ss = none := by
  refine checker_same a _ ss ?_
  revert s; decide

/-! ## The linker -/

theorem anyFirst_iff (ok : String → Bool) (ss : List Src) : anyFirst ok ss = true ↔ Has (fun e => ok e = true) ss := by
  induction ss with
  | nil => simp [anyFirst, Has]
  | cons s ss ih =>
    rcases hs : s.sources with _ | ⟨e, r⟩
    · simp only [anyFirst, hs, ih]
      constructor
      · rintro ⟨x, hx, h⟩; exact ⟨x, by simp [hx], h⟩
      · rintro ⟨x, hx, e, r, he, h⟩
        rcases List.mem_cons.1 hx with rfl | hx
        · rw [hs] at he; cases he
        · exact ⟨x, hx, e, r, he, h⟩
    · simp only [anyFirst, hs]
      by_cases ho : ok e = true
      · rw [if_pos ho]; simp only [true_iff]; exact ⟨s, by simp, e, r, hs, ho⟩
      · rw [if_neg ho, ih]
        constructor
        · rintro ⟨x, hx, h⟩; exact ⟨x, by simp [hx], h⟩
        · rintro ⟨x, hx, e', r', he, h⟩
          rcases List.mem_cons.1 hx with rfl | hx
          · rw [hs] at he; injection he with he _; subst he; exact absurd h ho
          · exact ⟨x, hx, e', r', he, h⟩

theorem isCplusplus_iff (ss : List Src) : isCplusplus ss = true ↔ HasCxx ss := by
  rw [isCplusplus, anyFirst_iff, HasCxx]
  simp [cxxSuffixes]

theorem isFortran_iff (E : Env) (ss : List Src) : isFortran E ss = true ↔ HasFortran E ss := by
  rw [isFortran, HasFortran]
  rcases E.fortran with _ | l
  · simp [Has]
  · simp [anyFirst_iff]

theorem isD_iff (ss : List Src) : isD ss = true ↔ HasD ss := by
  rw [isD, anyFirst_iff, HasD]; simp

theorem smartLink_fits (E : Env) (ss : List Src) (l : Linker) (h : (smartLink E ss).1 = some l) : Fits E ss l := by
  unfold smartLink at h
  by_cases hd : isD ss = true
  · rw [if_neg (by simp [hd]), if_pos hd] at h
    split at h
    · simp at h; subst h; exact .d ((isD_iff ss).1 hd)
    · simp at h
  · have hd' : ¬ HasD ss := fun hh => hd ((isD_iff ss).2 hh)
    by_cases hc : isCplusplus ss = true
    · have hc' := (isCplusplus_iff ss).1 hc
      by_cases hf : isFortran E ss = true
      · rw [if_pos (by simp [hc, hf, hd])] at h; simp at h; subst h; exact .cxx hd' hc'
      · rw [if_neg (by simp [hf]), if_neg hd, if_neg hf, if_pos hc] at h; simp at h; subst h; exact .cxx hd' hc'
    · have hc' : ¬ HasCxx ss := fun hh => hc ((isCplusplus_iff ss).2 hh)
      rw [if_neg (by simp [hc]), if_neg hd] at h
      by_cases hf : isFortran E ss = true
      · rw [if_pos hf] at h; simp at h; subst h; exact .fortran hd' hc' ((isFortran_iff E ss).1 hf)
      · rw [if_neg hf, if_neg hc] at h; simp at h; subst h; exact .cc hd' hc' fun hh => hf ((isFortran_iff E ss).2 hh)

theorem smartLink_noD (E : Env) (ss : List Src) (h : ¬ HasD ss) : ∃ l, smartLink E ss = (some l, E) := by
  have hd : ¬ isD ss = true := fun hh => h ((isD_iff ss).1 hh)
  unfold smartLink
  split
  · exact ⟨_, rfl⟩
  · split
    · exact ⟨_, rfl⟩
    · split <;> exact ⟨_, rfl⟩

/-- **C117.** In an environment in which no program has sources in D, every program is linked with the linker that fits its own sources, each time its command is made, whatever programs came before. -/
theorem C117_linker (E : Env) (hE : E.dLink = false) (ps : List (List Src)) (hd : ∀ p ∈ ps, ¬ HasD p) :
    (expands E ps).2 = E ∧ (expands E ps).1.length = ps.length ∧ ∀ i (hi : i < ps.length), ∃ l, (expands E ps).1[i]? = some (some (.link l)) ∧ Fits E ps[i] l := by
  induction ps with
  | nil => exact ⟨rfl, rfl, fun i hi => absurd hi (by simp)⟩
  | cons p ps ih =>
    obtain ⟨l, hl⟩ := smartLink_noD E p (hd p (by simp))
    have hx : expand E p = (some (.link l), E) := by simp [expand, hE, hl]
    obtain ⟨h1, h2, h3⟩ := ih fun q hq => hd q (by simp [hq])
    refine ⟨by simp [expands, hx, h1], by simp [expands, hx, h2], ?_⟩
    intro i hi
    cases i with
    | zero => exact ⟨l, by simp [expands, hx], smartLink_fits E p l (by rw [hl])⟩
    | succ i =>
      obtain ⟨l', k1, k2⟩ := h3 i (by simpa using hi)
      exact ⟨l', by simp [expands, hx, k1], by simpa using k2⟩

/-- Only one linker fits. -/
theorem C117_one_fits (E : Env) (ss : List Src) (l l' : Linker) (h : Fits E ss l) (h' : Fits E ss l') : l = l' := by
  cases h <;> cases h' <;> first | rfl | contradiction

/-- **Counterexample.** After one program in D, every later program of the same environment is linked with the command of the D tool, whatever it is made of. -/
theorem C117_after_d (E : Env) (ht : E.dTool = true) (ps : List (List Src)) (h : ∃ p ∈ ps, HasD p) (q : List Src) : (expand (expands E ps).2 q).1 = some .dLink := by
  have key : ∀ (ps : List (List Src)) (E : Env), E.dLink = true → (expands E ps).2.dLink = true := by
    intro ps
    induction ps with
    | nil => intro E h; exact h
    | cons p ps ih => intro E h; simp only [expands, expand, h, if_true]; exact ih E h
  have main : ∀ (ps : List (List Src)) (E : Env), E.dTool = true → (∃ p ∈ ps, HasD p) → (expands E ps).2.dLink = true := by
    intro ps
    induction ps with
    | nil => rintro E _ ⟨p, hp, _⟩; simp at hp
    | cons p ps ih =>
      intro E ht h
      by_cases hl : E.dLink = true
      · exact key _ E hl
      · by_cases hd : HasD p
        · have hx : (expand E p).2.dLink = true := by
            have hd' := (isD_iff p).2 hd
            simp [expand, hl, smartLink, hd', ht]
          show (expands (expand E p).2 ps).2.dLink = true
          exact key ps _ hx
        · obtain ⟨l, hs⟩ := smartLink_noD E p hd
          have hx : (expand E p).2 = E := by simp [expand, hl, hs]
          show (expands (expand E p).2 ps).2.dLink = true
          rw [hx]
          refine ih E ht ?_
          obtain ⟨r, hr, hrd⟩ := h
          rcases List.mem_cons.1 hr with rfl | hr
          · exact absurd hrd hd
          · exact ⟨r, hr, hrd⟩
  have := main ps E ht h
  simp [expand, this]

/-- **Counterexample.** The command of the first program in D, as it is made for the signature, is not the command that is then run; and whether it is depends on what was linked before. -/
theorem C117_d_signature (E : Env) (hE : E.dLink = false) (ht : E.dTool = true) (p q : List Src) (hp : HasD p) (hq : HasD q) :
    (expands E [p, p]).1 = [some (.link .dc), some .dLink] ∧ (expands E [q, q, p, p]).1 = [some (.link .dc), some .dLink, some .dLink, some .dLink] := by
  have hp' := (isD_iff p).2 hp
  have hq' := (isD_iff q).2 hq
  simp [expands, expand, hE, smartLink, hp', hq', ht]

/-- **Counterexample.** A file made from a `.d` file without a D tool, by a builder of the user's: an exception. -/
theorem C117_d_without_tool (E : Env) (hE : E.dLink = false) (ht : E.dTool = false) (p : List Src) (hp : HasD p) : (expand E p).1 = none := by
  have hp' := (isD_iff p).2 hp
  simp [expand, hE, smartLink, hp', ht]

/-- **Counterexample.** C++ in a library, in an object from elsewhere, or in any but the first source of an object is not seen: the C compiler links. -/
theorem C117_cxx_not_seen (E : Env) (hE : E.dLink = false) (ss : List Src) (h : ∀ s ∈ ss, s.sources = [] ∨ ∃ r, s.sources = ".o" :: r ∨ s.sources = ".c" :: r) (hf : ∀ l, E.fortran = some l → ".o" ∉ l ∧ ".c" ∉ l) :
    (expand E ss).1 = some (.link .cc) := by
  have no : ∀ P : String → Prop, ¬ P ".o" → ¬ P ".c" → ¬ Has P ss := by
    rintro P h1 h2 ⟨s, hs, e, r, he, hP⟩
    rcases h s hs with h0 | ⟨r', h0 | h0⟩ <;> rw [h0] at he
    · cases he
    · injection he with he _; subst he; exact h1 hP
    · injection he with he _; subst he; exact h2 hP
  have hd : ¬ HasD ss := no _ (by decide) (by decide)
  obtain ⟨l, hl⟩ := smartLink_noD E ss hd
  have := C117_one_fits E ss l .cc (smartLink_fits E ss l (by rw [hl])) (.cc hd (no _ (by decide) (by decide)) (no _ (by rintro ⟨l, h1, h2⟩; exact (hf l h1).1 h2) (by rintro ⟨l, h1, h2⟩; exact (hf l h1).2 h2)))
  simp [expand, hE, hl, this]

/-! ## Cases -/

/-- An object made static and then, under the same name, shared. -/
example : checker ([Call.object [1, 2], .sharedObject [2, 3], .other [4], .sharedLib [5]].foldl emit fun _ => none) (.int 0) [2, 3, 5] = none := by decide
example : checker ([Call.object [1, 2], .sharedObject [2, 3]].foldl emit fun _ => none) .unset [2, 1, 3] = some 1 := by decide
example : MadeShared [Call.object [1, 2], .sharedObject [2, 3], .other [2]] 2 := ⟨[.object [1, 2]], .sharedObject [2, 3], [.other [2]], rfl, by decide, rfl, by decide⟩
example : (expands ⟨some [".f90"], true, false⟩ [[⟨[".c"]⟩, ⟨[".cc"]⟩], [⟨[".f90"]⟩], [⟨[".c"]⟩], [⟨[".d"]⟩], [⟨[".c"]⟩]]).1 = [some (.link .cxx), some (.link .fortran), some (.link .cc), some (.link .dc), some .dLink] := by decide

end Verif.Link
