import Mathlib.Data.List.Basic

/-!
# The files of a check (`SConfBase.TryBuild`, SConf.py 602-655)

Texts and actions are their signatures.  Strings are lists of characters.
-/

namespace Verif.Conf.Names

/-- A call of `TryBuild` with a text. -/
structure Call where
  text : List Char
  ext : List Char
  act : List Char
  pref : List Char
  suff : List Char

/-- `str(n)`. -/
def digits (n : Nat) : List Char := Nat.toDigits 10 n

/-- `_ac_build_counter[textSig]` (SConf.py 630-631): the calls so far with this text. -/
def counter (before : List Call) (text : List Char) : Nat := before.countP (fun c => c.text = text)

/-- `f = "_".join([f, textSig, textSigCounter])` (SConf.py 633). -/
def base (text : List Char) (n : Nat) : List Char :=
  "conftest_".toList ++ text ++ '_' :: digits n

/-- The file the text is written to (SConf.py 634). -/
def textFile (before : List Call) (c : Call) : List Char := base c.text (counter before c.text) ++ c.ext

/-- The target (SConf.py 647-653). -/
def target (before : List Call) (c : Call) : List Char :=
  c.pref ++ (base c.text (counter before c.text) ++ '_' :: c.act) ++ c.suff

theorem digits_isDigit (n : Nat) : ∀ x ∈ digits n, x.isDigit = true :=
  fun _ hx => Nat.isDigit_of_mem_toDigits (by decide) (by decide) hx

theorem digits_inj {m n : Nat} (h : digits m = digits n) : m = n := by
  have := congrArg (fun l => Nat.ofDigitChars 10 l 0) h
  simpa [digits, Nat.ofDigitChars_ten_toDigits] using this

/-- `e` does not begin with a character of the kind `p`. -/
def Apart (p : Char → Bool) (e : List Char) : Prop := ∀ x, e.head? = some x → p x = false

theorem span_unique {p : Char → Bool} {a b e1 e2 : List Char} (ha : ∀ x ∈ a, p x = true) (hb : ∀ x ∈ b, p x = true)
    (h1 : Apart p e1) (h2 : Apart p e2) (h : a ++ e1 = b ++ e2) : a = b ∧ e1 = e2 := by
  induction a generalizing b with
  | nil =>
    cases b with
    | nil => exact ⟨rfl, by simpa using h⟩
    | cons y b =>
      exfalso
      simp only [List.nil_append, List.cons_append] at h
      have := h1 y (by rw [h]; rfl)
      rw [hb y (by simp)] at this; cases this
  | cons x a ih =>
    cases b with
    | nil =>
      exfalso
      simp only [List.nil_append, List.cons_append] at h
      have := h2 x (by rw [← h]; rfl)
      rw [ha x (by simp)] at this; cases this
    | cons y b =>
      simp only [List.cons_append, List.cons.injEq] at h
      obtain ⟨rfl, h⟩ := h
      obtain ⟨rfl, rfl⟩ := ih (fun z hz => ha z (by simp [hz])) (fun z hz => hb z (by simp [hz])) h
      exact ⟨rfl, rfl⟩

/-- A signature: no underscore in it (it is a hexadecimal number). -/
def IsSig (s : List Char) : Prop := '_' ∉ s

theorem base_inj {s1 s2 e1 e2 : List Char} {m n : Nat} (h1 : IsSig s1) (h2 : IsSig s2)
    (g1 : Apart Char.isDigit e1) (g2 : Apart Char.isDigit e2) (h : base s1 m ++ e1 = base s2 n ++ e2) :
    s1 = s2 ∧ m = n ∧ e1 = e2 := by
  unfold base at h
  simp only [List.append_assoc, List.append_cancel_left_eq] at h
  obtain ⟨he, h'⟩ := span_unique (p := fun x => x != '_')
    (by intro x hx; simp only [bne_iff_ne]; rintro rfl; exact h1 hx)
    (by intro x hx; simp only [bne_iff_ne]; rintro rfl; exact h2 hx)
    (by intro x hx; simp at hx; simp [← hx]) (by intro x hx; simp at hx; simp [← hx]) h
  simp only [List.cons_append, List.cons.injEq, true_and] at h'
  obtain ⟨hd, hx⟩ := span_unique (digits_isDigit m) (digits_isDigit n) g1 g2 h'
  exact ⟨he, digits_inj hd, hx⟩

theorem counter_lt {before between : List Call} {c : Call} :
    counter before c.text < counter (before ++ c :: between) c.text := by
  unfold counter
  rw [List.countP_append, List.countP_cons_of_pos (by simp)]
  omega

/-- **C70, files.**  In one run no two checks share the file their text is written to: not for different
texts, and not for the same text tried twice, whatever other checks are made in between; provided the
file extensions do not begin with a digit. -/
theorem C70_text_files (before between : List Call) (c d : Call) (hc : IsSig c.text) (hd : IsSig d.text)
    (gc : Apart Char.isDigit c.ext) (gd : Apart Char.isDigit d.ext) :
    textFile before c ≠ textFile (before ++ c :: between) d := by
  intro h
  unfold textFile at h
  obtain ⟨h1, h2, -⟩ := base_inj hc hd gc gd h
  rw [← h1] at h2
  exact absurd h2 (Nat.ne_of_lt counter_lt)

/-- ... nor their targets, builder by builder. -/
theorem C70_targets (before between : List Call) (c d : Call) (hc : IsSig c.text) (hd : IsSig d.text)
    (hp : c.pref = d.pref) (hs : c.suff = d.suff) :
    target before c ≠ target (before ++ c :: between) d := by
  intro h
  unfold target at h
  rw [hp, hs] at h
  simp only [List.append_cancel_right_eq, List.append_cancel_left_eq] at h
  obtain ⟨h1, h2, -⟩ := base_inj hc hd (e1 := '_' :: c.act) (e2 := '_' :: d.act)
    (by intro x hx; simp at hx; subst hx; decide) (by intro x hx; simp at hx; subst hx; decide) h
  rw [← h1] at h2
  exact absurd h2 (Nat.ne_of_lt counter_lt)

/-- **C70, same files again.**  The files of a check depend on it and on how often its text was tried before in this run
only, not on other checks: in the next run it finds its own record. -/
theorem C70_same_files (before before' : List Call) (c : Call)
    (h : (before.filter (·.text = c.text)).length = (before'.filter (·.text = c.text)).length) :
    textFile before c = textFile before' c ∧ target before c = target before' c := by
  have : counter before c.text = counter before' c.text := by
    unfold counter
    rw [List.countP_eq_length_filter, List.countP_eq_length_filter]
    exact h
  unfold textFile target
  rw [this]
  exact ⟨rfl, rfl⟩

/-- The proviso is needed: the second check of a text, with extension `0.c`, and its eleventh, with `.c`,
write to one file. -/
theorem C70_extension :
    let c (e : String) : Call := ⟨"ab".toList, e.toList, "12".toList, [], ".o".toList⟩
    textFile [c ".c"] (c "0.c") = textFile (c ".c" :: c "0.c" :: List.replicate 8 (c ".c")) (c ".c") := by
  decide +kernel

/-- A case. -/
theorem C70_names_nonvacuous :
    let c : Call := ⟨"ab".toList, ".c".toList, "12".toList, [], ".o".toList⟩
    IsSig c.text ∧ Apart Char.isDigit c.ext ∧
      textFile [] c = "conftest_ab_0.c".toList ∧ textFile [c] c = "conftest_ab_1.c".toList ∧
      target [c] c = "conftest_ab_1_12.o".toList := by
  refine ⟨by unfold IsSig; decide, ?_, by decide +kernel, by decide +kernel, by decide +kernel⟩
  intro x hx
  simp at hx
  subst hx
  decide

end Verif.Conf.Names
