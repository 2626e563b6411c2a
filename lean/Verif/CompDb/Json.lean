import Verif.CompDb.Props

/-!
# The compilation database (C114): the file is read back
-/

namespace Verif.CompDb

theorem hexVal_hexDigit (n : Nat) (h : n < 16) : hexVal (hexDigit n) = some n := by
  have : ∀ n < 16, hexVal (hexDigit n) = some n := by decide +kernel
  exact this n h

theorem hexDigit_ne (n : Nat) (h : n < 16) : hexDigit n ≠ '"' := by
  have : ∀ n < 16, hexDigit n ≠ '"' := by decide +kernel
  exact this n h

theorem hex4_escape (n : Nat) (h : n < 65536) : hex4 (hexDigit (n / 4096 % 16)) (hexDigit (n / 256 % 16)) (hexDigit (n / 16 % 16)) (hexDigit (n % 16)) = some n := by
  rw [hex4, hexVal_hexDigit _ (Nat.mod_lt _ (by omega)), hexVal_hexDigit _ (Nat.mod_lt _ (by omega)), hexVal_hexDigit _ (Nat.mod_lt _ (by omega)), hexVal_hexDigit _ (Nat.mod_lt _ (by omega))]
  simp only [Option.some.injEq]
  omega

theorem lex_unicodeEscape (u : List Nat) (n : Nat) (h : n < 65536) (r : Str) : lex (some u) (unicodeEscape n ++ r) = lex (some (u ++ [n])) r := by
  have h4 := hex4_escape n h
  rw [unicodeEscape]
  simp only [List.cons_append, List.nil_append]
  rw [lex, h4]

theorem char_lt (c : Char) : c.toNat < 0x110000 ∧ ¬ (0xd800 ≤ c.toNat ∧ c.toNat < 0xe000) := by
  have := c.valid
  simp only [UInt32.isValidChar, Nat.isValidChar] at this
  have h : c.toNat = c.val.toNat := rfl
  rw [h]
  omega

theorem lex_char (u : List Nat) (c : Char) (r : Str) : lex (some u) (jsonChar c ++ r) = lex (some (u ++ utf16 c)) r := by
  obtain ⟨hc1, hc2⟩ := char_lt c
  rw [jsonChar]
  split
  · next h => subst h; simp [lex, escapeVal, utf16]
  split
  · next h => subst h; simp [lex, escapeVal, utf16]
  split
  · next h => subst h; simp [lex, escapeVal, utf16]
  split
  · next h => subst h; simp [lex, escapeVal, utf16]
  split
  · next h => subst h; simp [lex, escapeVal, utf16]
  split
  · next h => subst h; simp [lex, escapeVal, utf16]
  split
  · next h => subst h; simp [lex, escapeVal, utf16]
  split
  · rename_i h1 h2 _ _ _ _ _ h3
    rw [List.cons_append, List.nil_append, lex.eq_def]
    split
    all_goals simp_all
    all_goals try omega
  split
  · rename_i h3
    rw [lex_unicodeEscape _ _ h3, utf16, if_pos h3]
  · rename_i h3
    rw [List.append_assoc, lex_unicodeEscape _ _ (by omega), lex_unicodeEscape _ _ (by omega), utf16, if_neg h3]
    simp

theorem lex_chars (s : Str) : ∀ (u : List Nat) (r : Str), lex (some u) (s.flatMap jsonChar ++ r) = lex (some (u ++ s.flatMap utf16)) r := by
  induction s with
  | nil => intro u r; simp
  | cons c s ih =>
    intro u r
    rw [List.flatMap_cons, List.append_assoc, lex_char, ih]
    simp

theorem ofNat_toNat (c : Char) : Char.ofNat c.toNat = c := Char.ofNat_toNat c

theorem decode16_cons (n : Nat) (r : List Nat) (h1 : isHigh n = false) (h2 : isLow n = false) : decode16 (n :: r) = (decode16 r).map (Char.ofNat n :: ·) := by
  cases r with
  | nil => simp [decode16, h1, h2]
  | cons l r => simp [decode16, h1, h2]

theorem decode16_utf16 (s : Str) : decode16 (s.flatMap utf16) = some s := by
  induction s with
  | nil => rfl
  | cons c s ih =>
    obtain ⟨hc1, hc2⟩ := char_lt c
    rw [List.flatMap_cons]
    by_cases h : c.toNat < 0x10000
    · rw [utf16, if_pos h, List.singleton_append, decode16_cons, ih]
      · simp [ofNat_toNat]
      · simp only [isHigh, decide_eq_false_iff_not]; omega
      · simp only [isLow, decide_eq_false_iff_not]; omega
    · rw [utf16, if_neg h]
      simp only [List.cons_append, List.nil_append]
      rw [decode16, if_pos (by simp only [isHigh, decide_eq_true_eq]; omega), if_pos (by simp only [isLow, decide_eq_true_eq]; omega), ih]
      have : 0x10000 + (0xd800 + (c.toNat - 0x10000) / 0x400 - 0xd800) * 0x400 + (0xdc00 + (c.toNat - 0x10000) % 0x400 - 0xdc00) = c.toNat := by omega
      rw [this, ofNat_toNat]
      rfl

theorem lex_jsonStr (s r : Str) : lex none (jsonStr s ++ r) = (lex none r).map (.str s :: ·) := by
  rw [jsonStr, List.cons_append, List.cons_append, lex]
  simp only [List.append_assoc]
  rw [if_neg (by decide), if_pos trivial, lex_chars, List.nil_append, List.singleton_append, lex.eq_def]
  simp [decode16_utf16]

theorem lex_spaces (n : Nat) (r : Str) : lex none (spaces n ++ r) = lex none r := by
  induction n with
  | zero => rfl
  | succ n ih => rw [spaces, List.replicate_succ, List.cons_append, lex, if_pos (.inl rfl)]; exact ih

theorem lex_nl (r : Str) : lex none ('\n' :: r) = lex none r := by rw [lex, if_pos (by decide)]

theorem lex_space (r : Str) : lex none (' ' :: r) = lex none r := by rw [lex, if_pos (by decide)]

theorem lex_punct (c : Char) (t : Tok) (r : Str) (h1 : ¬ (c = ' ' ∨ c = '\n' ∨ c = '\r' ∨ c = '\t')) (h2 : c ≠ '"') (h : punct c = some t) : lex none (c :: r) = (lex none r).map (t :: ·) := by
  rw [lex, if_neg h1, if_neg h2]
  simp [h]

theorem lex_comma (r : Str) : lex none (',' :: r) = (lex none r).map (.comma :: ·) := lex_punct _ _ _ (by decide) (by decide) rfl
theorem lex_colon (r : Str) : lex none (':' :: r) = (lex none r).map (.colon :: ·) := lex_punct _ _ _ (by decide) (by decide) rfl
theorem lex_lbrace (r : Str) : lex none ('{' :: r) = (lex none r).map (.lbrace :: ·) := lex_punct _ _ _ (by decide) (by decide) rfl
theorem lex_rbrace (r : Str) : lex none ('}' :: r) = (lex none r).map (.rbrace :: ·) := lex_punct _ _ _ (by decide) (by decide) rfl
theorem lex_lbrack (r : Str) : lex none ('[' :: r) = (lex none r).map (.lbrack :: ·) := lex_punct _ _ _ (by decide) (by decide) rfl
theorem lex_rbrack (r : Str) : lex none (']' :: r) = (lex none r).map (.rbrack :: ·) := lex_punct _ _ _ (by decide) (by decide) rfl

theorem lex_field (k v r : Str) : lex none (jsonField k v ++ r) = (lex none r).map (fun l => .str k :: .colon :: .str v :: l) := by
  rw [jsonField]
  simp only [List.cons_append, List.append_assoc, List.nil_append]
  rw [lex_nl, lex_spaces, lex_jsonStr, lex_colon, lex_space, lex_jsonStr]
  cases lex none r <;> rfl

/-- The tokens of a record. -/
def recordToks (r : Record) : List Tok :=
  [.lbrace, .str "command".toList, .colon, .str r.command, .comma, .str "directory".toList, .colon, .str r.directory, .comma, .str "file".toList, .colon, .str r.file, .comma,
   .str "output".toList, .colon, .str r.output, .rbrace]

theorem lex_record (x : Record) (r : Str) : lex none (jsonRecord x ++ r) = (lex none r).map (recordToks x ++ ·) := by
  rw [jsonRecord]
  simp only [List.cons_append, List.append_assoc, List.nil_append]
  rw [lex_nl, lex_spaces, lex_lbrace, lex_field, lex_comma, lex_field, lex_comma, lex_field, lex_comma, lex_field, lex_nl, lex_spaces, lex_rbrace]
  cases lex none r <;> rfl

theorem lex_records (x : Record) (xs : List Record) : lex none ([','].intercalate ((x :: xs).map jsonRecord) ++ ['\n', ']', '\n']) =
    some (recordToks x ++ xs.flatMap (fun y => .comma :: recordToks y) ++ [.rbrack]) := by
  induction xs generalizing x with
  | nil =>
    rw [List.map_cons, List.map_nil, List.intercalate_singleton, lex_record, lex_nl, lex_rbrack, lex_nl]
    simp [lex]
  | cons y ys ih =>
    rw [List.map_cons, List.map_cons, Verif.Shell.intercalate_cons_cons', ← List.map_cons, List.append_assoc, List.append_assoc, lex_record, List.singleton_append, lex_comma, ih]
    simp

theorem members_record (x : Record) (xs : List Record) : members [] ((recordToks x ++ xs.flatMap (fun y => Tok.comma :: recordToks y) ++ [Tok.rbrack]).drop 1) = some ((x :: xs).map Record.members) := by
  induction xs generalizing x with
  | nil => simp [recordToks, members, Record.members]
  | cons y ys ih =>
    have := ih y
    simp only [recordToks, List.cons_append, List.drop_succ_cons, List.drop_zero, List.nil_append, List.flatMap_cons] at this ⊢
    rw [members, members, members, members, this]
    simp [Record.members]

/-- **C114**: the file is a JSON text, and its reader finds the records, whatever characters the commands and names have in them. -/
theorem C114_json (rs : List Record) : readJson (fileText rs) = some (rs.map Record.members) := by
  cases rs with
  | nil => decide +kernel
  | cons x xs =>
    have : fileText (x :: xs) = '[' :: ([','].intercalate ((x :: xs).map jsonRecord) ++ ['\n', ']', '\n']) := by simp [fileText]
    have h2 := members_record x xs
    rw [readJson, this, lex_lbrack, lex_records]
    simp only [recordToks, List.cons_append, List.drop_succ_cons, List.drop_zero, Option.map_some] at h2 ⊢
    exact h2

end Verif.CompDb
