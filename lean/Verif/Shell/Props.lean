import Verif.Shell.Model

/-!
# C54: the program is called with exactly the arguments the command line stands for
-/

set_option linter.unusedSimpArgs false

namespace Verif.Shell

/-! ## What `escape` does to each character -/

def esc1 (c : Char) : Str := if c = '\\' then ['\\', '\\'] else if c = '"' then ['\\', '"'] else if c = '$' then ['\\', '$'] else [c]

theorem posixEscape_eq (a : Str) : posixEscape a = '"' :: a.flatMap esc1 ++ ['"'] := by
  have : replace '$' ['\\', '$'] (replace '"' ['\\', '"'] (replace '\\' ['\\', '\\'] a)) = a.flatMap esc1 := by
    simp only [replace, List.flatMap_assoc]
    congr 1
    funext c
    by_cases h1 : c = '\\'
    · subst h1; decide
    · by_cases h2 : c = '"'
      · subst h2; decide
      · by_cases h3 : c = '$'
        · subst h3; decide
        · simp [esc1, h1, h2, h3]
  simp [posixEscape, this]

/-! ## Reading quoted text -/

theorem tokens_double_plain (t : Tok) (c : Char) (r : Str) (h : c ≠ '"' ∧ c ≠ '$' ∧ c ≠ '`' ∧ c ≠ '\\') :
    tokens (.double t) (c :: r) = tokens (.double (t.quoted c)) r := by
  rw [tokens.eq_def]; simp [h.1, h.2.1, h.2.2.1, h.2.2.2]

theorem tokens_double_esc (t : Tok) (d : Char) (r : Str) (h : d = '$' ∨ d = '"' ∨ d = '\\') :
    tokens (.double t) ('\\' :: d :: r) = tokens (.double (t.quoted d)) r := by
  rcases h with rfl | rfl | rfl <;> rw [tokens.eq_def] <;> simp

theorem tokens_double_close (t : Tok) (r : Str) : tokens (.double t) ('"' :: r) = tokens (.word t) r := by rw [tokens.eq_def]; simp

theorem tokens_double_tick (t : Tok) (r : Str) : tokens (.double t) ('`' :: r) = none := by rw [tokens.eq_def]; simp

theorem tokens_open (r : Str) : tokens .between ('"' :: r) = tokens (.double ⟨[], []⟩) r := by rw [tokens.eq_def]; simp [Mode.tok]

theorem tokens_double_escaped (a : Str) : ∀ (t : Tok) (r : Str), '`' ∉ a →
    tokens (.double t) (a.flatMap esc1 ++ r) = tokens (.double ⟨t.text ++ a, t.bare⟩) r := by
  induction a with
  | nil => intro t r _; simp
  | cons c a ih =>
    intro t r h
    simp only [List.mem_cons, not_or] at h
    have key : tokens (.double t) (esc1 c ++ (a.flatMap esc1 ++ r)) = tokens (.double (t.quoted c)) (a.flatMap esc1 ++ r) := by
      unfold esc1
      split
      · next e => subst e; exact tokens_double_esc t _ _ (by simp)
      · next h1 =>
        split
        · next e => subst e; exact tokens_double_esc t _ _ (by simp)
        · next h2 =>
          split
          · next e => subst e; exact tokens_double_esc t _ _ (by simp)
          · next h3 => exact tokens_double_plain t c _ ⟨h2, h3, fun e => h.1 e.symm, h1⟩
    rw [List.flatMap_cons, List.append_assoc, key, ih _ _ h.2]
    simp [Tok.quoted]

theorem tokens_double_escaped_tick (a : Str) : ∀ (t : Tok) (r : Str), '`' ∈ a → tokens (.double t) (a.flatMap esc1 ++ r) = none := by
  induction a with
  | nil => intro t r h; cases h
  | cons c a ih =>
    intro t r h
    by_cases hc : c = '`'
    · subst hc
      rw [List.flatMap_cons, show esc1 '`' = ['`'] by decide]
      exact tokens_double_tick _ _
    · have ha : '`' ∈ a := by
        rcases List.mem_cons.1 h with e | h
        · exact absurd e.symm hc
        · exact h
      have key : ∃ t', tokens (.double t) (esc1 c ++ (a.flatMap esc1 ++ r)) = tokens (.double t') (a.flatMap esc1 ++ r) := by
        unfold esc1
        split
        · next e => exact ⟨_, tokens_double_esc t _ _ (by simp)⟩
        · next h1 =>
          split
          · next e => exact ⟨_, tokens_double_esc t _ _ (by simp)⟩
          · next h2 =>
            split
            · next e => exact ⟨_, tokens_double_esc t _ _ (by simp)⟩
            · next h3 => exact ⟨_, tokens_double_plain t c _ ⟨h2, h3, hc, h1⟩⟩
      obtain ⟨t', e⟩ := key
      rw [List.flatMap_cons, List.append_assoc, e, ih _ _ ha]

theorem tokens_double_copied (a : Str) : ∀ (t : Tok) (r : Str), (∀ c ∈ a, c ≠ '"' ∧ c ≠ '$' ∧ c ≠ '`' ∧ c ≠ '\\') →
    tokens (.double t) (a ++ r) = tokens (.double ⟨t.text ++ a, t.bare⟩) r := by
  induction a with
  | nil => intro t r _; simp
  | cons c a ih =>
    intro t r h
    rw [List.cons_append, tokens_double_plain t c _ (h c List.mem_cons_self), ih _ _ (fun d hd => h d (List.mem_cons_of_mem _ hd))]
    simp [Tok.quoted]

theorem tokens_plain (m : Mode) (hm : m = .between ∨ ∃ t, m = .word t) (c : Char) (r : Str) (h : c ∉ special) :
    tokens m (c :: r) = tokens (.word (m.tok.plain c)) r := by
  have h' : c ≠ ' ' ∧ c ≠ '\t' ∧ c ≠ '"' ∧ c ≠ '\'' ∧ c ≠ '\\' := by
    refine ⟨?_, ?_, ?_, ?_, ?_⟩ <;> (rintro rfl; exact h (by decide))
  obtain ⟨h1, h2, h3, h4, h5⟩ := h'
  rcases hm with rfl | ⟨t, rfl⟩ <;> rw [tokens.eq_def] <;> simp [h1, h2, h3, h4, h5, h]

theorem tokens_bare (a : Str) : ∀ (t : Tok) (r : Str), (∀ c ∈ a, c ∉ special) →
    tokens (.word t) (a ++ r) = tokens (.word ⟨t.text ++ a, t.bare ++ a⟩) r := by
  induction a with
  | nil => intro t r _; simp
  | cons c a ih =>
    intro t r h
    rw [List.cons_append, tokens_plain _ (.inr ⟨t, rfl⟩) c _ (h c List.mem_cons_self), ih _ _ (fun d hd => h d (List.mem_cons_of_mem _ hd))]
    simp [Tok.plain, Mode.tok]

/-! ## Words -/

/-- White space that makes `quote_spaces` put quotes around a word. -/
def Spaced (s : Str) : Prop := ' ' ∈ s ∨ '\t' ∈ s

instance (s : Str) : Decidable (Spaced s) := by unfold Spaced; infer_instance

/-- Words that mean nothing else to the shell: a file name or `Literal` without backquote; text with blanks and without characters that are special in double quotes; text without any special character. -/
def Readable (w : Word) : Prop :=
  if w.literal then '`' ∉ w.data
  else if Spaced w.data then ∀ c ∈ w.data, c ≠ '"' ∧ c ≠ '$' ∧ c ≠ '`' ∧ c ≠ '\\'
  else w.data ≠ [] ∧ ∀ c ∈ w.data, c ∉ special

instance (w : Word) : Decidable (Readable w) := by unfold Readable; infer_instance

/-- The program's name is not an assignment and not a reserved word. -/
def FirstFine (ws : List Word) : Prop :=
  ∀ w, ws.head? = some w → w.literal = true ∨ Spaced w.data ∨ ('=' ∉ w.data ∧ w.data ∉ reserved)

/-- Which characters the shell sees unquoted. -/
def Word.tok (w : Word) : Tok := ⟨w.data, if w.literal then [] else if Spaced w.data then [] else w.data⟩

theorem tokens_word (w : Word) (h : Readable w) (r : Str) :
    tokens .between (w.escape posixEscape ++ r) = tokens (.word w.tok) r := by
  unfold Readable at h
  by_cases hl : w.literal = true
  · simp only [hl, if_true] at h
    simp only [Word.escape, Word.tok, hl, if_true, posixEscape_eq]
    rw [List.cons_append, List.cons_append, tokens_open, List.append_assoc, tokens_double_escaped _ _ _ h]
    simp [tokens_double_close]
  · by_cases hs : Spaced w.data
    · simp only [hl, hs, if_true, if_false, Bool.false_eq_true] at h
      have e : w.escape posixEscape = '"' :: w.data ++ ['"'] := by
        unfold Spaced at hs
        simp [Word.escape, hl, hs, quoteSpaces]
      rw [e, List.cons_append, List.cons_append, tokens_open, List.append_assoc, tokens_double_copied _ _ _ h]
      simp [tokens_double_close, Word.tok, hl, hs]
    · simp only [hl, hs, if_false, Bool.false_eq_true] at h
      have e : w.escape posixEscape = w.data := by
        unfold Spaced at hs
        simp [Word.escape, hl, hs]
      rw [e]
      obtain ⟨hne, hc⟩ := h
      cases hd : w.data with
      | nil => exact absurd hd hne
      | cons c a =>
        rw [hd] at hc
        rw [List.cons_append, tokens_plain _ (.inl rfl) c _ (hc c List.mem_cons_self), tokens_bare _ _ _ (fun d hd => hc d (List.mem_cons_of_mem _ hd))]
        simp only [Word.tok, hl, hs, if_false, Bool.false_eq_true, hd, Mode.tok, Tok.plain]
        rw [hd] at hs
        simp [hs]

theorem tokens_word_end (t : Tok) : tokens (.word t) [] = some [t] := by rw [tokens.eq_def]

theorem tokens_word_space (t : Tok) (r : Str) : tokens (.word t) (' ' :: r) = (tokens .between r).map (t :: ·) := by rw [tokens.eq_def]; simp

theorem intercalate_cons_cons' (s a b : Str) (l : List Str) : s.intercalate (a :: b :: l) = a ++ s ++ s.intercalate (b :: l) := by
  simp [List.intercalate]

theorem tokens_line (ws : List Word) (h : ∀ w ∈ ws, Readable w) : tokens .between (commandLine ws) = some (ws.map Word.tok) := by
  induction ws with
  | nil => simp [commandLine, List.intercalate, tokens.eq_def]
  | cons w ws ih =>
    have ih := ih (fun v hv => h v (List.mem_cons_of_mem _ hv))
    cases ws with
    | nil =>
      have := tokens_word w (h w List.mem_cons_self) []
      rw [tokens_word_end] at this
      simpa [commandLine, List.intercalate] using this
    | cons v ws =>
      unfold commandLine at ih ⊢
      rw [List.map_cons, List.map_cons, intercalate_cons_cons', List.append_assoc, tokens_word w (h w List.mem_cons_self), List.cons_append, List.nil_append, tokens_word_space]
      rw [List.map_cons] at ih
      rw [ih]; rfl

/-- **C54.**  When no word of the command line contains a backquote in a file name, or, in other text, characters that mean something to the shell, the shell calls the program with exactly these words as its arguments:
file names may have blanks, quotes, dollar signs, backslashes, new lines, and every other character, and no two words are run together or split. -/
theorem C54_arguments_arrive_partial (ws : List Word) (h : ∀ w ∈ ws, Readable w) (hf : FirstFine ws) :
    shell (commandLine ws) = some (ws.map Word.data) := by
  rw [shell, tokens_line ws h]
  cases ws with
  | nil => rfl
  | cons w ws =>
    have hw := hf w rfl
    have hb : ¬ ('=' ∈ w.tok.bare ∨ w.tok.bare ∈ reserved) := by
      unfold Word.tok
      rcases hw with h1 | h1 | h1
      · simp only [h1, if_true]; decide
      · by_cases hl : w.literal = true
        · simp only [hl, if_true]; decide
        · simp only [hl, h1, if_true, if_false, Bool.false_eq_true]; decide
      · by_cases hl : w.literal = true
        · simp only [hl, if_true]; decide
        · by_cases hs : Spaced w.data
          · simp only [hl, hs, if_true, if_false, Bool.false_eq_true]; decide
          · simp only [hl, hs, if_false, Bool.false_eq_true]
            exact not_or.2 h1
    simp only [List.map_cons]
    rw [if_neg hb]
    simp [Word.tok, Function.comp_def]

theorem tokens_line_tick (ws : List Word) (h : ∀ w ∈ ws, w.literal = true) (hb : ∃ w ∈ ws, '`' ∈ w.data) :
    tokens .between (commandLine ws) = none := by
  induction ws with
  | nil => obtain ⟨w, hw, _⟩ := hb; cases hw
  | cons w ws ih =>
    have hl := h w List.mem_cons_self
    by_cases hw : '`' ∈ w.data
    · have key : ∀ r, tokens .between (w.escape posixEscape ++ r) = none := by
        intro r
        simp only [Word.escape, hl, if_true, posixEscape_eq]
        rw [List.cons_append, List.cons_append, tokens_open, List.append_assoc, tokens_double_escaped_tick _ _ _ hw]
      cases ws with
      | nil => simpa [commandLine, List.intercalate] using key []
      | cons v ws =>
        unfold commandLine
        rw [List.map_cons, List.map_cons, intercalate_cons_cons', List.append_assoc, key]
    · have hb' : ∃ v ∈ ws, '`' ∈ v.data := by
        obtain ⟨v, hv, hv'⟩ := hb
        rcases List.mem_cons.1 hv with rfl | hv
        · exact absurd hv' hw
        · exact ⟨v, hv, hv'⟩
      have ih := ih (fun v hv => h v (List.mem_cons_of_mem _ hv)) hb'
      cases ws with
      | nil => obtain ⟨v, hv, _⟩ := hb'; cases hv
      | cons v ws =>
        have hr : Readable w := by simp [Readable, hl, hw]
        unfold commandLine at ih ⊢
        rw [List.map_cons, List.map_cons, intercalate_cons_cons', List.append_assoc, tokens_word w hr, List.cons_append, List.nil_append, tokens_word_space]
        rw [List.map_cons] at ih
        rw [ih]; rfl

/-- **C54, exactly when.**  A command line of file names and `Literal`s arrives as it is if and only if none of them contains a backquote. -/
theorem C54_literals_arrive_iff (ws : List Word) (h : ∀ w ∈ ws, w.literal = true) :
    shell (commandLine ws) = some (ws.map Word.data) ↔ ∀ w ∈ ws, '`' ∉ w.data := by
  constructor
  · intro hs w hw hb
    rw [shell, tokens_line_tick ws h ⟨w, hw, hb⟩] at hs
    cases hs
  · intro hb
    refine C54_arguments_arrive_partial ws ?_ ?_
    · intro w hw; simp [Readable, h w hw, hb w hw]
    · intro w hw
      exact .inl (h w (List.mem_of_mem_head? hw))

/-- Two lists of file names without backquotes never give the same command line. -/
theorem C54_command_lines_differ (vs ws : List Word) (hv : ∀ w ∈ vs, w.literal = true ∧ '`' ∉ w.data) (hw : ∀ w ∈ ws, w.literal = true ∧ '`' ∉ w.data)
    (h : commandLine vs = commandLine ws) : vs.map Word.data = ws.map Word.data := by
  have h1 := (C54_literals_arrive_iff vs (fun w m => (hv w m).1)).2 (fun w m => (hv w m).2)
  have h2 := (C54_literals_arrive_iff ws (fun w m => (hw w m).1)).2 (fun w m => (hw w m).2)
  rw [h, h2] at h1
  exact (Option.some.inj h1).symm

/-! ## From the pieces of a command to its words -/

/-- The word is one file name (or `Literal`) and nothing else. -/
def isName : List Piece → Bool
  | [.file _] => true
  | _ => false

/-- The text of a word. -/
def pieceText (ps : List Piece) : Str := ps.flatMap Piece.str

/-- No redirection sign is directly followed by another piece (in which case this piece becomes a word of its own). -/
def NoRedirection (ps : List Piece) : Prop :=
  ∀ qs rs, ps = qs ++ rs → qs ≠ [] → rs ≠ [] → (pieceText qs).getLast?.getD '\x00' ∉ ['<', '>', '|']

theorem foldl_addToCurrentWord (ws : List Word) (ps : List Piece) : ∀ (w : Word) (qs : List Piece), w.data = pieceText qs → qs ≠ [] →
    NoRedirection (qs ++ ps) →
    ps.foldl addToCurrentWord (ws ++ [w]) = ws ++ [⟨pieceText (qs ++ ps), if ps = [] then w.literal else false⟩] := by
  induction ps with
  | nil => intro w qs hw _ _; cases w; simp at hw ⊢; exact hw
  | cons p ps ih =>
    intro w qs hw hq hn
    have h1 : addToCurrentWord (ws ++ [w]) p = ws ++ [⟨w.data ++ p.str, false⟩] := by
      have := hn qs (p :: ps) rfl hq (by simp)
      rw [← hw] at this
      unfold addToCurrentWord
      simp only [List.getLast?_append, List.getLast?_singleton, Option.some_or]
      rw [if_neg this]
      simp
    rw [List.foldl_cons, h1, ih ⟨w.data ++ p.str, false⟩ (qs ++ [p]) (by simp [pieceText, hw]) (by simp) (by simpa using hn)]
    simp

/-- **C54, words.**  The words handed to the shell are the texts of the command's words; a word is quoted as a file name exactly when it is a file name alone. -/
theorem C54_words (cmd : List (List Piece)) (hne : ∀ ps ∈ cmd, ps ≠ []) (hn : ∀ ps ∈ cmd, NoRedirection ps) :
    expand cmd = cmd.map (fun ps => ⟨pieceText ps, isName ps⟩) := by
  have key : ∀ (cmd : List (List Piece)) (ws : List Word), (∀ ps ∈ cmd, ps ≠ []) → (∀ ps ∈ cmd, NoRedirection ps) →
      cmd.foldl addWord ws = ws ++ cmd.map (fun ps => ⟨pieceText ps, isName ps⟩) := by
    intro cmd
    induction cmd with
    | nil => intro ws _ _; simp
    | cons ps cmd ih =>
      intro ws hne hn
      have h1 : addWord ws ps = ws ++ [⟨pieceText ps, isName ps⟩] := by
        have hp := hne ps List.mem_cons_self
        have hn1 := hn ps List.mem_cons_self
        cases ps with
        | nil => exact absurd rfl hp
        | cons p ps =>
          have := foldl_addToCurrentWord ws ps ⟨p.str, p.literal⟩ [p] (by simp [pieceText]) (by simp) hn1
          rw [addWord, addNewWord, this]
          cases ps <;> cases p <;> simp [isName, Piece.literal]
      rw [List.foldl_cons, h1, ih _ (fun q hq => hne q (List.mem_cons_of_mem _ hq)) (fun q hq => hn q (List.mem_cons_of_mem _ hq))]
      rw [List.map_cons, List.append_assoc]; rfl
  simpa [expand] using key cmd [] hne hn

theorem noRedirection_single (p : Piece) : NoRedirection [p] := by
  intro qs rs h h1 h2
  cases qs with
  | nil => exact absurd rfl h1
  | cons q qs => cases qs <;> cases rs <;> simp_all

/-- **C54, whole commands.**  A command of plain text words and of file names standing alone (such as `cp $SOURCES $TARGET`) calls the program with exactly these file names, whatever characters other than a
backquote they contain. -/
theorem C54_file_names_arrive_partial (prog : Str) (hp : prog ≠ []) (hp1 : ∀ c ∈ prog, c ∉ special) (hp2 : '=' ∉ prog) (hp3 : prog ∉ reserved) (args : List Piece)
    (ht : ∀ s, Piece.text s ∈ args → s ≠ [] ∧ ∀ c ∈ s, c ∉ special) (hf : ∀ s, Piece.file s ∈ args → '`' ∉ s) :
    shell (commandLine (expand ([Piece.text prog] :: args.map ([·])))) = some (prog :: args.map Piece.str) := by
  have ne : ∀ s : Str, (∀ c ∈ s, c ∉ special) → ¬ Spaced s := by
    rintro s h (h1 | h1)
    · exact h ' ' h1 (by decide)
    · exact h '\t' h1 (by decide)
  have hw := C54_words ([Piece.text prog] :: args.map ([·])) (by simp) (by
    intro ps hps
    rcases List.mem_cons.1 hps with rfl | hps
    · exact noRedirection_single _
    · obtain ⟨a, _, rfl⟩ := List.mem_map.1 hps
      exact noRedirection_single a)
  rw [hw]
  rw [C54_arguments_arrive_partial]
  · simp [pieceText, Piece.str, Function.comp_def]
  · intro w hw
    simp only [List.map_cons, List.map_map, List.mem_cons, List.mem_map, Function.comp] at hw
    rcases hw with rfl | ⟨a, ha, rfl⟩
    · simp [Readable, isName, pieceText, Piece.str, ne _ hp1, hp]
      exact hp1
    · cases a with
      | text s =>
        obtain ⟨h1, h2⟩ := ht s ha
        simp [Readable, isName, pieceText, Piece.str, ne _ h2, h1]
        exact h2
      | file s => simpa [Readable, isName, pieceText, Piece.str] using hf s ha
  · intro w hw
    simp only [List.map_cons, List.head?_cons, Option.some.injEq] at hw
    subst hw
    refine .inr (.inr ?_)
    simpa [pieceText, Piece.str] using ⟨hp2, hp3⟩

/-! ## Windows -/

theorem winQuoted_copy (a : Str) : ∀ (arg : Str) (n : Nat) (r : Str), '"' ∉ a →
    ∃ arg' k, arg' ++ List.replicate k '\\' = arg ++ List.replicate n '\\' ++ a ∧ (arg'.getLast? ≠ some '\\' ∨ arg' = arg) ∧
      winQuoted arg n (a ++ r) = winQuoted arg' k r := by
  induction a with
  | nil => intro arg n r _; exact ⟨arg, n, by simp, .inr rfl, rfl⟩
  | cons c a ih =>
    intro arg n r h
    simp only [List.mem_cons, not_or] at h
    by_cases hc : c = '\\'
    · subst hc
      obtain ⟨arg', k, e1, e2, e3⟩ := ih arg (n + 1) r h.2
      refine ⟨arg', k, ?_, e2, ?_⟩
      · rw [e1, List.replicate_succ']; simp
      · rw [List.cons_append, winQuoted]; simpa using e3
    · obtain ⟨arg', k, e1, e2, e3⟩ := ih (arg ++ List.replicate n '\\' ++ [c]) 0 r h.2
      refine ⟨arg', k, ?_, ?_, ?_⟩
      · rw [e1]; simp
      · left
        rcases e2 with e2 | e2
        · exact e2
        · rw [e2]; simpa using hc
      · rw [List.cons_append, winQuoted]
        have hq : c ≠ '"' := fun e => h.1 e.symm
        rw [if_neg hc, if_neg hq]; exact e3

/-- **C54, Windows.**  A non-empty argument without double quotes that ends in at most one backslash is read back as it was. -/
theorem C54_windows_partial (x : Str) (hne : x ≠ []) (hq : '"' ∉ x) (hb : ¬ ['\\', '\\'] <:+ x) :
    ∃ e, winEscape x = some e ∧ winArg e = some x := by
  have hlast : ∃ c, x.getLast? = some c := by
    cases h : x.getLast? with
    | none => exact absurd (List.getLast?_eq_none_iff.1 h) hne
    | some c => exact ⟨c, rfl⟩
  obtain ⟨c, hc⟩ := hlast
  obtain ⟨y, rfl⟩ : ∃ y, x = y ++ [c] := ⟨x.dropLast, by rw [List.dropLast_append_getLast? c hc]⟩
  by_cases hcb : c = '\\'
  · subst hcb
    have hy : y.getLast? ≠ some '\\' := by
      intro h
      apply hb
      refine ⟨y.dropLast, ?_⟩
      have := List.dropLast_append_getLast? _ h
      conv_rhs => rw [← this]
      simp
    refine ⟨_, by simp [winEscape]; rfl, ?_⟩
    have hq' : '"' ∉ y := fun h => hq (by simp [h])
    obtain ⟨arg', k, e1, e2, e3⟩ := winQuoted_copy y [] 0 ('\\' :: '\\' :: ['"']) hq'
    have hk : k = 0 := by
      cases k with
      | zero => rfl
      | succ k =>
        exfalso
        apply hy
        have : y = arg' ++ List.replicate (k + 1) '\\' := by simpa using e1.symm
        rw [this, List.replicate_succ']; simp
    subst hk
    have : arg' = y := by simpa using e1
    subst this
    have e4 : winQuoted arg' 0 ('\\' :: '\\' :: ['"']) = some (arg' ++ ['\\'], []) := by
      simp [winQuoted]
    simp only [winArg, List.cons_append, List.append_assoc, List.nil_append] at e3 e4 ⊢
    rw [e3, e4]
  · refine ⟨_, by simp [winEscape, hcb]; rfl, ?_⟩
    have hq' : '"' ∉ y := fun h => hq (by simp [h])
    have hqc : c ≠ '"' := fun h => hq (by simp [h])
    obtain ⟨arg', k, e1, e2, e3⟩ := winQuoted_copy y [] 0 (c :: ['"']) hq'
    have e4 : winQuoted arg' k (c :: ['"']) = some (arg' ++ List.replicate k '\\' ++ [c], []) := by
      simp [winQuoted, hcb, hqc]
    simp only [winArg, List.cons_append, List.append_assoc, List.nil_append] at e3 ⊢
    rw [e3, e4]
    simp only [List.append_assoc] at e1
    simp [e1, ← List.append_assoc]

/-! ## Counterexamples -/

/-- **Counterexample.**  `escape` forgets the backquote: a file named ``a`id` `` makes the shell run `id`. -/
theorem C54_counterexample_backquote :
    shell (commandLine (expand [[.text "cat".toList], [.file "a`id`".toList]])) = none ∧
    shell (commandLine (expand [[.text "cat".toList], [.file "a$id \"x\\".toList]])) = some ["cat".toList, "a$id \"x\\".toList] := by
  decide +kernel

/-- **Counterexample.**  A file name that is only part of a word is not escaped: in `-o$TARGET` the dollar sign of `a$b` is expanded by the shell, although `-o $TARGET` works. -/
theorem C54_counterexample_joined :
    shell (commandLine (expand [[.text "cc".toList], [.text "-o".toList, .file "a$b".toList]])) = none ∧
    shell (commandLine (expand [[.text "cc".toList], [.text "-o".toList], [.file "a$b".toList]])) = some ["cc".toList, "-o".toList, "a$b".toList] := by
  decide +kernel

/-- **Counterexample.**  Text with blanks is put in double quotes without escaping what is in it: the backslash of a list element `a\\ b` is lost. -/
theorem C54_counterexample_quote_spaces :
    shell (commandLine [⟨"echo".toList, false⟩, ⟨"a\\\\ b".toList, false⟩]) = some ["echo".toList, "a\\ b".toList] := by
  decide +kernel

/-- **Counterexample, Windows.**  An argument with two backslashes at its end, or with a quote, is read back differently; the empty one raises. -/
theorem C54_counterexample_windows :
    ((winEscape "a\\\\".toList).bind winArg) = none ∧ ((winEscape "a\"b".toList).bind winArg) = none ∧ winEscape [] = none := by
  decide +kernel

/-- The theorems' hypotheses are met by a command with awkward names. -/
theorem C54_nonvacuous :
    shell (commandLine (expand [[.text "cp".toList], [.text "-p".toList], [.file "it's \"5$\" \\ \n done".toList], [.file []], [.text "-I".toList, .file "my dir".toList]])) =
      some ["cp".toList, "-p".toList, "it's \"5$\" \\ \n done".toList, [], "-Imy dir".toList] ∧
    (∀ w ∈ expand [[Piece.text "cp".toList], [.file "it's \"5$\"".toList], [.text "-I".toList, .file "my dir".toList]], Readable w) ∧
    (winEscape "C:\\my dir\\".toList).bind winArg = some "C:\\my dir\\".toList := by
  decide +kernel

end Verif.Shell
