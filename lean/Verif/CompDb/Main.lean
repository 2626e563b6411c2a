import Verif.CompDb.Json

/-!
# The compilation database (C114): what the records say
-/

namespace Verif.CompDb
open Verif.Shell (Word Readable FirstFine shell commandLine)
open Verif.Attrs (opens Proper)

/-! ## The files -/

/-- The file whose name an entry gives: the source itself when it is built, else its source node. -/
def sourceFile (W : World) (e : Entry) : Path := if W.nodes.derived e.source then e.source else Verif.Attrs.srcnode W.nodes e.source

/-- A record is about a compilation: its directory is the SConstruct's, and there its file and its output are the names of the source file and of the target; as absolute paths when these were asked for. -/
structure Describes (W : World) (S : Settings) (e : Entry) (r : Record) : Prop where
  directory : ∀ cwd, opens cwd r.directory = some W.nodes.sconstruct
  file : opens W.nodes.sconstruct r.file = some (sourceFile W e)
  output : opens W.nodes.sconstruct r.output = some e.target
  absolute : S.useAbspath = true → ∀ cwd, opens cwd r.file = some (sourceFile W e) ∧ opens cwd r.output = some e.target
  command : r.command = strfunction (W.words e.env e.cmd e.target e.source)

/-- The output's name, as it is given to the filter. -/
def outputName (W : World) (S : Settings) (e : Entry) : Str := if S.useAbspath then Verif.Attrs.abspath e.target else Verif.Attrs.getPath W.nodes.cwd e.target

theorem records_eq (W : World) (S : Settings) (es : List Entry) :
    records W S es = (es.filter fun e => match S.filter with | some f => f (outputName W S e) | none => true).map (record W S) := by
  induction es with
  | nil => rfl
  | cons e es ih =>
    rw [records, ih]
    rcases hf : S.filter with _ | f
    · simp [hf]
    · simp only [List.filter_cons]
      by_cases h : f (outputName W S e) = true
      · have h' : f (record W S e).output = true := h
        rw [if_pos h', if_pos h, List.map_cons]
      · have h' : ¬ f (record W S e).output = true := h
        rw [if_neg h', if_neg h]

theorem record_describes (W : World) (S : Settings) (e : Entry) (hc : W.nodes.cwd = W.nodes.sconstruct) (hd : Proper W.nodes.sconstruct) (ht : Proper e.target) (hs : Proper (sourceFile W e)) :
    Describes W S e (record W S e) := by
  refine ⟨fun cwd => Verif.Attrs.C111_abspath cwd _ hd, ?_, ?_, ?_, rfl⟩
  · change opens _ (if S.useAbspath then Verif.Attrs.abspath (sourceFile W e) else Verif.Attrs.getPath W.nodes.cwd (sourceFile W e)) = _
    split
    · exact Verif.Attrs.C111_abspath _ _ hs
    · rw [hc]; exact Verif.Attrs.C111_path _ _ hs
  · change opens _ (if S.useAbspath then Verif.Attrs.abspath e.target else Verif.Attrs.getPath W.nodes.cwd e.target) = _
    split
    · exact Verif.Attrs.C111_abspath _ _ ht
    · rw [hc]; exact Verif.Attrs.C111_path _ _ ht
  · intro ha cwd
    constructor
    · change opens _ (if S.useAbspath then Verif.Attrs.abspath (sourceFile W e) else Verif.Attrs.getPath W.nodes.cwd (sourceFile W e)) = _
      rw [if_pos ha]
      exact Verif.Attrs.C111_abspath _ _ hs
    · change opens _ (if S.useAbspath then Verif.Attrs.abspath e.target else Verif.Attrs.getPath W.nodes.cwd e.target) = _
      rw [if_pos ha]
      exact Verif.Attrs.C111_abspath _ _ ht

theorem forall₂_map_self {α β : Type} (R : α → β → Prop) (f : α → β) (l : List α) (h : ∀ a ∈ l, R a (f a)) : List.Forall₂ R l (l.map f) := by
  induction l with
  | nil => exact .nil
  | cons a l ih => exact .cons (h a (by simp)) (ih fun b hb => h b (by simp [hb]))

/-- **C114**: the file that is written is a JSON text; it has one record for each entry whose output passes the filter, in order, each describing its compilation. -/
theorem C114_database (W : World) (S : Settings) (evs : List Ev) (hc : W.nodes.cwd = W.nodes.sconstruct) (hd : Proper W.nodes.sconstruct)
    (hp : ∀ e ∈ (run evs).entries, Proper e.target ∧ Proper (sourceFile W e)) :
    ∃ rs : List Record, readJson (database W S evs) = some (rs.map Record.members) ∧
      List.Forall₂ (Describes W S) ((run evs).entries.filter fun e => match S.filter with | some f => f (outputName W S e) | none => true) rs := by
  refine ⟨_, C114_json _, ?_⟩
  rw [records_eq]
  refine forall₂_map_self _ _ _ fun e he => ?_
  have := hp e (List.mem_of_mem_filter he)
  exact record_describes W S e hc hd this.1 this.2

/-! ## The commands -/

/-- The words as plain text. -/
def asText (ws : List Word) : List Word := ws.map fun w => ⟨w.data, false⟩

theorem stringFromCmdList_eq (ws : List Word) : stringFromCmdList ws = commandLine (asText ws) := by
  rw [stringFromCmdList, commandLine, asText, List.map_map]
  congr 1
  apply List.map_congr_left
  intro w _
  simp only [Function.comp_apply, Verif.Shell.Word.escape, Bool.false_eq_true, ↓reduceIte, Verif.Shell.quoteSpaces]
  split <;> rfl

theorem special_tick : '`' ∈ Verif.Shell.special := by decide

theorem readable_text (w : Word) (h : Readable ⟨w.data, false⟩) : Readable w := by
  rcases hl : w.literal with _ | _
  · have : w = ⟨w.data, false⟩ := by cases w; simp_all
    rw [this]; exact h
  · rw [Readable, hl, if_pos rfl]
    intro hm
    rw [Readable] at h
    simp only [Bool.false_eq_true, ↓reduceIte] at h
    split at h
    · exact (h _ hm).2.2.1 rfl
    · exact h.2 _ hm special_tick

/-- **C114**: where the command is one line that is not silent, and its words mean nothing else to the shell, the command in the database calls the program with the same arguments as the command that is run. -/
theorem C114_command_partial (ls : List (List Word)) (ws : List Word) (ig : Bool) (hp : process ls = ([ws], ig, false)) (hne : ws ≠ [])
    (hr : ∀ w ∈ ws, Readable ⟨w.data, false⟩) (hf : FirstFine (asText ws)) :
    ∃ line, executed ls = [line] ∧ shell line = some (ws.map Word.data) ∧ shell (strfunction ls) = some (ws.map Word.data) := by
  refine ⟨commandLine ws, ?_, ?_, ?_⟩
  · rw [executed, hp]
    cases ws with
    | nil => exact absurd rfl hne
    | cons w ws => simp
  · apply Verif.Shell.C54_arguments_arrive_partial
    · exact fun w hw => readable_text w (hr w hw)
    · intro w hw
      have := hf ⟨w.data, false⟩ (by rw [asText, List.head?_map, hw]; rfl)
      rcases this with h | h | h
      · simp at h
      · exact .inr (.inl h)
      · exact .inr (.inr h)
  · rw [strfunction, hp]
    simp only [Bool.false_eq_true, ↓reduceIte, List.headD_cons]
    rw [stringFromCmdList_eq, Verif.Shell.C54_arguments_arrive_partial]
    · simp [asText]
    · intro w hw
      obtain ⟨v, hv, rfl⟩ := List.mem_map.1 hw
      exact hr v hv
    · exact hf

/-- **C114**: a command without prefixes is taken as it is; each `@` and `-` in front is taken off, with the meanings they have when the command is run. -/
theorem C114_process (pre : Str) (hpre : ∀ c ∈ pre, c = '@' ∨ c = '-') (w : Word) (c : Char) (r : Str) (hw : w.data = c :: r) (hc : c ≠ '@' ∧ c ≠ '-') (ws : List Word) (ls : List (List Word)) :
    process ((⟨pre ++ w.data, w.literal⟩ :: ws) :: ls) =
      ((⟨w.data, if pre = [] then w.literal else false⟩ :: ws) :: ls, decide ('-' ∈ pre), decide ('@' ∈ pre)) := by
  have key : ∀ (pre : Str), (∀ c ∈ pre, c = '@' ∨ c = '-') → ∀ ig si, prefixes (pre ++ c :: r) ig si = (c :: r, ig || decide ('-' ∈ pre), si || decide ('@' ∈ pre)) := by
    intro pre
    induction pre with
    | nil =>
      intro _ ig si
      rw [List.nil_append, prefixes]
      · simp
      · intro r' h; exact absurd (List.cons.inj h).1 hc.1
      · intro r' h; exact absurd (List.cons.inj h).1 hc.2
    | cons a pre ih =>
      intro h ig si
      have ih' := ih (fun c hc => h c (by simp [hc]))
      rcases h a (by simp) with rfl | rfl
      · rw [List.cons_append, prefixes, ih']; simp
      · rw [List.cons_append, prefixes, ih']; simp
  rw [process]
  simp only [hw, key pre hpre, Bool.false_or]
  by_cases hp : pre = []
  · subst hp; simp
  · have h1 : ¬ (c :: r = pre ++ c :: r) := fun h => hp (by simpa using h)
    simp [hp, h1]

/-- **C114**: a first word that is nothing but such prefixes is left out, and if nothing else is there nothing is run. -/
theorem C114_process_only (pre : Str) (hpre : ∀ c ∈ pre, c = '@' ∨ c = '-') (lit : Bool) (ws : List Word) (ls : List (List Word)) :
    process ((⟨pre, lit⟩ :: ws) :: ls) = (ws :: ls, decide ('-' ∈ pre), decide ('@' ∈ pre)) ∧ executed ((⟨pre, lit⟩ :: []) :: ls) = (ls.filter fun l => !l.isEmpty).map Verif.Shell.commandLine := by
  have key : ∀ (pre : Str), (∀ c ∈ pre, c = '@' ∨ c = '-') → ∀ ig si, prefixes pre ig si = ([], ig || decide ('-' ∈ pre), si || decide ('@' ∈ pre)) := by
    intro pre
    induction pre with
    | nil => intro _ ig si; simp [prefixes]
    | cons a pre ih =>
      intro h ig si
      have ih' := ih (fun c hc => h c (by simp [hc]))
      rcases h a (by simp) with rfl | rfl
      · rw [prefixes, ih']; simp
      · rw [prefixes, ih']; simp
  have all : ∀ ws ls, process ((⟨pre, lit⟩ :: ws) :: ls) = (ws :: ls, decide ('-' ∈ pre), decide ('@' ∈ pre)) := by
    intro ws ls
    rw [process]
    simp only [key pre hpre, Bool.false_or]
    by_cases hp : pre = []
    · subst hp; simp
    · have h1 : ¬ ([] = pre) := fun h => hp h.symm
      simp [h1]
  refine ⟨all ws ls, ?_⟩
  rw [executed, all]
  simp

/-- **C114**: a silent command is an empty text in the database. -/
theorem C114_silent_empty (w : Word) (r : Str) (hw : w.data = '@' :: r) (ws : List Word) (ls : List (List Word)) : strfunction ((w :: ws) :: ls) = [] := by
  have key : ∀ (s : Str) ig, (prefixes s ig true).2.2 = true := by
    intro s
    induction s with
    | nil => intro ig; simp [prefixes]
    | cons c s ih =>
      intro ig
      by_cases h1 : c = '@'
      · subst h1; rw [prefixes]; exact ih _
      · by_cases h2 : c = '-'
        · subst h2; rw [prefixes]; exact ih _
        · rw [prefixes]
          · intro r' h; exact absurd (List.cons.inj h).1 h1
          · intro r' h; exact absurd (List.cons.inj h).1 h2
  rw [strfunction, process]
  simp only [hw]
  rw [prefixes, if_pos (key _ _)]

end Verif.CompDb
