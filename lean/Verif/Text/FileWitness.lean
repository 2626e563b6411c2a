import Verif.Text.FileSig

/-! # C92: examples and counterexamples -/

namespace Verif.Text.Ex
open Verif.Subst Verif.Text

/-- An environment with the variable `V`. -/
def base (v : String) : Env where
  gvars := fun k => if k = "V".toList then some (.str v.toList) else none
  eval := fun _ _ => .allowed
  noneOk := true
  uw := fun _ => false

def env (v : String) (d : Option SDict) (sep : String) : TEnv where
  base := base v
  fuel := 8
  lv := fun _ => none
  pformat := fun l => '{' :: (l.flatMap fun e => e.1) ++ ['}']
  dict := d
  linesep := some sep.toList

def entry (k v : String) : Str × SVal := (k.toList, .str v.toList)

/-- No letter, no digit. -/
def S (c : Char) : Prop := c.isAlphanum = false

def tmpl : Template := ⟨"v=".toList, [("VER".toList, " by ".toList), ("WHO".toList, "; ".toList), ("X".toList, "\n".toList)]⟩

/-- The theorem applies to a template with three placeholders, one of them without a value,
values with variables in them, and `@` on both sides. -/
theorem applies :
    action (env "1.2" (some (.dict [entry "@WHO@" "me", entry "@VER@" "$V-rc"])) "\r\n")
      ["v=@VER@ by @WHO@; @X@\n".toList, "v=@VER@ by @WHO@; @X@\n".toList]
    = .ok "v=1.2-rc by me; @X@\n\r\nv=1.2-rc by me; @X@\n".toList := by
  have ht : Tidy '@' '@' S tmpl :=
    ⟨by decide, by decide, by decide, .inr ⟨⟨' ', by decide, rfl⟩, ⟨⟨';', by decide, rfl⟩, trivial⟩⟩⟩
  have h := C92_file_is_the_filled_templates_partial
    (env "1.2" (some (.dict [entry "@WHO@" "me", entry "@VER@" "$V-rc"])) "\r\n") '@' '@' S _
    [("WHO".toList, .str "me".toList, "me".toList), ("VER".toList, .str "$V-rc".toList, "1.2-rc".toList)]
    [tmpl, tmpl] rfl rfl (by
      intro e he
      simp only [List.mem_cons, List.not_mem_nil, or_false] at he
      rcases he with rfl | rfl <;> exact .str (by decide +kernel))
    (by
      intro e he
      simp only [List.mem_cons, List.not_mem_nil, or_false] at he
      rcases he with rfl | rfl <;>
      · refine ⟨by decide, by decide, by decide, ?_⟩
        intro x hx; simp only [S, Bool.not_eq_false]
        revert x; decide)
    (by intro t ht'; simp only [List.mem_cons, List.not_mem_nil, or_false, or_self] at ht'; rw [ht']; exact ht)
  exact h

/-- The same with an object, a function that returns a string and one that returns an object. -/
theorem applies_values :
    action (env "1.2" (some (.dict [("@VER@".toList, .obj "17".toList "x".toList), ("@WHO@".toList, .call "f".toList "<$V>".toList),
        ("@X@".toList, .callObj "g".toList "$V".toList)])) "\r\n")
      ["v=@VER@ by @WHO@; @X@\n".toList]
    = .ok "v=17 by <1.2>; $V\n".toList := by
  have ht : Tidy '@' '@' S tmpl :=
    ⟨by decide, by decide, by decide, .inr ⟨⟨' ', by decide, rfl⟩, ⟨⟨';', by decide, rfl⟩, trivial⟩⟩⟩
  have h := C92_file_is_the_filled_templates_partial
    (env "1.2" (some (.dict [("@VER@".toList, .obj "17".toList "x".toList), ("@WHO@".toList, .call "f".toList "<$V>".toList),
        ("@X@".toList, .callObj "g".toList "$V".toList)])) "\r\n") '@' '@' S _
    [("VER".toList, .obj "17".toList "x".toList, "17".toList), ("WHO".toList, .call "f".toList "<$V>".toList, "<1.2>".toList),
     ("X".toList, .callObj "g".toList "$V".toList, "$V".toList)]
    [tmpl] rfl rfl (by
      intro e he
      simp only [List.mem_cons, List.not_mem_nil, or_false] at he
      rcases he with rfl | rfl | rfl
      · exact .obj
      · exact .call (by decide +kernel)
      · exact .callObj)
    (by
      intro e he
      simp only [List.mem_cons, List.not_mem_nil, or_false] at he
      rcases he with rfl | rfl | rfl <;>
      · refine ⟨by decide, by decide, by decide, ?_⟩
        intro x hx; simp only [S, Bool.not_eq_false]
        revert x; decide)
    (by intro t ht'; simp only [List.mem_cons, List.not_mem_nil, or_false] at ht'; rw [ht']; exact ht)
  exact h

/-- Counterexample: a function whose result changes, while its code does not, changes the file, but not the
signature. -/
theorem C92_counterexample_function :
    action (env "" (some (.seq [("@A@".toList, .call "f".toList "1".toList)])) "") ["@A@".toList] = .ok "1".toList ∧
    action (env "" (some (.seq [("@A@".toList, .call "f".toList "2".toList)])) "") ["@A@".toList] = .ok "2".toList ∧
    contents (env "" (some (.seq [("@A@".toList, .call "f".toList "1".toList)])) "") [] []
      = contents (env "" (some (.seq [("@A@".toList, .call "f".toList "2".toList)])) "") [] [] := by
  decide +kernel

/-- An empty key: the value before every character and at the end. -/
theorem empty_key : action (env "" (some (.dict [entry "" "-"])) "") ["ab".toList] = .ok "-a-b-".toList := by decide +kernel

/-- Counterexample: two placeholders of the same form `@...@` that are not kept apart. What is
between them is taken for a placeholder; the order of the entries decides. -/
theorem C92_counterexample_between :
    action (env "" (some (.dict [entry "@A@" "1", entry "@B@" "2", entry "@C@" "3"])) "") ["@A@B@C@".toList]
      = .ok "1B3".toList ∧
    action (env "" (some (.dict [entry "@B@" "2", entry "@A@" "1", entry "@C@" "3"])) "") ["@A@B@C@".toList]
      = .ok "@A2C@".toList := by
  decide +kernel

/-- Counterexample: a value with a placeholder in it is filled again, or not, depending on the
order. -/
theorem C92_counterexample_value :
    action (env "" (some (.dict [entry "{A}" "{B}", entry "{B}" "2"])) "") ["{A}".toList] = .ok "2".toList ∧
    action (env "" (some (.dict [entry "{B}" "2", entry "{A}" "{B}"])) "") ["{A}".toList] = .ok "{B}".toList := by
  decide +kernel

/-- Counterexample: keys without delimiters, one the beginning of the other. -/
theorem C92_counterexample_prefix :
    action (env "" (some (.dict [entry "VER" "1", entry "VERSION" "2"])) "") ["VERSION".toList]
      = .ok "1SION".toList ∧
    action (env "" (some (.dict [entry "VERSION" "2", entry "VER" "1"])) "") ["VERSION".toList]
      = .ok "2".toList := by
  decide +kernel

/-- Counterexample: a change of `LINESEPARATOR` from `\n` to `\r\n` changes the file, but not the
signature. -/
theorem C92_counterexample_separator :
    action (env "" none "\n") ["a".toList, "b".toList] ≠ action (env "" none "\r\n") ["a".toList, "b".toList] ∧
    contents (env "" none "\n") [] [] = contents (env "" none "\r\n") [] [] := by
  decide +kernel

/-- Counterexample: in a dictionary, the variables in the values are not expanded for the
signature. The file changes with the variable `V`, the signature does not. -/
theorem C92_counterexample_variable :
    action (env "1" (some (.dict [entry "@A@" "$V"])) "\n") ["@A@".toList] = .ok "1".toList ∧
    action (env "2" (some (.dict [entry "@A@" "$V"])) "\n") ["@A@".toList] = .ok "2".toList ∧
    contents (env "1" (some (.dict [entry "@A@" "$V"])) "\n") [] []
      = contents (env "2" (some (.dict [entry "@A@" "$V"])) "\n") [] [] := by
  decide +kernel

/-- In a sequence they are. -/
theorem C92_variable_in_sequence_is_signed :
    contents (env "1" (some (.seq [entry "@A@" "$V"])) "\n") [] []
      ≠ contents (env "2" (some (.seq [entry "@A@" "$V"])) "\n") [] [] := by
  decide +kernel

/-- Counterexample: in a sequence, the signature does not tell blanks in a value from the
borders between keys and values, nor one blank from two. -/
theorem C92_counterexample_blanks :
    contents (env "" (some (.seq [entry "A" "b", entry "C" "d"])) "\n") [] []
      = contents (env "" (some (.seq [entry "A" "b C d"])) "\n") [] [] ∧
    contents (env "" (some (.seq [entry "A" "b c"])) "\n") [] []
      = contents (env "" (some (.seq [entry "A" "b  c"])) "\n") [] [] ∧
    action (env "" (some (.seq [entry "A" "b c"])) "\n") ["A".toList]
      ≠ action (env "" (some (.seq [entry "A" "b  c"])) "\n") ["A".toList] := by
  decide +kernel

/-- The theorem on signatures applies. -/
theorem signature_applies :
    contents (env "" (some (.seq [entry "@A@" "1.0", entry "@B@" "x"])) "\n") "code".toList []
      ≠ contents (env "" (some (.seq [entry "@A@" "1.1", entry "@B@" "x"])) "\n") "code".toList [] := by
  have w : ∀ s : String, s ∈ ["@A@", "@B@", "1.0", "1.1", "x"] → Word s.toList := by
    intro s hs
    simp only [List.mem_cons, List.not_mem_nil, or_false] at hs
    rcases hs with rfl | rfl | rfl | rfl | rfl <;>
    · refine ⟨by decide, ?_⟩
      unfold okChar
      decide +kernel
  refine C92_changed_entries_change_signature_partial _ _ _ _
    [("@A@".toList, "1.0".toList), ("@B@".toList, "x".toList)]
    [("@A@".toList, "1.1".toList), ("@B@".toList, "x".toList)] 4 4 rfl rfl rfl rfl rfl rfl ?_ ?_
    [] (by decide +kernel) (by decide +kernel) (by decide)
  · intro e he
    simp only [List.mem_cons, List.not_mem_nil, or_false] at he
    rcases he with rfl | rfl
    · exact ⟨w "@A@" (by simp), w "1.0" (by simp)⟩
    · exact ⟨w "@B@" (by simp), w "x" (by simp)⟩
  · intro e he
    simp only [List.mem_cons, List.not_mem_nil, or_false] at he
    rcases he with rfl | rfl
    · exact ⟨w "@A@" (by simp), w "1.1" (by simp)⟩
    · exact ⟨w "@B@" (by simp), w "x" (by simp)⟩

end Verif.Text.Ex
