import Verif.Subst.List
/-!
# Substitution: concrete cases and counterexamples

Every theorem of C31–C35 is applied here to a concrete environment, and what the
code does *not* guarantee is shown by concrete counterexamples.
-/
namespace Verif.Subst.Witness

open Verif.Subst

/-- Construction variables for the examples; expressions are never evaluated
(NameError, which is allowed). -/
def env (d : List (Str × Val)) : Env :=
  { gvars := ofList d, eval := fun _ _ => .allowed, noneOk := true, uw := fun _ => false }

def noLocals : Vars := ofList []

/-! ### C31 -/

/-- `A = 'x$B'`, `B = '${A}y$B'`: mutual and self reference. -/
def recEnv : Env := env [(['A'], .str ['x', '$', 'B']), (['B'], .str ['$', '{', 'A', '}', 'y', '$', 'B'])]

example : subst recEnv .raw 10 noLocals ['$', 'A'] = .ok ['x', 'y'] := by rfl

/-- C31 applies to the recursive environment. -/
example : ∃ N r, r ≠ .error .fuel ∧ ∀ n, N ≤ n → subst recEnv .raw n noLocals ['$', 'A'] = r :=
  (C31_any_variables _ [] _ true (fun _ => false) .raw (.str ['$', 'A']) (by decide) (by simp)
    (by intro k ns w h; cases h)).1 _ rfl

/-- `${B}` is the value of `B` with `B` empty. -/
example : substV recEnv .raw 6 noLocals (.str ['$', '{', 'B', '}']) =
    substV { recEnv with gvars := (noLocals.over recEnv.gvars).set ['B'] (.str []) } .raw 5
      (fun _ => none) (.str ['$', '{', 'A', '}', 'y', '$', 'B']) :=
  C31_self_reference_is_empty recEnv .raw 5 noLocals ['B'] _ (by decide) rfl (by simp) rfl true
    (tokenize_braced _ _ (by decide))

example : substV recEnv .raw 6 noLocals (.str ['$', '{', 'B', '}']) = .ok ['x', 'y'] := by rfl

/-- **C31, what fails** a variable whose *name* contains a dot (possible through
`Environment(**{'A.b': '$A.b'})`'s dictionaries and overrides that bypass
`__setitem__`) is looked up before `eval`, but the name blanked out is `A`: the
expansion never ends. This is why C31 demands names without dots. -/
theorem C31_counterexample_dotted_name (n : Nat) :
    subst (env [(['A', '.', 'b'], .str ['$', 'A', '.', 'b'])]) .raw n noLocals ['$', 'A', '.', 'b'] =
      .error .fuel := by
  have key : ∀ n lv, (lv ['A', '.', 'b'] = none) →
      substV (env [(['A', '.', 'b'], .str ['$', 'A', '.', 'b'])]) .raw n lv (.str ['$', 'A', '.', 'b']) =
        .error .fuel := by
    intro n
    induction n with
    | zero => intro lv _; rfl
    | succ n ih =>
      intro lv hlv
      have ht : tokenize (env [(['A', '.', 'b'], .str ['$', 'A', '.', 'b'])]).uw ['$', 'A', '.', 'b'] =
          [.ref false ['A', '.', 'b']] := by rfl
      have hl : lookup (env [(['A', '.', 'b'], .str ['$', 'A', '.', 'b'])]) lv ['A', '.', 'b'] =
          .ok (some (.str ['$', 'A', '.', 'b'])) := by
        unfold lookup
        rw [hlv]
        rfl
      simp only [substV, ht, List.mapM_cons, tokText, hl, bind, Except.bind]
      rw [show Val.plain? (.str ['$', 'A', '.', 'b']) = none from rfl]
      simp only
      rw [ih]
      rw [show blank lv ['A', '.', 'b'] = lv.set ['A'] (.str []) from rfl]
      simp [Vars.set, hlv]
  unfold subst
  rw [if_pos (by decide), key n noLocals rfl]
  rfl

/-! ### C32, C33 -/

/-- `CC = 'gcc'`, `FLAGS = ['-a', '-b c']`, `D = '$$'`. -/
def e1 : Env := env [(['C', 'C'], .str ['g', 'c', 'c']),
  (['F'], .seq [.str ['-', 'a'], .str ['-', 'b', ' ', 'c']]), (['D'], .str ['$', '$'])]

theorem e1_clean : CleanEnv e1 noLocals := by
  refine ⟨fun k v h => ?_, fun k v h => ?_, fun k ns v h => ?_⟩
  · cases h
  · simp only [e1, env, ofList, Option.map_eq_some_iff] at h
    obtain ⟨p, hp, rfl⟩ := h
    have := List.mem_of_find?_eq_some hp
    simp only [List.mem_cons, List.not_mem_nil, or_false] at this
    rcases this with rfl | rfl | rfl
    · exact .str _ (by decide)
    · exact .seq _ (by
        intro v hv
        simp only [List.mem_cons, List.not_mem_nil, or_false] at hv
        rcases hv with rfl | rfl
        · exact .str _ (by decide)
        · exact .str _ (by decide))
    · exact .str _ (by decide)
  · cases h

example : subst e1 .raw 9 noLocals ['$', 'C', 'C', ' ', ' ', '$', '{', 'F', '}', '$', '$', 'D', '$', 'D'] =
    .ok ['g', 'c', 'c', ' ', ' ', '-', 'a', ' ', '-', 'b', ' ', 'c', '$', 'D', '$'] := by rfl

/-- C33 applies: `$CC` then `$$` then `D`. -/
example : subst e1 .raw 9 noLocals (['$', 'C', 'C'] ++ '$' :: '$' :: ['D']) =
    cat (subst e1 .raw 9 noLocals ['$', 'C', 'C']) (cat (.ok ['$']) (subst e1 .raw 9 noLocals ['D'])) :=
  C33_escape_partial e1 8 noLocals _ _ e1_clean (by decide)

/-- **C33, what fails** lone dollar signs from two variables merge: with
`A = '$'`, `env.subst('$A$A')` is a single `$`, because the two results are
concatenated before `$$` is replaced. -/
theorem C33_counterexample_lone_dollars_merge :
    subst (env [(['A'], .str ['$'])]) .raw 5 noLocals ['$', 'A'] = .ok ['$'] ∧
    subst (env [(['A'], .str ['$'])]) .raw 5 noLocals ['$', 'A', '$', 'A'] = .ok ['$'] := by
  constructor <;> rfl

/-- **C33, what fails** in command mode `$$(` loses its parenthesis: the text `a$$(b`
becomes `a$b` rather than `a$(b` (which is what raw mode gives). -/
theorem C33_counterexample_command_paren :
    subst (env []) .cmd 5 noLocals ['a', '$', '$', '(', 'b'] = .ok ['a', '$', 'b'] ∧
    subst (env []) .raw 5 noLocals ['a', '$', '$', '(', 'b'] = .ok ['a', '$', '(', 'b'] := by
  constructor <;> rfl

/-- **C33, what fails** the text of an object is also rewritten: a file named `a$$b`
is `a$b` in the result of `env.subst('$SOURCE')`. -/
theorem C33_counterexample_object_text :
    subst (env [(['S'], .obj ['a', '$', '$', 'b'] [])]) .raw 5 noLocals ['$', 'S'] =
      .ok ['a', '$', 'b'] := by rfl

/-! ### C34 -/

/-- `cc $( -I$P $) x` has a signature without `-I...`. -/
def e2 (p : Str) : Env := env [(['P'], .str p)]

def cmdA : Str := ['c', 'c', ' ']
def cmdX : Str := [' ', '-', 'I', '$', '{', 'P', '}', ' ']
def cmdB : Str := [' ', 'x']
def cmdLine : Str := cmdA ++ '$' :: '(' :: (cmdX ++ '$' :: ')' :: cmdB)

example : subst (e2 ['p', 'q']) .sig 5 noLocals cmdLine = .ok ['c', 'c', ' ', 'x'] := by rfl
example : subst (e2 ['p', 'q']) .cmd 5 noLocals cmdLine =
    .ok ['c', 'c', ' ', '-', 'I', 'p', 'q', ' ', 'x'] := by rfl

/-- All hypotheses of `C34_signature_ignores_enclosed_partial` hold here. -/
example : subst (e2 ['p', 'q']) .sig 5 noLocals cmdLine =
    subst (e2 ['p', 'q']) .sig 5 noLocals (cmdA ++ '$' :: '(' :: '$' :: ')' :: cmdB) :=
  C34_signature_ignores_enclosed_partial (e2 ['p', 'q']) 4 noLocals cmdA cmdX cmdB ['c', 'c', ' ']
    [' ', '-', 'I', 'p', 'q', ' '] (by decide) (by decide) rfl rfl (by decide) (by decide)
    (by rw [show splitM false [' ', '-', 'I', 'p', 'q', ' '] = [.text [' ', '-', 'I', 'p', 'q', ' ']] from rfl]
        exact .text _ _ .nil)

example : subst (e2 ['p', 'q']) .sig 5 noLocals cmdLine = .ok (finish ['c', 'c', ' ', ' ', ' ', 'x']) :=
  C34_signature_keeps_the_rest (e2 ['p', 'q']) 4 noLocals cmdA cmdX cmdB ['c', 'c', ' ']
    [' ', '-', 'I', 'p', 'q', ' '] [' ', 'x'] (by decide) (by decide) rfl rfl rfl (by decide) (by decide)
    (by decide)
    (by rw [show splitM false [' ', '-', 'I', 'p', 'q', ' '] = [.text [' ', '-', 'I', 'p', 'q', ' ']] from rfl]
        exact .text _ _ .nil)

example : subst (e2 ['p', 'q']) .cmd 5 noLocals cmdLine =
    .ok (finish (['c', 'c', ' '] ++ [' ', '-', 'I', 'p', 'q', ' '] ++ [' ', 'x'])) :=
  C34_command_keeps_enclosed (e2 ['p', 'q']) 4 noLocals cmdA cmdX cmdB _ _ _ (by decide) (by decide)
    rfl rfl rfl (by decide) (by decide) (by decide)

/-- Nested markers, also from a variable, are handled. -/
example : subst (env [(['Q'], .str ['$', '(', 'u', '$', ')', 'v'])]) .sig 5 noLocals
    ['a', '$', '(', 'b', '$', 'Q', 'c', '$', ')', 'd'] = .ok ['a', ' ', 'd'] := by rfl

/-- Unbalanced markers raise an error. -/
example : subst (env []) .sig 5 noLocals ['a', '$', '(', 'b'] = .error .user := by rfl

/-- **C34, what fails** a marker directly after an escaped dollar sign is not
recognised by the look-behind of `_rm_split`: the balanced command line
`$$$(x$)` raises "Unbalanced $(/$)" in signature mode. -/
theorem C34_counterexample_marker_after_escape :
    tokenize (fun _ => false) ['$', '$', '$', '(', 'x', '$', ')'] = [.esc, .opn, .word ['x'], .cls] ∧
    subst (env []) .sig 5 noLocals ['$', '$', '$', '(', 'x', '$', ')'] = .error .user := by
  constructor <;> rfl

/-- **C34, what fails** `scons_subst_list` in signature mode keeps a flag instead of
a depth: after a nested `$( $( a $) b $) c` the text `b` counts. -/
theorem C34_counterexample_nested_in_list_mode :
    substList (env []) .sig 5 noLocals
      (.str ['$', '(', ' ', '$', '(', ' ', 'a', ' ', '$', ')', ' ', 'b', ' ', '$', ')', ' ', 'c']) =
      .ok [[['b'], ['c']]] ∧
    subst (env []) .sig 5 noLocals
      ['$', '(', ' ', '$', '(', ' ', 'a', ' ', '$', ')', ' ', 'b', ' ', '$', ')', ' ', 'c'] = .ok ['c'] := by
  constructor <;> rfl

example : substList (e2 ['p', 'q']) .cmd 5 noLocals (.str cmdLine) =
    substList (e2 ['p', 'q']) .cmd 5 noLocals (.str (cmdA ++ cmdX ++ [] ++ cmdB)) := by rfl

/-- The token condition of `C34_markers_vanish_from_commands` holds for
`a $( $P $) b` and `a  $P  b` written with single separators. -/
example : substList (e2 ['p', 'q']) .cmd 5 noLocals (.str ['a', '$', 'P', ' ', 'b']) =
    substList (e2 ['p', 'q']) .cmd 5 noLocals (.str ['a', '$', '(', '$', 'P', '$', ')', ' ', 'b']) :=
  C34_markers_vanish_from_commands _ 4 _ _ _ (by decide)

/-! ### C35 -/

/-- `F = ['-a', '-b c']`: `x${F}y z` is `x-a`, `-b cy`, `z`; the second line is `$CC`. -/
example : substList e1 .cmd 9 noLocals
    (.str ['x', '$', '{', 'F', '}', 'y', ' ', 'z', '\n', '$', 'C', 'C']) =
    .ok [[['x', '-', 'a'], ['-', 'b', ' ', 'c', 'y'], ['z']], [['g', 'c', 'c']]] :=
  C35_subst_list_words_partial e1 .cmd (by decide) 8 noLocals _ _ (by rfl)

example : substList e1 .cmd 9 noLocals (.str ['$', '{', 'F', '}']) = .ok [[['-', 'a'], ['-', 'b', ' ', 'c']]] :=
  C35_list_elements_are_arguments_partial e1 .cmd (by decide) 6 noLocals ['F'] [['-', 'a'], ['-', 'b', ' ', 'c']]
    (by decide) rfl (by decide) (by decide) (by decide) (by decide) (by decide)

/-- **C35, what fails** an empty variable swallows the white space before it: with
`E = ''`, `a ${E}b` is the single argument `ab` (an undefined `E` gives two). -/
theorem C35_counterexample_empty_variable :
    substList (env [(['E'], .str [])]) .cmd 5 noLocals (.str ['a', ' ', '$', '{', 'E', '}', 'b']) =
      .ok [[['a', 'b']]] ∧
    substList (env [(['E'], .seq [])]) .cmd 5 noLocals (.str ['a', ' ', '$', '{', 'E', '}', 'b']) =
      .ok [[['a', 'b']]] ∧
    substList (env []) .cmd 5 noLocals (.str ['a', ' ', '$', '{', 'E', '}', 'b']) =
      .ok [[['a'], ['b']]] := by
  refine ⟨?_, ?_, ?_⟩ <;> rfl

/-- **C35, what fails** white space at the end of a variable's value does not
separate it from the text that follows, white space at its start does. -/
theorem C35_counterexample_trailing_space :
    substList (env [(['E'], .str ['x', ' '])]) .cmd 5 noLocals (.str ['$', '{', 'E', '}', 'b']) =
      .ok [[['x', 'b']]] ∧
    substList (env [(['E'], .str [' ', 'x'])]) .cmd 5 noLocals (.str ['b', '$', '{', 'E', '}']) =
      .ok [[['b'], ['x']]] := by
  constructor <;> rfl

/-- **C35, what fails** an empty element of a list is no argument. -/
theorem C35_counterexample_empty_element :
    substList (env [(['E'], .seq [.str ['a'], .str [], .str ['b']])]) .cmd 5 noLocals (.str ['$', 'E']) =
      .ok [[['a'], ['b']]] := by rfl

/-- **C35, what fails** an element of a list with a redirection character before a
blank becomes two arguments. -/
theorem C35_counterexample_redirection_in_element :
    substList (env [(['E'], .seq [.str ['>', ' ', 'a']])]) .cmd 5 noLocals (.str ['$', 'E']) =
      .ok [[['>'], [' ', 'a']]] := by rfl

end Verif.Subst.Witness
