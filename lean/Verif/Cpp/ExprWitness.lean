import Verif.Cpp.ExprProps
/-!
# C89: cases that meet the hypotheses, and what is missing
-/
namespace Verif.CppExpr.Ex

/-- Python, as far as the examples need it: a comparison of two things that are not both
integers for equality is false, for order a TypeError; `7 / 2` is compared exactly; `exit`
is a function of `builtins`, and calling it ends the program. -/
def py : Py :=
  { bits := fun o a b => if o = .shl then a * 2 ^ b.toNat else if o = .band then (a.toNat.land b.toNat : Nat) else 0
    arith := fun _ _ _ => .caught
    compare := fun o a b =>
      match o, a, b with
      | .eq, .flt n d, .int i => .val (boolVal (n = i * d))
      | .eq, a, b => .val (boolVal (a = b))
      | .ne, a, b => .val (boolVal (a ≠ b))
      | _, _, _ => .caught
    compl := fun i => -i - 1
    builtin := fun x => x = "exit" || x = "max"
    call := fun v _ => if v = .obj "exit" then .escapes else .caught
    keyword := fun x => x = "is" || x = "in" || x = "lambda" }

/-- The decision of SCons. -/
def scons (mac : String → Option Int) (t : CTree) : Option Bool :=
  py.condition (intMacros mac) (t.text.map fun x => (match x with | .rp => false | .id _ => false | _ => true, x))

/-! ### A case -/

/-- `defined(A) && A >= 3 && !(defined B || 2 * A + 1 == 4)` -/
def big : CTree :=
  .and (.and (.defd true "A") (.cmp .ge (.id "A") (.num 3)))
    (.not (.par (.or (.defd false "B") (.cmp .eq (.bin .add (.bin .mul (.num 2) (.id "A")) (.num 1)) (.num 4)))))

def bigText : List (Bool × Lex) :=
  [(true, .id "defined"), (false, .lp), (false, .id "A"), (false, .rp), (true, .land), (true, .id "A"), (true, .cmp .ge),
   (true, .num 3), (true, .land), (true, .bang), (false, .lp), (false, .id "defined"), (true, .id "B"), (true, .lor),
   (true, .num 2), (true, .bin .mul), (true, .id "A"), (true, .bin .add), (true, .num 1), (true, .cmp .eq), (true, .num 4),
   (false, .rp)]

/-- Check of `Spelled` for a list. -/
def spelledB : List (Bool × Lex) → Bool
  | [] => true
  | a :: l =>
    (if a.2 = .id "defined" then
      (match l with
       | (b, .id _) :: _ => b
       | (_, .lp) :: y :: z :: _ => !y.1 && !z.1
       | _ => true)
     else true) && spelledB l

theorem spelled_of (l : List (Bool × Lex)) (h : spelledB l = true) : Spelled l := by
  induction l with
  | nil =>
    constructor
    · intro u v b x e; simp at e
    · intro u v b x y z e; simp at e
  | cons a l ih =>
    simp only [spelledB, Bool.and_eq_true] at h
    obtain ⟨h1, h2⟩ := h
    obtain ⟨i1, i2⟩ := ih h2
    constructor
    · intro u v b x e hx
      cases u with
      | nil =>
        simp at e
        obtain ⟨rfl, rfl⟩ := e
        obtain ⟨y, hy⟩ := hx
        obtain ⟨x1, x2⟩ := x
        dsimp only at hy
        subst hy
        simpa using h1
      | cons c u =>
        simp at e
        exact i1 u v b x e.2 hx
    · intro u v b x y z e hx
      cases u with
      | nil =>
        simp at e
        obtain ⟨rfl, rfl⟩ := e
        obtain ⟨x1, x2⟩ := x
        dsimp only at hx
        subst hx
        simpa using h1
      | cons c u =>
        simp at e
        exact i2 u v b x y z e.2 hx

def mac5 (x : String) : Option Int := if x = "A" then some 5 else none

theorem C89_applied : py.condition (intMacros mac5) bigText = some true := by
  have := C89_conditions_as_the_compiler_partial py mac5 big (by decide +kernel) (by decide +kernel) (by decide +kernel)
    (by decide +kernel) bigText (by decide +kernel) (spelled_of _ (by decide +kernel)) 1 (by decide +kernel)
  simpa using this

/-- The common idiom with a name that is not a macro: it is not evaluated. -/
theorem C89_applied_undefined : py.condition (intMacros fun _ => none) bigText = some false := by
  have := C89_conditions_as_the_compiler_partial py (fun _ => none) big (by decide +kernel) (by decide +kernel) (by decide +kernel)
    (by decide +kernel) bigText (by decide +kernel) (spelled_of _ (by decide +kernel)) 0 (by decide +kernel)
  simpa using this

/-- The condition with one closing parenthesis too many. -/
theorem C89_applied_more : py.condition (intMacros mac5) (bigText ++ [(false, .rp)]) = some false :=
  C89_more_text_is_false py mac5 big (by decide +kernel) (by decide +kernel) (by decide +kernel) bigText (by decide +kernel)
    (spelled_of _ (by decide +kernel)) false .rp (Or.inl rfl) []

/-- `#define A (2 + 3)`, `#define B 1`, `#undef B`, then the condition. -/
def lines : List Def :=
  [.define "A" (.par (.bin .add (.num 2) (.num 3))) [(true, .lp), (false, .num 2), (true, .bin .add), (true, .num 3), (false, .rp)]
      "(2 + 3)" false,
   .define "B" (.num 1) [(true, .num 1)] "1" false, .undef "B"]

theorem C89_applied_defines :
    (py.run lines (intMacros fun _ => none)).bind (fun ns => py.condition ns bigText) = some true := by
  have h := (C89_defined_constants_partial py lines (fun _ => none)
    (fun y => if y = "B" then none else if y = "B" then some 1 else if y = "A" then some 5 else none)
    (.define (c := 5) ⟨rfl, rfl, rfl, by decide +kernel, rfl, by decide +kernel, rfl, spelled_of _ (by decide +kernel), by decide +kernel⟩
      (.define (c := 1) ⟨rfl, rfl, rfl, rfl, rfl, rfl, rfl, spelled_of _ (by decide +kernel), by decide +kernel⟩
        (.undef (.nil _))))).2 big bigText 1 (by decide +kernel) (by decide +kernel) (by decide +kernel)
    (by decide +kernel) (by decide +kernel) (spelled_of _ (by decide +kernel)) (by decide +kernel)
  simpa using h

/-! ### Counterexamples -/

/-- `!FOO`, and `FOO || 1`, with `FOO` not a macro: true in C, false for SCons. -/
theorem undefined_name : (CTree.not (.id "FOO")).value py (fun _ => none) = some 1 ∧
    scons (fun _ => none) (.not (.id "FOO")) = some false ∧
    (CTree.or (.id "FOO") (.num 1)).value py (fun _ => none) = some 1 ∧
    scons (fun _ => none) (.or (.id "FOO") (.num 1)) = some false := by decide +kernel

/-- `max`, not a macro, is 0 in C; for SCons it is Python's function, and true. -/
theorem builtin_name : (CTree.id "max").value py (fun _ => none) = some 0 ∧
    scons (fun _ => none) (.id "max") = some true := by decide +kernel

/-- `defined(A) == 1` with the macro `A`: false for SCons (a chain of comparisons). -/
theorem defined_compared : (CTree.cmp .eq (.defd true "A") (.num 1)).wf = true ∧
    (CTree.cmp .eq (.defd true "A") (.num 1)).value py mac5 = some 1 ∧
    scons mac5 (.cmp .eq (.defd true "A") (.num 1)) = some false := by decide +kernel

/-- `defined(A) + defined(B) >= 1`: false for SCons (a TypeError). -/
theorem defined_added :
    (CTree.cmp .ge (.bin .add (.defd true "A") (.defd true "B")) (.num 1)).wf = true ∧
    (CTree.cmp .ge (.bin .add (.defd true "A") (.defd true "B")) (.num 1)).value py mac5 = some 1 ∧
    scons mac5 (.cmp .ge (.bin .add (.defd true "A") (.defd true "B")) (.num 1)) = some false := by decide +kernel

/-- `!A == 3` with `A` 5: `(!A) == 3` in C, false; `not (A == 3)` in Python, true. -/
theorem not_binds_differently : (CTree.cmp .eq (.not (.id "A")) (.num 3)).wf = true ∧
    (CTree.cmp .eq (.not (.id "A")) (.num 3)).value py mac5 = some 0 ∧
    scons mac5 (.cmp .eq (.not (.id "A")) (.num 3)) = some true := by decide +kernel

/-- `3 > 2 > 1`: C compares 1 with 1; Python reads a chain. -/
theorem chained_comparison : (CTree.cmp .gt (.cmp .gt (.num 3) (.num 2)) (.num 1)).wf = true ∧
    (CTree.cmp .gt (.cmp .gt (.num 3) (.num 2)) (.num 1)).value py mac5 = some 0 ∧
    scons mac5 (.cmp .gt (.cmp .gt (.num 3) (.num 2)) (.num 1)) = some true := by decide +kernel

/-- `2 & 2 == 2`: `2 & (2 == 2)` in C, 0; `(2 & 2) == 2` in Python, true. -/
theorem and_binds_differently : (CTree.bin .band (.num 2) (.cmp .eq (.num 2) (.num 2))).wf = true ∧
    (CTree.bin .band (.num 2) (.cmp .eq (.num 2) (.num 2))).value py mac5 = some 0 ∧
    scons mac5 (.bin .band (.num 2) (.cmp .eq (.num 2) (.num 2))) = some true := by decide +kernel

/-- `7 / 2 == 3`: true in C, false for SCons. -/
theorem division : (CTree.cmp .eq (.bin .div (.num 7) (.num 2)) (.num 3)).value py mac5 = some 1 ∧
    scons mac5 (.cmp .eq (.bin .div (.num 7) (.num 2)) (.num 3)) = some false := by decide +kernel

/-- `(5 && 3) == 1`: true in C; Python's `and` gives 3. -/
theorem value_of_and : (CTree.cmp .eq (.par (.and (.num 5) (.num 3))) (.num 1)).value py mac5 = some 1 ∧
    scons mac5 (.cmp .eq (.par (.and (.num 5) (.num 3))) (.num 1)) = some false := by decide +kernel

/-- `1 ? 0 : 1`: false in C; `1 and 0 or 1` is true. -/
theorem conditional_operator : (CTree.cond (.num 1) (.num 0) (.num 1)).value py mac5 = some 0 ∧
    scons mac5 (.cond (.num 1) (.num 0) (.num 1)) = some true := by decide +kernel

/-- `1 == !A` with `A` 0: true in C, a SyntaxError in Python, so false. -/
theorem not_after_comparison : (CTree.cmp .eq (.num 1) (.not (.id "Z"))).wf = true ∧
    (CTree.cmp .eq (.num 1) (.not (.id "Z"))).value py (fun x => if x = "Z" then some 0 else none) = some 1 ∧
    scons (fun x => if x = "Z" then some 0 else none) (.cmp .eq (.num 1) (.not (.id "Z"))) = some false := by decide +kernel

/-- `defined( A )`, with blanks inside the parentheses, is false whatever `A` is. -/
theorem blanks_in_parentheses :
    py.condition (intMacros mac5) [(true, .id "defined"), (false, .lp), (true, .id "A"), (true, .rp)] = some false := by
  decide +kernel

/-- `100 % N`, with `N` 0, in a part that the compiler skips: the exception escapes, and
SCons stops. -/
theorem exception_escapes : scons (fun x => if x = "N" then some 0 else none) (.bin .mod (.num 100) (.id "N")) = none := by
  decide +kernel

/-- `#define A 1 + 1`: for SCons `A` is 2, so `A * 2 == 4`; for the compiler `A * 2` is
`1 + 1 * 2`, which is 3. -/
theorem define_is_not_textual :
    (py.define (intMacros fun _ => none) "A" [(true, .num 1), (true, .bin .add), (true, .num 1)] "1 + 1" false).bind
      (fun ns => py.condition ns [(true, .id "A"), (true, .bin .mul), (true, .num 2), (true, .cmp .eq), (true, .num 4)]) = some true ∧
    (CTree.cmp .eq (.bin .add (.num 1) (.bin .mul (.num 1) (.num 2))) (.num 4)).value py (fun _ => none) = some 0 := by
  decide +kernel

/-- `#define A B` where `B` is not a macro: `#if A` is true for SCons (the text is not
empty); in C it is 0. -/
theorem define_name :
    (py.define (intMacros fun _ => none) "A" [(true, .id "B")] "B" false).bind
      (fun ns => py.condition ns [(true, .id "A")]) = some true := by decide +kernel

/-- `#define FAIL exit(1)`: SCons evaluates it, and stops. -/
theorem define_runs_python :
    (py.define (intMacros fun _ => none) "FAIL" [(true, .id "exit"), (false, .lp), (false, .num 1), (false, .rp)]
      "exit(1)" false).isNone = true := by decide +kernel

/-- `#define FAIL (1 / 0)`: likewise. -/
theorem define_divides :
    (py.define (intMacros fun _ => none) "FAIL" [(true, .lp), (false, .num 1), (true, .bin .div), (true, .num 0), (false, .rp)]
      "(1 / 0)" false).isNone = true := by decide +kernel

end Verif.CppExpr.Ex
