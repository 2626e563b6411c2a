import Verif.Act.PyCode
import Mathlib.Data.List.Basic

/-!
# C71: what the signature of a Python function action notices
-/

namespace Verif.Act.Py

/-! ## Specification -/

/-- The constant is (equal to) the docstring of the function; a function without one has the docstring `None`. -/
def IsDocOf (doc : Option Text) (o : Obj) : Prop := (o = .none ∧ doc = Option.none) ∨ ∃ s, o = .str s ∧ doc = some s

theorem isDoc_false {doc : Option Text} {o : Obj} (h : ¬ IsDocOf doc o) : isDoc doc o = false := by
  rw [← Bool.not_eq_true]
  refine fun e => h ?_
  cases o with
  | none => exact .inl ⟨rfl, by simpa [isDoc] using e⟩
  | str s => exact .inr ⟨s, rfl, by simpa [isDoc] using e⟩
  | _ => simp [isDoc] at e

mutual
/-- `o'` is `o` with a change in one place: a text, a number, a constant, a name, the instructions, the number of
arguments or of variables, a default value, a closure cell; at any depth of nested functions. -/
inductive Edit : Obj → Obj → Prop where
  | str {s s'} (h : s ≠ s') : Edit (.str s) (.str s')
  | num {cls v v'} (h : v ≠ v') : Edit (.num cls v) (.num cls v')
  | cls {cls cls' v} (h : cls ≠ cls') (hc : cls.length = cls'.length) : Edit (.num cls v) (.num cls' v)
  | attr {cls mod hier pre post ms} {a a' : Text} (h : a ≠ a') :
    Edit (.inst cls mod hier (pre ++ a :: post) ms) (.inst cls mod hier (pre ++ a' :: post) ms)
  | ofMethod {cls mod hier as pre post} {f f' : Func} (h : FEdit f f') :
    Edit (.inst cls mod hier as (pre ++ f :: post)) (.inst cls mod hier as (pre ++ f' :: post))
  | code {c c'} (h : CEdit Option.none c c') : Edit (.code c) (.code c')
  | func {f f'} (h : FEdit f f') : Edit (.func f) (.func f')
  | method {s s' f f'} (h : FEdit f f') : Edit (.method s f) (.method s' f')
  | call {a a' f f'} (h : FEdit f f') : Edit (.callable a f) (.callable a' f')
/-- ... in a code object of a function with docstring `doc`. -/
inductive CEdit : Option Text → Code → Code → Prop where
  | const {doc n kw vs cs fs pre post ns b l file} {o o' : Obj} (h : Edit o o')
    (h1 : ¬ IsDocOf doc o) (h2 : ¬ IsDocOf doc o') :
    CEdit doc (.mk n kw vs cs fs (pre ++ o :: post) ns b l file) (.mk n kw vs cs fs (pre ++ o' :: post) ns b l file)
  | name {doc n kw vs cs fs ks pre post b l file} {x x' : Text} (h : x ≠ x') :
    CEdit doc (.mk n kw vs cs fs ks (pre ++ x :: post) b l file) (.mk n kw vs cs fs ks (pre ++ x' :: post) b l file)
  | bytecode {doc n kw vs cs fs ks ns b b' l file} (h : b ≠ b') :
    CEdit doc (.mk n kw vs cs fs ks ns b l file) (.mk n kw vs cs fs ks ns b' l file)
  | argc {doc n n' kw vs cs fs ks ns b l file} (h : n ≠ n') :
    CEdit doc (.mk n kw vs cs fs ks ns b l file) (.mk n' kw vs cs fs ks ns b l file)
  | vars {doc n kw vs vs' cs fs ks ns b l file} (h : vs.length ≠ vs'.length) :
    CEdit doc (.mk n kw vs cs fs ks ns b l file) (.mk n kw vs' cs fs ks ns b l file)
  | cells {doc n kw vs cs cs' fs ks ns b l file} (h : cs.length ≠ cs'.length) :
    CEdit doc (.mk n kw vs cs fs ks ns b l file) (.mk n kw vs cs' fs ks ns b l file)
  | frees {doc n kw vs cs fs fs' ks ns b l file} (h : fs.length ≠ fs'.length) :
    CEdit doc (.mk n kw vs cs fs ks ns b l file) (.mk n kw vs cs fs' ks ns b l file)
/-- ... in a function. -/
inductive FEdit : Func → Func → Prop where
  | code {nm doc ds kds cl e c c'} (h : CEdit doc c c') :
    FEdit (.mk nm c doc ds kds cl e) (.mk nm c' doc ds kds cl e)
  | default {nm c doc pre post kds cl e} {o o' : Obj} (h : Edit o o') :
    FEdit (.mk nm c doc (pre ++ o :: post) kds cl e) (.mk nm c doc (pre ++ o' :: post) kds cl e)
  | cell {nm c doc ds kds pre post} {o o' : Obj} (h : Edit o o') :
    FEdit (.mk nm c doc ds kds (pre ++ o :: post) false) (.mk nm c doc ds kds (pre ++ o' :: post) false)
end

mutual
/-- What is left of an object when line numbers, file names, names of functions and names of local
variables are forgotten. -/
def strip : Obj → Obj
  | .none => .none
  | .str s => .str s
  | .num c v => .num c v
  | .plain c v => .plain c v
  | .inst cls mod hier as ms => .inst cls mod hier as (stripFs ms)
  | .code c => .code (stripC c)
  | .func f => .func (stripF f)
  | .method s f => .method s (stripF f)
  | .callable a f => .callable a (stripF f)
def stripC : Code → Code
  | .mk n kw vs cs fs consts names b _ _ =>
    .mk n kw (vs.map fun _ => []) (cs.map fun _ => []) (fs.map fun _ => []) (stripL consts) names b 0 []
def stripF : Func → Func
  | .mk _ c doc ds kds cl e => .mk [] (stripC c) doc (stripL ds) kds (stripL cl) e
def stripL : List Obj → List Obj
  | [] => []
  | o :: l => strip o :: stripL l
def stripFs : List Func → List Func
  | [] => []
  | f :: l => stripF f :: stripFs l
end

/-! ## Lemmas -/

theorem join_cons (x y : Text) (l : List Text) : join (x :: y :: l) = x ++ ',' :: join (y :: l) := rfl

/-- A joined list as a function of one of its members. -/
theorem join_at (pre post : List Text) : ∃ P S : Text, ∀ a, join (pre ++ a :: post) = P ++ a ++ S := by
  induction pre with
  | nil =>
    cases post with
    | nil => exact ⟨[], [], fun a => by simp [join]⟩
    | cons y l => exact ⟨[], ',' :: join (y :: l), fun a => by simp [join_cons]⟩
  | cons x pre ih =>
    obtain ⟨P, S, h⟩ := ih
    refine ⟨x ++ ',' :: P, S, fun a => ?_⟩
    have := h a
    cases pre with
    | nil =>
      simp only [List.cons_append, List.nil_append] at this ⊢
      rw [join_cons, this]; simp
    | cons y pre =>
      simp only [List.cons_append] at this ⊢
      rw [join_cons, this]; simp

theorem join_ne {pre post : List Text} {a a' : Text} (h : a ≠ a') :
    join (pre ++ a :: post) ≠ join (pre ++ a' :: post) := by
  obtain ⟨P, S, hj⟩ := join_at pre post
  rw [hj, hj]
  intro e
  simp only [List.append_assoc, List.append_cancel_left_eq, List.append_cancel_right_eq] at e
  exact h e

theorem objsC_append (pre l : List Obj) : objsC (pre ++ l) = objsC pre ++ objsC l := by
  induction pre with
  | nil => rfl
  | cons o pre ih => simp only [List.cons_append, objsC, ih]

theorem funcsC_append (pre l : List Func) : funcsC (pre ++ l) = funcsC pre ++ funcsC l := by
  induction pre with
  | nil => rfl
  | cons o pre ih => simp only [List.cons_append, funcsC, ih]

theorem constsC_append (doc : Option Text) (pre l : List Obj) :
    constsC doc (pre ++ l) = constsC doc pre ++ constsC doc l := by
  induction pre with
  | nil => rfl
  | cons o pre ih =>
    simp only [List.cons_append, constsC, ih]
    split <;> simp

theorem digits_isDigit (n : Nat) : ∀ x ∈ digits n, x.isDigit = true :=
  fun _ hx => Nat.isDigit_of_mem_toDigits (by decide) (by decide) hx

theorem digits_inj {m n : Nat} (h : digits m = digits n) : m = n := by
  have := congrArg (fun l => Nat.ofDigitChars 10 l 0) h
  simpa [digits, Nat.ofDigitChars_ten_toDigits] using this

/-- Numbers followed by a comma. -/
theorem digits_comma {m n : Nat} {e e' : Text} (h : digits m ++ ',' :: e = digits n ++ ',' :: e') : m = n := by
  have key : ∀ (a b : Text), (∀ x ∈ a, x.isDigit = true) → (∀ x ∈ b, x.isDigit = true) →
      a ++ ',' :: e = b ++ ',' :: e' → a = b := by
    intro a
    induction a with
    | nil =>
      intro b _ hb h
      cases b with
      | nil => rfl
      | cons y b =>
        simp only [List.nil_append, List.cons_append, List.cons.injEq] at h
        have := hb y (by simp)
        rw [← h.1] at this
        exact absurd this (by decide)
    | cons x a ih =>
      intro b ha hb h
      cases b with
      | nil =>
        simp only [List.nil_append, List.cons_append, List.cons.injEq] at h
        have := ha x (by simp)
        rw [h.1] at this
        exact absurd this (by decide)
      | cons y b =>
        simp only [List.cons_append, List.cons.injEq] at h
        rw [h.1, ih b (fun z hz => ha z (by simp [hz])) (fun z hz => hb z (by simp [hz])) h.2]
  exact digits_inj (key _ _ (digits_isDigit m) (digits_isDigit n) h)

theorem wrap_attrs {cls mod hier ms a a' : Text} (h : a ≠ a') : wrap cls mod hier ms a ≠ wrap cls mod hier ms a' := by
  unfold wrap
  intro e
  simp only [List.cons_append, List.append_assoc, List.cons.injEq, List.append_cancel_left_eq,
    List.append_cancel_right_eq, true_and] at e
  exact h e

theorem wrap_methods {cls mod hier ms ms' a : Text} (h : ms ≠ ms') : wrap cls mod hier ms a ≠ wrap cls mod hier ms' a := by
  unfold wrap
  intro e
  simp only [List.cons_append, List.append_assoc, List.cons.injEq, List.append_cancel_left_eq,
    List.append_cancel_right_eq, true_and] at e
  exact h e

mutual
/-- One change, another contents. -/
theorem edit_ne {o o' : Obj} : Edit o o' → objC o ≠ objC o'
  | .str h => by simpa only [objC] using h
  | .num h => by simpa only [objC] using wrap_attrs h
  | .cls h hc => by
    simp only [objC, wrap]
    intro e
    simp only [List.cons_append, List.append_assoc, List.cons.injEq, true_and] at e
    exact h (List.append_inj_left e hc)
  | .attr h => by simpa only [objC] using wrap_attrs (join_ne h)
  | .ofMethod h => by
    simp only [objC, funcsC_append, funcsC]
    exact wrap_methods (join_ne (fedit_ne h))
  | .code h => by simpa only [objC] using cedit_ne h
  | .func h => by simpa only [objC] using fedit_ne h
  | .method h => by simpa only [objC] using fedit_ne h
  | .call h => by simpa only [objC] using fedit_ne h
theorem cedit_ne {doc : Option Text} {c c' : Code} : CEdit doc c c' → codeC doc c ≠ codeC doc c'
  | .const h h1 h2 => by
    simp only [codeC, constsC_append, constsC, isDoc_false h1, isDoc_false h2]
    intro e
    simp only [List.append_assoc, List.append_cancel_left_eq] at e
    simp only [← List.append_assoc, List.append_cancel_right_eq] at e
    exact join_ne (edit_ne h) e
  | .name h => by
    simp only [codeC]
    intro e
    simp only [List.append_assoc, List.append_cancel_left_eq] at e
    simp only [← List.append_assoc, List.append_cancel_right_eq] at e
    exact join_ne h e
  | .bytecode h => by
    simp only [codeC]
    intro e
    simp only [List.append_assoc, List.append_cancel_left_eq] at e
    simp only [List.append_cancel_right_eq] at e
    exact h e
  | .argc h => by
    simp only [codeC]
    intro e
    simp only [List.append_assoc] at e
    exact h (digits_comma e)
  | .vars h => by
    simp only [codeC]
    intro e
    simp only [List.append_assoc, List.append_cancel_left_eq] at e
    exact h (digits_comma e)
  | .cells h => by
    simp only [codeC]
    intro e
    simp only [List.append_assoc, List.append_cancel_left_eq] at e
    exact h (digits_comma e)
  | .frees h => by
    simp only [codeC]
    intro e
    simp only [List.append_assoc, List.append_cancel_left_eq] at e
    exact h (digits_comma e)
theorem fedit_ne {f f' : Func} : FEdit f f' → funcC f ≠ funcC f'
  | .code h => by
    simp only [funcC]
    intro e
    simp only [List.append_cancel_right_eq] at e
    exact cedit_ne h e
  | .default h => by
    simp only [funcC, objsC_append, objsC]
    intro e
    simp only [List.append_assoc, List.append_cancel_left_eq] at e
    simp only [← List.append_assoc, List.append_cancel_right_eq] at e
    exact join_ne (edit_ne h) e
  | .cell h => by
    simp only [funcC, objsC_append, objsC]
    intro e
    simp only [List.append_assoc, List.append_cancel_left_eq] at e
    simp only [List.append_cancel_right_eq] at e
    exact join_ne (edit_ne h) (by simpa using e)
end

/-- **C71, a change is noticed.**  An action with a Python function (or method, or callable object) changed in
one place has other contents, whatever the place and however deep. -/
theorem C71_noticed_partial (o o' : Obj) (h : Edit o o') (varlist : List Text) (subst : Text → Text) :
    actionC o varlist subst ≠ actionC o' varlist subst := by
  unfold actionC
  intro e
  simp only [List.append_cancel_right_eq] at e
  exact edit_ne h e

/-- ... and so is a change of one variable of its `varlist`. -/
theorem C71_varlist (o : Obj) (pre post : List Text) (v : Text) (hv1 : v ∉ pre) (hv2 : v ∉ post)
    (subst subst' : Text → Text) (hsame : ∀ w, w ≠ v → subst w = subst' w) (h : subst v ≠ subst' v) :
    actionC o (pre ++ v :: post) subst ≠ actionC o (pre ++ v :: post) subst' := by
  have e1 : pre.map subst = pre.map subst' :=
    List.map_congr_left fun w hw => hsame w (fun e => hv1 (e ▸ hw))
  have e2 : post.map subst = post.map subst' :=
    List.map_congr_left fun w hw => hsame w (fun e => hv2 (e ▸ hw))
  unfold actionC
  intro e
  simp only [List.map_append, List.map_cons, e1, e2, List.flatten_append, List.flatten_cons,
    List.append_cancel_left_eq, List.append_cancel_right_eq] at e
  exact h e

mutual
theorem strip_objC : ∀ o : Obj, objC (strip o) = objC o
  | .none => rfl
  | .str _ => rfl
  | .num _ _ => rfl
  | .plain _ _ => rfl
  | .inst cls mod hier as ms => by simp only [strip, objC, strip_funcsC ms]
  | .code c => by simp only [strip, objC, strip_codeC Option.none c]
  | .func f => by simp only [strip, objC, strip_funcC f]
  | .method s f => by simp only [strip, objC, strip_funcC f]
  | .callable a f => by simp only [strip, objC, strip_funcC f]
theorem strip_codeC (doc : Option Text) : ∀ c : Code, codeC doc (stripC c) = codeC doc c
  | .mk n kw vs cs fs consts names b l file => by
    simp only [stripC, codeC, List.length_map, strip_constsC doc consts]
theorem strip_funcC : ∀ f : Func, funcC (stripF f) = funcC f
  | .mk nm c doc ds kds cl e => by
    simp only [stripF, funcC, strip_codeC doc c, strip_objsC ds, strip_objsC cl]
theorem strip_funcsC : ∀ l : List Func, funcsC (stripFs l) = funcsC l
  | [] => rfl
  | f :: l => by simp only [stripFs, funcsC, strip_funcC f, strip_funcsC l]
theorem strip_objsC : ∀ l : List Obj, objsC (stripL l) = objsC l
  | [] => rfl
  | o :: l => by simp only [stripL, objsC, strip_objC o, strip_objsC l]
theorem strip_constsC (doc : Option Text) : ∀ l : List Obj, constsC doc (stripL l) = constsC doc l
  | [] => rfl
  | o :: l => by
    have h : isDoc doc (strip o) = isDoc doc o := by cases o <;> rfl
    simp only [stripL, constsC, h, strip_objC o, strip_constsC doc l]
end

/-- **C71, moving is not a change.**  Two functions that differ in line numbers, file names, function
names and the names of local variables only, at any depth, have the same contents. -/
theorem C71_moved (o o' : Obj) (h : strip o = strip o') (varlist : List Text) (subst : Text → Text) :
    actionC o varlist subst = actionC o' varlist subst := by
  unfold actionC
  rw [← strip_objC o, ← strip_objC o', h]

/-- **C71, a docstring is not a change**: it is the first constant of its function (and no other). -/
theorem C71_docstring (nm nm' : Text) (n kw : Nat) (vs cs fs : List Text) (consts : List Obj) (names : List Text)
    (b : Text) (l l' : Nat) (file : Text) (d d' : Text) (ds : List Obj) (kds : List (Text × Obj)) (cl : List Obj) (e : Bool)
    (h : Obj.str d ∉ consts) (h' : Obj.str d' ∉ consts) :
    objC (.func (.mk nm (.mk n kw vs cs fs (.str d :: consts) names b l file) (some d) ds kds cl e)) =
      objC (.func (.mk nm' (.mk n kw vs cs fs (.str d' :: consts) names b l' file) (some d') ds kds cl e)) := by
  have key : ∀ (d : Text) (consts : List Obj), (∀ o ∈ consts, isDoc (some d) o = false) →
      constsC (some d) consts = objsC consts := by
    intro d consts
    induction consts with
    | nil => intro _; rfl
    | cons o l ih =>
      intro h
      simp only [constsC, objsC, h o (by simp), ih (fun o ho => h o (by simp [ho]))]
      rfl
  have docs : ∀ d : Text, Obj.str d ∉ consts → ∀ o ∈ consts, isDoc (some d) o = false := by
    intro d h o ho
    refine isDoc_false ?_
    rintro (⟨_, e⟩ | ⟨s, rfl, e⟩)
    · cases e
    · cases e; exact h ho
  have first : ∀ d : Text, (∀ o ∈ consts, isDoc (some d) o = false) →
      constsC (some d) (.str d :: consts) = objsC consts := by
    intro d h
    have : isDoc (some d) (.str d) = true := by simp [isDoc]
    simp only [constsC, this, if_true, key d consts h]
  simp only [objC, funcC, codeC, first d (docs d h), first d' (docs d' h')]

/-! ## What the code gets wrong -/

/-- `def act(target, source, env): copy(a, b)`, with two constants. -/
def twoConsts (a b : Obj) : Func :=
  .mk "act".toList (.mk 3 0 ["target".toList, "source".toList, "env".toList] [] [] [.none, a, b] ["copy".toList]
    "bytecode".toList 1 "SConstruct".toList) Option.none [] [] [] false

/-- **C71** is false of texts with commas: `copy('a,b', 'c')` and `copy('a', 'b,c')` have the same
contents, being the same instructions on constants that join to the same text. -/
theorem C71_commas :
    objC (.func (twoConsts (.str "a,b".toList) (.str "c".toList))) =
      objC (.func (twoConsts (.str "a".toList) (.str "b,c".toList))) ∧ ("a,b" ≠ "a" ∧ "c" ≠ "b,c") := by
  refine ⟨by decide +kernel, by decide, by decide⟩

/-- **C71** is false of constants, default values and closure cells that are `bytes`, tuples, lists, dictionaries or sets: their
value is not in the contents. -/
theorem C71_containers (cls : Text) (v v' : Nat) (a : Obj) (nm : Text) (c : Code) (doc : Option Text)
    (ds : List Obj) (kds : List (Text × Obj)) (cl : List Obj) (e : Bool) :
    objC (.func (twoConsts a (.plain cls v))) = objC (.func (twoConsts a (.plain cls v'))) ∧
    objC (.func (.mk nm c doc (.plain cls v :: ds) kds cl e)) = objC (.func (.mk nm c doc (.plain cls v' :: ds) kds cl e)) ∧
    objC (.func (.mk nm c doc ds kds (.plain cls v :: cl) e)) = objC (.func (.mk nm c doc ds kds (.plain cls v' :: cl) e)) := by
  refine ⟨?_, ?_, ?_⟩
  · have h : ∀ v, isDoc Option.none (.plain cls v) = false := fun _ => rfl
    cases a <;> simp only [twoConsts, objC, funcC, codeC, constsC, h]
  · simp only [objC, funcC, objsC]
  · simp only [objC, funcC, objsC]

/-- **C71** is false of keyword-only arguments: their default values and their number are not in the contents. -/
theorem C71_keyword_only (nm : Text) (n kw kw' : Nat) (vs cs fs : List Text) (ks : List Obj) (ns : List Text) (b : Text)
    (l : Nat) (file : Text) (doc : Option Text) (ds : List Obj) (kds kds' : List (Text × Obj)) (cl : List Obj) (e : Bool) :
    objC (.func (.mk nm (.mk n kw vs cs fs ks ns b l file) doc ds kds cl e)) =
      objC (.func (.mk nm (.mk n kw' vs cs fs ks ns b l file) doc ds kds' cl e)) := by
  simp only [objC, funcC, codeC]

/-- **C71** is false of callable objects: their attributes are not in the contents.  `Copy`, `Touch`,
`Delete` and all actions made with `ActionFactory` are objects of one class, `ActionCaller` (Action.py 1533-1602), so
that they all have the same contents, whatever they do and whatever their arguments. -/
theorem C71_callables (attrs attrs' : List Text) (call : Func) :
    objC (.callable attrs call) = objC (.callable attrs' call) := by
  simp only [objC]

/-- ... and of methods: the object is not in the contents. -/
theorem C71_methods (s s' : Nat) (f : Func) : objC (.method s f) = objC (.method s' f) := by
  simp only [objC]

/-- **C71** is false of `varlist`s of two variables: the values are put together without anything in between. -/
theorem C71_varlist_join (o : Obj) :
    actionC o ["A".toList, "B".toList] (fun v => if v = "A".toList then "x".toList else "yz".toList) =
      actionC o ["A".toList, "B".toList] (fun v => if v = "A".toList then "xy".toList else "z".toList) := by
  unfold actionC
  simp

/-- A case: the constant of a function within the function is changed. -/
theorem C71_nonvacuous :
    let inner (s : String) : Code := .mk 0 0 [] [] [] [.none, .str s.toList] [] "in".toList 2 "SConstruct".toList
    let outer (s : String) : Obj := .func (.mk "act".toList (.mk 3 0 ["target".toList, "source".toList, "env".toList] [] []
      [.str "doc".toList, .code (inner s)] ["f".toList] "out".toList 1 "SConstruct".toList) (some "doc".toList) [] [] [] false)
    Edit (outer "a") (outer "b") ∧
      objC (outer "a") = "3, 3, 0, 0,(0, 0, 0, 0,(a),(),(in)),(f),(out),(),()".toList := by
  refine ⟨?_, by decide +kernel⟩
  refine .func (.code (CEdit.const (pre := [.str "doc".toList]) (post := []) (.code
    (CEdit.const (pre := [.none]) (post := []) (.str (by decide)) (by simp [IsDocOf]) (by simp [IsDocOf]))) (by simp [IsDocOf]) (by simp [IsDocOf])))

end Verif.Act.Py
