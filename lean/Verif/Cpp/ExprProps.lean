import Verif.Cpp.Expr
/-!
# C89: conditions are decided as the compiler decides them
-/
namespace Verif.CppExpr

/-! ### Specification: C conditions -/

/-- A condition as C reads it, with its parentheses. -/
inductive CTree where
  | num (n : Nat)
  | id (x : String)
  /-- `defined x`, or `defined(x)` -/
  | defd (paren : Bool) (x : String)
  | par (t : CTree)
  | not (t : CTree)
  | neg (t : CTree)
  | pos (t : CTree)
  | compl (t : CTree)
  | bin (o : BinOp) (a b : CTree)
  | cmp (o : CmpOp) (a b : CTree)
  | and (a b : CTree)
  | or (a b : CTree)
  | cond (a b c : CTree)
  deriving DecidableEq

/-- The levels of C's grammar, from `?:` to primary expressions. -/
def BinOp.cLvl : BinOp → Nat
  | .bor => 3
  | .bxor => 4
  | .band => 5
  | .shl | .shr => 8
  | .add | .sub => 9
  | .mul | .div | .mod => 10

def CmpOp.cLvl : CmpOp → Nat
  | .eq | .ne => 6
  | _ => 7

def CTree.cLvl : CTree → Nat
  | .num _ | .id _ | .defd _ _ | .par _ => 12
  | .not _ | .neg _ | .pos _ | .compl _ => 11
  | .bin o _ _ => o.cLvl
  | .cmp o _ _ => o.cLvl
  | .and _ _ => 2
  | .or _ _ => 1
  | .cond _ _ _ => 0

/-- The tree is what C's grammar makes of its text. -/
def CTree.wf : CTree → Bool
  | .num _ | .id _ | .defd _ _ => true
  | .par t => t.wf
  | .not t | .neg t | .pos t | .compl t => t.wf && (11 ≤ t.cLvl)
  | .bin o a b => a.wf && b.wf && (o.cLvl ≤ a.cLvl) && (o.cLvl + 1 ≤ b.cLvl)
  | .cmp o a b => a.wf && b.wf && (o.cLvl ≤ a.cLvl) && (o.cLvl + 1 ≤ b.cLvl)
  | .and a b => a.wf && b.wf && (2 ≤ a.cLvl) && (3 ≤ b.cLvl)
  | .or a b => a.wf && b.wf && (1 ≤ a.cLvl) && (2 ≤ b.cLvl)
  | .cond a b c => a.wf && b.wf && c.wf && (1 ≤ a.cLvl)

/-- The text. -/
def CTree.text : CTree → List Lex
  | .num n => [.num n]
  | .id x => [.id x]
  | .defd false x => [.id "defined", .id x]
  | .defd true x => [.id "defined", .lp, .id x, .rp]
  | .par t => .lp :: t.text ++ [.rp]
  | .not t => .bang :: t.text
  | .neg t => .bin .sub :: t.text
  | .pos t => .bin .add :: t.text
  | .compl t => .tilde :: t.text
  | .bin o a b => a.text ++ .bin o :: b.text
  | .cmp o a b => a.text ++ .cmp o :: b.text
  | .and a b => a.text ++ .land :: b.text
  | .or a b => a.text ++ .lor :: b.text
  | .cond a b c => a.text ++ .quest :: b.text ++ .colon :: c.text

/-- Integers of 64 bits; anything else is not defined here. -/
def fit (i : Int) : Option Int := if -9223372036854775808 ≤ i ∧ i ≤ 9223372036854775807 then some i else none

def truthC (b : Bool) : Int := if b then 1 else 0

/-- A comparison of integers in C. -/
def CmpOp.inC : CmpOp → Int → Int → Bool
  | .lt, x, y => decide (x < y)
  | .gt, x, y => decide (x > y)
  | .le, x, y => decide (x ≤ y)
  | .ge, x, y => decide (x ≥ y)
  | .eq, x, y => decide (x = y)
  | .ne, x, y => decide (x ≠ y)

/-- The value in C; `none`: undefined (division by zero, overflow, a negative shift). A
macro stands for an integer; a name that is not a macro is 0. -/
def CTree.value (P : Py) (mac : String → Option Int) : CTree → Option Int
  | .num n => fit n
  | .id x => some ((mac x).getD 0)
  | .defd _ x => some (truthC (mac x).isSome)
  | .par t => t.value P mac
  | .not t => (t.value P mac).map fun v => truthC (v = 0)
  | .neg t => (t.value P mac).bind fun v => fit (-v)
  | .pos t => t.value P mac
  | .compl t => (t.value P mac).map P.compl
  | .bin o a b =>
    (a.value P mac).bind fun x => (b.value P mac).bind fun y =>
      match o with
      | .mul => fit (x * y)
      | .add => fit (x + y)
      | .sub => fit (x - y)
      | .div => if y = 0 then none else fit (x.tdiv y)
      | .mod => if y = 0 then none else fit (x.tmod y)
      | .shl => if y < 0 then none else fit (P.bits .shl x y)
      | .shr => if y < 0 then none else fit (P.bits .shr x y)
      | o => some (P.bits o x y)
  | .cmp o a b =>
    (a.value P mac).bind fun x => (b.value P mac).map fun y => truthC (o.inC x y)
  | .and a b =>
    (a.value P mac).bind fun x => if x = 0 then some 0 else (b.value P mac).map fun y => truthC (y ≠ 0)
  | .or a b =>
    (a.value P mac).bind fun x => if x ≠ 0 then some 1 else (b.value P mac).map fun y => truthC (y ≠ 0)
  | .cond a b c => (a.value P mac).bind fun x => if x ≠ 0 then b.value P mac else c.value P mac

/-- Every name whose value the compiler needs is a macro. -/
def CTree.known (P : Py) (mac : String → Option Int) : CTree → Bool
  | .num _ | .defd _ _ => true
  | .id x => (mac x).isSome
  | .par t | .not t | .neg t | .pos t | .compl t => t.known P mac
  | .bin _ a b | .cmp _ a b => a.known P mac && b.known P mac
  | .and a b => a.known P mac && (a.value P mac == some 0 || b.known P mac)
  | .or a b => a.known P mac && ((a.value P mac).any (· ≠ 0) || b.known P mac)
  | .cond a b c => a.known P mac && b.known P mac && c.known P mac

/-- A truth value, 0 or 1, in both languages. -/
def CTree.logical : CTree → Bool
  | .not _ | .cmp _ _ _ | .defd _ _ => true
  | .par t => t.logical
  | .and a b | .or a b => a.logical && b.logical
  | _ => false

/-- Not the result of `&&` or `||` on numbers other than truth values. -/
def CTree.exact : CTree → Bool
  | .par t => t.exact
  | .and a b | .or a b => a.logical && b.logical
  | .cond _ _ _ => false
  | _ => true

/-- An operand of arithmetic: not `!`, `defined`, or a comparison, without parentheses. -/
def CTree.arithmetic : CTree → Bool
  | .not _ | .defd _ _ | .cmp _ _ _ | .and _ _ | .or _ _ | .cond _ _ _ => false
  | _ => true

/-- The expressions for which the theorem holds: no `/`, `%` or `?:`; the operands of
arithmetic, bitwise operators and comparisons are `arithmetic`, and `exact`. -/
def CTree.plain : CTree → Bool
  | .num _ | .id _ | .defd _ _ => true
  | .par t | .not t => t.plain
  | .neg t | .pos t | .compl t => t.plain && t.arithmetic && t.exact
  | .bin o a b =>
    (o ≠ .div) && (o ≠ .mod) && a.plain && b.plain && a.arithmetic && b.arithmetic && a.exact && b.exact
  | .cmp _ a b => a.plain && b.plain && a.arithmetic && b.arithmetic && a.exact && b.exact
  | .and a b | .or a b => a.plain && b.plain
  | .cond _ _ _ => false

/-- The names are not words of Python, nor `defined`, nor names that `eval` adds. -/
def goodName (P : Py) (x : String) : Bool :=
  !P.keyword x && x ≠ "defined" && x ≠ "__dict__" && x ≠ "__builtins__"

def CTree.names (P : Py) : CTree → Bool
  | .num _ => true
  | .id x | .defd _ x => goodName P x
  | .par t | .not t | .neg t | .pos t | .compl t => t.names P
  | .bin _ a b | .cmp _ a b | .and a b | .or a b => a.names P && b.names P
  | .cond a b c => a.names P && b.names P && c.names P

/-- `defined x` has white space in it and `defined(x)` has none inside its parentheses. -/
def Spelled (l : List (Bool × Lex)) : Prop :=
  (∀ u v b x, l = u ++ (b, Lex.id "defined") :: x :: v → (∃ y, x.2 = .id y) → x.1 = true) ∧
  (∀ u v b x y z, l = u ++ (b, Lex.id "defined") :: x :: y :: z :: v → x.2 = .lp → y.1 = false ∧ z.1 = false)

/-- No `defined` and no names. -/
def CTree.closed : CTree → Bool
  | .num _ => true
  | .id _ | .defd _ _ => false
  | .par t | .not t | .neg t | .pos t | .compl t => t.closed
  | .bin _ a b | .cmp _ a b | .and a b | .or a b => a.closed && b.closed
  | .cond a b c => a.closed && b.closed && c.closed

/-! ### Fuel -/

section
variable {P : Py} {ns : NS}

theorem bind_mono {A B : Type} {a a' : Option A} {F G : A → Option B} {y : B} (h : ∀ x, a = some x → a' = some x)
    (hf : ∀ x y, F x = some y → G x = some y) (hy : a.bind F = some y) : a'.bind G = some y := by
  rw [Option.bind_eq_some_iff] at hy ⊢
  obtain ⟨x, hx, hF⟩ := hy
  exact ⟨x, h x hx, hf x y hF⟩

theorem closing_mono {f g : Mode → List Tok → Option (Res × List Tok)}
    (h : ∀ m ts x, f m ts = some x → g m ts = some x) (r : Res) (ts : List Tok) (x : Res × List Tok)
    (hx : closing f r ts = some x) : closing g r ts = some x := by
  unfold closing at hx ⊢
  split at hx
  · exact h _ _ _ hx
  · cases hx

theorem step_mono {f g : Mode → List Tok → Option (Res × List Tok)}
    (h : ∀ m ts x, f m ts = some x → g m ts = some x) (m : Mode) (ts : List Tok) (x : Res × List Tok)
    (hx : P.step ns f m ts = some x) : P.step ns g m ts = some x := by
  cases m with
  | lvl k =>
    simp only [Py.step] at hx ⊢
    split
    · rename_i hk; rw [if_pos hk] at hx
      split at hx
      · exact bind_mono (h _ _) (fun _ _ hy => hy) hx
      · exact h _ _ _ hx
    rename_i hk; rw [if_neg hk] at hx; clear hk
    split
    · rename_i hk; rw [if_pos hk] at hx
      exact bind_mono (h _ _) (fun _ _ hy => h _ _ _ hy) hx
    rename_i hk; rw [if_neg hk] at hx; clear hk
    split
    · rename_i hk; rw [if_pos hk] at hx
      cases ts with
      | nil => cases hx
      | cons t ts' =>
        dsimp only at hx ⊢
        cases hu : P.unary t with
        | some u => rw [hu] at hx; exact bind_mono (h _ _) (fun _ _ hy => hy) hx
        | none => rw [hu] at hx; exact h _ _ _ hx
    rename_i hk; rw [if_neg hk] at hx; clear hk
    split
    · rename_i hk; rw [if_pos hk] at hx
      cases ts with
      | nil => cases hx
      | cons t ts' =>
        cases t <;> dsimp only at hx ⊢
        case name y =>
          split at hx
          · cases hx
          · rename_i hkw; rw [if_neg hkw]; exact h _ _ _ hx
        case lp => exact bind_mono (h _ _) (fun _ _ hy => closing_mono h _ _ _ hy) hx
        all_goals first | exact h _ _ _ hx | cases hx
    rename_i hk; rw [if_neg hk] at hx; clear hk
    split
    · rename_i hk; rw [if_pos hk] at hx; cases hx
    rename_i hk; rw [if_neg hk] at hx
    exact bind_mono (h _ _) (fun _ _ hy => h _ _ _ hy) hx
  | loop k acc =>
    cases ts with
    | nil => exact hx
    | cons t ts' =>
      simp only [Py.step] at hx ⊢
      split
      · rename_i hk; rw [if_pos hk] at hx
        exact bind_mono (h _ _) (fun _ _ hy => h _ _ _ hy) hx
      · rename_i hk; rw [if_neg hk] at hx; exact hx
  | chain acc last =>
    cases ts with
    | nil => exact hx
    | cons t ts' =>
      simp only [Py.step] at hx ⊢
      cases hc : P.cmpTok ns t with
      | some f' => rw [hc] at hx; exact bind_mono (h _ _) (fun _ _ hy => h _ _ _ hy) hx
      | none => rw [hc] at hx; exact hx
  | calls r =>
    cases ts with
    | nil => exact hx
    | cons t ts' =>
      cases t
      case lp =>
        simp only [Py.step] at hx ⊢
        split at hx
        · exact h _ _ _ hx
        · exact bind_mono (h _ _) (fun _ _ hy => closing_mono h _ _ _ hy) hx
      all_goals exact hx

theorem parse_mono (n : Nat) : ∀ m ts x, P.parse ns n m ts = some x → P.parse ns (n + 1) m ts = some x := by
  induction n with
  | zero => intro m ts x h; cases h
  | succ n ih => intro m ts x h; exact step_mono ih m ts x h

theorem parse_le {n n' : Nat} (hn : n ≤ n') {m : Mode} {ts : List Tok} {x : Res × List Tok}
    (h : P.parse ns n m ts = some x) : P.parse ns n' m ts = some x := by
  induction hn with
  | refl => exact h
  | step _ ih => exact parse_mono _ _ _ _ ih

/-- What is left is not longer. -/
theorem step_len {f : Mode → List Tok → Option (Res × List Tok)}
    (h : ∀ m ts x, f m ts = some x → x.2.length ≤ ts.length) (m : Mode) (ts : List Tok) (x : Res × List Tok)
    (hx : P.step ns f m ts = some x) : x.2.length ≤ ts.length := by
  have hcl : ∀ r ts x, closing f r ts = some x → x.2.length ≤ ts.length := by
    intro r ts x hx
    unfold closing at hx
    split at hx
    · have := h _ _ _ hx; simp; omega
    · cases hx
  have hb : ∀ (m : Mode) (ts : List Tok) (F : Res × List Tok → Option (Res × List Tok)) (x : Res × List Tok),
      (∀ p y, F p = some y → y.2.length ≤ p.2.length) → (f m ts).bind F = some x → x.2.length ≤ ts.length := by
    intro m ts F x hF hx
    rw [Option.bind_eq_some_iff] at hx
    obtain ⟨p, hp, hFp⟩ := hx
    have := h _ _ _ hp
    have := hF _ _ hFp
    omega
  have hself : ∀ (g : Res → Res) (p y : Res × List Tok), some (g p.1, p.2) = some y → y.2.length ≤ p.2.length := by
    intro g p y hy; cases hy; simp
  cases m with
  | lvl k =>
    simp only [Py.step] at hx
    split at hx
    · split at hx
      · have := hb _ _ _ _ (hself _) hx; simp; omega
      · exact h _ _ _ hx
    split at hx
    · exact hb _ _ _ _ (fun _ _ hy => h _ _ _ hy) hx
    split at hx
    · cases ts with
      | nil => cases hx
      | cons t ts' =>
        dsimp only at hx
        cases hu : P.unary t with
        | some u => rw [hu] at hx; have := hb _ _ _ _ (hself _) hx; simp; omega
        | none => rw [hu] at hx; exact h _ _ _ hx
    split at hx
    · cases ts with
      | nil => cases hx
      | cons t ts' =>
        cases t <;> dsimp only at hx
        case name y =>
          split at hx
          · cases hx
          · have := h _ _ _ hx; simp; omega
        case lp => have := hb _ _ _ _ (fun _ _ hy => hcl _ _ _ hy) hx; simp; omega
        all_goals first | (have := h _ _ _ hx; simp; omega) | cases hx
    split at hx
    · cases hx
    exact hb _ _ _ _ (fun _ _ hy => h _ _ _ hy) hx
  | loop k acc =>
    cases ts with
    | nil => cases hx; simp
    | cons t ts' =>
      simp only [Py.step] at hx
      split at hx
      · have := hb _ _ _ _ (fun _ _ hy => h _ _ _ hy) hx; simp; omega
      · cases hx; simp
  | chain acc last =>
    cases ts with
    | nil => cases hx; simp
    | cons t ts' =>
      simp only [Py.step] at hx
      cases hc : P.cmpTok ns t with
      | some f' => rw [hc] at hx; have := hb _ _ _ _ (fun _ _ hy => h _ _ _ hy) hx; simp; omega
      | none => rw [hc] at hx; cases hx; simp
  | calls r =>
    cases ts with
    | nil => cases hx; simp
    | cons t ts' =>
      cases t
      case lp =>
        simp only [Py.step] at hx
        split at hx
        · have := h _ _ _ hx; simp; omega
        · have := hb _ _ _ _ (fun _ _ hy => hcl _ _ _ hy) hx; simp; omega
      all_goals (cases hx; simp)

theorem parse_len (n : Nat) : ∀ m ts x, P.parse ns n m ts = some x → x.2.length ≤ ts.length := by
  induction n with
  | zero => intro m ts x h; cases h
  | succ n ih => intro m ts x h; exact step_len ih m ts x h

def Mode.rank : Mode → Nat
  | .lvl k => 14 - k
  | _ => 1

def bound (m : Mode) (ts : List Tok) : Nat := 16 * ts.length + m.rank

/-- A step needs only smaller parts. -/
theorem step_congr {f g : Mode → List Tok → Option (Res × List Tok)}
    (hlen : ∀ m ts x, f m ts = some x → x.2.length ≤ ts.length) (m : Mode) (ts : List Tok)
    (h : ∀ m' ts', bound m' ts' < bound m ts → f m' ts' = g m' ts') : P.step ns f m ts = P.step ns g m ts := by
  have hb : ∀ (m' : Mode) (ts' : List Tok) (F G : Res × List Tok → Option (Res × List Tok)),
      bound m' ts' < bound m ts → (∀ p, p.2.length ≤ ts'.length → F p = G p) →
      (f m' ts').bind F = (g m' ts').bind G := by
    intro m' ts' F G hlt hF
    rw [h m' ts' hlt]
    cases hg : g m' ts' with
    | none => rfl
    | some p => exact hF p (hlen m' ts' p (by rw [h m' ts' hlt, hg]))
  have hcl : ∀ r ts', (∀ rest, ts' = .rp :: rest → bound (.calls r) rest < bound m ts) → closing f r ts' = closing g r ts' := by
    intro r ts' hr
    unfold closing
    split
    · exact h _ _ (hr _ rfl)
    · rfl
  cases m with
  | lvl k =>
    simp only [Py.step]
    split
    · subst k
      split
      · exact hb _ _ _ _ (by simp [bound, Mode.rank] <;> omega) fun _ _ => rfl
      · exact h _ _ (by simp [bound, Mode.rank])
    split
    · subst k
      exact hb _ _ _ _ (by simp [bound, Mode.rank]) fun p hp => h _ _ (by simp [bound, Mode.rank] <;> omega)
    split
    · subst k
      cases ts with
      | nil => rfl
      | cons t ts' =>
        dsimp only
        split
        · exact hb _ _ _ _ (by simp [bound, Mode.rank] <;> omega) fun _ _ => rfl
        · exact h _ _ (by simp [bound, Mode.rank])
    split
    · subst k
      cases ts with
      | nil => rfl
      | cons t ts' =>
        cases t <;> dsimp only
        case name y =>
          split
          · rfl
          · exact h _ _ (by simp [bound, Mode.rank] <;> omega)
        case lp =>
          refine hb _ _ _ _ (by simp [bound, Mode.rank] <;> omega) fun p hp => hcl _ _ fun rest hr => ?_
          rw [hr] at hp
          simp [bound, Mode.rank] at hp ⊢; omega
        all_goals exact h _ _ (by simp [bound, Mode.rank] <;> omega)
    split
    · rfl
    · exact hb _ _ _ _ (by simp [bound, Mode.rank] <;> omega) fun p hp => h _ _ (by simp [bound, Mode.rank] <;> omega)
  | loop k acc =>
    cases ts with
    | nil => rfl
    | cons t ts' =>
      simp only [Py.step]
      split
      · exact hb _ _ _ _ (by simp [bound, Mode.rank] <;> omega) fun p hp => h _ _ (by simp [bound, Mode.rank] <;> omega)
      · rfl
  | chain acc last =>
    cases ts with
    | nil => rfl
    | cons t ts' =>
      simp only [Py.step]
      split
      · exact hb _ _ _ _ (by simp [bound, Mode.rank] <;> omega) fun p hp => h _ _ (by simp [bound, Mode.rank] <;> omega)
      · rfl
  | calls r =>
    cases ts with
    | nil => rfl
    | cons t ts' =>
      cases t
      case lp =>
        simp only [Py.step]
        split
        · exact h _ _ (by simp [bound, Mode.rank] <;> omega)
        · refine hb _ _ _ _ (by simp [bound, Mode.rank] <;> omega) fun p hp => hcl _ _ fun rest hr => ?_
          rw [hr] at hp
          simp [bound, Mode.rank] at hp ⊢; omega
      all_goals rfl

theorem rank_pos (m : Mode) (ts : List Tok) (h : bound m ts ≤ 0) : P.step ns (fun _ _ => none) m ts = none := by
  cases m with
  | lvl k =>
    have : ts = [] := by cases ts with | nil => rfl | cons => simp [bound] at h
    subst this
    have : 11 < k := by simp [bound, Mode.rank] at h; omega
    simp only [Py.step]
    rw [if_neg (by omega), if_neg (by omega), if_neg (by omega), if_neg (by omega), if_pos this]
  | loop _ _ => simp [bound, Mode.rank] at h
  | chain _ _ => simp [bound, Mode.rank] at h
  | calls _ => simp [bound, Mode.rank] at h

/-- The bound on the depth is never reached: more depth gives nothing more. -/
theorem fuel_enough (n : Nat) : ∀ m ts, bound m ts ≤ n → P.parse ns (n + 1) m ts = P.parse ns n m ts := by
  induction n with
  | zero => intro m ts h; exact rank_pos m ts h
  | succ n ih =>
    intro m ts h
    show P.step ns (P.parse ns (n + 1)) m ts = P.step ns (P.parse ns n) m ts
    exact step_congr (parse_len _) m ts fun m' ts' hlt => ih m' ts' (by omega)

theorem fuel_enough_le {n n' : Nat} (hn : n ≤ n') (m : Mode) (ts : List Tok) (hb : bound m ts ≤ n) :
    P.parse ns n' m ts = P.parse ns n m ts := by
  induction hn with
  | refl => rfl
  | step h ih => rw [fuel_enough _ _ _ (Nat.le_trans hb h)]; exact ih

/-- Some depth gives this result. -/
def Yields (P : Py) (ns : NS) (m : Mode) (ts : List Tok) (x : Res × List Tok) : Prop := ∃ n, P.parse ns n m ts = some x

theorem Yields.eval {ts : List Tok} {r : Res} (h : Yields P ns (.lvl 0) ts (r, [])) : P.eval ns ts = r := by
  obtain ⟨n, hn⟩ := h
  have h1 := parse_le (Nat.le_max_left n (16 * (ts.length + 1))) hn
  rw [fuel_enough_le (Nat.le_max_right n (16 * (ts.length + 1))) _ _ (by simp [bound, Mode.rank] <;> omega)] at h1
  unfold Py.eval
  rw [h1]

/-! ### The grammar -/

/-- How tightly a token that follows an operand binds it. -/
def Tok.tight : Tok → Option Nat
  | .or => some 0
  | .and => some 1
  | .cmp _ | .isIn => some 3
  | .bin o => some o.lvl
  | .lp => some 12
  | _ => none

/-- What follows does not belong to an expression of level `k`. -/
def Stops (k : Nat) (rest : List Tok) : Prop := ∀ t ts, rest = t :: ts → ∀ j, t.tight = some j → j < k

theorem Stops.mono {k k' : Nat} {rest : List Tok} (h : Stops k rest) (hk : k ≤ k') : Stops k' rest :=
  fun t ts e j hj => Nat.lt_of_lt_of_le (h t ts e j hj) hk

/-- The tokens are an expression of level `k` with this value. -/
def Parses (P : Py) (ns : NS) (k : Nat) (p : List Tok) (r : Res) : Prop :=
  ∀ rest, Stops k rest → Yields P ns (.lvl k) (p ++ rest) (r, rest)

/-- The tokens can begin a sequence of operators of level `k`. -/
def Spine (P : Py) (ns : NS) (k : Nat) (p : List Tok) (r : Res) : Prop :=
  ∀ rest x, Stops (k + 1) rest → Yields P ns (.loop k r) rest x → Yields P ns (.lvl k) (p ++ rest) x

/-- Combine two steps. -/
theorem yields_bind {m m1 m2 : Mode} {ts ts1 ts2 : List Tok} {p x : Res × List Tok}
    (h1 : Yields P ns m1 ts1 p) (h2 : Yields P ns m2 ts2 x)
    (h : ∀ f : Mode → List Tok → Option (Res × List Tok), f m1 ts1 = some p → f m2 ts2 = some x →
      P.step ns f m ts = some x) : Yields P ns m ts x := by
  obtain ⟨n1, h1⟩ := h1
  obtain ⟨n2, h2⟩ := h2
  exact ⟨max n1 n2 + 1, h _ (parse_le (Nat.le_max_left _ _) h1) (parse_le (Nat.le_max_right _ _) h2)⟩

theorem yields_one {m m1 : Mode} {ts ts1 : List Tok} {p x : Res × List Tok} (h1 : Yields P ns m1 ts1 p)
    (h : ∀ f : Mode → List Tok → Option (Res × List Tok), f m1 ts1 = some p → P.step ns f m ts = some x) :
    Yields P ns m ts x := by
  obtain ⟨n1, h1⟩ := h1
  exact ⟨n1 + 1, h _ h1⟩

theorem yields_calls {r : Res} {rest : List Tok} (h : Stops 11 rest) : Yields P ns (.calls r) rest (r, rest) := by
  refine ⟨1, ?_⟩
  cases rest with
  | nil => rfl
  | cons t ts =>
    cases t
    case lp => have := h _ _ rfl 12 rfl; omega
    all_goals rfl

theorem parses_num (n : Nat) : Parses P ns 11 [.num n] (.val (.int n)) := fun rest h =>
  yields_one (yields_calls h) fun f hf => by simpa [Py.step] using hf

theorem parses_name (x : String) (hk : P.keyword x = false) : Parses P ns 11 [.name x] (P.name ns x) := fun rest h =>
  yields_one (yields_calls h) fun f hf => by simpa [Py.step, hk] using hf

theorem parses_str (x : String) : Parses P ns 11 [.str x] (.val (.str x)) := fun rest h =>
  yields_one (yields_calls h) fun f hf => by simpa [Py.step] using hf

theorem parses_dict (hs : ns.self = true) : Parses P ns 11 [.dict] (.val .dict) := fun rest h =>
  yields_one (yields_calls h) fun f hf => by simpa [Py.step, hs] using hf

theorem stops_rp (k : Nat) (rest : List Tok) : Stops k (.rp :: rest) := fun t ts e j hj => by cases e; cases hj

theorem parses_par {p : List Tok} {r : Res} (hp : Parses P ns 0 p r) : Parses P ns 11 (.lp :: p ++ [.rp]) r := fun rest h =>
  yields_bind (hp (.rp :: rest) (stops_rp _ _)) (yields_calls h) fun f h1 h2 => by
    simp [Py.step, h1, closing, h2]

theorem parses_unary {t : Tok} {u : Res → Res} (ht : P.unary t = some u) {p : List Tok} {r : Res}
    (hp : Parses P ns 10 p r) : Parses P ns 10 (t :: p) (u r) := fun rest h =>
  yields_one (hp rest h) fun f h1 => by simp [Py.step, ht, h1]

theorem parses_not {p : List Tok} {r : Res} (hp : Parses P ns 2 p r) : Parses P ns 2 (.not :: p) r.not := fun rest h =>
  yields_one (hp rest h) fun f h1 => by simp [Py.step, h1]

theorem down_11 {t : Tok} (ht : P.unary t = none) {p : List Tok} {r : Res} (hp : Parses P ns 11 (t :: p) r) :
    Parses P ns 10 (t :: p) r := fun rest h =>
  yields_one (hp rest (h.mono (by omega))) fun f h1 => by
    rw [List.cons_append] at h1 ⊢
    simp [Py.step, ht, h1]

theorem down_3 {t : Tok} (ht : t ≠ .not) {p : List Tok} {r : Res} (hp : Parses P ns 3 (t :: p) r) :
    Parses P ns 2 (t :: p) r := fun rest h =>
  yields_one (hp rest (h.mono (by omega))) fun f h1 => by
    rw [List.cons_append] at h1 ⊢
    cases t <;> simp_all [Py.step]

theorem cmpTok_tight {t : Tok} {f : Res → Res → Res} (h : P.cmpTok ns t = some f) : t.tight = some 3 := by
  cases t <;> first | rfl | cases h

theorem opLvl_tight {t : Tok} {k : Nat} (h : t.opLvl = some k) : t.tight = some k := by
  cases t <;> first | exact h | cases h

theorem yields_loop {k : Nat} {r : Res} {rest : List Tok} (h : Stops k rest) : Yields P ns (.loop k r) rest (r, rest) := by
  refine ⟨1, ?_⟩
  cases rest with
  | nil => rfl
  | cons t ts =>
    show P.step ns _ _ _ = _
    simp only [Py.step]
    rw [if_neg]
    intro e
    have := h _ _ rfl k (opLvl_tight e)
    omega

theorem yields_chain {acc : Option Res} {r : Res} {rest : List Tok} (h : Stops 3 rest) :
    Yields P ns (.chain acc r) rest (acc.getD r, rest) := by
  refine ⟨1, ?_⟩
  cases rest with
  | nil => rfl
  | cons t ts =>
    show P.step ns _ _ _ = _
    simp only [Py.step]
    cases hc : P.cmpTok ns t with
    | none => rfl
    | some f => have := h _ _ rfl 3 (cmpTok_tight hc); omega

theorem down_4 {p : List Tok} {r : Res} (hp : Parses P ns 4 p r) : Parses P ns 3 p r := fun rest h =>
  yields_bind (hp rest (h.mono (by omega))) (yields_chain (acc := none) (r := r) h) fun f h1 h2 => by
    simp [Py.step, h1, h2]

theorem parses_cmp {t : Tok} {u : Res → Res → Res} (ht : P.cmpTok ns t = some u) {p q : List Tok} {a b : Res}
    (hp : Parses P ns 4 p a) (hq : Parses P ns 4 q b) : Parses P ns 3 (p ++ t :: q) (u a b) := fun rest h => by
  have h1 := hp (t :: (q ++ rest)) fun t' ts e j hj => by
    cases e; rw [cmpTok_tight ht] at hj; cases hj; omega
  have h2 : Yields P ns (.chain none a) (t :: (q ++ rest)) (u a b, rest) :=
    yields_bind (hq rest (h.mono (by omega))) (yields_chain (acc := some (u a b)) (r := b) h) fun f h1 h2 => by
      simp [Py.step, ht, h1, h2]
  rw [List.append_assoc, List.cons_append]
  exact yields_bind h1 h2 fun f h1 h2 => by simp [Py.step, h1, h2]

/-- The levels of operators that associate to the left. -/
def isLoop (k : Nat) : Bool := k = 0 || k = 1 || (4 ≤ k && k ≤ 9)

theorem step_loop {k : Nat} (hk : isLoop k = true) (f : Mode → List Tok → Option (Res × List Tok)) (ts : List Tok) :
    P.step ns f (.lvl k) ts = (f (.lvl (k + 1)) ts).bind fun p => f (.loop k p.1) p.2 := by
  simp [isLoop] at hk
  simp only [Py.step]
  rw [if_neg (by omega), if_neg (by omega), if_neg (by omega), if_neg (by omega), if_neg (by omega)]

theorem spine_of_parses {k : Nat} (hk : isLoop k = true) {p : List Tok} {r : Res} (hp : Parses P ns (k + 1) p r) :
    Spine P ns k p r := fun rest x h hx =>
  yields_bind (hp rest h) hx fun f h1 h2 => by rw [step_loop hk]; simp [h1, h2]

theorem parses_of_spine {k : Nat} {p : List Tok} {r : Res} (hp : Spine P ns k p r) : Parses P ns k p r :=
  fun rest h => hp rest _ (h.mono (by omega)) (yields_loop h)

theorem spine_op {k : Nat} {t : Tok} (ht : t.opLvl = some k) {p q : List Tok} {a b : Res}
    (hp : Spine P ns k p a) (hq : Parses P ns (k + 1) q b) : Spine P ns k (p ++ t :: q) (P.apply t a b) :=
  fun rest x h hx => by
    rw [List.append_assoc, List.cons_append]
    refine hp _ _ (fun t' ts e j hj => ?_) ?_
    · cases e; rw [opLvl_tight ht] at hj; cases hj; omega
    · exact yields_bind (hq rest h) hx fun f h1 h2 => by simp [Py.step, ht, h1, h2]

/-- Down to any lower level. -/
theorem down {j : Nat} {t : Tok} {p : List Tok} {r : Res} (hj : j ≤ 11) (h11 : j = 11 → P.unary t = none)
    (h3 : 3 ≤ j → t ≠ .not) (hp : Parses P ns j (t :: p) r) (k : Nat) (hk : k ≤ j) : Parses P ns k (t :: p) r := by
  obtain ⟨d, rfl⟩ : ∃ d, j = k + d := ⟨j - k, by omega⟩
  induction d generalizing k with
  | zero => exact hp
  | succ d ih =>
    have h1 : Parses P ns (k + 1) (t :: p) r := by
      have e : k + (d + 1) = k + 1 + d := by omega
      exact ih (k + 1) (by omega) (fun h => h11 (by omega)) (fun h => h3 (by omega)) (e ▸ hp) (by omega)
    by_cases h2 : k = 2
    · subst h2; exact down_3 (h3 (by omega)) h1
    by_cases h3' : k = 3
    · subst h3'; exact down_4 h1
    by_cases h10 : k = 10
    · subst h10; exact down_11 (h11 (by omega)) h1
    exact parses_of_spine (spine_of_parses (by simp [isLoop]; omega) h1)

/-! ### Trees -/

/-- The level of the translated text in Python's grammar. -/
def CTree.pyLvl : CTree → Nat
  | .num _ | .id _ | .par _ => 11
  | .neg _ | .pos _ | .compl _ => 10
  | .bin o _ _ => o.lvl
  | .cmp _ _ _ | .defd _ _ => 3
  | .not _ => 2
  | .and _ _ => 1
  | .or _ _ | .cond _ _ _ => 0

/-- The translated text. -/
def CTree.py : CTree → List Tok
  | .num n => [.num n]
  | .id x => [.name x]
  | .defd _ x => [.str x, .isIn, .dict]
  | .par t => .lp :: t.py ++ [.rp]
  | .not t => .not :: t.py
  | .neg t => .bin .sub :: t.py
  | .pos t => .bin .add :: t.py
  | .compl t => .tilde :: t.py
  | .bin o a b => a.py ++ .bin o :: b.py
  | .cmp o a b => a.py ++ .cmp o :: b.py
  | .and a b => a.py ++ .and :: b.py
  | .or a b => a.py ++ .or :: b.py
  | .cond a b c => a.py ++ .and :: b.py ++ .or :: c.py

def uPos (r : Res) : Res := r.bind1 fun v => match v with | .int i => .val (.int i) | _ => .caught
def uNeg (r : Res) : Res := r.bind1 fun v => match v with | .int i => .val (.int (-i)) | _ => .caught
def uCompl (P : Py) (r : Res) : Res := r.bind1 fun v => match v with | .int i => .val (.int (P.compl i)) | _ => .caught

/-- Its value in Python. -/
def CTree.pyVal (P : Py) (ns : NS) : CTree → Res
  | .num n => .val (.int n)
  | .id x => P.name ns x
  | .defd _ x => inVal ns (.str x) .dict
  | .par t => t.pyVal P ns
  | .not t => (t.pyVal P ns).not
  | .neg t => uNeg (t.pyVal P ns)
  | .pos t => uPos (t.pyVal P ns)
  | .compl t => uCompl P (t.pyVal P ns)
  | .bin o a b => Res.bind2 (P.binVal o) (a.pyVal P ns) (b.pyVal P ns)
  | .cmp o a b => Res.bind2 (P.cmpVal o) (a.pyVal P ns) (b.pyVal P ns)
  | .and a b => (a.pyVal P ns).and (b.pyVal P ns)
  | .or a b => (a.pyVal P ns).or (b.pyVal P ns)
  | .cond a b c => ((a.pyVal P ns).and (b.pyVal P ns)).or (c.pyVal P ns)

theorem arith_lvl {a : CTree} (h : a.arithmetic = true) : 4 ≤ a.pyLvl := by
  cases a <;> simp_all [CTree.arithmetic, CTree.pyLvl]
  rename_i o' _ _; cases o' <;> decide

/-- The first token. -/
theorem py_head (t : CTree) : ∃ h p, t.py = h :: p ∧ (3 ≤ t.pyLvl → t.plain = true → t.wf = true → h ≠ .not) ∧
    (t.pyLvl = 11 → P.unary h = none) := by
  induction t with
  | num n => exact ⟨_, _, rfl, by simp, fun _ => rfl⟩
  | id x => exact ⟨_, _, rfl, by simp, fun _ => rfl⟩
  | defd b x => exact ⟨_, _, rfl, by simp, fun h => by cases h⟩
  | par t _ => exact ⟨_, _, rfl, by simp, fun _ => rfl⟩
  | not t _ => exact ⟨_, _, rfl, by simp [CTree.pyLvl], by simp [CTree.pyLvl]⟩
  | neg t _ => exact ⟨_, _, rfl, by simp, by simp [CTree.pyLvl]⟩
  | pos t _ => exact ⟨_, _, rfl, by simp, by simp [CTree.pyLvl]⟩
  | compl t _ => exact ⟨_, _, rfl, by simp, by simp [CTree.pyLvl]⟩
  | bin o a b ih _ =>
    obtain ⟨h, p, e, h1, h2⟩ := ih
    refine ⟨h, p ++ .bin o :: b.py, by simp [CTree.py, e], fun _ hp hw => ?_, fun hl => ?_⟩
    · simp [CTree.plain, CTree.wf] at hp hw
      refine h1 ?_ hp.1.1.1.1.1.2 hw.1.1.1
      exact Nat.le_trans (by decide) (arith_lvl hp.1.1.1.2)
    · simp [CTree.pyLvl] at hl; cases o <;> cases hl
  | cmp o a b ih _ =>
    obtain ⟨h, p, e, h1, h2⟩ := ih
    refine ⟨h, p ++ .cmp o :: b.py, by simp [CTree.py, e], fun _ hp hw => ?_, fun hl => by cases hl⟩
    simp [CTree.plain, CTree.wf] at hp hw
    refine h1 ?_ hp.1.1.1.1.1 hw.1.1.1
    exact Nat.le_trans (by decide) (arith_lvl hp.1.1.1.2)
  | and a b ih _ =>
    obtain ⟨h, p, e, h1, h2⟩ := ih
    exact ⟨h, p ++ .and :: b.py, by simp [CTree.py, e], by simp [CTree.pyLvl], by simp [CTree.pyLvl]⟩
  | or a b ih _ =>
    obtain ⟨h, p, e, h1, h2⟩ := ih
    exact ⟨h, p ++ .or :: b.py, by simp [CTree.py, e], by simp [CTree.pyLvl], by simp [CTree.pyLvl]⟩
  | cond a b c ih _ _ =>
    obtain ⟨h, p, e, h1, h2⟩ := ih
    exact ⟨h, p ++ .and :: b.py ++ .or :: c.py, by simp [CTree.py, e], by simp [CTree.pyLvl], by simp [CTree.pyLvl]⟩

theorem lvl_of_cLvl {a : CTree} (h : a.arithmetic = true) (o : BinOp) :
    (o.cLvl ≤ a.cLvl → o.lvl ≤ a.pyLvl) ∧ (o.cLvl + 1 ≤ a.cLvl → o.lvl + 1 ≤ a.pyLvl) := by
  cases a <;> simp_all [CTree.arithmetic, CTree.pyLvl, CTree.cLvl]
  case bin o' _ _ => cases o <;> cases o' <;> decide
  all_goals (cases o <;> decide)

theorem lvl_not {a : CTree} (h : 11 ≤ a.cLvl) : 2 ≤ a.pyLvl := by
  cases a <;> simp_all [CTree.pyLvl, CTree.cLvl]
  case bin o _ _ => cases o <;> simp_all [BinOp.cLvl]

theorem lvl_or {a : CTree} (h : 2 ≤ a.cLvl) : 1 ≤ a.pyLvl := by
  cases a <;> simp_all [CTree.pyLvl, CTree.cLvl]
  case bin o _ _ => cases o <;> simp_all [BinOp.lvl]

theorem lvl_and {a : CTree} (h : 3 ≤ a.cLvl) : 2 ≤ a.pyLvl := by
  cases a <;> simp_all [CTree.pyLvl, CTree.cLvl]
  case bin o _ _ => cases o <;> simp_all [BinOp.lvl]

theorem lvl_un {a : CTree} (h : 11 ≤ a.cLvl) (ha : a.arithmetic = true) : 10 ≤ a.pyLvl := by
  cases a <;> simp_all [CTree.pyLvl, CTree.cLvl, CTree.arithmetic]
  case bin o _ _ => cases o <;> simp_all [BinOp.cLvl]

theorem pyLvl_le (t : CTree) : t.pyLvl ≤ 11 := by
  cases t <;> simp [CTree.pyLvl]
  rename_i o _ _; cases o <;> decide

theorem binLvl_loop (o : BinOp) : isLoop o.lvl = true := by cases o <;> rfl

/-- Python reads the translated text as the tree says. -/
theorem reads (t : CTree) (hs : t.closed = true ∨ ns.self = true) (hw : t.wf = true) (hp : t.plain = true) (hn : t.names P = true) :
    (∀ k ≤ t.pyLvl, Parses P ns k t.py (t.pyVal P ns)) ∧
    (isLoop t.pyLvl = true → Spine P ns t.pyLvl t.py (t.pyVal P ns)) := by
  have key : ∀ t : CTree, t.wf = true → t.plain = true → Parses P ns t.pyLvl t.py (t.pyVal P ns) →
      ∀ k ≤ t.pyLvl, Parses P ns k t.py (t.pyVal P ns) := by
    intro t hw hpl hp
    obtain ⟨h, p, e, h1, h2⟩ := py_head (P := P) t
    rw [e] at hp ⊢
    exact down (pyLvl_le t) h2 (fun h => h1 h hpl hw) hp
  have spine : ∀ (a : CTree) (k : Nat), isLoop k = true → k ≤ a.pyLvl →
      ((∀ k ≤ a.pyLvl, Parses P ns k a.py (a.pyVal P ns)) ∧
        (isLoop a.pyLvl = true → Spine P ns a.pyLvl a.py (a.pyVal P ns))) → Spine P ns k a.py (a.pyVal P ns) := by
    intro a k hk hle ih
    by_cases e : k = a.pyLvl
    · subst e; exact ih.2 hk
    · exact spine_of_parses hk (ih.1 (k + 1) (by omega))
  induction t with
  | num n => exact ⟨key _ hw hp (parses_num n), fun h => by cases h⟩
  | id x =>
    simp [CTree.names, goodName] at hn
    exact ⟨key _ hw hp (parses_name x hn.1.1.1), fun h => by cases h⟩
  | defd b x =>
    refine ⟨key _ hw hp ?_, fun h => by cases h⟩
    have h1 : Parses P ns 4 [.str x] (.val (.str x)) := down (by omega) (fun _ => rfl) (by simp) (parses_str x) 4 (by omega)
    have h2 : Parses P ns 4 [.dict] (.val .dict) := down (by omega) (fun _ => rfl) (by simp) (parses_dict (hs.resolve_left (by simp [CTree.closed]))) 4 (by omega)
    exact parses_cmp (t := .isIn) rfl h1 h2
  | par t ih => exact ⟨key _ hw hp (parses_par ((ih hs hw hp hn).1 0 (by omega))), fun h => by cases h⟩
  | not t ih =>
    simp [CTree.wf] at hw
    refine ⟨key _ (by simp [CTree.wf, hw]) hp (parses_not ((ih hs hw.1 hp hn).1 2 (lvl_not hw.2))), fun h => by cases h⟩
  | neg t ih =>
    have hw' := hw; have hp' := hp
    simp [CTree.wf] at hw
    simp [CTree.plain] at hp
    exact ⟨key _ hw' hp' (parses_unary (t := .bin .sub) rfl ((ih hs hw.1 hp.1.1 hn).1 10 (lvl_un hw.2 hp.1.2))), fun h => by cases h⟩
  | pos t ih =>
    have hw' := hw; have hp' := hp
    simp [CTree.wf] at hw
    simp [CTree.plain] at hp
    exact ⟨key _ hw' hp' (parses_unary (t := .bin .add) rfl ((ih hs hw.1 hp.1.1 hn).1 10 (lvl_un hw.2 hp.1.2))), fun h => by cases h⟩
  | compl t ih =>
    have hw' := hw; have hp' := hp
    simp [CTree.wf] at hw
    simp [CTree.plain] at hp
    exact ⟨key _ hw' hp' (parses_unary (t := .tilde) rfl ((ih hs hw.1 hp.1.1 hn).1 10 (lvl_un hw.2 hp.1.2))), fun h => by cases h⟩
  | bin o a b iha ihb =>
    have hw' := hw; have hp' := hp
    simp [CTree.wf] at hw
    simp [CTree.plain] at hp
    simp [CTree.names] at hn
    have hsa : a.closed = true ∨ ns.self = true := hs.imp (fun h => by simp [CTree.closed] at h; exact h.1) id
    have hsb : b.closed = true ∨ ns.self = true := hs.imp (fun h => by simp [CTree.closed] at h; exact h.2) id
    obtain ⟨⟨⟨w1, w2⟩, w3⟩, w4⟩ := hw
    obtain ⟨⟨⟨⟨⟨⟨⟨_, _⟩, p1⟩, p2⟩, a1⟩, a2⟩, _⟩, _⟩ := hp
    have hsp := spine_op (t := .bin o) (k := o.lvl) rfl
      (spine a o.lvl (binLvl_loop o) ((lvl_of_cLvl a1 o).1 w3) (iha hsa w1 p1 hn.1))
      ((ihb hsb w2 p2 hn.2).1 (o.lvl + 1) ((lvl_of_cLvl a2 o).2 w4))
    exact ⟨key _ hw' hp' (parses_of_spine hsp), fun _ => hsp⟩
  | cmp o a b iha ihb =>
    have hw' := hw; have hp' := hp
    simp [CTree.wf] at hw
    simp [CTree.plain] at hp
    simp [CTree.names] at hn
    have hsa : a.closed = true ∨ ns.self = true := hs.imp (fun h => by simp [CTree.closed] at h; exact h.1) id
    have hsb : b.closed = true ∨ ns.self = true := hs.imp (fun h => by simp [CTree.closed] at h; exact h.2) id
    obtain ⟨⟨⟨w1, w2⟩, w3⟩, w4⟩ := hw
    obtain ⟨⟨⟨⟨⟨p1, p2⟩, a1⟩, a2⟩, _⟩, _⟩ := hp
    exact ⟨key _ hw' hp' (parses_cmp (t := .cmp o) rfl ((iha hsa w1 p1 hn.1).1 4 (arith_lvl a1)) ((ihb hsb w2 p2 hn.2).1 4 (arith_lvl a2))),
      fun h => by cases h⟩
  | and a b iha ihb =>
    have hw' := hw; have hp' := hp
    simp [CTree.wf] at hw
    simp [CTree.plain] at hp
    simp [CTree.names] at hn
    have hsa : a.closed = true ∨ ns.self = true := hs.imp (fun h => by simp [CTree.closed] at h; exact h.1) id
    have hsb : b.closed = true ∨ ns.self = true := hs.imp (fun h => by simp [CTree.closed] at h; exact h.2) id
    obtain ⟨⟨⟨w1, w2⟩, w3⟩, w4⟩ := hw
    have hsp := spine_op (t := .and) (k := 1) rfl (spine a 1 rfl (lvl_or w3) (iha hsa w1 hp.1 hn.1))
      ((ihb hsb w2 hp.2 hn.2).1 2 (lvl_and w4))
    exact ⟨key _ hw' hp' (parses_of_spine hsp), fun _ => hsp⟩
  | or a b iha ihb =>
    have hw' := hw; have hp' := hp
    simp [CTree.wf] at hw
    simp [CTree.plain] at hp
    simp [CTree.names] at hn
    have hsa : a.closed = true ∨ ns.self = true := hs.imp (fun h => by simp [CTree.closed] at h; exact h.1) id
    have hsb : b.closed = true ∨ ns.self = true := hs.imp (fun h => by simp [CTree.closed] at h; exact h.2) id
    obtain ⟨⟨⟨w1, w2⟩, w3⟩, w4⟩ := hw
    have hsp := spine_op (t := .or) (k := 0) rfl (spine a 0 rfl (Nat.zero_le _) (iha hsa w1 hp.1 hn.1))
      ((ihb hsb w2 hp.2 hn.2).1 1 (lvl_or w4))
    exact ⟨key _ hw' hp' (parses_of_spine hsp), fun _ => hsp⟩
  | cond a b c _ _ _ => cases hp

/-! ### Translation -/

theorem translate_cons (a : Bool × Lex) (h : a.2 ≠ .id "defined") (l : List (Bool × Lex)) :
    translate (a :: l) = a.2.tr :: translate l := by
  obtain ⟨s, a⟩ := a
  rcases l with _ | ⟨b, _ | ⟨c, _ | ⟨d, r⟩⟩⟩
  · rfl
  · simp only [translate]
    split
    · rw [if_neg (fun e => h (by dsimp only; rw [e]))]; rfl
    · rfl
  · simp only [translate]
    split
    · rw [if_neg (fun e => h (by dsimp only; rw [e]))]; rfl
    · rfl
  · simp only [translate]
    split
    · rw [if_neg (fun e => h (by dsimp only; rw [e]))]; rfl
    · rw [if_neg (fun e => h (by dsimp only; rw [e]))]; rfl
    · rfl

theorem translate_defd (b : Bool) (x : String) (l : List (Bool × Lex)) :
    translate ((b, .id "defined") :: (true, .id x) :: l) = .str x :: .isIn :: .dict :: translate l := by
  rcases l with _ | ⟨c, _ | ⟨d, r⟩⟩ <;> simp [translate]

theorem translate_defd_paren (b b' : Bool) (x : String) (l : List (Bool × Lex)) :
    translate ((b, .id "defined") :: (b', .lp) :: (false, .id x) :: (false, .rp) :: l) =
      .str x :: .isIn :: .dict :: translate l := by
  simp [translate]

theorem Spelled.mid {u l v : List (Bool × Lex)} (h : Spelled (u ++ (l ++ v))) : Spelled l := by
  constructor
  · intro u' v' b x e
    exact h.1 (u ++ u') (v' ++ v) b x (by simp [e])
  · intro u' v' b x y z e
    exact h.2 (u ++ u') (v' ++ v) b x y z (by simp [e])

theorem Spelled.left {l v : List (Bool × Lex)} (h : Spelled (l ++ v)) : Spelled l := Spelled.mid (u := []) h
theorem Spelled.right {u l : List (Bool × Lex)} (h : Spelled (u ++ l)) : Spelled l :=
  Spelled.mid (v := []) (by simpa using h)

/-- The text is translated part by part. -/
theorem translate_tree (t : CTree) (hn : t.names P = true) :
    ∀ l rest : List (Bool × Lex), l.map Prod.snd = t.text → Spelled l → translate (l ++ rest) = t.py ++ translate rest := by
  induction t with
  | num n =>
    intro l rest hl hs
    obtain ⟨a, rfl⟩ : ∃ a, l = [a] := by
      cases l with
      | nil => cases hl
      | cons a l => cases l with | nil => exact ⟨a, rfl⟩ | cons => simp [CTree.text] at hl
    simp [CTree.text] at hl
    rw [List.singleton_append, translate_cons _ (by simp [hl]), hl]; rfl
  | id x =>
    intro l rest hl hs
    obtain ⟨a, rfl⟩ : ∃ a, l = [a] := by
      cases l with
      | nil => cases hl
      | cons a l => cases l with | nil => exact ⟨a, rfl⟩ | cons => simp [CTree.text] at hl
    simp [CTree.text] at hl
    simp [CTree.names, goodName] at hn
    rw [List.singleton_append, translate_cons _ (by simp [hl, hn]), hl]; rfl
  | defd b x =>
    intro l rest hl hs
    cases b with
    | false =>
      obtain ⟨a, c, rfl⟩ : ∃ a c, l = [a, c] := by
        rcases l with _ | ⟨a, _ | ⟨c, _ | ⟨d, r⟩⟩⟩
        · simp [CTree.text] at hl
        · simp [CTree.text] at hl
        · exact ⟨a, c, rfl⟩
        · simp [CTree.text] at hl
      obtain ⟨a1, a2⟩ := a
      obtain ⟨c1, c2⟩ := c
      simp [CTree.text] at hl
      obtain ⟨rfl, rfl⟩ := hl
      have := hs.1 [] [] a1 (c1, .id x) rfl ⟨x, rfl⟩
      dsimp only at this
      subst this
      exact translate_defd a1 x rest
    | true =>
      obtain ⟨a, c, d, e, rfl⟩ : ∃ a c d e, l = [a, c, d, e] := by
        rcases l with _ | ⟨a, _ | ⟨c, _ | ⟨d, _ | ⟨e, _ | ⟨f, r⟩⟩⟩⟩⟩
        · simp [CTree.text] at hl
        · simp [CTree.text] at hl
        · simp [CTree.text] at hl
        · simp [CTree.text] at hl
        · exact ⟨a, c, d, e, rfl⟩
        · simp [CTree.text] at hl
      obtain ⟨a1, a2⟩ := a
      obtain ⟨c1, c2⟩ := c
      obtain ⟨d1, d2⟩ := d
      obtain ⟨e1, e2⟩ := e
      simp [CTree.text] at hl
      obtain ⟨rfl, rfl, rfl, rfl⟩ := hl
      obtain ⟨rfl, rfl⟩ : d1 = false ∧ e1 = false := hs.2 [] [] a1 (c1, .lp) (d1, .id x) (e1, .rp) rfl rfl
      exact translate_defd_paren a1 c1 x rest
  | par t ih =>
    intro l rest hl hs
    simp only [CTree.text, List.cons_append, List.map_eq_cons_iff, List.map_eq_append_iff] at hl
    obtain ⟨a, l', rfl, ha, l1, l2, rfl, h1, c, l3, rfl, hc, h3⟩ := hl
    simp at h3; subst h3
    rw [List.cons_append, translate_cons _ (by simp [ha]), List.append_assoc,
      ih hn l1 _ h1 (Spelled.mid (u := [a]) hs), List.singleton_append, translate_cons _ (by simp [hc]), ha, hc]
    simp [CTree.py, Lex.tr]
  | not t ih =>
    intro l rest hl hs
    simp only [CTree.text, List.map_eq_cons_iff] at hl
    obtain ⟨a, l', rfl, ha, h1⟩ := hl
    rw [List.cons_append, translate_cons _ (by simp [ha]), ih hn l' _ h1 (Spelled.right (u := [a]) hs), ha]
    simp [CTree.py, Lex.tr]
  | neg t ih =>
    intro l rest hl hs
    simp only [CTree.text, List.map_eq_cons_iff] at hl
    obtain ⟨a, l', rfl, ha, h1⟩ := hl
    rw [List.cons_append, translate_cons _ (by simp [ha]), ih hn l' _ h1 (Spelled.right (u := [a]) hs), ha]
    simp [CTree.py, Lex.tr]
  | pos t ih =>
    intro l rest hl hs
    simp only [CTree.text, List.map_eq_cons_iff] at hl
    obtain ⟨a, l', rfl, ha, h1⟩ := hl
    rw [List.cons_append, translate_cons _ (by simp [ha]), ih hn l' _ h1 (Spelled.right (u := [a]) hs), ha]
    simp [CTree.py, Lex.tr]
  | compl t ih =>
    intro l rest hl hs
    simp only [CTree.text, List.map_eq_cons_iff] at hl
    obtain ⟨a, l', rfl, ha, h1⟩ := hl
    rw [List.cons_append, translate_cons _ (by simp [ha]), ih hn l' _ h1 (Spelled.right (u := [a]) hs), ha]
    simp [CTree.py, Lex.tr]
  | bin o a b iha ihb =>
    intro l rest hl hs
    simp [CTree.names] at hn
    simp only [CTree.text, List.map_eq_cons_iff, List.map_eq_append_iff] at hl
    obtain ⟨l1, l2, rfl, h1, c, l3, rfl, hc, h3⟩ := hl
    rw [List.append_assoc, iha hn.1 l1 _ h1 hs.left, List.cons_append, translate_cons _ (by simp [hc]),
      ihb hn.2 l3 _ h3 (Spelled.right (u := l1 ++ [c]) (by simpa using hs)), hc]
    simp [CTree.py, Lex.tr]
  | cmp o a b iha ihb =>
    intro l rest hl hs
    simp [CTree.names] at hn
    simp only [CTree.text, List.map_eq_cons_iff, List.map_eq_append_iff] at hl
    obtain ⟨l1, l2, rfl, h1, c, l3, rfl, hc, h3⟩ := hl
    rw [List.append_assoc, iha hn.1 l1 _ h1 hs.left, List.cons_append, translate_cons _ (by simp [hc]),
      ihb hn.2 l3 _ h3 (Spelled.right (u := l1 ++ [c]) (by simpa using hs)), hc]
    simp [CTree.py, Lex.tr]
  | and a b iha ihb =>
    intro l rest hl hs
    simp [CTree.names] at hn
    simp only [CTree.text, List.map_eq_cons_iff, List.map_eq_append_iff] at hl
    obtain ⟨l1, l2, rfl, h1, c, l3, rfl, hc, h3⟩ := hl
    rw [List.append_assoc, iha hn.1 l1 _ h1 hs.left, List.cons_append, translate_cons _ (by simp [hc]),
      ihb hn.2 l3 _ h3 (Spelled.right (u := l1 ++ [c]) (by simpa using hs)), hc]
    simp [CTree.py, Lex.tr]
  | or a b iha ihb =>
    intro l rest hl hs
    simp [CTree.names] at hn
    simp only [CTree.text, List.map_eq_cons_iff, List.map_eq_append_iff] at hl
    obtain ⟨l1, l2, rfl, h1, c, l3, rfl, hc, h3⟩ := hl
    rw [List.append_assoc, iha hn.1 l1 _ h1 hs.left, List.cons_append, translate_cons _ (by simp [hc]),
      ihb hn.2 l3 _ h3 (Spelled.right (u := l1 ++ [c]) (by simpa using hs)), hc]
    simp [CTree.py, Lex.tr]
  | cond a b c iha ihb ihc =>
    intro l rest hl hs
    simp [CTree.names] at hn
    simp only [CTree.text, List.append_assoc, List.cons_append, List.map_eq_cons_iff, List.map_eq_append_iff] at hl
    obtain ⟨l1, l2, rfl, h1, c1, l3, rfl, hc1, l4, l5, rfl, h4, c2, l6, rfl, hc2, h6⟩ := hl
    rw [List.append_assoc, iha hn.1.1 l1 _ h1 hs.left, List.cons_append, translate_cons _ (by simp [hc1]),
      List.append_assoc, ihb hn.1.2 l4 _ h4 (Spelled.mid (u := l1 ++ [c1]) (v := c2 :: l6) (by simpa using hs)),
      List.cons_append, translate_cons _ (by simp [hc2]),
      ihc hn.2 l6 _ h6 (Spelled.right (u := l1 ++ [c1] ++ l4 ++ [c2]) (by simpa using hs)), hc1, hc2]
    simp [CTree.py, Lex.tr]

/-! ### Values -/

theorem fit_some {i v : Int} (h : fit i = some v) : v = i := by
  unfold fit at h
  split at h
  · cases h; rfl
  · cases h

/-- Macros that stand for integers. -/
def intMacros (mac : String → Option Int) : NS := NS.of fun x => (mac x).map Val.int

/-- Python's value of the translated text. -/
theorem value_agrees (mac : String → Option Int) (t : CTree) (hp : t.plain = true) (hn : t.names P = true)
    (hk : t.known P mac = true) : ∀ c, t.value P mac = some c →
    ∃ i : Int, t.pyVal P (intMacros mac) = .val (.int i) ∧ (i = 0 ↔ c = 0) ∧ (t.exact = true → i = c) ∧
      (t.logical = true → i = c ∧ (c = 0 ∨ c = 1)) := by
  induction t with
  | num n =>
    intro c hc
    have := fit_some hc
    subst this
    exact ⟨n, rfl, Iff.rfl, fun _ => rfl, fun h => by cases h⟩
  | id x =>
    intro c hc
    simp [CTree.known] at hk
    obtain ⟨v, hv⟩ := Option.isSome_iff_exists.1 hk
    simp [CTree.value, hv] at hc
    subst hc
    exact ⟨v, by simp [CTree.pyVal, Py.name, intMacros, NS.of, hv], Iff.rfl, fun _ => rfl, fun h => by cases h⟩
  | defd b x =>
    intro c hc
    simp [CTree.value] at hc
    simp [CTree.names, goodName] at hn
    subst hc
    refine ⟨truthC (mac x).isSome, ?_, Iff.rfl, fun _ => rfl, fun _ => ⟨rfl, ?_⟩⟩
    · simp [CTree.pyVal, inVal, intMacros, NS.of, boolVal, truthC, hn]
    · unfold truthC; split <;> simp
  | par t ih => exact ih hp hn hk
  | not t ih =>
    intro c hc
    simp [CTree.value] at hc
    obtain ⟨v, hv, rfl⟩ := hc
    obtain ⟨i, h1, h2, _, _⟩ := ih hp hn hk v hv
    refine ⟨truthC (decide (v = 0)), ?_, Iff.rfl, fun _ => rfl, fun _ => ⟨rfl, ?_⟩⟩
    · simp [CTree.pyVal, h1, Res.not, Res.bind1, boolVal, truthC, Val.truth, h2]
    · unfold truthC; split <;> simp
  | neg t ih =>
    intro c hc
    simp [CTree.plain] at hp
    simp only [CTree.value, Option.bind_eq_some_iff] at hc
    obtain ⟨v, hv, hf⟩ := hc
    have := fit_some hf
    subst this
    obtain ⟨i, h1, h2, h3, _⟩ := ih hp.1.1 hn hk v hv
    have := h3 hp.2
    subst this
    exact ⟨-i, by simp [CTree.pyVal, uNeg, h1, Res.bind1], Iff.rfl, fun _ => rfl, fun h => by cases h⟩
  | pos t ih =>
    intro c hc
    simp [CTree.plain] at hp
    obtain ⟨i, h1, h2, h3, _⟩ := ih hp.1.1 hn hk c hc
    have := h3 hp.2
    subst this
    exact ⟨i, by simp [CTree.pyVal, uPos, h1, Res.bind1], Iff.rfl, fun _ => rfl, fun h => by cases h⟩
  | compl t ih =>
    intro c hc
    simp [CTree.plain] at hp
    simp [CTree.value] at hc
    obtain ⟨v, hv, rfl⟩ := hc
    obtain ⟨i, h1, h2, h3, _⟩ := ih hp.1.1 hn hk v hv
    have := h3 hp.2
    subst this
    exact ⟨P.compl i, by simp [CTree.pyVal, uCompl, h1, Res.bind1], Iff.rfl, fun _ => rfl, fun h => by cases h⟩
  | bin o a b iha ihb =>
    intro c hc
    simp [CTree.plain] at hp
    simp [CTree.names] at hn
    simp [CTree.known] at hk
    obtain ⟨⟨⟨⟨⟨⟨⟨n1, n2⟩, p1⟩, p2⟩, _⟩, _⟩, e1⟩, e2⟩ := hp
    simp only [CTree.value, Option.bind_eq_some_iff] at hc
    obtain ⟨x, hx, y, hy, hf⟩ := hc
    obtain ⟨i, h1, _, h3, _⟩ := iha p1 hn.1 hk.1 x hx
    obtain ⟨j, g1, _, g3, _⟩ := ihb p2 hn.2 hk.2 y hy
    have := h3 e1
    subst this
    have := g3 e2
    subst this
    refine ⟨c, ?_, Iff.rfl, fun _ => rfl, fun h => by cases h⟩
    simp only [CTree.pyVal, h1, g1, Res.bind2]
    cases o
    case div => exact absurd rfl n1
    case mod => exact absurd rfl n2
    case shl =>
      dsimp only at hf
      split at hf
      · cases hf
      · rename_i hlt; rw [fit_some hf]; simp only [Py.binVal]; rw [if_neg hlt]
    case shr =>
      dsimp only at hf
      split at hf
      · cases hf
      · rename_i hlt; rw [fit_some hf]; simp only [Py.binVal]; rw [if_neg hlt]
    case band => cases hf; rfl
    case bor => cases hf; rfl
    case bxor => cases hf; rfl
    all_goals (rw [fit_some hf]; rfl)
  | cmp o a b iha ihb =>
    intro c hc
    simp [CTree.plain] at hp
    simp [CTree.names] at hn
    simp [CTree.known] at hk
    obtain ⟨⟨⟨⟨⟨p1, p2⟩, _⟩, _⟩, e1⟩, e2⟩ := hp
    simp only [CTree.value, Option.bind_eq_some_iff, Option.map_eq_some_iff] at hc
    obtain ⟨x, hx, y, hy, rfl⟩ := hc
    obtain ⟨i, h1, _, h3, _⟩ := iha p1 hn.1 hk.1 x hx
    obtain ⟨j, g1, _, g3, _⟩ := ihb p2 hn.2 hk.2 y hy
    have := h3 e1
    subst this
    have := g3 e2
    subst this
    refine ⟨truthC (o.inC i j), ?_, Iff.rfl, fun _ => rfl, fun _ => ⟨rfl, ?_⟩⟩
    · simp only [CTree.pyVal, h1, g1, Res.bind2]
      cases o <;> rfl
    · unfold truthC; split <;> simp
  | and a b iha ihb =>
    intro c hc
    simp [CTree.plain] at hp
    simp [CTree.names] at hn
    simp [CTree.known] at hk
    simp only [CTree.value, Option.bind_eq_some_iff] at hc
    obtain ⟨x, hx, hc⟩ := hc
    obtain ⟨i, h1, h2, h3, h4⟩ := iha hp.1 hn.1 hk.1 x hx
    by_cases hx0 : x = 0
    · rw [if_pos hx0] at hc
      cases hc
      have hi : i = 0 := h2.2 hx0
      subst hi
      refine ⟨0, ?_, Iff.rfl, fun _ => rfl, fun _ => ⟨rfl, Or.inl rfl⟩⟩
      simp [CTree.pyVal, h1, Res.and, Val.truth]
    · rw [if_neg hx0] at hc
      have hkb : b.known P mac = true := by
        rcases hk.2 with h | h
        · rw [hx] at h; cases h; exact absurd rfl hx0
        · exact h
      simp only [Option.map_eq_some_iff] at hc
      obtain ⟨y, hy, rfl⟩ := hc
      obtain ⟨j, g1, g2, g3, g4⟩ := ihb hp.2 hn.2 hkb y hy
      have hi : i ≠ 0 := fun h => hx0 (h2.1 h)
      refine ⟨j, ?_, ?_, fun he => ?_, fun he => ?_⟩
      · simp [CTree.pyVal, h1, Res.and, Val.truth, hi, g1]
      · simp [g2, truthC]
      · simp [CTree.exact] at he
        obtain ⟨e1, e2⟩ := g4 he.2
        rw [e1]
        rcases e2 with e | e <;> simp [e, truthC]
      · simp [CTree.logical] at he
        obtain ⟨e1, e2⟩ := g4 he.2
        rw [e1]
        rcases e2 with e | e <;> simp [e, truthC]
  | or a b iha ihb =>
    intro c hc
    simp [CTree.plain] at hp
    simp [CTree.names] at hn
    simp [CTree.known] at hk
    simp only [CTree.value, Option.bind_eq_some_iff] at hc
    obtain ⟨x, hx, hc⟩ := hc
    obtain ⟨i, h1, h2, h3, h4⟩ := iha hp.1 hn.1 hk.1 x hx
    by_cases hx0 : x = 0
    · rw [if_neg (by simp [hx0])] at hc
      have hkb : b.known P mac = true := by
        rcases hk.2 with h | h
        · rw [hx] at h; simp [hx0] at h
        · exact h
      simp only [Option.map_eq_some_iff] at hc
      obtain ⟨y, hy, rfl⟩ := hc
      obtain ⟨j, g1, g2, g3, g4⟩ := ihb hp.2 hn.2 hkb y hy
      have hi : i = 0 := h2.2 hx0
      refine ⟨j, ?_, ?_, fun he => ?_, fun he => ?_⟩
      · simp [CTree.pyVal, h1, Res.or, Val.truth, hi, g1]
      · simp [g2, truthC]
      · simp [CTree.exact] at he
        obtain ⟨e1, e2⟩ := g4 he.2
        rw [e1]
        rcases e2 with e | e <;> simp [e, truthC]
      · simp [CTree.logical] at he
        obtain ⟨e1, e2⟩ := g4 he.2
        rw [e1]
        rcases e2 with e | e <;> simp [e, truthC]
    · rw [if_pos hx0] at hc
      cases hc
      have hi : i ≠ 0 := fun h => hx0 (h2.1 h)
      refine ⟨i, ?_, by simp [hi], fun he => ?_, fun he => ?_⟩
      · simp [CTree.pyVal, h1, Res.or, Val.truth, hi]
      · simp [CTree.exact] at he
        obtain ⟨e1, e2⟩ := h4 he.1
        rcases e2 with e | e
        · exact absurd e hx0
        · rw [e1, e]
      · simp [CTree.logical] at he
        obtain ⟨e1, e2⟩ := h4 he.1
        rcases e2 with e | e
        · exact absurd e hx0
        · exact ⟨by rw [e1, e], Or.inr rfl⟩
  | cond a b c _ _ _ => cases hp

theorem eval_tree (t : CTree) (hs : t.closed = true ∨ ns.self = true) (hw : t.wf = true) (hp : t.plain = true) (hn : t.names P = true)
    (l : List (Bool × Lex)) (hl : l.map Prod.snd = t.text) (hsp : Spelled l) :
    P.eval ns (translate l) = t.pyVal P ns := by
  have h := translate_tree (P := P) t hn l [] hl hsp
  simp only [List.append_nil] at h
  rw [h]
  have := (reads (P := P) t hs hw hp hn).1 0 (Nat.zero_le _) [] (fun t ts e => by cases e)
  simpa [translate] using this.eval

/-- **C89** The condition of `#if` and `#elif`, and the macros are integers: if the compiler
gives the condition a value, then SCons takes it as true exactly if that value is not 0, and
no exception is raised; for conditions that are `plain`, whose evaluated names are all
macros, and in which no name is a word of Python. (Missing: the rest; see the
counterexamples.) -/
theorem C89_conditions_as_the_compiler_partial (P : Py) (mac : String → Option Int) (t : CTree) (hw : t.wf = true)
    (hp : t.plain = true) (hn : t.names P = true) (hk : t.known P mac = true)
    (l : List (Bool × Lex)) (hl : l.map Prod.snd = t.text) (hsp : Spelled l)
    (c : Int) (hc : t.value P mac = some c) :
    P.condition (intMacros mac) l = some (decide (c ≠ 0)) := by
  obtain ⟨i, h1, h2, _, _⟩ := value_agrees mac t hp hn hk c hc
  unfold Py.condition
  rw [eval_tree t (Or.inr rfl) hw hp hn l hl hsp, h1]
  simp [Val.truth, h2]

/-- **C89** A condition followed by something that cannot follow it (a number, a name or a
closing parenthesis) is false: `#if 1 1`, `#if (A))`. -/
theorem C89_more_text_is_false (P : Py) (mac : String → Option Int) (t : CTree) (hw : t.wf = true)
    (hp : t.plain = true) (hn : t.names P = true)
    (l : List (Bool × Lex)) (hl : l.map Prod.snd = t.text) (hsp : Spelled l)
    (b : Bool) (x : Lex) (hx : x = .rp ∨ (∃ n, x = .num n) ∨ ∃ y, x = .id y ∧ y ≠ "defined") (r : List (Bool × Lex)) :
    P.condition (intMacros mac) (l ++ (b, x) :: r) = some false := by
  have h := translate_tree (P := P) t hn l ((b, x) :: r) hl hsp
  have h1 : (b, x).2 ≠ .id "defined" := by
    rcases hx with rfl | ⟨n, rfl⟩ | ⟨y, rfl, hy⟩
    · simp
    · simp
    · simpa using hy
  rw [translate_cons _ h1] at h
  obtain ⟨t1, ts1, e, ht⟩ : ∃ (t1 : Tok) (ts1 : List Tok), Lex.tr x :: translate r = t1 :: ts1 ∧ t1.tight = none := by
    rcases hx with rfl | ⟨n, rfl⟩ | ⟨y, rfl, hy⟩ <;> exact ⟨_, _, rfl, rfl⟩
  have e' : translate (l ++ (b, x) :: r) = t.py ++ (t1 :: ts1) := by rw [h]; simpa using e
  obtain ⟨n, hn'⟩ := (reads (P := P) (ns := intMacros mac) t (Or.inr rfl) hw hp hn).1 0 (Nat.zero_le _) (t1 :: ts1)
    (by intro u us eu j hj; cases eu; rw [ht] at hj; cases hj)
  have h2 : P.eval (intMacros mac) (t.py ++ (t1 :: ts1)) = .caught := by
    have h3 := parse_le (Nat.le_max_left n (16 * ((t.py ++ (t1 :: ts1)).length + 1))) hn'
    rw [fuel_enough_le (Nat.le_max_right n (16 * ((t.py ++ (t1 :: ts1)).length + 1))) _ _ (by simp [bound, Mode.rank] <;> omega)] at h3
    unfold Py.eval
    rw [h3]
  unfold Py.condition
  rw [e', h2]

/-- A closed expression has the same value with any macros. -/
theorem closed_py (t : CTree) (h : t.closed = true) (ns ns' : NS) : t.pyVal P ns = t.pyVal P ns' := by
  induction t with
  | num n => rfl
  | id x => cases h
  | defd b x => cases h
  | par t ih => exact ih h
  | not t ih => simp only [CTree.pyVal]; rw [ih h]
  | neg t ih => simp only [CTree.pyVal]; rw [ih h]
  | pos t ih => simp only [CTree.pyVal]; rw [ih h]
  | compl t ih => simp only [CTree.pyVal]; rw [ih h]
  | bin o a b iha ihb => simp [CTree.closed] at h; simp only [CTree.pyVal]; rw [iha h.1, ihb h.2]
  | cmp o a b iha ihb => simp [CTree.closed] at h; simp only [CTree.pyVal]; rw [iha h.1, ihb h.2]
  | and a b iha ihb => simp [CTree.closed] at h; simp only [CTree.pyVal]; rw [iha h.1, ihb h.2]
  | or a b iha ihb => simp [CTree.closed] at h; simp only [CTree.pyVal]; rw [iha h.1, ihb h.2]
  | cond a b c iha ihb ihc => simp [CTree.closed] at h; simp only [CTree.pyVal]; rw [iha h.1.1, ihb h.1.2, ihc h.2]

theorem closed_known (mac : String → Option Int) (t : CTree) (h : t.closed = true) : t.known P mac = true := by
  induction t with
  | num n => rfl
  | id x => cases h
  | defd b x => cases h
  | par t ih => exact ih h
  | not t ih => exact ih h
  | neg t ih => exact ih h
  | pos t ih => exact ih h
  | compl t ih => exact ih h
  | bin o a b iha ihb => simp [CTree.closed] at h; simp [CTree.known, iha h.1, ihb h.2]
  | cmp o a b iha ihb => simp [CTree.closed] at h; simp [CTree.known, iha h.1, ihb h.2]
  | and a b iha ihb => simp [CTree.closed] at h; simp [CTree.known, iha h.1, ihb h.2]
  | or a b iha ihb => simp [CTree.closed] at h; simp [CTree.known, iha h.1, ihb h.2]
  | cond a b c iha ihb ihc => simp [CTree.closed] at h; simp [CTree.known, iha h.1.1, ihb h.1.2, ihc h.2]

/-! ### Sequences of definitions -/

/-- A line: `#define x body` or `#undef x`. -/
inductive Def where
  | define (x : String) (body : CTree) (lexemes : List (Bool × Lex)) (text : String) (chain : Bool)
  | undef (x : String)

/-- The body is an integer constant, or a constant expression in parentheses: putting the
text or the value in its place is the same. -/
def CTree.atomic : CTree → Bool
  | .num _ | .par _ => true
  | _ => false

/-- The body stands for this integer. -/
structure Constant (P : Py) (t : CTree) (l : List (Bool × Lex)) (c : Int) : Prop where
  atomic : t.atomic = true
  closed : t.closed = true
  wf : t.wf = true
  plain : t.plain = true
  exact : t.exact = true
  names : t.names P = true
  text : l.map Prod.snd = t.text
  spelled : Spelled l
  value : t.value P (fun _ => none) = some c

/-- The macros after the lines, for the compiler. -/
inductive MacrosAfter (P : Py) : List Def → (String → Option Int) → (String → Option Int) → Prop where
  | nil (mac) : MacrosAfter P [] mac mac
  | define {x t l text chain c r mac mac'} (h : Constant P t l c)
      (hr : MacrosAfter P r (fun y => if y = x then some c else mac y) mac') :
      MacrosAfter P (.define x t l text chain :: r) mac mac'
  | undef {x r mac mac'} (hr : MacrosAfter P r (fun y => if y = x then none else mac y) mac') :
      MacrosAfter P (.undef x :: r) mac mac'

/-- The name space of SCons after the lines. -/
def Py.run (P : Py) : List Def → NS → Option NS
  | [], ns => some ns
  | .define x _ l text chain :: r, ns => (P.define ns x l text chain).bind (P.run r)
  | .undef x :: r, ns => P.run r (undefine ns x)

theorem define_constant (mac : String → Option Int) (x : String) (t : CTree) (l : List (Bool × Lex)) (text : String)
    (chain : Bool) (c : Int) (h : Constant P t l c) :
    P.define (intMacros mac) x l text chain = some (intMacros fun y => if y = x then some c else mac y) := by
  obtain ⟨i, h1, _, h3, _⟩ := value_agrees (P := P) (fun _ => none) t h.plain h.names (closed_known _ t h.closed) c h.value
  have := h3 h.exact
  subst this
  have h2 : P.eval NS.empty (translate l) = .val (.int i) := by
    rw [eval_tree t (Or.inl h.closed) h.wf h.plain h.names l h.text h.spelled, closed_py t h.closed _ (intMacros fun _ => none), h1]
  unfold Py.define
  rw [h2]
  simp only [intMacros, NS.set, NS.of, Option.some.injEq, NS.mk.injEq, and_true]
  funext y
  split <;> simp

/-- **C89** Definitions: after any `#define` of integer constants and constant expressions
in parentheses, and `#undef`, the macros of SCons are those of the compiler, and conditions
are decided as in `C89_conditions_as_the_compiler_partial`. -/
theorem C89_defined_constants_partial (P : Py) (defs : List Def) (mac mac' : String → Option Int)
    (hd : MacrosAfter P defs mac mac') :
    P.run defs (intMacros mac) = some (intMacros mac') ∧
    ∀ (t : CTree) (l : List (Bool × Lex)) (c : Int), t.wf = true → t.plain = true → t.names P = true →
      t.known P mac' = true → l.map Prod.snd = t.text → Spelled l → t.value P mac' = some c →
      (P.run defs (intMacros mac)).bind (fun ns => P.condition ns l) = some (decide (c ≠ 0)) := by
  have hrun : P.run defs (intMacros mac) = some (intMacros mac') := by
    induction hd with
    | nil mac => rfl
    | define h hr ih => simp only [Py.run]; rw [define_constant _ _ _ _ _ _ _ h]; exact ih
    | @undef x r mac mac' hr ih =>
      simp only [Py.run]
      have : undefine (intMacros mac) x = intMacros fun y => if y = x then none else mac y := by
        simp only [undefine, intMacros, NS.set, NS.of, NS.mk.injEq, and_true]
        funext y
        split <;> simp
      rw [this]; exact ih
  refine ⟨hrun, fun t l c hw hp hn hk hl hs hc => ?_⟩
  rw [hrun]
  exact C89_conditions_as_the_compiler_partial P mac' t hw hp hn hk l hl hs c hc

end

end Verif.CppExpr
