import Verif.Tree.Model

/-!
# Specification for C112: trees, and reading them
-/

namespace Verif.Tree

/-- A tree as one sees it: a node, whether its name stands in brackets, and what hangs below it. -/
inductive T (ν : Type) where
  | node (n : ν) (stop : Bool) (below : List (T ν))

variable {ν : Type}

def T.root : T ν → ν
  | .node n _ _ => n

mutual
/-- Everything in the tree: the node, its brackets, the nodes right below it. -/
def T.all : T ν → List (ν × Bool × List ν)
  | .node n s ts => (n, s, ts.map T.root) :: T.alls ts
def T.alls : List (T ν) → List (ν × Bool × List ν)
  | [] => []
  | t :: ts => T.all t ++ T.alls ts
end

/-- Reading one line, from left to right: pairs of characters up to the `+-`, and the rest; the number of pairs is the depth. -/
def readLine : Str → Option (Nat × Str)
  | ' ' :: ' ' :: r => (readLine r).map fun p => (p.1 + 1, p.2)
  | '|' :: ' ' :: r => (readLine r).map fun p => (p.1 + 1, p.2)
  | '+' :: '-' :: r => some (0, r)
  | _ => none

/-- Reading the lines from the bottom up: what hangs below a line are the trees that begin further right, up to the first that does not. -/
def readUp : List (Nat × Str) → List (Nat × T Str)
  | [] => []
  | (d, s) :: ls =>
    let rest := readUp ls
    (d, .node s false ((rest.takeWhile fun p => d < p.1).map (·.2))) :: rest.dropWhile fun p => d < p.1

/-- Reading one line with line drawing characters: the node's own sign is `└─` or `├─`, followed by `┬` or `─` when there are children. -/
def readBoxes : Str → Option (Nat × Str)
  | ' ' :: ' ' :: r => (readBoxes r).map fun p => (p.1 + 1, p.2)
  | '│' :: ' ' :: r => (readBoxes r).map fun p => (p.1 + 1, p.2)
  | '└' :: '─' :: r | '├' :: '─' :: r => match r with
    | '┬' :: r' | '─' :: r' => some (0, r')
    | r => some (0, r)
  | _ => none

/-- The tree that one reads off the text. -/
def readTree (read : Str → Option (Nat × Str)) (text : List Str) : Option (T Str) :=
  match text.mapM read with
  | none => none
  | some ls => match readUp ls with
    | [(_, t)] => some t
    | _ => none

/-- The depths of the lines. -/
def depths (read : Str → Option (Nat × Str)) (text : List Str) : List Nat := text.filterMap fun l => (read l).map (·.1)

/-- Going down over lines that begin further right than column `j`, one comes to a line that begins at column `j`. -/
def comesTo (j : Nat) (ds : List Nat) : Bool := (ds.dropWhile fun d => j < d).head? == some j

/-- What one sees in the text: every bar leads down to a line that begins there, and where there is none there is none. -/
def BarsTrue (read : Str → Option (Nat × Str)) (bar : Char) (text : List Str) : Prop :=
  ∀ pre l post, text = pre ++ l :: post → ∃ d s, read l = some (d, s) ∧ ∀ j, j < d → l[2 * j]? = some (if comesTo j (depths read post) then bar else ' ')

/-- The corners: `├` where a sibling follows, `└` at the last; `┬` where children follow. -/
def CornersTrue (text : List Str) : Prop :=
  ∀ pre l post, text = pre ++ l :: post → ∃ d s, readBoxes l = some (d, s) ∧ l[2 * d]? = some (if comesTo d (depths readBoxes post) then '├' else '└') ∧
    (l[2 * d + 2]? = some '┬' ↔ (depths readBoxes post).head? = some (d + 1))

mutual
/-- The tree with the texts in the place of the nodes (and brackets written out). -/
def T.text (str : ν → Str) : T ν → T Str
  | .node n s ts => .node (if s then '[' :: str n ++ [']'] else str n) false (T.texts str ts)
def T.texts (str : ν → Str) : List (T ν) → List (T Str)
  | [] => []
  | t :: ts => T.text str t :: T.texts str ts
end

/-- One can get from `a` to `b` over dependencies. -/
inductive Reach (kids : ν → List ν) : ν → ν → Prop
  | refl (a : ν) : Reach kids a a
  | step {a b c : ν} : b ∈ kids a → Reach kids b c → Reach kids a c

/-- The tree is true: below a name without brackets are exactly the node's children, in their order; below a name in brackets is nothing. -/
def True' (kids : ν → List ν) (t : T ν) : Prop := ∀ n s bs, (n, s, bs) ∈ t.all → if s then bs = [] else bs = kids n

/-! ## Source files -/

/-- The file `x` is found from the node `s`: below directories, and among the sources of what is built. -/
inductive Source (G : Nodes ν) : ν → ν → Prop
  | file {s : ν} : G.isDir s = false → G.hasBuilder s = false → G.isFile s = true → Source G s s
  | dir {s c x : ν} : G.isDir s = true → c ∈ G.allChildren s → Source G c x → Source G s x
  | built {s c x : ν} : G.isDir s = false → G.hasBuilder s = true → c ∈ G.sources s → Source G c x → Source G s x

/-- `y` is the node one comes to from `x` by going from variant directories to their sources as far as possible. -/
inductive Final (G : Nodes ν) : ν → ν → Prop
  | stop {x : ν} : G.srcnode x = x → Final G x x
  | step {x y : ν} : G.srcnode x ≠ x → Final G (G.srcnode x) y → Final G x y

end Verif.Tree
