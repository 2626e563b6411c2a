import Verif.Hash.Model

/-!
# Specification for C113
-/

namespace Verif.Hash
variable {F D : Type} [DecidableEq F] [DecidableEq D]

/-- A hash collision between two contents that files had at some time. -/
def Collision (P : Project F D) (W : World F D) : Prop := ∃ a x y, W.seen x ∧ W.seen y ∧ x ≠ y ∧ P.dig a x = P.dig a y

/-- Digests of different algorithms are different: they have 32, 40 and 64 characters. -/
def Lengths (P : Project F D) : Prop := ∀ a x, (P.dig a x).length = match a with | .md5 => 32 | .sha1 => 40 | .sha256 => 64

/-- The target is what its command makes of its dependencies as they are now. -/
def Right (P : Project F D) (W : World F D) (t : F) : Prop := ∃ cs, (P.deps t).map W.files = cs.map some ∧ W.files t = some (P.act t cs)

/-- The tasks are in an order in which nothing is built after something that depends on it, and nothing twice. -/
def Ordered (P : Project F D) (ts : List F) : Prop := ∀ a t b, ts = a ++ t :: b → t ∉ b ∧ (∀ d ∈ P.deps t, d ∉ b) ∧ t ∉ P.deps t

/-- The script does nothing that concerns signatures but `SetOption`. -/
def Quiet (r : Run F) : Prop := ∀ e ∈ r.events, ∃ s, e = .setOption s

/-- The last `SetOption('hash_format', ...)`. -/
def lastSetting : List (Ev F) → Option Str → Option Str
  | [], o => o
  | .setOption s :: es, _ => lastSetting es (some s)
  | _ :: es, o => lastSetting es o

/-- The hash format asked for: on the command line, or else by the script. -/
def asked (r : Run F) : Option Str := match r.cmdline with | some s => some s | none => lastSetting r.events none

/-- The script begins with `SConsignFile(n)`, and does not call it again. -/
def Named (n : Str) (r : Run F) : Prop := n ≠ [] ∧ ∃ pre es, r.events = pre ++ .sconsignFile (some n) :: es ∧ (∀ e ∈ pre, ∀ fs, e ≠ .check fs) ∧ ∀ e ∈ es, ∀ m, e ≠ .sconsignFile m

/-- The script asks for a database in each directory, and otherwise at most sets options. -/
def PerDirectory (r : Run F) : Prop := ∃ es, r.events = .sconsignFile none :: es ∧ ∀ e ∈ es, ∃ s, e = .setOption s

end Verif.Hash
