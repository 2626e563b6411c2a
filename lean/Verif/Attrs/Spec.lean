import Verif.Attrs.Model
import Verif.FS.LookupProps

/-!
# Specification for C111

What a path means to the operating system, and what a suffix is.
-/

namespace Verif.Attrs
open Verif.FS (Str walk GoodName)

/-- The file a process whose working directory is `cwd` opens under a name: an absolute name starts at the root; empty names and `.` stay, `..` goes up.  The empty string names no file. -/
def opens (cwd : Path) : Str → Option Path
  | [] => none
  | '/' :: p => some (walk [] (p.splitOn '/'))
  | p => some (walk cwd (p.splitOn '/'))

/-- Every name on the way is a proper file name: not empty, not `.` or `..`, without slash. -/
def Proper (n : Path) : Prop := ∀ c ∈ n, GoodName c

/-- A suffix: a dot and what follows it, with no further dot and no slash, and not a number. -/
structure IsExt (digit : Char → Bool) (e : Str) : Prop where
  shape : ∃ t, e = '.' :: t ∧ '.' ∉ t ∧ '/' ∉ t ∧ (t = [] ∨ ∃ c ∈ t, digit c = false)

/-- `p` splits into `b` and the suffix `e`; `e` is empty only when `p` ends with no suffix. -/
structure Splits (digit : Char → Bool) (p b e : Str) : Prop where
  whole : b ++ e = p
  ext : IsExt digit e ∨ e = []
  none : e = [] → ∀ b' e', b' ++ e' = p → ¬ IsExt digit e'

/-- No variant directory is above the node, and it is none itself. -/
def Plain (W : World) (n : Path) : Prop := ∀ p, p <+: n → W.srcdir p = none

end Verif.Attrs
