import Verif.Zip.Model

/-!
# Specification for C109: unpacking, and looking things up
-/

namespace Verif.Zip

/-- The first entry of this name. -/
def entry (n : Str) : List (Str × Obj) → Option Obj
  | [] => none
  | (m, o) :: r => if m = n then some o else entry n r

/-- What is at a path; links are not followed. -/
def Obj.at : Obj → Path → Option Obj
  | o, [] => some o
  | .dir es, n :: p => match entry n es with
    | some o => o.at p
    | none => none
  | _, _ :: _ => none

mutual
/-- No directory has two entries of one name, or one that is called `..`. -/
inductive Tidy : Obj → Prop where
  | file {c y} : Tidy (.file c y)
  | other : Tidy .other
  | dir {es} : TidyL es → Tidy (.dir es)
  | link {es} : TidyL es → Tidy (.link es)
inductive TidyL : List (Str × Obj) → Prop where
  | nil : TidyL []
  | cons {n o r} : entry n r = none → n ≠ ['.', '.'] → Tidy o → TidyL r → TidyL ((n, o) :: r)
end

/-- Unpacking into a directory: a member is written to its name, without components `..` (as Python's zipfile and Info-ZIP do it);
the last one stays. -/
def unpack (l : List (List Str × Nat)) (q : Path) : Option Nat :=
  (l.reverse.find? fun m => decide (m.1.filter (fun c => decide (c ≠ ['.', '.'])) = q)).map fun m => m.2

/-- The meaning of a relative path with leading `..`. -/
def follow : Path → List Str → Path
  | d, [] => d
  | d, c :: r => if c = ['.', '.'] then follow d.dropLast r else follow (d ++ [c]) r

/-- A name in a path. -/
def Comp (n : Str) : Prop := n ≠ [] ∧ n ≠ ['.'] ∧ n ≠ ['.', '.'] ∧ '/' ∉ n

/-- A path as a text. -/
def text : List Str → Str
  | [] => []
  | [x] => x
  | x :: l => x ++ '/' :: text l

/-- Sources of a world. -/
def sources (w : Obj) (ss : List Path) : List (Path × Obj) := ss.map fun s => (s, (w.at s).getD .other)

end Verif.Zip
