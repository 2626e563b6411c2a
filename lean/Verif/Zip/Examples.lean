import Verif.Zip.Props

/-!
# C109: examples and counterexamples
-/

namespace Verif.Zip

def n (s : String) : Str := s.toList

/-- A world. -/
def world : Obj := .dir [(n "proj", .dir [
  (n "build", .dir [(n "a", .file 1 2020), (n "sub", .dir [(n "b", .file 2 2021), (n "empty", .dir [])]), (n "there", .link [(n "c", .file 3 2000)]), (n "pipe", .other)]),
  (n "a", .file 4 2020), (n "old", .file 5 1970)])]

/-- The same, with the entries of a directory the other way round. -/
def world' : Obj := .dir [(n "proj", .dir [(n "build", .dir [(n "sub", .dir [(n "b", .file 2 2021)]), (n "x", .file 6 2000), (n "a", .file 1 2020)])])]

theorem worldTidy : Tidy world := by
  have f : ∀ {c y}, Tidy (.file c y) := .file
  refine .dir (.cons rfl (by decide) (.dir (.cons (by decide) (by decide) (.dir (.cons (by decide) (by decide) f (.cons (by decide) (by decide)
    (.dir (.cons (by decide) (by decide) f (.cons rfl (by decide) (.dir .nil) .nil))) (.cons (by decide) (by decide) (.link (.cons rfl (by decide) f .nil))
      (.cons rfl (by decide) .other .nil))))) (.cons (by decide) (by decide) f (.cons rfl (by decide) f .nil)))) .nil)

def p (l : List String) : Path := l.map n

example : zip (p ["proj"]) (n "build") (sources world [p ["proj", "build"]]) = some [([n "a"], 1), ([n "sub", n "b"], 2)] := by decide +kernel

/-- The theorem applies. -/
example {l : List (List Str × Nat)} (h : zip (p ["proj"]) (n "build") (sources world [p ["proj", "build"]]) = some l) :
    unpack l (p ["sub", "b"]) = some 2 ∧ unpack l (p ["c"]) = none := by
  have e : abspath (p ["proj"]) (n "build") = p ["proj", "build"] := by decide +kernel
  have hl : ∀ s ∈ [p ["proj", "build"]], ∀ es, world.at s ≠ some (.link es) := by
    intro s hs es
    simp only [List.mem_singleton] at hs
    subst hs
    simp [world, p, n, Obj.at, entry]
  have key := C109_unpacked_partial worldTidy h (by simp [e]) hl
  rw [e] at key
  refine ⟨(key _ 2).2 ⟨⟨_, List.mem_singleton.2 rfl, by decide +kernel⟩, 2021, rfl⟩, ?_⟩
  cases hu : unpack l (p ["c"]) with
  | none => rfl
  | some c =>
    obtain ⟨-, y, hy⟩ := (key _ c).1 hu
    simp [world, p, n, Obj.at, entry] at hy

/-- What is in directories that links lead to is not in the archive. -/
theorem C109_link_lost :
    ((zip (p ["proj"]) (n "build") (sources world [p ["proj", "build"]])).map fun l => unpack l (p ["there", "c"])) = some none := by decide +kernel

/-- A file outside `ZIPROOT` is stored with `..` in its name; unpacked, it takes the place of another one. -/
theorem C109_outside :
    zip (p ["proj"]) (n "build") (sources world [p ["proj", "build", "a"], p ["proj", "a"]]) = some [([n "a"], 1), ([n "..", n "a"], 4)] ∧
      ((zip (p ["proj"]) (n "build") (sources world [p ["proj", "build", "a"], p ["proj", "a"]])).map fun l => unpack l (p ["a"])) = some (some 4) := by
  constructor <;> decide +kernel

/-- A file named twice, here by itself and by its directory, is stored twice. -/
theorem C109_twice :
    zip (p ["proj"]) (n "build") (sources world [p ["proj", "build", "a"], p ["proj", "build"]]) =
      some [([n "a"], 1), ([n "a"], 1), ([n "sub", n "b"], 2)] := by decide +kernel

/-- The order of the members is that of the file system: the archive of the same files is not always the same. -/
theorem C109_order :
    zip (p ["proj"]) [] (sources (.dir [(n "d", .dir [(n "a", .file 1 2000), (n "b", .file 2 2000)])]) [p ["d"]]) ≠
      zip (p ["proj"]) [] (sources (.dir [(n "d", .dir [(n "b", .file 2 2000), (n "a", .file 1 2000)])]) [p ["d"]]) := by decide +kernel

/-- A file from before 1980, say with the time 0, cannot be stored, whatever `ZIP_OVERRIDE_TIMESTAMP` says. -/
theorem C109_old : zip (p ["proj"]) [] (sources world [p ["proj", "old"]]) = none := by decide +kernel

/-- Variables in `ZIPROOT` are not expanded, and `#` does not stand for the top directory. -/
theorem C109_root_literal :
    zip (p ["proj"]) (n "$DIR") (sources world [p ["proj", "build", "a"]]) = some [([n "..", n "build", n "a"], 1)] ∧
      zip (p ["proj"]) (n "#build") (sources world [p ["proj", "build", "a"]]) = some [([n "..", n "build", n "a"], 1)] := by
  constructor <;> decide +kernel

end Verif.Zip
