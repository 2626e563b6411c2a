import Verif.Prep.Model

/-!
# What is done before a command is run (C116): the specification
-/

namespace Verif.Prep

/-- `q` is one of the directories that `p` is in. -/
def Above (q p : Path) : Prop := ∃ l, l ≠ [] ∧ p = l ++ q

/-- All directories that `p` is in are there. -/
def DirsThere (d : Disk) (p : Path) : Prop := ∀ q, Above q p → d q = some .dir

/-- A file that is to be removed before it is built again. -/
def Removable (G : Graph) (p : Path) : Prop := G.derived p = true ∧ G.precious p = false ∧ G.upToDate p = false

/-- There is no need to worry about a source or dependency: it is built, or in a repository, or it is there (and not remembered as not there). -/
def Present (G : Graph) (s : St) (p : Path) : Prop := G.derived p = true ∨ G.linked p = true ∨ G.inRepo p = true ∨ (stat s.disk p = true ∧ s.memo p ≠ some false)

/-- It is not. -/
def Absent (G : Graph) (s : St) (p : Path) : Prop := G.derived p = false ∧ G.linked p = false ∧ G.inRepo p = false ∧ stat s.disk p = false ∧ s.memo p ≠ some true

/-- Directories that some node of the build is in. -/
def NeedDir (N : Path → Prop) (q : Path) : Prop := ∃ p, N p ∧ Above q p

/-- The disk is a tree as far as the files `N` are concerned, and their directories are directories if they are there at all. -/
structure Tree (N : Path → Prop) (d : Disk) : Prop where
  root : d [] = some .dir
  need : ∀ q, NeedDir N q → d q = none ∨ d q = some .dir
  up : ∀ c q, N (c :: q) ∨ NeedDir N (c :: q) → d (c :: q) ≠ none → d q = some .dir
  files : ∀ p, N p → p ≠ [] ∧ ¬ NeedDir N p ∧ d p ≠ some .dir

/-- What nodes remember is so: no directory is gone that was there, or that was made, or that a file was in; what the files `T` remember is right. -/
structure Fresh (N T : Path → Prop) (s : St) : Prop where
  rootMemo : s.memo [] ≠ some false
  dirs : ∀ q, NeedDir N q → s.memo q = some true → s.disk q = some .dir
  made : ∀ q, NeedDir N q → s.made q = true → s.disk q = some .dir
  seen : ∀ c q, N (c :: q) → s.memo (c :: q) = some true → s.disk q = some .dir
  files : ∀ p b, T p → s.memo p = some b → b = stat s.disk p

end Verif.Prep
