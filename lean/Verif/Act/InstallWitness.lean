import Verif.Act.InstallProps

/-!
# `Install` (C81): an example, and where the copy is wrong
-/

namespace Verif.Install.Ex

/-- A directory from a list of its entries. -/
def mk (m : Nat) (es : List (Name × Tree Nat)) : Tree Nat :=
  .dir m (es.map (·.1)) (fun n => ((es.find? fun e => e.1 == n).map (·.2)).getD (.file 0 0))

/-- What one sees of the object under a path: content and mode of a file, the mode of a directory. -/
def see (r : Option (Tree Nat)) (p : List Name) : Option (Option Nat × Nat) :=
  (r.bind fun t => look t p).map fun t => match t with
    | .file c m => (some c, m)
    | .dir m _ _ => (none, m)

/-- 0o644, 0o444, 0o755. -/
def src : Tree Nat := mk 493 [("a", .file 1 420), ("d", mk 493 [("b", .file 2 292)])]
/-- An older copy, with a file that is no longer in the source. -/
def old : Tree Nat := mk 493 [("a", .file 7 420), ("d", mk 493 [("z", .file 9 420)])]

theorem nonvacuous :
    (copyFunc false 493 "src" src (some old)).2 = true ∧
    (let r := (copyFunc false 493 "src" src (some old)).1
     see r ["a"] = some (some 1, 420) ∧ see r ["d"] = some (none, 493) ∧ see r ["d", "b"] = some (some 2, 292) ∧ see r ["d", "z"] = some (some 9, 420)) := by
  decide +kernel

theorem listed : Listed src := by
  refine .dir _ _ _ (by decide) fun n hn => ?_
  simp only [List.map_cons, List.map_nil, List.mem_cons, List.not_mem_nil, or_false] at hn
  rcases hn with rfl | rfl
  · exact .file _ _
  · refine .dir _ _ _ (by decide) fun n hn => ?_
    simp only [List.map_cons, List.map_nil, List.mem_cons, List.not_mem_nil, or_false] at hn
    subst hn
    exact .file _ _

/-- The paths of the source that lead to something, and what they lead to in `old`. -/
theorem paths (p : List Name) (x : Tree Nat) (h : look src p = some x) : p = [] ∨ p = ["a"] ∨ p = ["d"] ∨ p = ["d", "b"] := by
  cases p with
  | nil => exact .inl rfl
  | cons k p =>
    rw [src, mk, look_dir] at h
    split at h
    · rename_i hk
      simp only [List.map_cons, List.map_nil, List.mem_cons, List.not_mem_nil, or_false] at hk
      rcases hk with rfl | rfl
      · cases p with
        | nil => exact .inr (.inl rfl)
        | cons k p => cases h
      · cases p with
        | nil => exact .inr (.inr (.inl rfl))
        | cons k p =>
          have h' : look (mk 493 [("b", .file 2 292)]) (k :: p) = some x := h
          rw [mk, look_dir] at h'
          split at h'
          · rename_i hk
            simp only [List.map_cons, List.map_nil, List.mem_cons, List.not_mem_nil, or_false] at hk
            subst hk
            cases p with
            | nil => exact .inr (.inr (.inr rfl))
            | cons k p => cases h'
          · cases h'
    · cases h

theorem fits : Fits src old := by
  intro p
  refine ⟨fun c m h m' ns f h' => ?_, fun m ns f h c' m' h' => ?_⟩ <;>
  · rcases paths p _ h with rfl | rfl | rfl | rfl
    all_goals first | (cases h; done) | (cases h'; done)

theorem writable : Writable src old := by
  intro p x y h h'
  rcases paths p x h with rfl | rfl | rfl | rfl <;> cases h' <;> decide

/-- The theorems apply to it. -/
theorem applied : ∃ r, copyFunc false 493 "src" src (some old) = (some r, true) ∧ HasCopy src r ∧ look r ["d", "z"] = some (.file 9 420) := by
  obtain ⟨r, hr⟩ := C81_directory_succeeds false 493 "src" 493 _ _ (some old) listed (nofun) (by rintro x ⟨⟩; exact ⟨fits, .inr writable⟩)
  obtain ⟨h1, h2⟩ := C81_directory_partial false 493 "src" 493 _ _ (some old) r listed hr (by rintro x ⟨⟩; exact fits)
  exact ⟨r, hr, h1, h2 ["d", "z"] rfl⟩

theorem file_applied : installAll 493 "f" [(1, 292, false), (2, 0, true), (3, 292, false)] none = (some (.file 3 420), true) :=
  C81_file 493 (by decide) "f" [(1, 292, false), (2, 0, true)] 3 292 false none (.inl rfl)

/-! ### Where the copy is wrong -/

/-- `d/x` was a directory, now it is a file: the installation succeeds, but puts the file into the old directory. -/
theorem file_into_directory :
    let r := copyFunc false 493 "d" (mk 493 [("x", .file 1 420)]) (some (mk 493 [("x", mk 493 [])]))
    r.2 = true ∧ see r.1 ["x"] = some (none, 493) ∧ see r.1 ["x", "x"] = some (some 1, 420) := by
  decide +kernel

/-- A directory with a read-only file can be installed once, but not again: the copy of the file is not made writable as that of a file installed by itself. -/
theorem read_only_once :
    let r1 := copyFunc false 493 "d" (mk 493 [("x", .file 1 292)]) none
    let r2 := copyFunc false 493 "d" (mk 493 [("x", .file 2 292)]) r1.1
    r1.2 = true ∧ r2.2 = false ∧ see r2.1 ["x"] = some (some 1, 292) := by
  decide +kernel

/-- A file that is no longer in the source stays in the destination. -/
theorem removed_file_stays :
    let r1 := copyFunc false 493 "d" (mk 493 [("x", .file 1 420), ("y", .file 2 420)]) none
    let r2 := copyFunc false 493 "d" (mk 493 [("x", .file 1 420)]) r1.1
    r2.2 = true ∧ see r2.1 ["y"] = some (some 2, 420) := by
  decide +kernel

end Verif.Install.Ex
