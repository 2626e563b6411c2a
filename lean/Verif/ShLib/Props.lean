import Verif.ShLib.Model

/-!
# Versioned shared libraries are found by the linker and by the loader (C105)
-/

namespace Verif.ShLib

theorem set_same (d : Dir) (n : Str) (o : Option Obj) : d.set n o n = o := by simp [Dir.set]

theorem set_other {d : Dir} {n m : Str} {o : Option Obj} (h : m ≠ n) : d.set n o m = d m := by simp [Dir.set, h]

/-- Can a link be made under this name? -/
def Free (d : Dir) (n : Str) : Prop := d n = none ∨ ∃ t, d n = some (.link t)

theorem create_step {d : Dir} {l t : Str} {r : List (Str × Str)} (h : Free d l) :
    ∃ d', createLinks d ((l, t) :: r) = createLinks d' r ∧ ∀ n, d' n = if n = l then some (.link t) else d n := by
  rcases h with h | ⟨u, h⟩
  · exact ⟨d.set l (some (.link t)), by simp [createLinks, h], fun n => by simp [Dir.set]⟩
  · refine ⟨(d.set l none).set l (some (.link t)), by simp [createLinks, h, set_same], fun n => ?_⟩
    by_cases hn : n = l <;> simp [Dir.set, hn]

theorem create_one {d : Dir} {l t : Str} (h : Free d l) :
    (createLinks d [(l, t)]).2 = true ∧ ∀ n, (createLinks d [(l, t)]).1 n = if n = l then some (.link t) else d n := by
  obtain ⟨d', h1, h2⟩ := create_step (t := t) (r := []) h
  rw [h1]
  exact ⟨rfl, h2⟩

/-- Making the links of a library. -/
theorem create_links {v : Vars} {lib s : Str} {d : Dir} (hv : v.version ≠ []) (hn : v.nolinks = false) (hs : v.so lib = some s)
    (hf : s ≠ lib → Free d s) (hd : Free d (v.dev lib)) :
    ∃ links, v.links lib = some links ∧ (createLinks d links).2 = true ∧
      ∀ n, (createLinks d links).1 n = if n = v.dev lib ∨ (n = s ∧ s ≠ lib) then some (.link lib) else d n := by
  by_cases h : s = lib
  · refine ⟨[(v.dev lib, lib)], by simp [Vars.links, hv, hn, hs, h], ?_⟩
    obtain ⟨h1, h2⟩ := create_one (t := lib) hd
    refine ⟨h1, fun n => ?_⟩
    rw [h2]
    simp [h]
  · refine ⟨[(s, lib), (v.dev lib, lib)], by simp [Vars.links, hv, hn, hs, h], ?_⟩
    obtain ⟨d', e, h1⟩ := create_step (t := lib) (r := [(v.dev lib, lib)]) (hf h)
    have hd' : Free d' (v.dev lib) := by
      unfold Free
      rw [h1]
      by_cases e : v.dev lib = s
      · rw [if_pos e]; exact Or.inr ⟨_, rfl⟩
      · rw [if_neg e]; exact hd
    obtain ⟨h2, h3⟩ := create_one (t := lib) hd'
    rw [e]
    refine ⟨h2, fun n => ?_⟩
    rw [h3, h1]
    by_cases a : n = v.dev lib <;> by_cases b : n = s <;> simp [a, b, h]

/-- What a directory looks like in which a library has been put, with its links. -/
structure Ready (v : Vars) (lib s : Str) (o : Obj) (d d' : Dir) : Prop where
  atLib : d' lib = some o
  atSo : d'.open s = some o
  atDev : d'.open (v.dev lib) = some o
  devLink : d' (v.dev lib) = some (.link lib)
  soLink : s ≠ lib → d' s = some (.link lib)
  rest : ∀ n, n ≠ lib → n ≠ s → n ≠ v.dev lib → d' n = d n

theorem open_file {d : Dir} {n : Str} {c : Nat} {x : Option Str} (h : d n = some (.file c x)) : d.open n = some (.file c x) := by
  simp [Dir.open, Dir.openF, h]

theorem open_link {d : Dir} {n t : Str} {c : Nat} {x : Option Str} (h : d n = some (.link t)) (ht : d t = some (.file c x)) :
    d.open n = some (.file c x) := by
  simp [Dir.open, Dir.openF, h, ht]

theorem ready_of {v : Vars} {lib s : Str} {d d0 d' : Dir} {c : Nat} {x : Option Str} (hne : v.dev lib ≠ lib)
    (h0 : ∀ n, d0 n = if n = lib then some (.file c x) else d n)
    (h : ∀ n, d' n = if n = v.dev lib ∨ (n = s ∧ s ≠ lib) then some (.link lib) else d0 n) : Ready v lib s (.file c x) d d' := by
  have hl : d' lib = some (.file c x) := by
    rw [h, if_neg, h0, if_pos rfl]
    rintro (e | ⟨e, e'⟩)
    · exact hne e.symm
    · exact e' e.symm
  refine ⟨hl, ?_, ?_, by rw [h, if_pos (Or.inl rfl)], fun e => by rw [h, if_pos (Or.inr ⟨rfl, e⟩)], ?_⟩
  · by_cases e : s = lib
    · rw [e]; exact open_file hl
    · exact open_link (by rw [h, if_pos (Or.inr ⟨rfl, e⟩)]) hl
  · exact open_link (by rw [h, if_pos (Or.inl rfl)]) hl
  · intro n h1 h2 h3
    rw [h, if_neg, h0, if_neg h1]
    rintro (e | ⟨e, -⟩)
    · exact h3 e
    · exact h2 e

/-- **C105.** Building a library with a version, where nothing but links is in the way: it carries a name for the loader, and this name
leads to it; so does the name without a version, which the linker looks for; nothing else is changed. -/
theorem C105_build_partial {v : Vars} {lib s : Str} {d : Dir} (content : Nat) (hv : v.version ≠ []) (hn : v.nolinks = false)
    (hs : v.so lib = some s) (hne : v.dev lib ≠ lib) (hlib : d lib ≠ some .dir) (hf : s ≠ lib → Free d s) (hd : Free d (v.dev lib)) :
    (build v lib content d).2 = true ∧ Ready v lib s (.file content (some s)) d (build v lib content d).1 := by
  have h0 : ∀ n, ((d.set lib none).set lib (some (Obj.file content (some s)))) n = if n = lib then some (.file content (some s)) else d n := by
    intro n; by_cases e : n = lib <;> simp [Dir.set, e]
  generalize hd0 : (d.set lib none).set lib (some (Obj.file content (some s))) = d0 at h0
  have hf0 : s ≠ lib → Free d0 s := by
    intro h; unfold Free; rw [h0, if_neg h]; exact hf h
  have hd0' : Free d0 (v.dev lib) := by
    unfold Free; rw [h0, if_neg hne]; exact hd
  obtain ⟨links, h1, h2, h3⟩ := create_links hv hn hs hf0 hd0'
  have e : build v lib content d = createLinks d0 links := by
    unfold build
    rw [h1]
    simp only [if_neg hv, hs, hd0]
  rw [e]
  exact ⟨h2, ready_of hne h0 h3⟩

/-- **C105.** Installing it with `InstallVersionedLib`: the same in the directory where it is installed. -/
theorem C105_install_partial {v : Vars} {lib s : Str} {d : Dir} {c : Nat} {x : Option Str} (hv : v.version ≠ []) (hn : v.nolinks = false)
    (hs : v.so lib = some s) (hne : v.dev lib ≠ lib) (hlib : d lib ≠ some .dir) (hf : s ≠ lib → Free d s) (hd : Free d (v.dev lib)) :
    ∃ links, v.links lib = some links ∧ (install links lib (.file c x) d).2 = true ∧
      Ready v lib s (.file c x) d (install links lib (.file c x) d).1 := by
  have h0 : ∀ n, ((d.set lib none).set lib (some (Obj.file c x))) n = if n = lib then some (.file c x) else d n := by
    intro n; by_cases e : n = lib <;> simp [Dir.set, e]
  generalize hd0 : (d.set lib none).set lib (some (Obj.file c x)) = d0 at h0
  have hf0 : s ≠ lib → Free d0 s := by
    intro h; unfold Free; rw [h0, if_neg h]; exact hf h
  have hd0' : Free d0 (v.dev lib) := by
    unfold Free; rw [h0, if_neg hne]; exact hd
  obtain ⟨links, h1, h2, h3⟩ := create_links hv hn hs hf0 hd0'
  refine ⟨links, h1, ?_⟩
  have e : install links lib (.file c x) d = createLinks d0 links := by
    unfold install
    simp only [hd0]
  rw [e]
  exact ⟨h2, ready_of hne h0 h3⟩

theorem foldl_set (l : List Str) (d : Dir) (n : Str) : (l.foldl (fun d x => d.set x none) d) n = if n ∈ l then none else d n := by
  induction l generalizing d with
  | nil => simp
  | cons x l ih =>
    rw [List.foldl_cons, ih]
    by_cases h : n ∈ l
    · simp [h]
    · by_cases e : n = x <;> simp [h, e, Dir.set]

/-- **C105.** `scons -c` removes the library and its links, and nothing else. -/
theorem C105_clean {v : Vars} {lib s : Str} (hv : v.version ≠ []) (hn : v.nolinks = false) (hs : v.so lib = some s) (d : Dir) :
    ∃ links, v.links lib = some links ∧ ∀ n, clean links lib d n = if n = lib ∨ n = s ∨ n = v.dev lib then none else d n := by
  have key : ∀ links : List (Str × Str), ∀ n, clean links lib d n = if n = lib ∨ n ∈ links.map Prod.fst then none else d n := by
    intro links n
    unfold clean
    rw [foldl_set]
    by_cases e : n = lib
    · simp [e, Dir.set]
    · by_cases h : n ∈ links.map Prod.fst
      · rw [if_pos, if_pos (Or.inr h)]
        simp only [List.mem_filter, List.mem_append, decide_eq_true_eq]
        exact ⟨Or.inl h, e⟩
      · rw [if_neg, if_neg, set_other e]
        · rintro (h' | h') <;> contradiction
        · simp only [List.mem_filter, List.mem_append, List.mem_singleton, decide_eq_true_eq]
          rintro ⟨h' | h', -⟩ <;> contradiction
  by_cases h : s = lib
  · refine ⟨[(v.dev lib, lib)], by simp [Vars.links, hv, hn, hs, h], fun n => ?_⟩
    rw [key]
    simp [h]
  · refine ⟨[(s, lib), (v.dev lib, lib)], by simp [Vars.links, hv, hn, hs, h], fun n => ?_⟩
    rw [key]
    simp

end Verif.ShLib
