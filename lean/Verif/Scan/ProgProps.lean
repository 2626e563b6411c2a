import Verif.Scan.Prog
import Mathlib.Data.List.TakeWhile

/-!
# C79: what a program is linked with is one of its dependencies
-/

namespace Verif.Prog

open Shell.Ixes in
/-- The flag of a library whose name has nothing to take off but the prefix. -/
theorem flag_eq {lib : Text} {sufs : List Text} {lit x y : Text} (hy : y = if lib <+: x then x.drop lib.length else x) (hy0 : y ≠ []) (hx : ¬ (lit ≠ [] ∧ lit <+: x))
    (hs : ∀ s ∈ sufs, s ≠ [] → ¬ s <:+ x) (hl : ¬ ['-', 'l'] <+: y) : flagOf lib sufs lit x = [.text ('-' :: 'l' :: y)] := by
  have hsy : ∀ s ∈ sufs, s ≠ [] → ¬ s <:+ y := by
    intro s h1 h2 h3
    refine hs s h1 h2 (h3.trans ?_)
    rw [hy]; split
    · exact List.drop_suffix _ _
    · exact List.suffix_refl _
  have h1 : stripPrefix x [lib] = y := by
    rw [hy]
    simp only [stripPrefix, take_eq_iff]
  unfold flagOf stripIxes
  rw [List.map_cons, List.map_nil, stripOne, if_neg (by rw [take_eq_iff]; exact hx), h1, stripSuffix_none y hy0 sufs hsy, C55_one_flag_each _ ⟨by simp, by simp⟩]
  simp [hy0, flag, hl]

theorem splitext_none_append {p x : Text} (hp : '.' ∉ p) (h : (Bld.Chain.splitext x).2 = []) : (Bld.Chain.splitext (p ++ x)).2 = [] := by
  unfold Bld.Chain.splitext at *
  simp only [ne_eq] at *
  by_cases hd : '.' ∈ x
  · have e : ((p ++ x).reverse.takeWhile (fun c => decide ¬ c = '.')).reverse = (x.reverse.takeWhile (fun c => decide ¬ c = '.')).reverse := by
      rw [List.reverse_append, List.takeWhile_append, if_neg]
      intro hc
      have : x.reverse.takeWhile (fun c => decide ¬ c = '.') = x.reverse := List.takeWhile_prefix _ |>.eq_of_length hc
      have h2 := List.mem_takeWhile_imp (p := fun c => decide ¬ c = '.') (l := x.reverse) (x := '.') (by rw [this]; simpa using hd)
      simp at h2
    rw [e]
    split at h
    · simp at h
    · rename_i hc
      rw [if_neg]
      intro h3; exact hc ⟨hd, h3.2⟩
  · rw [if_neg (by simp [hp, hd])]

/-- The name the scanner looks for. -/
theorem adjust_eq {lib x s : Text} (hlib : '.' ∉ lib) (hlib0 : lib ≠ []) (hxl : x ≠ lib) (hext : (Bld.Chain.splitext x).2 = []) (hs : s.head? = some '.') (hsx : ¬ s <:+ x) :
    Bld.Chain.adjustixes x lib s false = lib ++ (if lib <+: x then x.drop lib.length else x) ++ s := by
  have hs0 : s ≠ [] := by rintro rfl; simp at hs
  have key : ∀ (z : Text), (Bld.Chain.splitext z).2 = [] → ¬ s <:+ z → (if s ≠ [] ∧ ¬ s <:+ z ∧ (false = true ∨ (Bld.Chain.splitext z).2 = []) then z ++ s else z) = z ++ s := by
    intro z h1 h2; rw [if_pos ⟨hs0, h2, Or.inr h1⟩]
  unfold Bld.Chain.adjustixes
  by_cases hp : lib <+: x
  · have e : lib ++ x.drop lib.length = x := by
      obtain ⟨y, rfl⟩ := hp; simp
    have e1 : (if lib ≠ [] ∧ (¬ lib <+: x ∨ x = lib) then lib ++ x else x) = x := if_neg (by rintro ⟨-, h | h⟩ <;> contradiction)
    dsimp only
    rw [e1, if_pos hp, e]
    exact key x hext hsx
  · have e1 : (if lib ≠ [] ∧ (¬ lib <+: x ∨ x = lib) then lib ++ x else x) = lib ++ x := if_pos ⟨hlib0, Or.inl hp⟩
    dsimp only
    rw [e1, if_neg hp]
    refine key _ (splitext_none_append hlib hext) ?_
    intro hc
    rcases List.suffix_or_suffix_of_suffix hc (List.suffix_append lib x) with h | h
    · exact hsx h
    · obtain ⟨t, rfl⟩ := h
      obtain ⟨u, hu⟩ := hc
      rw [← List.append_assoc] at hu
      have hu := List.append_cancel_right hu
      cases t with
      | nil => exact hsx (by simp)
      | cons c t =>
        simp only [List.cons_append, List.head?_cons, Option.some.injEq] at hs
        subst hs
        exact hlib (by rw [← hu]; simp)

/-- The scanner finds the file that the linker takes: the first directory with one of the names is the first with the name taken. -/
theorem find_linked {known there : Nat → Text → Bool} (hk : ∀ d f, there d f = true → known d f = true) {names : List Text} {f : Text} (hf : f ∈ names) :
    ∀ {dirs : List Nat} {d : Nat}, (∀ d, findFile known dirs f = some d → there d f = true) → linked there dirs names = some (d, f) → findFile known dirs f = some d := by
  intro dirs
  induction dirs with
  | nil => intro d _ h; simp [linked] at h
  | cons e es ih =>
    intro d hbuilt h
    unfold linked at h
    rw [List.findSome?_cons] at h
    unfold findFile at hbuilt ⊢
    rw [List.find?_cons] at hbuilt ⊢
    cases hn : names.find? fun n => there e n with
    | some n =>
      rw [hn] at h
      simp only [Option.map_some, Option.some.injEq, Prod.mk.injEq] at h
      obtain ⟨rfl, rfl⟩ := h
      have := List.find?_some hn
      rw [hk _ _ this]
    | none =>
      rw [hn] at h
      simp only [Option.map_none] at h
      rw [List.find?_eq_none] at hn
      cases hke : known e f with
      | true =>
        rw [hke] at hbuilt
        exact absurd (hbuilt e rfl) (hn f hf)
      | false =>
        rw [hke] at hbuilt
        exact ih hbuilt h

/-- **C79.**  What the linker takes for a library given by name is a dependency of the program.  `known` is what SCons knows in the directories of `LIBPATH`: files, and targets; `there` is what is
there when the linker runs, with all dependencies built.  The linker may prefer any suffix first. -/
theorem C79_linked_is_dependency {known there : Nat → Text → Bool} {E : Env} {lib lit x y flag f : Text} {sufs : List Text} {d : Nat}
    (hk : ∀ d f, there d f = true → known d f = true) (hbuilt : ∀ d f, Dep.found d f ∈ scan known E → there d f = true)
    (hx : Lib.name x ∈ splitLibs E.libs) (hlib : lib ∈ E.prefixes) (hlib0 : lib ≠ []) (hlibd : '.' ∉ lib) (hsufs : ∀ s, s ∈ sufs ↔ s ∈ E.suffixes) (hdot : ∀ s ∈ sufs, s.head? = some '.')
    (hext : (Bld.Chain.splitext x).2 = []) (hno : ∀ s ∈ sufs, ¬ s <:+ x) (hxl : x ≠ lib) (hlit : ¬ (lit ≠ [] ∧ lit <+: x))
    (hy : y = if lib <+: x then x.drop lib.length else x) (hy0 : y ≠ []) (hyl : ¬ ['-', 'l'] <+: y) (hyc : y.head? ≠ some ':')
    (hflag : flagOf lib E.suffixes lit x = [.text flag]) (hl : linked there E.libpath (linkerNames lib sufs flag) = some (d, f)) : Dep.found d f ∈ scan known E := by
  have hflag' := flag_eq (lib := lib) (sufs := E.suffixes) (lit := lit) hy hy0 hlit (fun s h1 _ => hno s ((hsufs s).2 h1)) hyl
  rw [hflag', List.cons.injEq, Shell.Ixes.Item.text.injEq] at hflag
  obtain ⟨hflag, -⟩ := hflag
  subst hflag
  have hnames : linkerNames lib sufs ('-' :: 'l' :: y) = sufs.map fun s => lib ++ y ++ s := by
    unfold linkerNames
    split
    · rename_i heq
      simp only [List.cons.injEq, true_and] at heq
      subst heq; simp at hyc
    · rename_i heq
      simp only [List.cons.injEq, true_and] at heq
      subst heq; rfl
    · rename_i h1 h2; exact absurd rfl (h2 y)
  rw [hnames] at hl
  have hmem : f ∈ sufs.map fun s => lib ++ y ++ s := by
    unfold linked at hl
    obtain ⟨a, -, ha⟩ := List.exists_of_findSome?_eq_some hl
    rw [Option.map_eq_some_iff] at ha
    obtain ⟨n, hn, he⟩ := ha
    simp only [Prod.mk.injEq] at he
    rw [← he.2]; exact List.mem_of_find?_eq_some hn
  rw [List.mem_map] at hmem
  obtain ⟨s, hs, rfl⟩ := hmem
  have hadj : Bld.Chain.adjustixes x lib s false = lib ++ y ++ s := by
    rw [adjust_eq hlibd hlib0 hxl hext (hdot s hs) (hno s hs), ← hy]
  have hin : ∀ d', findFile known E.libpath (lib ++ y ++ s) = some d' → Dep.found d' (lib ++ y ++ s) ∈ scan known E := by
    intro d' hd'
    unfold scan
    rw [List.mem_flatMap]
    refine ⟨.name x, hx, ?_⟩
    simp only [scanOne]
    rw [List.mem_filterMap]
    refine ⟨(lib, s), ?_, ?_⟩
    · unfold Env.pairs
      rw [List.mem_flatMap]
      exact ⟨s, (hsufs s).1 hs, by rw [List.mem_map]; exact ⟨lib, hlib, rfl⟩⟩
    · rw [hadj, hd']; rfl
  exact hin d (find_linked hk (List.mem_map.2 ⟨s, hs, rfl⟩) (fun d' h => hbuilt _ _ (hin d' h)) hl)

/-- A library given as a node is a dependency; nothing else is: every other dependency is the first file of its name in `LIBPATH`. -/
theorem C79_only_libraries {known : Nat → Text → Bool} {E : Env} :
    (∀ n, Lib.node n ∈ E.libs → Dep.node n ∈ scan known E) ∧
    (∀ n, Dep.node n ∈ scan known E → Lib.node n ∈ E.libs) ∧
    (∀ d f, Dep.found d f ∈ scan known E → known d f = true ∧ ∃ pre post, E.libpath = pre ++ d :: post ∧ ∀ e ∈ pre, known e f = false) := by
  have hsplit : ∀ n, Lib.node n ∈ splitLibs E.libs ↔ Lib.node n ∈ E.libs := by
    intro n
    unfold splitLibs
    rw [List.mem_flatMap]
    constructor
    · rintro ⟨a, ha, h⟩
      cases a with
      | name t => simp at h
      | node m => simp only [List.mem_singleton, Lib.node.injEq] at h; subst h; exact ha
    · intro h; exact ⟨_, h, by simp⟩
  refine ⟨fun n h => ?_, fun n h => ?_, fun d f h => ?_⟩
  · unfold scan
    rw [List.mem_flatMap]
    exact ⟨_, (hsplit n).2 h, by simp [scanOne]⟩
  · unfold scan at h
    rw [List.mem_flatMap] at h
    obtain ⟨a, ha, h⟩ := h
    cases a with
    | name t =>
      simp only [scanOne, List.mem_filterMap, Option.map_eq_some_iff] at h
      obtain ⟨_, _, _, _, h⟩ := h; cases h
    | node m => simp only [scanOne, List.mem_singleton, Dep.node.injEq] at h; subst h; exact (hsplit _).1 ha
  · unfold scan at h
    rw [List.mem_flatMap] at h
    obtain ⟨a, ha, h⟩ := h
    cases a with
    | node m => simp [scanOne] at h
    | name t =>
      simp only [scanOne, List.mem_filterMap, Option.map_eq_some_iff] at h
      obtain ⟨ps, _, e, he, h⟩ := h
      cases h
      unfold findFile at he
      rw [List.find?_eq_some_iff_append] at he
      obtain ⟨h1, pre, post, h2, h3⟩ := he
      exact ⟨h1, pre, post, h2, fun a ha => by simpa using h3 a ha⟩

/-! ## An example, and libraries that are not dependencies -/

namespace Ex

def tx (s : String) : Text := s.toList

/-- Directory 0 has the static libraries, directory 1 both kinds. -/
def files : Nat → List String
  | 0 => ["libz.a", "libfoo.so", "libfoo.a", "libold.v2.a"]
  | 1 => ["libz.so", "libm.so"]
  | _ => []

def has (d : Nat) (f : Text) : Bool := ((files d).map tx).contains f

def env (libs : List Lib) : Env := ⟨libs, [tx "lib"], [tx ".a", tx ".so"], [0, 1]⟩

/-- The linker prefers shared libraries. -/
def sufs : List Text := [tx ".so", tx ".a"]

def link (x : String) : Option (Option (Nat × Text)) :=
  match flagOf (tx "lib") (env []).suffixes (tx ":") (tx x) with
  | [.text flag] => some (linked has [0, 1] (linkerNames (tx "lib") sufs flag))
  | _ => none

theorem nonvacuous : link "z" = some (some (0, tx "libz.a")) ∧ link "libm" = some (some (1, tx "libm.so")) ∧
    scan has (env [.name (tx "z libm"), .node 7]) = [.found 0 (tx "libz.a"), .found 1 (tx "libz.so"), .found 1 (tx "libm.so"), .node 7] := by decide +kernel

/-- The theorem applies. -/
theorem applied : Dep.found 0 (tx "libz.a") ∈ scan has (env [.name (tx "z libm"), .node 7]) := by
  refine C79_linked_is_dependency (known := has) (there := has) (lib := tx "lib") (lit := tx ":") (x := tx "z") (y := tx "z") (flag := tx "-lz") (sufs := sufs) (fun _ _ h => h) ?_ (by decide +kernel)
    (by decide +kernel) (by decide +kernel) (by decide +kernel) ?_ (by decide +kernel) (by decide +kernel) ?_ (by decide +kernel) ?_ (by decide +kernel) (by decide +kernel) ?_ (by decide +kernel)
    (by decide +kernel) (by decide +kernel)
  · intro d f h; exact (C79_only_libraries.2.2 d f h).1
  · intro s; simp only [sufs, env, List.mem_cons, List.not_mem_nil, or_false]; exact or_comm
  · decide +kernel
  · decide +kernel
  · decide +kernel

/-- A library given by its file name: the linker is told `-lfoo` and takes the shared library; the program depends on the static one only. -/
theorem file_name : link "libfoo.a" = some (some (0, tx "libfoo.so")) ∧ scan has (env [.name (tx "libfoo.a")]) = [.found 0 (tx "libfoo.a"), .found 0 (tx "libfoo.a")] := by decide +kernel

/-- A library given with the literal prefix is linked, and is no dependency. -/
theorem literal : link ":libfoo.a" = some (some (0, tx "libfoo.a")) ∧ scan has (env [.name (tx ":libfoo.a")]) = [] := by decide +kernel

/-- A library with a point in its name is linked, and is no dependency. -/
theorem point_in_name : link "old.v2" = some (some (0, tx "libold.v2.a")) ∧ scan has (env [.name (tx "old.v2")]) = [] := by decide +kernel

end Ex

end Verif.Prog
