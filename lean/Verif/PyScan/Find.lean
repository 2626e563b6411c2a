import Verif.PyScan.Stmts

/-!
# Everything Python reads is found (C107)
-/

namespace Verif.PyScan

/-! ## Names with dots -/

theorem split_dotted {l : List Str} (hne : l ≠ []) (h : ∀ x ∈ l, Ident x) : split '.' (dotted l) = l := by
  induction l with
  | nil => exact absurd rfl hne
  | cons x l ih =>
    have hx : '.' ∉ x := fun e => ((h x (by simp)).2 _ e).2.2 rfl
    cases l with
    | nil => exact split_plain hx
    | cons y l => rw [dotted, split_append hx, ih (by simp) fun z hz => h z (by simp [hz])]; simp

theorem comps_dotted {l : List Str} (h : ∀ x ∈ l, Ident x) : ((split '.' (dotted l)).filter fun x => decide (x ≠ [])) = l := by
  cases l with
  | nil => simp [dotted, split]
  | cons x l =>
    rw [split_dotted (by simp) h, List.filter_eq_self]
    intro y hy
    simpa using (h y hy).1

theorem dotted_head {l : List Str} (h : ∀ x ∈ l, Ident x) : (dotted l).head? ≠ some '.' := by
  cases l with
  | nil => simp [dotted]
  | cons x l =>
    have hx := h x (by simp)
    cases x with
    | nil => exact absurd rfl hx.1
    | cons c x =>
      have := (hx.2 c (by simp)).2.2
      cases l <;> simpa [dotted] using this

theorem drop_dots {l : List Str} (h : ∀ x ∈ l, Ident x) (k : Nat) :
    (List.replicate k '.' ++ dotted l).dropWhile (fun c => c == '.') = dotted l := by
  induction k with
  | zero =>
    have := dotted_head h
    cases hd : dotted l with
    | nil => rfl
    | cons c t =>
      rw [hd] at this
      simp only [List.head?_cons, ne_eq, Option.some.injEq] at this
      simp [this]
  | succ k ih => simpa [List.replicate_succ] using ih

/-! ## One statement -/

theorem scanOne_abs (files : Path → Bool) (path : List Path) (dir : Path) {mod : List Str} (h : ∀ x ∈ mod, Ident x) (names : Option (List Str)) :
    scanOne files path dir (dotted mod, names) = core files path mod false names := by
  have h1 : ((dotted mod).head? == some '.') = false := by simpa using dotted_head h
  simp only [scanOne, h1]
  simp only [Bool.false_eq_true, if_false, comps_dotted h]

theorem scanOne_rel (files : Path → Bool) (path : List Path) (dir : Path) {mod : List Str} (h : ∀ x ∈ mod, Ident x) (k : Nat)
    (names : Option (List Str)) :
    scanOne files path dir (List.replicate (k + 1) '.' ++ dotted mod, names) = core files [upDir dir (k + 1)] mod true names := by
  have h1 : ((List.replicate (k + 1) '.' ++ dotted mod).head? == some '.') = true := by simp [List.replicate_succ]
  have h2 : (List.replicate (k + 1) '.' ++ dotted mod).length - (dotted mod).length - 1 = k := by simp
  simp only [scanOne, h1]
  simp only [if_true, drop_dots h, comps_dotted h, h2]
  have h3 : dir.take (dir.length - k) = upDir dir (k + 1) := by simp [upDir]
  simp only [h3]

/-! ## What is imported -/

/-- The directory has the module or package `a.b.c`. -/
def Has (files : Path → Bool) (d : Path) (p : List Str) (f : Path) (b : Bool) : Prop :=
  (b = true ∧ f = d ++ p ++ [initPy] ∧ files f = true) ∨
  (b = false ∧ files (d ++ p ++ [initPy]) = false ∧ f = d ++ p.dropLast ++ [p.getLast?.getD [] ++ dotPy] ∧ files f = true)

theorem findImport_has {files : Path → Bool} {d : Path} {p : List Str} {f : Path} {b : Bool} (h : Has files d p f b) (ds : List Path) :
    findImport files p (d :: ds) = some (f, b, d) := by
  rcases h with ⟨rfl, rfl, h⟩ | ⟨rfl, h1, rfl, h⟩
  · rw [findImport, if_pos h]
  · rw [findImport, if_neg (by rw [h1]; simp), if_pos h]

theorem findImport_some {files : Path → Bool} {p : List Str} {l : List Path} {f : Path} {b : Bool} {d : Path}
    (h : findImport files p l = some (f, b, d)) : d ∈ l ∧ Has files d p f b := by
  induction l with
  | nil => simp [findImport] at h
  | cons e l ih =>
    rw [findImport] at h
    split at h
    · rename_i hf
      simp only [Option.some.injEq, Prod.mk.injEq] at h
      obtain ⟨rfl, rfl, rfl⟩ := h
      exact ⟨by simp, Or.inl ⟨rfl, rfl, hf⟩⟩
    · rename_i hf
      split at h
      · rename_i hg
        simp only [Option.some.injEq, Prod.mk.injEq] at h
        obtain ⟨rfl, rfl, rfl⟩ := h
        exact ⟨by simp, Or.inr ⟨rfl, by simpa using hf, rfl, hg⟩⟩
      · exact ⟨by simp [(ih h).1], (ih h).2⟩

theorem import_has {files : Path → Bool} {d : Path} {p : List Str} {r : List Path} {f : Path} {b : Bool} (h : Import files d p r f b) :
    Has files d p f b ∧ (∀ g ∈ r, g = f ∨ ∃ i, i < p.length ∧ g = d ++ p.take (i + 1) ++ [initPy] ∧ files g = true) := by
  induction h with
  | last h =>
    cases h with
    | package h => exact ⟨Or.inl ⟨rfl, by simp, by simpa using h⟩, by simp⟩
    | module h h' => exact ⟨Or.inr ⟨rfl, by simpa using h, by simp, by simpa using h'⟩, by simp⟩
  | step hp _ ih =>
    rename_i d a n l r f b _
    have hf : files (d ++ [a, initPy]) = true := by
      generalize hg : d ++ [a, initPy] = g at hp
      generalize hb : true = b at hp
      cases hp with
      | package h => exact h
      | module => simp at hb
    refine ⟨?_, ?_⟩
    · rcases ih.1 with ⟨rfl, rfl, h⟩ | ⟨rfl, h1, rfl, h⟩
      · exact Or.inl ⟨rfl, by simp, h⟩
      · refine Or.inr ⟨rfl, by simpa using h1, ?_, h⟩
        rw [List.dropLast_cons_cons]
        simp
    · intro g hg
      rcases List.mem_cons.1 hg with rfl | hg
      · exact Or.inr ⟨0, by simp, by simp, hf⟩
      · rcases ih.2 g hg with rfl | ⟨i, hi, rfl, h⟩
        · exact Or.inl rfl
        · exact Or.inr ⟨i + 1, by simp at hi ⊢; omega, by simp, h⟩

theorem provides_iff {files : Path → Bool} {d : Path} {a : Str} {g : Path} {c : Bool} : Provides files d a g c ↔ Has files d [a] g c := by
  constructor
  · intro h
    cases h with
    | package h => exact Or.inl ⟨rfl, by simp, by simpa using h⟩
    | module h h' => exact Or.inr ⟨rfl, by simpa using h, by simp, by simpa using h'⟩
  · rintro (⟨rfl, rfl, h⟩ | ⟨rfl, h1, rfl, h⟩)
    · have : d ++ [a] ++ [initPy] = d ++ [a, initPy] := by simp
      rw [this] at h ⊢
      exact .package h
    · have : d ++ [a] ++ [initPy] = d ++ [a, initPy] := by simp
      rw [this] at h1
      simpa using Provides.module h1 (by simpa using h)

/-- Every directory below one of the search path that holds a file is a package. -/
def Regular (files : Path → Bool) (path : List Path) : Prop :=
  ∀ d ∈ path, ∀ a x l, files (d ++ a :: x :: l) = true → files (d ++ [a, initPy]) = true

theorem has_provides {files : Path → Bool} {d : Path} {a : Str} {l : List Str} {f : Path} {b : Bool} (h : Has files d (a :: l) f b)
    (hr : ∀ a x l, files (d ++ a :: x :: l) = true → files (d ++ [a, initPy]) = true) : ∃ g c, Provides files d a g c := by
  cases l with
  | nil => exact ⟨_, _, provides_iff.2 h⟩
  | cons n l =>
    have : files (d ++ [a, initPy]) = true := by
      rcases h with ⟨_, rfl, h⟩ | ⟨_, _, rfl, h⟩
      · exact hr a n (l ++ [initPy]) (by simpa using h)
      · rw [List.dropLast_cons_cons] at h
        rw [List.append_assoc, List.cons_append] at h
        cases l with
        | nil => exact hr a _ [] h
        | cons m l => rw [List.dropLast_cons_cons] at h; exact hr a n _ h
    exact ⟨_, _, .package this⟩

theorem findImport_first {files : Path → Bool} {path : List Path} {a : Str} {l : List Str} {d : Path} {f g : Path} {b c : Bool}
    (hreg : Regular files path) (hf : FirstOf files a path d g c) (h : Has files d (a :: l) f b) :
    findImport files (a :: l) path = some (f, b, d) := by
  induction hf with
  | here _ => exact findImport_has h _
  | later hn _ ih =>
    rename_i e ds d' g c _
    have ih' := ih (fun d hd => hreg d (by simp [hd])) h
    have hne : ∀ f b, ¬ Has files e (a :: l) f b := by
      intro f b hh
      obtain ⟨g, c, hp⟩ := has_provides hh (hreg e (by simp))
      exact hn g c hp
    rw [findImport]
    split
    · rename_i hx; exact absurd (Or.inl ⟨rfl, rfl, hx⟩) (hne _ true)
    · rename_i hx
      split
      · rename_i hy; exact absurd (Or.inr ⟨rfl, by simpa using hx, rfl, hy⟩) (hne _ false)
      · exact ih'

theorem importAbs_find {files : Path → Bool} {path : List Path} {mod : List Str} {r : List Path} {f : Path} {b : Bool}
    (hreg : Regular files path) (h : ImportAbs files path mod r f b) :
    mod ≠ [] ∧ path ≠ [] ∧ ∃ d, findImport files mod path = some (f, b, d) ∧
      ∀ g ∈ r, g = f ∨ ∃ i, i < mod.length ∧ g = d ++ mod.take (i + 1) ++ [initPy] ∧ files g = true := by
  obtain ⟨d, a, l, rfl, ⟨g, c, hf⟩, hi⟩ := h
  have hh := import_has hi
  refine ⟨by simp, ?_, d, findImport_first hreg hf hh.1, hh.2⟩
  rintro rfl
  cases hf

theorem core_found {files : Path → Bool} {search : List Path} {comps : List Str} {names : Option (List Str)} {f : Path} {b rel : Bool} {d : Path}
    (hs : search ≠ []) (hc : comps ≠ []) (hf : findImport files comps search = some (f, b, d)) :
    f ∈ core files search comps rel names ∧
    (rel = false → ∀ i, i < comps.length → files (d ++ comps.take (i + 1) ++ [initPy]) = true →
      d ++ comps.take (i + 1) ++ [initPy] ∈ core files search comps rel names) ∧
    (b = true → ∀ l, names = some l → ∀ n ∈ l, ∀ g c, Provides files f.dropLast n g c → g ∈ core files search comps rel names) := by
  refine ⟨?_, ?_, ?_⟩
  · simp [core, hs, hc, hf]
  · rintro rfl i hi hg
    simp only [core, if_neg hs, if_neg hc, hf]
    apply List.mem_append_right
    simp only [Bool.false_eq_true, if_false]
    exact List.mem_filter.2 ⟨List.mem_map.2 ⟨i, List.mem_range.2 hi, rfl⟩, hg⟩
  · rintro rfl l rfl n hn g c hp
    simp only [core, if_neg hs, if_neg hc, hf]
    apply List.mem_append_left
    apply List.mem_append_right
    exact List.mem_filterMap.2 ⟨n, hn, by rw [findImport_has (provides_iff.1 hp)]; rfl⟩

/-- A relative name has at most one part after the dots. -/
def Short : Stmt → Prop
  | .imp _ => True
  | .frm 0 _ _ => True
  | .frm (_ + 1) mod _ => mod.length ≤ 1

theorem line_idents {s : Str} {st : Stmt} (h : Line s st) :
    match st with
    | .imp mod => ∀ x ∈ mod, Ident x
    | .frm _ mod _ => ∀ x ∈ mod, Ident x := by
  cases h with
  | imp _ _ _ _ h _ => exact h
  | frm _ _ _ _ _ _ _ _ h => exact h

theorem reads_found {files : Path → Bool} {path : List Path} {dir : Path} {s : Str} {st : Stmt} {g : Path} (hreg : Regular files path)
    (hl : Line s st) (hs : Short st) (h : Reads files path dir st g) : g ∈ scanOne files path dir (nameOf st) := by
  have hid := line_idents hl
  cases h with
  | imp h hg =>
    simp only at hid
    obtain ⟨hm, hp, d, hf, hr⟩ := importAbs_find hreg h
    simp only [nameOf]
    rw [scanOne_abs files path dir hid]
    rcases hr _ hg with rfl | ⟨i, hi, rfl, hg'⟩
    · exact (core_found hp hm hf).1
    · exact (core_found hp hm hf).2.1 rfl i hi hg'
  | abs h hg =>
    simp only at hid
    obtain ⟨hm, hp, d, hf, hr⟩ := importAbs_find hreg h
    simp only [nameOf, List.replicate_zero, List.nil_append]
    rw [scanOne_abs files path dir hid]
    rcases hr _ hg with rfl | ⟨i, hi, rfl, hg'⟩
    · exact (core_found hp hm hf).1
    · exact (core_found hp hm hf).2.1 rfl i hi hg'
  | absName h hn hpr =>
    simp only at hid
    obtain ⟨hm, hp, d, hf, hr⟩ := importAbs_find hreg h
    simp only [nameOf, List.replicate_zero, List.nil_append]
    rw [scanOne_abs files path dir hid]
    exact (core_found hp hm hf).2.2 rfl _ rfl _ hn _ _ hpr
  | rel h hg =>
    simp only at hid
    have hh := import_has h
    rename_i k mod names r f b
    simp only [Short] at hs
    have hm : mod ≠ [] := by rintro rfl; cases h
    have hlen : ∃ a, mod = [a] := by
      cases mod with
      | nil => exact absurd rfl hm
      | cons a m => cases m with
        | nil => exact ⟨a, rfl⟩
        | cons => simp at hs
    obtain ⟨a, rfl⟩ := hlen
    have hgf : g = f := by
      cases h with
      | last => simpa using hg
    subst hgf
    simp only [nameOf]
    rw [scanOne_rel files path dir hid]
    exact (core_found (by simp) (by simp) (findImport_has hh.1 [])).1
  | relName h hn hpr =>
    simp only at hid
    have hh := import_has h
    rename_i k mod names r f n c
    have hm : mod ≠ [] := by rintro rfl; cases h
    simp only [nameOf]
    rw [scanOne_rel files path dir hid]
    exact (core_found (by simp) hm (findImport_has hh.1 [])).2.2 rfl _ rfl _ hn _ _ hpr
  | dotsName hn hpr =>
    simp only at hid
    simp only [nameOf]
    rw [scanOne_rel files path dir hid]
    simp only [core, List.cons_ne_nil, if_false, if_true, List.head?_cons]
    simp only [List.nil_append, List.append_nil]
    exact List.mem_filterMap.2 ⟨_, hn, by rw [findImport_has (provides_iff.1 hpr)]; rfl⟩

/-- A text whose lines may be anything, but that no line breaks off within an import statement. -/
def Lines (lines : List Str) : Prop := ∀ s ∈ lines, '\n' ∉ s ∧ ((∃ st, Line s st) ∨ ¬ Unfinished s)

/-- **C107, one file.** Every file that Python reads, or may read, for a statement in a text is found by the scanner: for statements
with one module, or names that are not renamed but for the last, if directories of modules are packages and relative names have at
most one part. -/
theorem C107_found_partial {files : Path → Bool} {path : List Path} {dir : Path} {lines : List Str} (hlines : Lines lines)
    (hreg : Regular files path) {s : Str} {st : Stmt} (hs : s ∈ lines) (hl : Line s st) (hsh : Short st) {g : Path}
    (h : Reads files path dir st g) : g ∈ scan files path dir (textOf lines) :=
  List.mem_flatMap.2 ⟨nameOf st, C107_statements lines hlines hs hl, reads_found hreg hl hsh h⟩

/-- **C107, nothing invented.** What is found exists. -/
theorem C107_exists (files : Path → Bool) (path : List Path) (dir : Path) (text : Str) : ∀ g ∈ scan files path dir text, files g = true := by
  have hHas : ∀ {d : Path} {p : List Str} {f : Path} {b : Bool}, Has files d p f b → files f = true := by
    intro d p f b h
    rcases h with ⟨_, rfl, h⟩ | ⟨_, _, _, h⟩ <;> exact h
  intro g hg
  obtain ⟨m, _, hg⟩ := List.mem_flatMap.1 hg
  simp only [scanOne] at hg
  generalize (if (m.1.head? == some '.') = true then _ else path : List Path) = search at hg
  generalize (List.filter _ _ : List Str) = comps at hg
  simp only [core] at hg
  split at hg
  · simp at hg
  · simp only [List.mem_append] at hg
    rcases hg with (hg | hg) | hg
    · split at hg
      · rename_i n b d hh
        simp only [List.mem_singleton] at hg
        subst hg
        split at hh
        · simp at hh
        · exact hHas (findImport_some hh).2
      · simp at hg
    · split at hg
      · obtain ⟨i, _, hi⟩ := List.mem_filterMap.1 hg
        obtain ⟨x, hx, rfl⟩ := Option.map_eq_some_iff.1 hi
        obtain ⟨f, b, d⟩ := x
        exact hHas (findImport_some hx).2
      · simp at hg
    · split at hg
      · split at hg
        · simp at hg
        · exact (List.mem_filter.1 hg).2
      · simp at hg

/-! ## Files that are imported by imported files -/

/-- Reachable. -/
inductive Reach (R : Path → Path → Prop) (p : Path) : Path → Prop where
  | refl : Reach R p p
  | step {q r} : Reach R p q → R q r → Reach R p r

/-- One file makes Python read another. -/
def PyReads (files : Path → Bool) (path : List Path) (lines : Path → List Str) (p q : Path) : Prop :=
  ∃ s ∈ lines p, ∃ st, Line s st ∧ Short st ∧ Reads files path p.dropLast st q

/-- The scanner names one file for another; the search path is that of the first source (`recursive=True`; C38 is about the closure). -/
def ScanFinds (files : Path → Bool) (path : List Path) (lines : Path → List Str) (p q : Path) : Prop :=
  q ∈ scan files path p.dropLast (textOf (lines p))

/-- **C107, all files.** Everything that Python reads, over any number of imports, is found. -/
theorem C107_transitive_partial {files : Path → Bool} {path : List Path} {lines : Path → List Str} (hlines : ∀ p, Lines (lines p))
    (hreg : Regular files path) {p q : Path} (h : Reach (PyReads files path lines) p q) : Reach (ScanFinds files path lines) p q := by
  induction h with
  | refl => exact .refl
  | step _ hr ih =>
    obtain ⟨s, hs, st, hl, hsh, hrd⟩ := hr
    exact .step ih (C107_found_partial (hlines _) hreg hs hl hsh hrd)

/-! ## The search path -/

theorem firstOf_mono {files : Path → Bool} {a : Str} {l l' : List Path} {d g : Path} {c : Bool} (h : FirstOf files a l d g c) :
    FirstOf files a (l ++ l') d g c := by
  induction h with
  | here h => exact .here h
  | later h _ ih => exact .later h ih

theorem firstOf_skip {files : Path → Bool} {a : Str} {l l' : List Path} {d g : Path} {c : Bool}
    (h : ∀ e ∈ l, ∀ g c, ¬ Provides files e a g c) (hf : FirstOf files a l' d g c) : FirstOf files a (l ++ l') d g c := by
  induction l with
  | nil => exact hf
  | cons e l ih => exact .later (h e (by simp)) (ih fun x hx => h x (by simp [hx]))

/-- **C107, order.** Python looks in the directory of the script first, the scanner last. That does not matter if no module of the script's
directory has the name of one elsewhere. -/
theorem C107_order_partial {files : Path → Bool} {script : Path} {pythonpath : List Path}
    (hu : ∀ a g c, Provides files script a g c → ∀ e ∈ pythonpath, ∀ g c, ¬ Provides files e a g c) {dir : Path} {st : Stmt} {g : Path}
    (h : Reads files (script :: pythonpath) dir st g) : Reads files (pythonpath ++ [script]) dir st g := by
  have key : ∀ {mod r f b}, ImportAbs files (script :: pythonpath) mod r f b → ImportAbs files (pythonpath ++ [script]) mod r f b := by
    rintro mod r f b ⟨d, a, l, rfl, ⟨g, c, hf⟩, hi⟩
    refine ⟨d, a, l, rfl, ⟨g, c, ?_⟩, hi⟩
    cases hf with
    | here hp => exact firstOf_skip (hu a g c hp) (.here hp)
    | later _ hf => exact firstOf_mono hf
  cases h with
  | imp h hg => exact .imp (key h) hg
  | abs h hg => exact .abs (key h) hg
  | absName h hn hp => exact .absName (key h) hn hp
  | rel h hg => exact .rel h hg
  | relName h hn hp => exact .relName h hn hp
  | dotsName hn hp => exact .dotsName hn hp

/-- Names with colons between them. -/
def colons : List Str → Str
  | [] => []
  | [x] => x
  | x :: l => x ++ ':' :: colons l

/-- The scanner searches the directories of `PYTHONPATH`, then that of the first source. -/
theorem C107_search_path (l : List Str) (hne : l ≠ []) (h : ∀ x ∈ l, ':' ∉ x) (dir : Str) : searchPath (colons l) (some dir) = l ++ [dir] := by
  have : split ':' (colons l) = l := by
    induction l with
    | nil => exact absurd rfl hne
    | cons x l ih =>
      cases l with
      | nil => exact split_plain (h x (by simp))
      | cons y l => rw [colons, split_append (h x (by simp)), ih (by simp) fun z hz => h z (by simp [hz])]; simp
  simp [searchPath, this]

end Verif.PyScan
