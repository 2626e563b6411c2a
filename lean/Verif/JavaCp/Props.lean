import Mathlib.Data.List.TakeWhile
import Verif.JavaCp.Model

/-!
# The scanner for Java class paths (C121): specification and proofs
-/

namespace Verif.JavaCp

/-! ## Specification -/

/-- A class file somewhere below a directory that has these entries; links to directories are followed, or are not. -/
inductive Below (links : Bool) : Str → List Ent → Str → Prop
  | file {d n es} : .file n ∈ es → ".class".toList <:+ n → Below links d es (join d n)
  | dir {d n es es' f} : .dir n es' ∈ es → Below links (join d n) es' f → Below links d es f
  | link {d n es es' f} : links = true → .link n es' ∈ es → Below links (join d n) es' f → Below links d es f

/-- A file of this name with that end: something comes before the end besides dots, and it has no slash. -/
def Named (e f : Str) : Prop := ∃ d n, f = d ++ n ++ e ∧ (d = [] ∨ ∃ d', d = d' ++ ['/']) ∧ '/' ∉ n ∧ ∃ c ∈ n, c ≠ '.'

/-- The entries javac has: the text of the option, cut at the separators. -/
def World.entries (W : World) (v : Val) : List Str :=
  match W.option v with
  | some s => split W.pathsep s
  | none => []

/-- What javac reads of an entry: the class files below a directory, the jar files of a directory for `dir/*`, an archive.  With `all` false: all but what is behind links, jar files whose names end in capitals, hidden ones, and names with an asterisk in them. -/
inductive World.Reads (W : World) (all : Bool) : Str → Str → Prop
  | classes {s es f} : (all = false → '*' ∉ s) → W.disk s = some es → Below all s es f → Named ".class".toList f → W.Reads all s f
  | star {d es n} : (all = false → '*' ∉ d) → W.disk d = some es → .file n ∈ es → Named ".jar".toList (join d n) → n.head? ≠ some '.' → W.Reads all (join d ['*']) (join d n)
  | starAll {d es n} : all = true → W.disk d = some es → .file n ∈ es → Named ".jar".toList (join d n) ∨ Named ".JAR".toList (join d n) → W.Reads all (join d ['*']) (join d n)
  | archive {s} : (all = false → '*' ∉ s) → W.disk s = none → Named ".jar".toList s ∨ Named ".zip".toList s → W.Reads all s s

/-- What is taken for granted of `Glob` and the disk: `dir/*` has the files of a directory that are not hidden, and files are not directories. -/
structure World.Ok (W : World) : Prop where
  glob : ∀ d es n, W.disk d = some es → .file n ∈ es → n.head? ≠ some '.' → '*' ∉ d → join d n ∈ W.glob (join d ['*'])
  files : ∀ d es n, W.disk d = some es → .file n ∈ es → W.disk (join d n) = none

/-- An element without a separator in it: of a text, the scanner makes elements at the separators, of a list it does not. -/
def World.Apart (W : World) : Elem → Prop
  | .str s => W.pathsep ∉ W.subst s
  | .node p => W.pathsep ∉ p

/-! ## Walks -/

mutual
theorem walk_iff (d f : Str) : ∀ e : Ent, f ∈ e.walk d ↔ Below false d [e] f
  | .file n => by
    rw [Ent.walk]
    constructor
    · intro h
      split at h
      · rename_i hc
        rw [List.mem_singleton] at h; subst h
        exact .file (by simp) (by simpa [isClass] using hc)
      · cases h
    · intro h
      cases h with
      | file hm hc =>
        rw [List.mem_singleton] at hm; injection hm with hm; subst hm
        rw [if_pos (by simpa [isClass] using hc)]; simp
      | dir hm _ => simp at hm
      | link hl _ _ => cases hl
  | .dir n es => by
    rw [Ent.walk, walkAll_iff]
    constructor
    · intro h; exact .dir (by simp) h
    · intro h
      cases h with
      | file hm _ => simp at hm
      | dir hm h =>
        rw [List.mem_singleton] at hm; injection hm with h1 h2; subst h1; subst h2
        exact h
      | link hl _ _ => cases hl
  | .link n es => by
    rw [Ent.walk]
    constructor
    · intro h; cases h
    · intro h
      cases h with
      | file hm _ => simp at hm
      | dir hm _ => simp at hm
      | link hl _ _ => cases hl
theorem walkAll_iff (d f : Str) : ∀ es : List Ent, f ∈ walkAll d es ↔ Below false d es f
  | [] => by
    rw [walkAll]
    constructor
    · intro h; cases h
    · intro h
      cases h with
      | file hm _ => cases hm
      | dir hm _ => cases hm
      | link hl _ _ => cases hl
  | e :: r => by
    rw [walkAll, List.mem_append, walk_iff d f e, walkAll_iff d f r]
    constructor
    · rintro (h | h)
      · cases h with
        | file hm hc => exact .file (by rw [List.mem_singleton] at hm; simp [hm]) hc
        | dir hm h => exact .dir (by rw [List.mem_singleton] at hm; simp [hm]) h
        | link hl _ _ => cases hl
      · cases h with
        | file hm hc => exact .file (List.mem_cons_of_mem _ hm) hc
        | dir hm h => exact .dir (List.mem_cons_of_mem _ hm) h
        | link hl _ _ => cases hl
    · intro h
      cases h with
      | file hm hc =>
        rcases List.mem_cons.1 hm with hm | hm
        · exact .inl (.file (by simp [hm]) hc)
        · exact .inr (.file hm hc)
      | dir hm h =>
        rcases List.mem_cons.1 hm with hm | hm
        · exact .inl (.dir (by simp [hm]) h)
        · exact .inr (.dir hm h)
      | link hl _ _ => cases hl
end

/-- The walk over nodes has every class file below, through links as well. -/
theorem walkMem_below {d : Str} {es : List Ent} {f : Str} (h : Below true d es f) : f ∈ walkMemAll d es := by
  have mem : ∀ {d : Str} {e : Ent} {es : List Ent}, e ∈ es → ∀ f ∈ e.walkMem d, f ∈ walkMemAll d es := by
    intro d e es
    induction es with
    | nil => intro h; cases h
    | cons x es ih =>
      intro h f hf
      rw [walkMemAll, List.mem_append]
      rcases List.mem_cons.1 h with rfl | h
      · exact .inl hf
      · exact .inr (ih h f hf)
  induction h with
  | file hm hc => exact mem hm _ (by rw [Ent.walkMem, if_pos (by simpa [isClass] using hc)]; simp)
  | dir hm _ ih => exact mem hm _ (by rw [Ent.walkMem]; exact List.mem_append_right _ ih)
  | link _ hm _ ih => exact mem hm _ (by rw [Ent.walkMem]; exact List.mem_append_right _ ih)

/-! ## Ends of names -/

theorem base_app (d n : Str) (hd : d = [] ∨ ∃ d', d = d' ++ ['/']) (hn : '/' ∉ n) : base (d ++ n) = n := by
  have tw : ∀ (a b : Str), '/' ∉ a → (a ++ b).takeWhile (· ≠ '/') = a ++ b.takeWhile (· ≠ '/') := by
    intro a b ha
    induction a with
    | nil => rfl
    | cons x a ih =>
      simp only [List.mem_cons, not_or] at ha
      rw [List.cons_append, List.takeWhile_cons, if_pos (by simpa using fun e => ha.1 e.symm), ih ha.2]; rfl
  unfold base
  rw [List.reverse_append, tw _ _ (by simpa using hn)]
  rcases hd with rfl | ⟨d', rfl⟩ <;> simp

/-- Ends with one dot, at their beginning. -/
def End (e : Str) : Prop := ∃ r, e = '.' :: r ∧ '.' ∉ r ∧ '/' ∉ r

theorem ext_named {e f : Str} (he : End e) (h : Named e f) : ext f = e := by
  obtain ⟨r, rfl, hr, hrs⟩ := he
  obtain ⟨d, n, rfl, hd, hn, c, hc, hcd⟩ := h
  unfold ext
  have hb : base (d ++ n ++ '.' :: r) = n ++ '.' :: r := by
    rw [List.append_assoc]
    exact base_app d _ hd (by simp [hn, hrs])
  rw [hb]
  have dw : ∀ n : Str, c ∈ n → ∃ m, (n ++ '.' :: r).dropWhile (· = '.') = m ++ '.' :: r := by
    intro n
    induction n with
    | nil => intro h; cases h
    | cons x n ih =>
      intro h
      rw [List.cons_append, List.dropWhile_cons]
      by_cases hx : x = '.'
      · rw [if_pos (by simpa using hx)]
        rcases List.mem_cons.1 h with rfl | h
        · exact absurd hx hcd
        · exact ih h
      · rw [if_neg (by simpa using hx)]; exact ⟨x :: n, rfl⟩
  obtain ⟨m, hm⟩ := dw n hc
  simp only [hm]
  rw [if_pos (by simp)]
  have tw : ∀ (a b : Str), '.' ∉ a → (a ++ '.' :: b).takeWhile (· ≠ '.') = a := by
    intro a b ha
    induction a with
    | nil => simp
    | cons x a ih =>
      simp only [List.mem_cons, not_or] at ha
      rw [List.cons_append, List.takeWhile_cons, if_pos (by simpa using fun e => ha.1 e.symm), ih ha.2]
  rw [List.reverse_append, List.reverse_cons, List.append_assoc, List.singleton_append, tw _ _ (by simpa using hr)]
  simp

theorem end_class : End ".class".toList := ⟨"class".toList, by decide⟩
theorem end_jar : End ".jar".toList := ⟨"jar".toList, by decide⟩
theorem end_zip : End ".zip".toList := ⟨"zip".toList, by decide⟩

theorem keeps_named {f : Str} (h : Named ".class".toList f ∨ Named ".jar".toList f ∨ Named ".zip".toList f) : keeps f = true := by
  unfold keeps
  rcases h with h | h | h
  · rw [ext_named end_class h]; decide
  · rw [ext_named end_jar h]; decide
  · rw [ext_named end_zip h]; decide

theorem named_ext {e f : Str} (he : End e) (h : ext f = e) : Named e f := by
  obtain ⟨r, rfl, hr, hrs⟩ := he
  have tk : ∀ p : Char → Bool, ∀ l : Str, ∃ x, l = x ++ (l.reverse.takeWhile p).reverse ∧ ∀ c, x.getLast? = some c → p c = false := by
    intro p l
    refine ⟨(l.reverse.dropWhile p).reverse, ?_, ?_⟩
    · have := congrArg List.reverse (List.takeWhile_append_dropWhile (p := p) (l := l.reverse))
      rw [List.reverse_append, List.reverse_reverse] at this
      exact this.symm
    · intro c hc
      rw [List.getLast?_reverse] at hc
      rcases hd : l.reverse.dropWhile p with _ | ⟨y, t⟩
      · rw [hd] at hc; cases hc
      · rw [hd] at hc
        injection hc with hc
        subst hc
        have := List.head_dropWhile_not (p := p) (l := l.reverse) (by rw [hd]; simp)
        simpa [hd] using this
  obtain ⟨d, hd, hdl⟩ := tk (· ≠ '/') f
  have hbs : '/' ∉ base f := by
    intro hm
    have := List.mem_takeWhile_imp (List.mem_reverse.1 hm)
    simp at this
  have hb : base f = (base f).takeWhile (· = '.') ++ (base f).dropWhile (· = '.') := (List.takeWhile_append_dropWhile).symm
  unfold ext at h
  simp only at h
  split at h
  · rename_i hdot
    obtain ⟨m, hm, hml⟩ := tk (· ≠ '.') ((base f).dropWhile (· = '.'))
    injection h with _ h
    rw [h] at hm
    -- what comes before the last dot
    have hne : m ≠ [] := by
      rintro rfl
      rw [hm] at hdot
      exact hr (by simpa using hdot)
    obtain ⟨m', c, rfl⟩ : ∃ m' c, m = m' ++ [c] := ⟨m.dropLast, m.getLast hne, (List.dropLast_append_getLast hne).symm⟩
    have hc : c = '.' := by
      have := hml c (by simp)
      simpa using this
    subst hc
    have hhead : ∀ x t, (base f).dropWhile (· = '.') = x :: t → x ≠ '.' := by
      intro x t e
      have := List.head_dropWhile_not (p := fun c : Char => decide (c = '.')) (l := base f) (by rw [e]; simp)
      simpa [e] using this
    have hm0 : ∃ x ∈ m', x ≠ '.' := by
      cases m' with
      | nil => exact absurd rfl (hhead '.' r (by simpa using hm))
      | cons x t => exact ⟨x, by simp, hhead x _ (by simpa using hm)⟩
    obtain ⟨x, hx, hx2⟩ := hm0
    refine ⟨d, (base f).takeWhile (· = '.') ++ m', ?_, ?_, ?_, x, by simp [hx], hx2⟩
    · have e1 : f = d ++ base f := hd
      conv_lhs => rw [e1, hb, hm]
      simp
    · cases hx : d.getLast? with
      | none => left; simpa using hx
      | some y =>
        have := hdl y hx
        have hy : y = '/' := by simpa using this
        subst hy
        right
        exact ⟨d.dropLast, (List.dropLast_append_getLast? _ hx).symm⟩
    · intro hmem
      apply hbs
      rw [hb, hm]
      simp only [List.mem_append] at hmem ⊢
      tauto
  · cases h

theorem ext_iff {e f : Str} (he : End e) : ext f = e ↔ Named e f := ⟨named_ext he, ext_named he⟩

/-! ## The option and the elements -/

theorem split_none (sep : Char) (s : Str) (h : sep ∉ s) : split sep s = [s] := by
  induction s with
  | nil => rfl
  | cons c s ih =>
    have hc : c ≠ sep := fun e => h (by simp [e])
    rw [split, if_neg hc, ih fun hh => h (by simp [hh])]

theorem split_app (sep : Char) (a b : Str) (h : sep ∉ a) : split sep (a ++ sep :: b) = a :: split sep b := by
  induction a with
  | nil => rw [List.nil_append, split, if_pos rfl]
  | cons c a ih =>
    have hc : c ≠ sep := fun e => h (by simp [e])
    rw [List.cons_append, split, if_neg hc, ih fun hh => h (by simp [hh])]

theorem split_join (sep : Char) : ∀ (l : List Str), l ≠ [] → (∀ s ∈ l, sep ∉ s) → split sep (joinWith sep l) = l
  | [], h, _ => absurd rfl h
  | [a], _, h => split_none sep a (h a (by simp))
  | a :: b :: l, _, h => by
    rw [joinWith, split_app sep _ _ (h a (by simp)), split_join sep (b :: l) (by simp) fun s hs => h s (List.mem_cons_of_mem _ hs)]

def Elem.text : Elem → Str
  | .str s => s
  | .node p => p

def World.ApartVal (W : World) : Val → Prop
  | .str _ => True
  | .list l => ∀ e ∈ l, W.Apart e

/-- The elements the scanner has are the entries javac has. -/
theorem C121_entries_partial (W : World) (v : Val) (h : W.ApartVal v) (s : Str) (hs : s ∈ W.entries v) : s ∈ (W.paths v).map Elem.text := by
  unfold World.entries at hs
  cases v with
  | str t =>
    cases t with
    | nil => simp [World.option] at hs
    | cons c t =>
      simp only [World.option] at hs
      simp only [World.paths, List.map_map]
      rw [List.mem_map]
      exact ⟨s, hs, rfl⟩
  | list l =>
    cases l with
    | nil => simp [World.option] at hs
    | cons e l =>
      simp only [World.option] at hs
      rw [split_join _ _ (by simp) ?_] at hs
      · simp only [World.paths, List.map_map]
        obtain ⟨x, hx, rfl⟩ := List.mem_map.1 hs
        rw [List.mem_map]
        refine ⟨x, hx, ?_⟩
        cases x <;> rfl
      · intro y hy
        obtain ⟨x, hx, rfl⟩ := List.mem_map.1 hy
        have := h x hx
        cases x <;> exact this

theorem mem_scan (W : World) (cp pp : Val) (f : Str) : f ∈ W.scan cp pp ↔ (∃ e, (e ∈ W.paths cp ∨ e ∈ W.paths pp) ∧ f ∈ W.elem e) ∧ keeps f = true := by
  unfold World.scan
  rw [List.mem_filter, List.mem_flatMap]
  simp only [List.mem_append]

/-! ## The claims -/

theorem reads_keeps {W : World} {s f : Str} (h : W.Reads false s f) : keeps f = true := by
  cases h with
  | classes _ _ _ h => exact keeps_named (.inl h)
  | star _ _ _ h _ => exact keeps_named (.inr (.inl h))
  | starAll h _ _ _ => cases h
  | archive _ _ h => exact keeps_named (.inr h)

theorem elem_plain (W : World) {e : Elem} (h : '*' ∉ e.text) : W.elem e = W.one e.text := by
  cases e with
  | str t => exact if_neg h
  | node p => rfl

/-- What javac reads of the class path or the processor path is a dependency. -/
theorem C121_reads_partial (W : World) (hW : W.Ok) (cp pp v : Val) (hv : v = cp ∨ v = pp) (ha : W.ApartVal v) (s f : Str) (hs : s ∈ W.entries v)
    (hn : ∀ p, .node p ∈ W.paths v → '*' ∉ p) (h : W.Reads false s f) : f ∈ W.scan cp pp := by
  rw [mem_scan]
  refine ⟨?_, reads_keeps h⟩
  obtain ⟨e, he, ht⟩ := List.mem_map.1 (C121_entries_partial W v ha s hs)
  refine ⟨e, by rcases hv with rfl | rfl <;> simp [he], ?_⟩
  cases h with
  | @classes _ es _ hstar hd hb hc =>
    have hstar := hstar rfl
    rw [elem_plain W (by rw [ht]; exact hstar), ht]
    unfold World.one
    rw [hd]
    exact List.mem_append_right _ ((walkAll_iff s f es).2 hb)
  | @star d es n hstar hd hm hj hh =>
    cases e with
    | node p =>
      refine absurd ?_ (hn p he)
      change p = _ at ht
      rw [ht]; simp [join]
    | str u =>
      change u = _ at ht
      subst ht
      unfold World.elem
      simp only
      rw [if_pos (by simp [join]), List.mem_flatMap]
      refine ⟨join d n, hW.glob d es n hd hm hh (hstar rfl), ?_⟩
      unfold World.one
      rw [hW.files d es n hd hm]; simp
  | starAll h _ _ _ => cases h
  | archive hstar hd _ =>
    have hstar := hstar rfl
    rw [elem_plain W (by rw [ht]; exact hstar), ht]
    unfold World.one
    rw [hd]; simp

/-- A class that is still to be made, below a directory on the class path, is a dependency, when there is such a directory already. -/
theorem C121_derived_partial (W : World) (cp pp v : Val) (hv : v = cp ∨ v = pp) (ha : W.ApartVal v) (s f : Str) (hs : s ∈ W.entries v) (hstar : '*' ∉ s)
    (hd : W.disk s ≠ none) (h : Below true s (W.mem s) f) (hc : Named ".class".toList f) : f ∈ W.scan cp pp := by
  rw [mem_scan]
  refine ⟨?_, keeps_named (.inl hc)⟩
  obtain ⟨e, he, ht⟩ := List.mem_map.1 (C121_entries_partial W v ha s hs)
  refine ⟨e, by rcases hv with rfl | rfl <;> simp [he], ?_⟩
  rw [elem_plain W (by rw [ht]; exact hstar), ht]
  unfold World.one
  rcases hx : W.disk s with _ | es
  · exact absurd hx hd
  · exact List.mem_append_left _ (walkMem_below h)

/-- What the scanner looks at: the elements, patterns expanded. -/
inductive World.Looked (W : World) (v : Val) : Str → Prop
  | str {s} : .str s ∈ W.paths v → '*' ∉ s → W.Looked v s
  | node {p} : .node p ∈ W.paths v → W.Looked v p
  | glob {s x} : .str s ∈ W.paths v → '*' ∈ s → x ∈ W.glob s → W.Looked v x

/-- Exactly these are the dependencies: archives and class files the elements name, and class files, or nodes named like them, below the directories they name. -/
theorem C121_exact (W : World) (cp pp : Val) (f : Str) :
    f ∈ W.scan cp pp ↔ (Named ".class".toList f ∨ Named ".zip".toList f ∨ Named ".jar".toList f) ∧
      ∃ v, (v = cp ∨ v = pp) ∧ ∃ s, W.Looked v s ∧ ((W.disk s = none ∧ f = s) ∨ ∃ es, W.disk s = some es ∧ (Below false s es f ∨ f ∈ walkMemAll s (W.mem s))) := by
  have one : ∀ s, f ∈ W.one s ↔ ((W.disk s = none ∧ f = s) ∨ ∃ es, W.disk s = some es ∧ (Below false s es f ∨ f ∈ walkMemAll s (W.mem s))) := by
    intro s
    unfold World.one
    rcases hx : W.disk s with _ | es
    · simp
    · simp only [List.mem_append, walkAll_iff, reduceCtorEq, false_and, false_or, Option.some.injEq, exists_eq_left']
      exact Or.comm
  have el : ∀ v, (∃ e, e ∈ W.paths v ∧ f ∈ W.elem e) ↔ ∃ s, W.Looked v s ∧ f ∈ W.one s := by
    intro v
    constructor
    · rintro ⟨e, he, h⟩
      cases e with
      | node p => exact ⟨p, .node he, h⟩
      | str s =>
        unfold World.elem at h
        simp only at h
        split at h
        · rename_i hs
          obtain ⟨x, hx, h⟩ := List.mem_flatMap.1 h
          exact ⟨x, .glob he hs hx, h⟩
        · rename_i hs; exact ⟨s, .str he hs, h⟩
    · rintro ⟨s, hl, h⟩
      cases hl with
      | str he hs => exact ⟨_, he, by unfold World.elem; simp only; rw [if_neg hs]; exact h⟩
      | node he => exact ⟨_, he, h⟩
      | @glob t _ he hs hx => exact ⟨_, he, by unfold World.elem; simp only; rw [if_pos hs]; exact List.mem_flatMap.2 ⟨s, hx, h⟩⟩
  rw [mem_scan, and_comm]
  refine and_congr (by rw [← ext_iff end_class, ← ext_iff end_zip, ← ext_iff end_jar]; simp [keeps]) ?_
  constructor
  · rintro ⟨e, he | he, h⟩
    · obtain ⟨s, hl, h⟩ := (el cp).1 ⟨e, he, h⟩; exact ⟨cp, .inl rfl, s, hl, (one s).1 h⟩
    · obtain ⟨s, hl, h⟩ := (el pp).1 ⟨e, he, h⟩; exact ⟨pp, .inr rfl, s, hl, (one s).1 h⟩
  · rintro ⟨v, hv, s, hl, h⟩
    obtain ⟨e, he, h⟩ := (el v).2 ⟨s, hl, (one s).2 h⟩
    exact ⟨e, by rcases hv with rfl | rfl <;> simp [he], h⟩

/-! ## Cases -/

/-- A directory `lib` with two archives and a link, `classes` with a package, and `out`, which is not there yet. -/
def ex : World where
  subst s := if s = "$CP".toList then "classes:lib/*:x.jar".toList else s
  disk s :=
    if s = "classes".toList then some [.file "A.class".toList, .dir "p".toList [.file "B.class".toList, .file "B.txt".toList], .link "q".toList [.file "C.class".toList]]
    else if s = "lib".toList then some [.file "a.jar".toList, .file "b.JAR".toList] else none
  mem s := if s = "out".toList then [.file "D.class".toList] else if s = "classes".toList then [.file "N.class".toList] else []
  glob s := if s = "lib/*".toList then ["lib/a.jar".toList, "lib/b.JAR".toList] else if s = "classes/*".toList then ["classes/A.class".toList, "classes/p".toList, "classes/q".toList] else []
  pathsep := ':'

def unset : Val := .list []

theorem C121_sample : ex.scan (.str "$CP".toList) unset = ["classes/N.class".toList, "classes/A.class".toList, "classes/p/B.class".toList, "lib/a.jar".toList, "x.jar".toList] := by decide +kernel

theorem ex_files {d : Str} {es : List Ent} {n : Str} (h1 : ex.disk d = some es) (h2 : .file n ∈ es) :
    (d, n) ∈ [("classes".toList, "A.class".toList), ("lib".toList, "a.jar".toList), ("lib".toList, "b.JAR".toList)] := by
  simp only [ex] at h1
  split at h1
  · rename_i hd
    injection h1 with h1; subst h1
    simp only [List.mem_cons, Ent.file.injEq, reduceCtorEq, List.not_mem_nil, or_false] at h2
    subst h2; subst hd; simp
  · split at h1
    · rename_i hd
      injection h1 with h1; subst h1
      simp only [List.mem_cons, Ent.file.injEq, List.not_mem_nil, or_false] at h2
      rcases h2 with rfl | rfl <;> subst hd <;> simp
    · cases h1

theorem ex_ok : ex.Ok where
  glob := by
    intro d es n h1 h2 _ _
    have := ex_files h1 h2
    simp only [List.mem_cons, Prod.mk.injEq, List.not_mem_nil, or_false] at this
    rcases this with ⟨rfl, rfl⟩ | ⟨rfl, rfl⟩ | ⟨rfl, rfl⟩ <;> decide +kernel
  files := by
    intro d es n h1 h2
    have := ex_files h1 h2
    simp only [List.mem_cons, Prod.mk.injEq, List.not_mem_nil, or_false] at this
    rcases this with ⟨rfl, rfl⟩ | ⟨rfl, rfl⟩ | ⟨rfl, rfl⟩ <;> rfl

def exClasses : List Ent := [.file "A.class".toList, .dir "p".toList [.file "B.class".toList, .file "B.txt".toList], .link "q".toList [.file "C.class".toList]]

theorem ex_str (p : Str) (h : .node p ∈ ex.paths (.str "$CP".toList)) : '*' ∉ p := by
  unfold World.paths at h
  obtain ⟨x, _, hx⟩ := List.mem_map.1 h
  cases hx

theorem exMem_classes : Ent.file "N.class".toList ∈ ex.mem "classes".toList := List.Mem.head _
theorem exMem_out : Ent.file "D.class".toList ∈ ex.mem "out".toList := List.Mem.head _

theorem exClasses_disk : ex.disk "classes".toList = some exClasses := rfl

theorem exClasses_p : Below false "classes".toList exClasses "classes/p/B.class".toList :=
  .dir (n := "p".toList) (List.Mem.tail _ (List.Mem.head _)) (.file (n := "B.class".toList) (List.Mem.head _) ⟨"B".toList, rfl⟩)

theorem exClasses_q : Below true "classes".toList exClasses "classes/q/C.class".toList :=
  .link rfl (n := "q".toList) (List.Mem.tail _ (List.Mem.tail _ (List.Mem.head _))) (.file (n := "C.class".toList) (List.Mem.head _) ⟨"C".toList, rfl⟩)

theorem ex_apart : ex.ApartVal (.str "$CP".toList) := trivial

/-- The hypotheses are met by each kind of entry: a class of a package below a directory, a jar file of `lib/*`, an archive. -/
theorem C121_sample_class : "classes/p/B.class".toList ∈ ex.scan (.str "$CP".toList) unset :=
  C121_reads_partial ex ex_ok _ _ _ (.inl rfl) ex_apart "classes".toList _ (by decide +kernel) (fun p h => ex_str p h)
    (.classes (fun _ => by decide +kernel) exClasses_disk exClasses_p
      ⟨"classes/p/".toList, "B".toList, rfl, .inr ⟨"classes/p".toList, rfl⟩, by decide, 'B', by decide⟩)

theorem C121_sample_jar : "lib/a.jar".toList ∈ ex.scan (.str "$CP".toList) unset :=
  C121_reads_partial ex ex_ok _ _ _ (.inl rfl) ex_apart "lib/*".toList _ (by decide +kernel) (fun p h => ex_str p h)
    (.star (d := "lib".toList) (n := "a.jar".toList) (fun _ => by decide +kernel) (es := [.file "a.jar".toList, .file "b.JAR".toList]) rfl (List.Mem.head _) ⟨"lib/".toList, "a".toList, rfl, .inr ⟨"lib".toList, rfl⟩, by decide, 'a', by decide⟩ (by decide))

theorem C121_sample_archive : "x.jar".toList ∈ ex.scan (.str "$CP".toList) unset :=
  C121_reads_partial ex ex_ok _ _ _ (.inl rfl) ex_apart "x.jar".toList _ (by decide +kernel) (fun p h => ex_str p h)
    (.archive (fun _ => by decide +kernel) (by rfl) (.inl ⟨[], "x".toList, rfl, .inl rfl, by decide, 'x', by decide⟩))

theorem C121_sample_derived : "classes/N.class".toList ∈ ex.scan unset (.list [.node "classes".toList]) :=
  C121_derived_partial ex _ _ _ (.inr rfl) (by intro e he; rw [List.mem_singleton] at he; subst he; change ':' ∉ _; decide +kernel) "classes".toList _ (by decide +kernel) (by decide +kernel) (by decide +kernel)
    (.file (n := "N.class".toList) exMem_classes ⟨"N".toList, rfl⟩) ⟨"classes/".toList, "N".toList, rfl, .inr ⟨"classes".toList, rfl⟩, by decide, 'N', by decide⟩

/-! ## Where it fails -/

/-- A directory that SCons is still to make has classes SCons knows: none of them is a dependency. -/
theorem C121_new_directory_counterexample : Below true "out".toList (ex.mem "out".toList) "out/D.class".toList ∧ ex.scan (.str "out".toList) unset = [] :=
  ⟨.file (n := "D.class".toList) exMem_out ⟨"D".toList, rfl⟩, by decide +kernel⟩

/-- A class below a link to a directory is read and not a dependency. -/
theorem C121_link_counterexample : ex.Reads true "classes".toList "classes/q/C.class".toList ∧ "classes/q/C.class".toList ∉ ex.scan (.str "classes".toList) unset :=
  ⟨.classes (fun h => by cases h) exClasses_disk exClasses_q
    ⟨"classes/q/".toList, "C".toList, rfl, .inr ⟨"classes/q".toList, rfl⟩, by decide, 'C', by decide⟩, by decide +kernel⟩

/-- `lib/*` stands for the jar files with capitals too. -/
theorem C121_capitals_counterexample : ex.Reads true "lib/*".toList "lib/b.JAR".toList ∧ ex.scan (.str "lib/*".toList) unset = ["lib/a.jar".toList] :=
  ⟨.starAll (d := "lib".toList) (n := "b.JAR".toList) rfl (es := [.file "a.jar".toList, .file "b.JAR".toList]) rfl (List.Mem.tail _ (List.Mem.head _)) (.inr ⟨"lib/".toList, "b".toList, rfl, .inr ⟨"lib".toList, rfl⟩, by decide, 'b', by decide⟩), by decide +kernel⟩

/-- In a list, a text with a separator is two entries for javac, and for the scanner one file, which there is not. -/
theorem C121_list_counterexample : ex.entries (.list [.str "x.jar:y.jar".toList]) = ["x.jar".toList, "y.jar".toList] ∧ ex.scan (.list [.str "x.jar:y.jar".toList]) unset = ["x.jar:y.jar".toList] := by
  decide +kernel

end Verif.JavaCp
