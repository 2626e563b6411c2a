import Verif.FS.GlobProps

/-! # Glob: the result does not depend on the order of sets; counterexamples (C69) -/

namespace Verif.FS.Glob

/-- The two worlds differ at most in the order in which sets are iterated over. -/
structure SameButOrder (W V : World) : Prop where
  top : W.top = V.top
  search : W.search = V.search
  list : W.list = V.list
  disk : W.disk = V.disk
  srcDir : W.srcDir = V.srcDir
  fm : W.fm = V.fm
  key : W.key = V.key
  orderW : ∀ l, (W.order l).Perm l.dedup
  orderV : ∀ l, (V.order l).Perm l.dedup

theorem SameButOrder.eq {W V : World} (h : SameButOrder W V) : V = { W with order := V.order } := by
  obtain ⟨h1, h2, h3, h4, h5, h6, h7, _, _⟩ := h
  cases W; cases V
  simp_all

theorem visit_order (W : World) (o : List String → List String) (d : Path) (pat : String) (ondisk strings : Bool) (X : Nodes × List String) (r : Path) : visit { W with order := o } d pat ondisk strings X r = visit W d pat ondisk strings X r := by
  unfold visit
  dsimp only
  split <;> rfl

/-- Names in one directory have different strings. -/
def KeyInj (W : World) : Prop := ∀ s d n m, W.key s (n :: d) = W.key s (m :: d) → n = m

theorem glob1_order {W : World} {o : List String → List String} (hW : ∀ l, (W.order l).Perm l.dedup) (ho : ∀ l, (o l).Perm l.dedup) (ondisk source strings : Bool) (S : Nodes) (d : Path) (pat : String) :
    (glob1 W ondisk source strings S d pat = none ∧ glob1 { W with order := o } ondisk source strings S d pat = none) ∨
      ∃ S' l l', glob1 W ondisk source strings S d pat = some (S', l) ∧ glob1 { W with order := o } ondisk source strings S d pat = some (S', l') ∧ l.Perm l' ∧ ∀ p ∈ l, ∃ n, p = n :: d := by
  unfold glob1
  split
  · exact .inl ⟨rfl, rfl⟩
  · have e : visit { W with order := o } d pat ondisk strings = visit W d pat ondisk strings := by funext X r; exact visit_order W o d pat ondisk strings X r
    dsimp only
    rw [e]
    generalize (W.search d).foldl (visit W d pat ondisk strings) (S, []) = X
    have hh : World.hits { W with order := o } pat = W.hits pat := rfl
    have hp : ((W.order X.2).filter (W.hits pat)).Perm ((o X.2).filter (World.hits { W with order := o } pat)) := by
      rw [hh]
      exact ((hW X.2).trans (ho X.2).symm).filter _
    have ha : (((o X.2).filter (World.hits { W with order := o } pat)).all fun n => n ∈ X.1.names d) = (((W.order X.2).filter (W.hits pat)).all fun n => n ∈ X.1.names d) := by
      rw [Bool.eq_iff_iff, List.all_eq_true, List.all_eq_true]
      exact ⟨fun h x hx => h x (hp.mem_iff.1 hx), fun h x hx => h x (hp.mem_iff.2 hx)⟩
    rw [ha]
    split
    · exact .inr ⟨_, _, _, rfl, rfl, hp.map _, fun p hp => by obtain ⟨n, _, rfl⟩ := List.mem_map.1 hp; exact ⟨n, rfl⟩⟩
    · exact .inl ⟨rfl, rfl⟩

/-- Blocks of results, directory by directory, with possibly different orders inside. -/
inductive Blocks : List Path → List Path → Prop
  | nil : Blocks [] []
  | append {l l' m m' d} : l.Perm l' → (∀ p ∈ l, ∃ n, p = n :: d) → Blocks m m' → Blocks (l ++ m) (l' ++ m')

theorem Blocks.filter {l l' : List Path} (h : Blocks l l') (f : Path → Bool) : Blocks (l.filter f) (l'.filter f) := by
  induction h with
  | nil => exact .nil
  | append hp hd _ ih =>
    rw [List.filter_append, List.filter_append]
    exact .append (hp.filter f) (fun p hp => hd p (List.mem_filter.1 hp).1) ih

theorem Blocks.perm {l l' : List Path} (h : Blocks l l') : l.Perm l' := by
  induction h with
  | nil => exact .refl _
  | append hp _ _ ih => exact hp.append ih

theorem orderedInsert_comm {le : Path → Path → Prop} [DecidableRel le] (tot : ∀ a b, le a b ∨ le b a) (tr : ∀ a b c, le a b → le b c → le a c) {x y : Path} (h : ¬ (le x y ∧ le y x)) (l : List Path) :
    (l.orderedInsert le x).orderedInsert le y = (l.orderedInsert le y).orderedInsert le x := by
  induction l with
  | nil =>
    rcases tot x y with hxy | hyx
    · have hyx : ¬ le y x := fun h' => h ⟨hxy, h'⟩
      simp [hxy, hyx]
    · have hxy : ¬ le x y := fun h' => h ⟨h', hyx⟩
      simp [hxy, hyx]
  | cons a l ih =>
    by_cases hx : le x a
    · by_cases hy : le y a
      · rcases tot x y with hxy | hyx
        · have hyx : ¬ le y x := fun h' => h ⟨hxy, h'⟩
          simp [hx, hy, hxy, hyx]
        · have hxy : ¬ le x y := fun h' => h ⟨h', hyx⟩
          simp [hx, hy, hxy, hyx]
      · have hyx : ¬ le y x := fun h' => hy (tr _ _ _ h' hx)
        simp [hx, hy, hyx]
    · by_cases hy : le y a
      · have hxy : ¬ le x y := fun h' => hx (tr _ _ _ h' hy)
        simp [hx, hy, hxy]
      · simp [hx, hy, ih]

theorem Blocks.sort {W : World} (hk : KeyInj W) (strings : Bool) {l l' : List Path} (h : Blocks l l') : W.sorted strings l = W.sorted strings l' := by
  unfold World.sorted
  have foldr : ∀ l : List Path, l.insertionSort (fun a b => W.key strings a ≤ W.key strings b) = l.foldr (List.orderedInsert fun a b => W.key strings a ≤ W.key strings b) [] := fun _ => rfl
  induction h with
  | nil => rfl
  | @append l l' m m' d hp hd _ ih =>
    rw [foldr, List.foldr_append, foldr, List.foldr_append, ← foldr, ← foldr, ih]
    refine hp.foldr_eq' (fun x hx y hy z => ?_) _
    by_cases hxy : x = y
    · rw [hxy]
    · refine orderedInsert_comm (le := fun a b => W.key strings a ≤ W.key strings b) (fun a b => String.le_total _ _) (fun a b c => String.le_trans) ?_ z
      rintro ⟨h1, h2⟩
      obtain ⟨n, rfl⟩ := hd x hx
      obtain ⟨n', rfl⟩ := hd y hy
      exact hxy (by rw [hk strings d n n' (String.le_antisymm h1 h2)])

theorem globAll_order {W : World} {o : List String → List String} (hW : ∀ l, (W.order l).Perm l.dedup) (ho : ∀ l, (o l).Perm l.dedup) (ondisk source strings : Bool) (pat : String) (S : Nodes) (ps : List Path) :
    (globAll W ondisk source strings pat S ps = none ∧ globAll { W with order := o } ondisk source strings pat S ps = none) ∨
      ∃ S' l l', globAll W ondisk source strings pat S ps = some (S', l) ∧ globAll { W with order := o } ondisk source strings pat S ps = some (S', l') ∧ Blocks l l' := by
  induction ps generalizing S with
  | nil => exact .inr ⟨S, [], [], rfl, rfl, .nil⟩
  | cons p ps ih =>
    simp only [globAll]
    have e : S.disamb { W with order := o } p = S.disamb W p := rfl
    rw [e]
    split
    · rcases glob1_order hW ho ondisk source strings (S.disamb W p) p pat with ⟨h1, h2⟩ | ⟨S', l, l', h1, h2, h3, h4⟩
      · rw [h1, h2]; exact .inl ⟨rfl, rfl⟩
      · rw [h1, h2]
        dsimp only
        rcases ih S' with ⟨i1, i2⟩ | ⟨S2, m, m', i1, i2, i3⟩
        · rw [i1, i2]; exact .inl ⟨rfl, rfl⟩
        · rw [i1, i2]; exact .inr ⟨S2, _, _, rfl, rfl, .append h3 h4 i3⟩
    · exact ih _

/-- What is done about `exclude` does not depend on the order, on results in blocks. -/
def SameFin (fin fin' : Bool → Nodes → List Path → Option (Nodes × List Path)) : Prop :=
  ∀ strings S l l', Blocks l l' → (fin strings S l = none ∧ fin' strings S l' = none) ∨ ∃ S' m m', fin strings S l = some (S', m) ∧ fin' strings S l' = some (S', m') ∧ Blocks m m'

theorem globWith_order {W : World} {o : List String → List String} (hk : KeyInj W) (hW : ∀ l, (W.order l).Perm l.dedup) (ho : ∀ l, (o l).Perm l.dedup) (ondisk source : Bool) {fin fin' : Bool → Nodes → List Path → Option (Nodes × List Path)}
    (hf : SameFin fin fin') (base : Path) (pats : List String) (strings : Bool) (S : Nodes) : globWith { W with order := o } ondisk source fin' base pats strings S = globWith W ondisk source fin base pats strings S := by
  induction pats generalizing strings with
  | nil => rfl
  | cons b cs ih =>
    have sort : ∀ {l l'}, Blocks l l' → World.sorted { W with order := o } strings l' = W.sorted strings l := fun h => (h.sort hk strings).symm
    cases cs with
    | nil =>
      simp only [globWith]
      rcases glob1_order hW ho ondisk source strings S base b with ⟨h1, h2⟩ | ⟨S', l, l', h1, h2, h3, h4⟩
      · rw [h1, h2]
      · rw [h1, h2]
        dsimp only
        have hb : Blocks l l' := by have := Blocks.append h3 h4 .nil; simpa using this
        rcases hf strings S' l l' hb with ⟨f1, f2⟩ | ⟨S2, m, m', f1, f2, f3⟩
        · rw [f1, f2]
        · rw [f1, f2]; dsimp only; rw [sort f3]
    | cons c cs =>
      simp only [globWith]
      rw [ih false]
      split
      · rfl
      · rename_i S1 dirs _
        rcases globAll_order hW ho ondisk source strings b S1 dirs with ⟨h1, h2⟩ | ⟨S', l, l', h1, h2, h3⟩
        · rw [h1, h2]
        · rw [h1, h2]
          dsimp only
          rcases hf strings S' l l' h3 with ⟨f1, f2⟩ | ⟨S2, m, m', f1, f2, f3⟩
          · rw [f1, f2]
          · rw [f1, f2]; dsimp only; rw [sort f3]

theorem globExcl_order {W : World} {o : List String → List String} (hk : KeyInj W) (hW : ∀ l, (W.order l).Perm l.dedup) (ho : ∀ l, (o l).Perm l.dedup) (ondisk source strings : Bool) (S : Nodes) (xs : List Pat) :
    globExcl { W with order := o } ondisk source strings S xs = globExcl W ondisk source strings S xs := by
  induction xs generalizing S with
  | nil => rfl
  | cons x xs ih =>
    simp only [globExcl, globPlain]
    rw [globWith_order hk hW ho ondisk source (fin := fun _ S l => some (S, l)) (fun _ S l l' h => .inr ⟨S, l, l', rfl, rfl, h⟩)]
    split
    · rfl
    · rw [ih]

/-- **C69** The result, its order included, and the nodes made do not depend on the order in which sets are iterated over, which changes from one run of Python to the next; for every layout and all arguments. -/
theorem C69_deterministic {W V : World} (h : SameButOrder W V) (hk : KeyInj W) (ondisk source strings : Bool) (S : Nodes) (pat : Pat) (xs : List Pat) : glob V ondisk source strings S pat xs = glob W ondisk source strings S pat xs := by
  rw [h.eq]
  unfold glob
  refine globWith_order hk h.orderW h.orderV ondisk source (fun strings S l l' hb => ?_) _ _ _ _
  unfold exclude
  split
  · exact .inr ⟨S, l, l', rfl, rfl, hb⟩
  · rw [globExcl_order hk h.orderW h.orderV]
    split
    · exact .inl ⟨rfl, rfl⟩
    · exact .inr ⟨_, _, _, rfl, rfl, hb.filter _⟩

/-- **C69** `source` has no effect at all. -/
theorem C69_source_ignored (W : World) (ondisk strings : Bool) (S : Nodes) (pat : Pat) (xs : List Pat) : glob W ondisk true strings S pat xs = glob W ondisk false strings S pat xs := by
  have h1 : ∀ st S d pat, glob1 W ondisk true st S d pat = glob1 W ondisk false st S d pat := fun _ _ _ _ => rfl
  have h2 : ∀ st pat S ps, globAll W ondisk true st pat S ps = globAll W ondisk false st pat S ps := by
    intro st pat S ps
    induction ps generalizing S with
    | nil => rfl
    | cons p ps ih => simp only [globAll, h1, ih]
  have h3 : ∀ fin base pats st S, globWith W ondisk true fin base pats st S = globWith W ondisk false fin base pats st S := by
    intro fin base pats
    induction pats with
    | nil => intro st S; rfl
    | cons b cs ih =>
      intro st S
      cases cs with
      | nil => simp only [globWith, h1]
      | cons c cs => simp only [globWith, ih, h2]
  have h4 : ∀ st S xs, globExcl W ondisk true st S xs = globExcl W ondisk false st S xs := by
    intro st S xs
    induction xs generalizing S with
    | nil => rfl
    | cons x xs ih => simp only [globExcl, globPlain, h3, ih]
  have h5 : exclude W ondisk true xs = exclude W ondisk false xs := by funext st S l; simp only [exclude, h4]
  unfold glob
  rw [h5, h3]

/-! ## Cases -/

/-- `fnmatch` on characters: `*`, `?` and `[...]` without ranges; an unclosed `[` stands for itself. -/
def match' : Nat → List Char → List Char → Bool
  | 0, _, _ => false
  | _ + 1, [], [] => true
  | _ + 1, _ :: _, [] => false
  | k + 1, s, '*' :: p => match' k s p || (match s with | [] => false | _ :: s => match' k s ('*' :: p))
  | k + 1, c :: s, '?' :: p => let _ := c; match' k s p
  | k + 1, c :: s, '[' :: p =>
    match p.span (· ≠ ']') with
    | (cls, _ :: p') => cls.contains c && match' k s p'
    | (_, []) => c = '[' && match' k s p
  | k + 1, c :: s, x :: p => c = x && match' k s p
  | _ + 1, [], _ :: _ => false

def fnmatch (s p : String) : Bool := match' 100 s.toList p.toList

def pathStr (p : Path) : String := "/".intercalate p.reverse

def wPlain : World where
  top := []
  search d := [d]
  list p := match p with | [] => some ["src", "a[1].c", "a1.c", "b.c", ".h.c"] | ["src"] => some ["x.c", "y.h"] | _ => none
  disk p := match p with | [] => some .dir | ["src"] => some .dir | [_] => some .file | [_, "src"] => some .file | _ => none
  srcDir _ := false
  fm := fnmatch
  order := List.dedup
  key _ := pathStr

def noNodes : Nodes := ⟨fun _ => [], fun _ => .entry⟩

theorem wPlain_tidy : Tidy wPlain noNodes where
  order _ := .refl _
  self d := by simp [wPlain]
  trans d r hr q hq := by simp only [wPlain, List.mem_singleton] at hr hq ⊢; rw [hq, hr]
  hashNode _ _ h := by cases h
  hashDisk d l h n hn := by
    simp only [wPlain] at h
    split at h
    · simp only [Option.some.injEq] at h; subst h; revert n; decide
    · simp only [Option.some.injEq] at h; subst h; revert n; decide
    · cases h
  kinds d r l hr _ n _ := by simp only [wPlain, List.mem_singleton] at hr; rw [hr]
  unknown _ _ _ := rfl

/-- A case: `Glob('*.c')` and `Glob('*/*.c')`; hidden files are not found. -/
theorem C69_nonvacuous : Tidy wPlain noNodes ∧ Pat.ok ([], ["*.c"]) ∧ Pat.ok ([], ["*.c", "*"]) ∧
    (glob wPlain true false false noNodes ([], ["*.c"]) []).map (·.2) = some [["a1.c"], ["a[1].c"], ["b.c"]] ∧
    (glob wPlain true false true noNodes ([], ["*.c", "*"]) []).map (·.2) = some [["x.c", "src"]] := by
  refine ⟨wPlain_tidy, ⟨by simp, by simp⟩, ⟨by simp, by simp⟩, by decide +kernel, by decide +kernel⟩

/-- **C69** is false of `exclude` with brackets in a name: the matches are used as patterns again.  Excluding `a[1].c` (written `a[[]1].c`) leaves it in the result and takes `a1.c` out. -/
theorem C69_exclude_brackets : (glob wPlain true false false noNodes ([], ["*.c"]) [([], ["a[[]1].c"])]).map (·.2) = some [["a[1].c"], ["b.c"]] ∧
    (globPlain wPlain true false [] ["a[[]1].c"] false noNodes).map (·.2) = some [["a[1].c"]] := by
  refine ⟨by decide +kernel, by decide +kernel⟩

/-- **C69** A pattern that ends with a slash raises (an IndexError). -/
theorem C69_trailing_slash : glob wPlain true false false noNodes (["src"], [""]) [] = none := by rfl

/-- `build` is a variant directory of `src`, where Emacs has left `#x.c#`. -/
def wHash : World where
  top := []
  search d := match d with | ["build"] => [["build"], ["src"]] | d => [d]
  list p := match p with | [] => some ["src"] | ["src"] => some ["#x.c#", "y.c"] | _ => none
  disk p := match p with | [] => some .dir | ["src"] => some .dir | [_, "src"] => some .file | _ => none
  srcDir _ := false
  fm := fnmatch
  order := List.dedup
  key _ := pathStr

/-- Globs one after the other. -/
def globs (W : World) (S : Nodes) : List (Bool × Pat) → Option (Nodes × List Path)
  | [] => some (S, [])
  | [(o, p)] => glob W o false false S p []
  | (o, p) :: r => match glob W o false false S p [] with | none => none | some (S, _) => globs W S r

/-- **C69** is false of what a later `Glob` finds: after `Glob` in the source directory and in the variant directory, a `Glob` in the top directory returns `x.c#`, which is neither on disk nor was named by anybody. -/
theorem C69_hash_leaks : (globs wHash noNodes [(true, [], ["*x*"])]).map (·.2) = some [] ∧
    (globs wHash noNodes [(true, ["src"], ["*"]), (true, ["build"], ["*"]), (true, [], ["*x*"])]).map (·.2) = some [["x.c#"]] := by
  refine ⟨by decide +kernel, by decide +kernel⟩

/-- **C69** And without `ondisk`, the `Glob` in the variant directory raises (a KeyError). -/
theorem C69_hash_raises : globs wHash noNodes [(true, ["src"], ["*"]), (false, ["build"], ["*"])] = none := by rfl

/-- `b2` is a variant directory of `b1`, which is one of `src`; both duplicate. -/
def wChain : World where
  top := []
  search d := match d with | ["b1"] => [["b1"], ["src"]] | ["b2"] => [["b2"], ["b1"]] | d => [d]
  list p := match p with | ["src"] => some ["x.c"] | _ => none
  disk p := match p with | ["src"] => some .dir | ["x.c", "src"] => some .file | _ => none
  srcDir _ := false
  fm := fnmatch
  order := List.dedup
  key _ := pathStr

/-- **C69** is false of chains of variant directories: what `Glob` finds depends on the `Glob`s before it. -/
theorem C69_chain : (globs wChain noNodes [(true, ["b2"], ["*"])]).map (·.2) = some [] ∧ (globs wChain noNodes [(true, ["b1"], ["*"]), (true, ["b2"], ["*"])]).map (·.2) = some [["x.c", "b2"]] := by
  refine ⟨by decide +kernel, by decide +kernel⟩

/-- A local file of a name that is a directory in the repository. -/
def wRep : World where
  top := []
  search d := match d with | ["w"] => [["w"], ["rep"]] | d => [d]
  list p := match p with | ["w"] => some ["doc"] | ["rep"] => some ["doc"] | _ => none
  disk p := match p with | ["doc", "w"] => some .file | ["doc", "rep"] => some .dir | _ => none
  srcDir _ := false
  fm := fnmatch
  order := List.dedup
  key _ := pathStr

/-- **C69** is false of the nodes' kinds: the local file is returned as a directory, because the last directory searched decides. -/
theorem C69_kind : ((globs wRep noNodes [(true, ["w"], ["*"])]).map fun r => (r.2, r.1.kind ["doc", "w"])) = some ([["doc", "w"]], .dir) ∧ wRep.disk ["doc", "w"] = some .file := by
  refine ⟨by decide +kernel, rfl⟩

/-- The class given to an entry nothing is known of: what the disk says; where it says nothing, a
directory if the source directory has one of that name, else a file (FS.py 1046-1076). -/
theorem C69_class (W : World) (p : Path) :
    (W.classOf p = .dir ↔ W.disk p = some .dir ∨ ((∀ k, k = .file ∨ k = .dir → W.disk p ≠ some k) ∧ W.srcDir p = true)) ∧
      W.classOf p ≠ .entry := by
  unfold World.classOf
  cases h : W.disk p with
  | none => cases hs : W.srcDir p <;> simp
  | some k => cases k <;> cases hs : W.srcDir p <;> simp

end Verif.FS.Glob
