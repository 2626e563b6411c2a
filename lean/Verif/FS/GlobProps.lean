import Verif.FS.Glob

/-! # Glob: theorems (C69) -/

namespace Verif.FS.Glob

/-- Where `Glob` finds the name `n` when asked about the directory `d`: a node of that name, or (with `ondisk`) a file, in `d` or in a directory that is searched for it. -/
def Present (W : World) (S : Nodes) (ondisk : Bool) (d : Path) (n : String) : Prop := ∃ r ∈ W.search d, n ∈ S.names r ∨ ondisk = true ∧ ∃ l, W.list r = some l ∧ n ∈ l

/-- Whether the path is a directory: by the class of the node, or, for a node without a class, by what is on disk. -/
def Nodes.isDir (W : World) (S : Nodes) (p : Path) : Prop := match S.kind p with | .dir => True | .file => False | .entry => W.classOf p = .dir

/-- **Specification**: `p` matches the pattern with the components `pats` (innermost first) under `base`. -/
def Matches (W : World) (S : Nodes) (ondisk : Bool) (base : Path) : List String → Path → Prop
  | [], p => p = base
  | _ :: _, [] => False
  | b :: cs, n :: d => W.hits b n = true ∧ Present W S ondisk d n ∧ Matches W S ondisk base cs d ∧ (cs ≠ [] → S.isDir W d)

/-- The set's iteration gives each element once; every search begins with the directory itself and searches what those it finds search; names do not begin with `#`; classes of a directory's entry and of what is found for it agree; nodes that
are not there have no class. -/
structure Tidy (W : World) (S : Nodes) : Prop where
  order : ∀ l, (W.order l).Perm l.dedup
  self : ∀ d, d ∈ W.search d
  trans : ∀ d r, r ∈ W.search d → ∀ q ∈ W.search r, q ∈ W.search d
  hashNode : ∀ d, ∀ n ∈ S.names d, hashed n = false
  hashDisk : ∀ d l, W.list d = some l → ∀ n ∈ l, hashed n = false
  kinds : ∀ d r l, r ∈ W.search d → W.list r = some l → ∀ n ∈ l, (S.isDir W (n :: r) ↔ S.isDir W (n :: d))
  unknown : ∀ d n, n ∉ S.names d → S.kind (n :: d) = .entry

/-- What a `Glob` keeps: `S'` knows the nodes of `S`, the others it knows are of names found in the search, and it takes the same paths for directories. -/
structure Keeps (W : World) (ondisk : Bool) (S S' : Nodes) : Prop where
  mono : ∀ d n, n ∈ S.names d → n ∈ S'.names d
  back : ∀ d n, n ∈ S'.names d → n ∈ S.names d ∨ Present W S ondisk d n
  dirs : ∀ p, S'.isDir W p ↔ S.isDir W p
  unknown : ∀ d n, n ∉ S'.names d → S'.kind (n :: d) = .entry

theorem Keeps.present {W : World} {S S' : Nodes} {ondisk : Bool} (hT : Tidy W S) (h : Keeps W ondisk S S') (d : Path) (n : String) : Present W S' ondisk d n ↔ Present W S ondisk d n := by
  constructor
  · rintro ⟨r, hr, hn | hn⟩
    · rcases h.back r n hn with h1 | ⟨q, hq, h1⟩
      · exact ⟨r, hr, .inl h1⟩
      · exact ⟨q, hT.trans d r hr q hq, h1⟩
    · exact ⟨r, hr, .inr hn⟩
  · rintro ⟨r, hr, hn | hn⟩
    · exact ⟨r, hr, .inl (h.mono r n hn)⟩
    · exact ⟨r, hr, .inr hn⟩

theorem Keeps.refl {W : World} {S : Nodes} {ondisk : Bool} (hT : Tidy W S) : Keeps W ondisk S S := ⟨fun _ _ h => h, fun _ _ h => .inl h, fun _ => Iff.rfl, hT.unknown⟩

theorem Keeps.hash {W : World} {S S' : Nodes} {ondisk : Bool} (hT : Tidy W S) (h : Keeps W ondisk S S') (d : Path) (n : String) (hn : n ∈ S'.names d) : hashed n = false := by
  rcases h.back d n hn with h1 | ⟨q, _, h1 | ⟨_, l, hl, h1⟩⟩
  · exact hT.hashNode d n h1
  · exact hT.hashNode q n h1
  · exact hT.hashDisk q l hl n h1

theorem Keeps.tidy {W : World} {S S' : Nodes} {ondisk : Bool} (hT : Tidy W S) (h : Keeps W ondisk S S') : Tidy W S' where
  order := hT.order
  self := hT.self
  trans := hT.trans
  hashNode := h.hash hT
  hashDisk := hT.hashDisk
  kinds d r l hr hl n hn := by rw [h.dirs, h.dirs]; exact hT.kinds d r l hr hl n hn
  unknown := h.unknown

theorem Keeps.trans {W : World} {S S' S'' : Nodes} {ondisk : Bool} (hT : Tidy W S) (h : Keeps W ondisk S S') (h' : Keeps W ondisk S' S'') : Keeps W ondisk S S'' where
  mono d n hn := h'.mono d n (h.mono d n hn)
  back d n hn := by
    rcases h'.back d n hn with h1 | h1
    · exact h.back d n h1
    · exact .inr ((h.present hT d n).1 h1)
  dirs p := (h'.dirs p).trans (h.dirs p)
  unknown := h'.unknown

/-! ## Steps -/

theorem entry_names (S : Nodes) (d : Path) (n : String) (q : Path) (m : String) : m ∈ (S.entry d n).names q ↔ m ∈ S.names q ∨ q = d ∧ m = n := by
  unfold Nodes.entry
  split
  · rename_i h
    constructor
    · exact .inl
    · rintro (h1 | ⟨rfl, rfl⟩)
      · exact h1
      · exact h
  · dsimp only
    split
    · rename_i e; subst e; simp
    · rename_i e; simp [e]

theorem entry_kind {S : Nodes} {d : Path} {n : String} (hu : ∀ d n, n ∉ S.names d → S.kind (n :: d) = .entry) : (S.entry d n).kind = S.kind := by
  unfold Nodes.entry
  split
  · rfl
  · rename_i h
    funext q
    dsimp only
    split
    · rename_i e; subst e; exact (hu d n h).symm
    · rfl

theorem setKind_isDir {W : World} {S : Nodes} {p : Path} {k : Kind} (h : (match k with | .dir => True | .file => False | .entry => W.classOf p = .dir) ↔ S.isDir W p) (q : Path) : (S.setKind p k).isDir W q ↔ S.isDir W q := by
  by_cases e : q = p
  · subst e
    rw [← h]
    simp [Nodes.isDir, Nodes.setKind]
  · simp [Nodes.isDir, Nodes.setKind, e]

theorem classOf_ne (W : World) (p : Path) : W.classOf p ≠ .entry := by
  unfold World.classOf
  split <;> (try split) <;> simp

theorem disamb_isDir {W : World} {S : Nodes} {p : Path} (q : Path) : (S.disamb W p).isDir W q ↔ S.isDir W q := by
  unfold Nodes.disamb
  split
  · rename_i h
    refine setKind_isDir ?_ q
    have := classOf_ne W p
    simp only [Nodes.isDir, h]
    cases hc : W.classOf p <;> simp_all
  · rfl

theorem Keeps.entry {W : World} {S S' : Nodes} {ondisk : Bool} (h : Keeps W ondisk S S') {d : Path} {n : String} (hn : n ∈ S.names d ∨ Present W S ondisk d n) : Keeps W ondisk S (S'.entry d n) where
  mono q m hm := (entry_names S' d n q m).2 (.inl (h.mono q m hm))
  back q m hm := by
    rcases (entry_names S' d n q m).1 hm with h1 | ⟨rfl, rfl⟩
    · exact h.back q m h1
    · exact hn
  dirs p := by
    have : (S'.entry d n).isDir W p ↔ S'.isDir W p := by simp only [Nodes.isDir, entry_kind h.unknown]
    exact this.trans (h.dirs p)
  unknown q m hm := by
    rw [entry_kind h.unknown]
    exact h.unknown q m fun h1 => hm ((entry_names S' d n q m).2 (.inl h1))

theorem Keeps.setKind {W : World} {S S' : Nodes} {ondisk : Bool} (h : Keeps W ondisk S S') {d : Path} {n : String} {k : Kind} (hn : n ∈ S'.names d)
    (hk : (match k with | .dir => True | .file => False | .entry => W.classOf (n :: d) = .dir) ↔ S'.isDir W (n :: d)) : Keeps W ondisk S (S'.setKind (n :: d) k) where
  mono := h.mono
  back := h.back
  dirs p := (setKind_isDir hk p).trans (h.dirs p)
  unknown q m hm := by
    have hm' : m ∉ S'.names q := hm
    simp only [Nodes.setKind]
    rw [if_neg]
    · exact h.unknown q m hm'
    · intro e
      simp only [List.cons.injEq] at e
      obtain ⟨rfl, rfl⟩ := e
      exact hm' hn

theorem Keeps.disamb {W : World} {S S' : Nodes} {ondisk : Bool} (h : Keeps W ondisk S S') {d : Path} {n : String} (hn : n ∈ S'.names d) : Keeps W ondisk S (S'.disamb W (n :: d)) := by
  unfold Nodes.disamb
  split
  · rename_i he
    refine h.setKind hn ?_
    have := classOf_ne W (n :: d)
    simp only [Nodes.isDir, he]
    cases hc : W.classOf (n :: d) <;> simp_all
  · exact h

theorem selfEntry_eq {W : World} {S : Nodes} {d : Path} {n : String} (h : hashed n = false) : Nodes.selfEntry W d S n = S.entry d n := by simp [Nodes.selfEntry, h]

/-- All names of a directory of the search. -/
theorem Keeps.selfEntries {W : World} {S S' : Nodes} {ondisk : Bool} (hT : Tidy W S) (h : Keeps W ondisk S S') {d : Path} (l : List String) (hl : ∀ n ∈ l, Present W S ondisk d n) :
    Keeps W ondisk S (l.foldl (Nodes.selfEntry W d) S') ∧ ∀ n ∈ l, n ∈ (l.foldl (Nodes.selfEntry W d) S').names d := by
  induction l generalizing S' with
  | nil => exact ⟨h, by simp⟩
  | cons n l ih =>
    have hp := hl n (by simp)
    have hh : hashed n = false := by
      obtain ⟨r, hr, h1 | ⟨_, l, hl, h1⟩⟩ := hp
      · exact hT.hashNode r n h1
      · exact hT.hashDisk r l hl n h1
    rw [List.foldl_cons, selfEntry_eq hh]
    have h1 := h.entry (d := d) (n := n) (.inr hp)
    obtain ⟨i1, i2⟩ := ih h1 fun m hm => hl m (by simp [hm])
    refine ⟨i1, fun m hm => ?_⟩
    rcases List.mem_cons.1 hm with rfl | hm
    · -- once there, it stays
      have stays : ∀ (l : List String) (T : Nodes), m ∈ T.names d → (∀ x ∈ l, hashed x = false) → m ∈ (l.foldl (Nodes.selfEntry W d) T).names d := by
        intro l
        induction l with
        | nil => intro T hT _; exact hT
        | cons x l ih =>
          intro T hT hx
          rw [List.foldl_cons, selfEntry_eq (hx x (by simp))]
          exact ih _ ((entry_names T d x d m).2 (.inl hT)) fun y hy => hx y (by simp [hy])
      refine stays l _ ((entry_names S' d m d m).2 (.inr ⟨rfl, rfl⟩)) fun x hx => ?_
      obtain ⟨r, hr, h1 | ⟨_, l, hl', h1⟩⟩ := hl x (by simp [hx])
      · exact hT.hashNode r x h1
      · exact hT.hashDisk r l hl' x h1
    · exact i2 m hm

theorem found_mono {W : World} {d r : Path} {S : Nodes} {n : String} {q : Path} {m : String} (h : m ∈ S.names q) : m ∈ (Nodes.found W d r S n).names q := by
  have h1 : m ∈ ((S.entry r n).disamb W (n :: r)).names q := by
    unfold Nodes.disamb
    split <;> exact (entry_names S r n q m).2 (.inl h)
  exact (entry_names _ d n q m).2 (.inl h1)

theorem found_here {W : World} {d r : Path} {S : Nodes} {n : String} : n ∈ (Nodes.found W d r S n).names d := (entry_names _ d n d n).2 (.inr ⟨rfl, rfl⟩)

theorem disamb_kind_ne {W : World} {S : Nodes} {p : Path} : (S.disamb W p).kind p ≠ .entry := by
  unfold Nodes.disamb
  split
  · simp [Nodes.setKind, classOf_ne]
  · assumption

theorem isDir_of_kind {W : World} {S : Nodes} {p : Path} (h : S.kind p ≠ .entry) : S.isDir W p ↔ S.kind p = .dir := by
  unfold Nodes.isDir
  cases hk : S.kind p <;> simp_all

theorem Keeps.found {W : World} {S S' : Nodes} {ondisk : Bool} (hT : Tidy W S) (h : Keeps W ondisk S S') {d r : Path} {l : List String} (hr : r ∈ W.search d) (ho : ondisk = true) (hl : W.list r = some l) {n : String} (hn : n ∈ l) :
    Keeps W ondisk S (Nodes.found W d r S' n) := by
  unfold Nodes.found
  dsimp only
  have h1 : Keeps W ondisk S (S'.entry r n) := h.entry (.inr ⟨r, hT.self r, .inr ⟨ho, l, hl, hn⟩⟩)
  have h2 := h1.disamb (d := r) (n := n) ((entry_names S' r n r n).2 (.inr ⟨rfl, rfl⟩))
  have hne : ((S'.entry r n).disamb W (n :: r)).kind (n :: r) ≠ .entry := disamb_kind_ne
  generalize (S'.entry r n).disamb W (n :: r) = T at h2 hne ⊢
  have h3 := h2.entry (d := d) (n := n) (.inr ⟨r, hr, .inr ⟨ho, l, hl, hn⟩⟩)
  refine h3.setKind ((entry_names T d n d n).2 (.inr ⟨rfl, rfl⟩)) ?_
  rw [h3.dirs, ← hT.kinds d r l hr hl n hn, ← h2.dirs, isDir_of_kind hne]
  cases hk : T.kind (n :: r) <;> simp_all

theorem Keeps.foundAll {W : World} {S S' : Nodes} {ondisk : Bool} (hT : Tidy W S) (h : Keeps W ondisk S S') {d r : Path} {l : List String} (hr : r ∈ W.search d) (ho : ondisk = true) (hl : W.list r = some l) (ns : List String) (hn : ∀ n ∈ ns, n ∈ l) :
    Keeps W ondisk S (ns.foldl (Nodes.found W d r) S') ∧ (∀ n ∈ ns, n ∈ (ns.foldl (Nodes.found W d r) S').names d) ∧ ∀ q m, m ∈ S'.names q → m ∈ (ns.foldl (Nodes.found W d r) S').names q := by
  induction ns generalizing S' with
  | nil => exact ⟨h, by simp, fun _ _ h => h⟩
  | cons n ns ih =>
    rw [List.foldl_cons]
    obtain ⟨i1, i2, i3⟩ := ih (h.found hT hr ho hl (hn n (by simp))) fun m hm => hn m (by simp [hm])
    refine ⟨i1, fun m hm => ?_, fun q m hm => i3 q m (found_mono hm)⟩
    rcases List.mem_cons.1 hm with rfl | hm
    · exact i3 d m found_here
    · exact i2 m hm

/-- The names collected so far. -/
structure Collected (W : World) (S : Nodes) (ondisk strings : Bool) (d : Path) (pat : String) (rs : List Path) (X : Nodes × List String) : Prop where
  keeps : Keeps W ondisk S X.1
  sound : ∀ n ∈ X.2, Present W S ondisk d n
  complete : ∀ r ∈ rs, ∀ n, n ∈ S.names r ∨ (ondisk = true ∧ ∃ l, W.list r = some l ∧ n ∈ l) → n ∈ X.2
  here : strings = false → ∀ n ∈ X.2, W.hits pat n = true → n ∈ X.1.names d

theorem foldl_selfEntry_mono {W : World} {d : Path} (l : List String) (hl : ∀ n ∈ l, hashed n = false) (T : Nodes) {q : Path} {m : String} (h : m ∈ T.names q) : m ∈ (l.foldl (Nodes.selfEntry W d) T).names q := by
  induction l generalizing T with
  | nil => exact h
  | cons x l ih =>
    rw [List.foldl_cons, selfEntry_eq (hl x (by simp))]
    exact ih (fun y hy => hl y (by simp [hy])) _ ((entry_names T d x q m).2 (.inl h))

theorem visit_collected {W : World} {S : Nodes} (hT : Tidy W S) {ondisk strings : Bool} {d : Path} {pat : String} {rs : List Path} {X : Nodes × List String} (hX : Collected W S ondisk strings d pat rs X) {r : Path} (hr : r ∈ W.search d) :
    Collected W S ondisk strings d pat (rs ++ [r]) (visit W d pat ondisk strings X r) := by
  have hpn : ∀ n ∈ X.1.names r, Present W S ondisk d n := fun n hn => (hX.keeps.present hT d n).1 ⟨r, hr, .inl hn⟩
  have hhash : ∀ n ∈ X.1.names r, hashed n = false := hX.keeps.hash hT r
  have hS : Keeps W ondisk S (if strings then X.1 else (X.1.names r).foldl (Nodes.selfEntry W d) X.1) ∧ (strings = false → ∀ n ∈ X.1.names r, n ∈ (if strings then X.1 else (X.1.names r).foldl (Nodes.selfEntry W d) X.1).names d) ∧
      ∀ q m, m ∈ X.1.names q → m ∈ (if strings then X.1 else (X.1.names r).foldl (Nodes.selfEntry W d) X.1).names q := by
    cases strings with
    | true => exact ⟨hX.keeps, fun h => (by cases h), fun _ _ h => h⟩
    | false =>
      obtain ⟨a, b⟩ := hX.keeps.selfEntries hT (X.1.names r) hpn
      exact ⟨a, fun _ => b, fun q m h => foldl_selfEntry_mono _ hhash _ h⟩
  unfold visit
  dsimp only
  generalize (if strings then X.1 else (X.1.names r).foldl (Nodes.selfEntry W d) X.1) = T at hS
  obtain ⟨k1, k2, k3⟩ := hS
  -- without files
  have plain : (ondisk = true → W.list r = none) → Collected W S ondisk strings d pat (rs ++ [r]) (T, X.2 ++ X.1.names r) := by
    intro hno
    refine ⟨k1, fun n hn => ?_, fun q hq n hn => ?_, fun hs n hn hh => ?_⟩
    · rcases List.mem_append.1 hn with hn | hn
      · exact hX.sound n hn
      · exact hpn n hn
    · rcases List.mem_append.1 hq with hq | hq
      · exact List.mem_append_left _ (hX.complete q hq n hn)
      · simp only [List.mem_singleton] at hq
        subst hq
        rcases hn with hn | ⟨ho, l, hl, _⟩
        · exact List.mem_append_right _ (hX.keeps.mono _ _ hn)
        · rw [hno ho] at hl; cases hl
    · rcases List.mem_append.1 hn with hn | hn
      · exact k3 d n (hX.here hs n hn hh)
      · exact k2 hs n hn
  cases ondisk with
  | false => exact plain (fun h => by cases h)
  | true =>
    cases hl : W.list r with
    | none => exact plain (fun _ => hl)
    | some dn =>
      dsimp only
      have hF : Keeps W true S (if strings then T else (dn.filter (W.hits pat)).foldl (Nodes.found W d r) T) ∧ (strings = false → ∀ n ∈ dn, W.hits pat n = true → n ∈ (if strings then T else (dn.filter (W.hits pat)).foldl (Nodes.found W d r) T).names d) ∧
          ∀ q m, m ∈ T.names q → m ∈ (if strings then T else (dn.filter (W.hits pat)).foldl (Nodes.found W d r) T).names q := by
        cases strings with
        | true => exact ⟨k1, fun h => (by cases h), fun _ _ h => h⟩
        | false =>
          obtain ⟨a, b, c⟩ := k1.foundAll hT hr rfl hl (dn.filter (W.hits pat)) fun n hn => (List.mem_filter.1 hn).1
          exact ⟨a, fun _ n hn hh => b n (List.mem_filter.2 ⟨hn, hh⟩), c⟩
      generalize (if strings then T else (dn.filter (W.hits pat)).foldl (Nodes.found W d r) T) = T2 at hF ⊢
      obtain ⟨f1, f2, f3⟩ := hF
      refine ⟨f1, fun n hn => ?_, fun q hq n hn => ?_, fun hs n hn hh => ?_⟩
      · rcases List.mem_append.1 hn with hn | hn
        · rcases List.mem_append.1 hn with hn | hn
          · exact hX.sound n hn
          · exact hpn n hn
        · exact ⟨r, hr, .inr ⟨rfl, dn, hl, hn⟩⟩
      · rcases List.mem_append.1 hq with hq | hq
        · exact List.mem_append_left _ (List.mem_append_left _ (hX.complete q hq n hn))
        · simp only [List.mem_singleton] at hq
          subst hq
          rcases hn with hn | ⟨_, l, hl', hn⟩
          · exact List.mem_append_left _ (List.mem_append_right _ (hX.keeps.mono _ _ hn))
          · rw [hl, Option.some.injEq] at hl'
            subst hl'
            exact List.mem_append_right _ hn
      · rcases List.mem_append.1 hn with hn | hn
        · rcases List.mem_append.1 hn with hn | hn
          · exact f3 d n (k3 d n (hX.here hs n hn hh))
          · exact f3 d n (k2 hs n hn)
        · exact f2 hs n hn hh

theorem visits_collected {W : World} {S : Nodes} (hT : Tidy W S) {ondisk strings : Bool} {d : Path} {pat : String} (rs : List Path) (hr : ∀ r ∈ rs, r ∈ W.search d) {done : List Path} {X : Nodes × List String} (hX : Collected W S ondisk strings d pat done X) :
    Collected W S ondisk strings d pat (done ++ rs) (rs.foldl (visit W d pat ondisk strings) X) := by
  induction rs generalizing done X with
  | nil => simpa using hX
  | cons r rs ih =>
    rw [List.foldl_cons]
    have := ih (fun q hq => hr q (by simp [hq])) (visit_collected hT hX (hr r (by simp)))
    simpa using this

/-- One directory and one pattern. -/
theorem glob1_spec {W : World} {S : Nodes} (hT : Tidy W S) (ondisk source strings : Bool) (d : Path) {pat : String} (hp : pat ≠ "") :
    ∃ S' l, glob1 W ondisk source strings S d pat = some (S', l) ∧ Keeps W ondisk S S' ∧ l.Nodup ∧ (∀ p ∈ l, ∃ n, p = n :: d) ∧ (∀ n, n :: d ∈ l ↔ W.hits pat n = true ∧ Present W S ondisk d n) ∧
      (strings = false → ∀ n, n :: d ∈ l → n ∈ S'.names d) := by
  have h0 : Collected W S ondisk strings d pat [] (S, []) := ⟨.refl hT, by simp, by simp, by simp⟩
  have h1 := visits_collected hT (W.search d) (fun _ h => h) h0
  rw [List.nil_append] at h1
  unfold glob1
  rw [if_neg hp]
  dsimp only
  generalize (W.search d).foldl (visit W d pat ondisk strings) (S, []) = X at h1
  have hmem : ∀ n, n ∈ (W.order X.2).filter (W.hits pat) ↔ W.hits pat n = true ∧ Present W S ondisk d n := by
    intro n
    rw [List.mem_filter, (hT.order X.2).mem_iff, List.mem_dedup]
    constructor
    · exact fun h => ⟨h.2, h1.sound n h.1⟩
    · rintro ⟨hh, r, hr, hn⟩
      exact ⟨h1.complete r hr n hn, hh⟩
  have hall : (strings || ((W.order X.2).filter (W.hits pat)).all fun n => n ∈ X.1.names d) = true := by
    cases strings with
    | true => rfl
    | false =>
      simp only [Bool.false_or, List.all_eq_true, decide_eq_true_eq]
      intro n hn
      rw [List.mem_filter, (hT.order X.2).mem_iff, List.mem_dedup] at hn
      exact h1.here rfl n hn.1 hn.2
  rw [if_pos hall]
  refine ⟨_, _, rfl, h1.keeps, ?_, ?_, fun n => ?_, fun hs n hn => ?_⟩
  · refine List.Nodup.map (fun a b h => by simpa using h) (List.Nodup.filter _ ?_)
    exact (hT.order X.2).nodup_iff.2 (List.nodup_dedup _)
  · intro p hp
    obtain ⟨n, _, rfl⟩ := List.mem_map.1 hp
    exact ⟨n, rfl⟩
  · rw [← hmem n, List.mem_map]
    constructor
    · rintro ⟨m, hm, e⟩
      simp only [List.cons.injEq, and_true] at e
      exact e ▸ hm
    · exact fun h => ⟨n, h, rfl⟩
  · obtain ⟨m, hm, e⟩ := List.mem_map.1 hn
    simp only [List.cons.injEq, and_true] at e
    subst e
    rw [List.mem_filter, (hT.order X.2).mem_iff, List.mem_dedup] at hm
    exact h1.here hs m hm.1 hm.2

/-- A pattern in each of several directories. -/
theorem globAll_spec {W : World} (ondisk source strings : Bool) {pat : String} (hp : pat ≠ "") (ps : List Path) (hps : ps.Nodup) {S : Nodes} (hT : Tidy W S) (hk : ∀ p ∈ ps, ∃ n d, p = n :: d ∧ n ∈ S.names d) :
    ∃ S' l, globAll W ondisk source strings pat S ps = some (S', l) ∧ Keeps W ondisk S S' ∧ l.Nodup ∧
      (∀ p, p ∈ l ↔ ∃ n d, p = n :: d ∧ d ∈ ps ∧ S.isDir W d ∧ W.hits pat n = true ∧ Present W S ondisk d n) ∧ (strings = false → ∀ n d, n :: d ∈ l → n ∈ S'.names d) := by
  induction ps generalizing S with
  | nil => exact ⟨S, [], rfl, .refl hT, List.nodup_nil, by simp, by simp⟩
  | cons p ps ih =>
    obtain ⟨m, e, rfl, hm⟩ := hk p (by simp)
    have h1 : Keeps W ondisk S (S.disamb W (m :: e)) := (Keeps.refl hT).disamb hm
    have hT1 := h1.tidy hT
    have hne : (S.disamb W (m :: e)).kind (m :: e) ≠ .entry := disamb_kind_ne
    have hd := isDir_of_kind (W := W) hne
    simp only [globAll]
    generalize S.disamb W (m :: e) = S1 at h1 hT1 hne hd ⊢
    rw [h1.dirs] at hd
    have hnd := List.nodup_cons.1 hps
    by_cases hkd : S1.kind (m :: e) = .dir
    · rw [if_pos hkd]
      obtain ⟨S2, l, g1, g2, g3, g4, g5, g6⟩ := glob1_spec hT1 ondisk source strings (m :: e) hp
      have h2 := h1.trans hT g2
      obtain ⟨S3, l', a1, a2, a3, a4, a5⟩ := ih hnd.2 (h2.tidy hT) fun p hp => by
        obtain ⟨n, d, rfl, hn⟩ := hk p (by simp [hp])
        exact ⟨n, d, rfl, h2.mono d n hn⟩
      rw [g1]
      dsimp only
      rw [a1]
      refine ⟨S3, l ++ l', rfl, h2.trans hT a2, ?_, fun q => ?_, fun hs n d hn => ?_⟩
      · refine List.nodup_append.2 ⟨g3, a3, fun x hx y hy e' => ?_⟩
        subst e'
        obtain ⟨n, rfl⟩ := g4 _ hx
        obtain ⟨n', d', e2, hd', _⟩ := (a4 _).1 hy
        simp only [List.cons.injEq] at e2
        obtain ⟨_, rfl⟩ := e2
        exact hnd.1 hd'
      · rw [List.mem_append, a4]
        constructor
        · rintro (h | ⟨n, d, rfl, hd', c1, c2, c3⟩)
          · obtain ⟨n, rfl⟩ := g4 _ h
            have := (g5 n).1 h
            exact ⟨n, _, rfl, by simp, hd.2 hkd, this.1, (h1.present hT _ _).1 this.2⟩
          · exact ⟨n, d, rfl, by simp [hd'], (h2.dirs d).1 c1, c2, (h2.present hT _ _).1 c3⟩
        · rintro ⟨n, d, rfl, hd', c1, c2, c3⟩
          rcases List.mem_cons.1 hd' with rfl | hd'
          · exact .inl ((g5 n).2 ⟨c2, (h1.present hT _ _).2 c3⟩)
          · exact .inr ⟨n, d, rfl, hd', (h2.dirs d).2 c1, c2, (h2.present hT _ _).2 c3⟩
      · rcases List.mem_append.1 hn with hn | hn
        · obtain ⟨n', e'⟩ := g4 _ hn
          simp only [List.cons.injEq] at e'
          obtain ⟨rfl, rfl⟩ := e'
          exact a2.mono _ _ (g6 hs n hn)
        · exact a5 hs n d hn
    · rw [if_neg hkd]
      obtain ⟨S3, l', a1, a2, a3, a4, a5⟩ := ih hnd.2 hT1 fun p hp => by
        obtain ⟨n, d, rfl, hn⟩ := hk p (by simp [hp])
        exact ⟨n, d, rfl, h1.mono d n hn⟩
      rw [a1]
      refine ⟨S3, l', rfl, h1.trans hT a2, a3, fun q => ?_, a5⟩
      rw [a4]
      constructor
      · rintro ⟨n, d, rfl, hd', c1, c2, c3⟩
        exact ⟨n, d, rfl, by simp [hd'], (h1.dirs d).1 c1, c2, (h1.present hT _ _).1 c3⟩
      · rintro ⟨n, d, rfl, hd', c1, c2, c3⟩
        rcases List.mem_cons.1 hd' with rfl | hd'
        · exact absurd (hd.1 c1) hkd
        · exact ⟨n, d, rfl, hd', (h1.dirs d).2 c1, c2, (h1.present hT _ _).2 c3⟩

theorem sorted_perm (W : World) (strings : Bool) (l : List Path) : (W.sorted strings l).Perm l := List.perm_insertionSort _ _

/-- A filter of results: what it leaves out is decided by `bad`. -/
def Filters (W : World) (ondisk : Bool) (S0 : Nodes) (bad : Bool → Path → Prop) (fin : Bool → Nodes → List Path → Option (Nodes × List Path)) : Prop :=
  ∀ strings S l, Tidy W S → Keeps W ondisk S0 S → ∃ S' l', fin strings S l = some (S', l') ∧ Keeps W ondisk S S' ∧ l'.Sublist l ∧ ∀ p, p ∈ l' ↔ p ∈ l ∧ ¬ bad strings p

/-- **Specification** of a pattern together with what is left out, on the way (as a directory, under its name as a node) and at the end. -/
def Selects (W : World) (S : Nodes) (ondisk : Bool) (bad : Bool → Path → Prop) (base : Path) : List String → Bool → Path → Prop
  | [], _, p => p = base
  | _ :: _, _, [] => False
  | b :: cs, strings, n :: d => W.hits b n = true ∧ Present W S ondisk d n ∧ ¬ bad strings (n :: d) ∧ Selects W S ondisk bad base cs false d ∧ (cs ≠ [] → S.isDir W d)

theorem Selects.congr {W : World} {S S' : Nodes} (hT : Tidy W S) {ondisk : Bool} (h : Keeps W ondisk S S') {bad : Bool → Path → Prop} {base : Path} (pats : List String) (strings : Bool) (p : Path) :
    Selects W S' ondisk bad base pats strings p ↔ Selects W S ondisk bad base pats strings p := by
  induction pats generalizing strings p with
  | nil => rfl
  | cons b cs ih =>
    cases p with
    | nil => rfl
    | cons n d => simp only [Selects, h.present hT, ih, h.dirs]

theorem globWith_spec {W : World} {S0 : Nodes} {ondisk : Bool} {bad : Bool → Path → Prop} {fin : Bool → Nodes → List Path → Option (Nodes × List Path)} (hf : Filters W ondisk S0 bad fin) (source : Bool) (base : Path) {pats : List String} (hne : pats ≠ [])
    (hp : ∀ b ∈ pats, b ≠ "") (strings : Bool) {S : Nodes} (hT : Tidy W S) (h0 : Tidy W S0) (hS0 : Keeps W ondisk S0 S) :
    ∃ S' l, globWith W ondisk source fin base pats strings S = some (S', l) ∧ Keeps W ondisk S S' ∧ l.Nodup ∧ l.Pairwise (fun a b => W.key strings a ≤ W.key strings b) ∧ (∀ p, p ∈ l ↔ Selects W S ondisk bad base pats strings p) ∧
      (strings = false → ∀ p ∈ l, ∃ n d, p = n :: d ∧ n ∈ S'.names d) := by
  induction pats generalizing strings with
  | nil => exact absurd rfl hne
  | cons b cs ih =>
    have sort : ∀ l : List Path, (W.sorted strings l).Pairwise (fun a b => W.key strings a ≤ W.key strings b) := fun l => by
      haveI : Std.Total (fun a b : Path => W.key strings a ≤ W.key strings b) := ⟨fun a b => String.le_total _ _⟩
      haveI : IsTrans Path (fun a b : Path => W.key strings a ≤ W.key strings b) := ⟨fun a b c h h' => String.le_trans h h'⟩
      exact List.pairwise_insertionSort _ _
    cases cs with
    | nil =>
      obtain ⟨S1, l, g1, g2, g3, g4, g5, g6⟩ := glob1_spec hT ondisk source strings base (hp b (by simp))
      obtain ⟨S2, l', f1, f2, f3, f4⟩ := hf strings S1 l (g2.tidy hT) (hS0.trans h0 g2)
      simp only [globWith, g1, f1]
      refine ⟨S2, _, rfl, g2.trans hT f2, (sorted_perm W strings l').nodup_iff.2 (g3.sublist f3), sort _, fun p => ?_, fun hs p hp => ?_⟩
      · rw [(sorted_perm W strings l').mem_iff, f4]
        cases p with
        | nil => simp only [Selects, iff_false]; rintro ⟨h, _⟩; obtain ⟨n, e⟩ := g4 _ h; cases e
        | cons n d =>
          simp only [Selects, ne_eq, not_true, false_implies, and_true]
          constructor
          · rintro ⟨h, hb⟩
            obtain ⟨n', e⟩ := g4 _ h
            simp only [List.cons.injEq] at e
            obtain ⟨rfl, rfl⟩ := e
            exact ⟨((g5 n).1 h).1, ((g5 n).1 h).2, hb, rfl⟩
          · rintro ⟨h1, h2, h3, rfl⟩
            exact ⟨(g5 n).2 ⟨h1, h2⟩, h3⟩
      · rw [(sorted_perm W strings l').mem_iff, f4] at hp
        obtain ⟨n, rfl⟩ := g4 _ hp.1
        exact ⟨n, base, rfl, f2.mono _ _ (g6 hs n hp.1)⟩
    | cons c cs =>
      obtain ⟨S1, dirs, d1, d2, d3, d4, d5, d6⟩ := ih (by simp) (fun x hx => hp x (by simp [hx])) false
      have hT1 := d2.tidy hT
      obtain ⟨S2, l, g1, g2, g3, g4, g5⟩ := globAll_spec ondisk source strings (hp b (by simp)) dirs d3 hT1 (d6 rfl)
      have k2 := d2.trans hT g2
      obtain ⟨S3, l', f1, f2, f3, f4⟩ := hf strings S2 l (k2.tidy hT) (hS0.trans h0 k2)
      simp only [globWith, d1, g1, f1]
      refine ⟨S3, _, rfl, k2.trans hT f2, (sorted_perm W strings l').nodup_iff.2 (g3.sublist f3), sort _, fun p => ?_, fun hs p hp => ?_⟩
      · rw [(sorted_perm W strings l').mem_iff, f4, g4]
        cases p with
        | nil => simp [Selects]
        | cons n d =>
          rw [Selects.eq_def]
          simp only [ne_eq, reduceCtorEq, not_false_eq_true, true_implies]
          constructor
          · rintro ⟨⟨n', d', e, h1, h2, h3, h4⟩, hb⟩
            simp only [List.cons.injEq] at e
            obtain ⟨rfl, rfl⟩ := e
            exact ⟨h3, (d2.present hT _ _).1 h4, hb, (d5 d).1 h1, (d2.dirs d).1 h2⟩
          · rintro ⟨h1, h2, h3, h4, h5⟩
            exact ⟨⟨n, d, rfl, (d5 d).2 h4, (d2.dirs d).2 h5, h1, (d2.present hT _ _).2 h2⟩, h3⟩
      · rw [(sorted_perm W strings l').mem_iff, f4] at hp
        obtain ⟨n, d, rfl, _⟩ := (g4 p).1 hp.1
        exact ⟨n, d, rfl, f2.mono _ _ (g5 hs n d hp.1)⟩

theorem filters_none {W : World} {ondisk : Bool} {S0 : Nodes} : Filters W ondisk S0 (fun _ _ => False) (fun _ S l => some (S, l)) :=
  fun _ S l hT _ => ⟨S, l, rfl, .refl hT, .refl _, by simp⟩

theorem selects_matches {W : World} {S : Nodes} {ondisk : Bool} {base : Path} (pats : List String) (strings : Bool) (p : Path) : Selects W S ondisk (fun _ _ => False) base pats strings p ↔ Matches W S ondisk base pats p := by
  induction pats generalizing strings p with
  | nil => rfl
  | cons b cs ih =>
    cases p with
    | nil => rfl
    | cons n d => simp only [Selects, Matches, ih, not_false_eq_true, true_and]

/-- A pattern without empty components. -/
def Pat.ok (x : Pat) : Prop := x.2 ≠ [] ∧ ∀ b ∈ x.2, b ≠ ""

/-- What the `exclude` patterns leave out: whatever has a name that one of the matches of one of them, taken as a pattern, matches. -/
def Excluded (W : World) (S : Nodes) (ondisk : Bool) (xs : List Pat) (strings : Bool) (p : Path) : Prop :=
  ∃ x ∈ xs, ∃ e, Matches W S ondisk x.1 x.2 e ∧ W.fm (W.key strings p) (W.key strings e) = true

theorem globExcl_spec {W : World} {ondisk : Bool} (source strings : Bool) (xs : List Pat) (hx : ∀ x ∈ xs, Pat.ok x) {S : Nodes} (hT : Tidy W S) :
    ∃ S' l, globExcl W ondisk source strings S xs = some (S', l) ∧ Keeps W ondisk S S' ∧ ∀ e, e ∈ l ↔ ∃ x ∈ xs, Matches W S ondisk x.1 x.2 e := by
  induction xs generalizing S with
  | nil => exact ⟨S, [], rfl, .refl hT, by simp⟩
  | cons x xs ih =>
    obtain ⟨S1, l, g1, g2, _, _, g3, _⟩ := globWith_spec filters_none source x.1 (hx x (by simp)).1 (hx x (by simp)).2 strings hT hT (.refl hT)
    obtain ⟨S2, l', a1, a2, a3⟩ := ih (fun y hy => hx y (by simp [hy])) (g2.tidy hT)
    refine ⟨S2, l ++ l', ?_, g2.trans hT a2, fun e => ?_⟩
    · simp only [globExcl, globPlain, g1, a1]
    · rw [List.mem_append, g3, selects_matches, a3]
      constructor
      · rintro (h | ⟨y, hy, h⟩)
        · exact ⟨x, by simp, h⟩
        · refine ⟨y, by simp [hy], ?_⟩
          rw [← selects_matches y.2 false] at h ⊢
          exact (Selects.congr hT g2 y.2 false e).1 h
      · rintro ⟨y, hy, h⟩
        rcases List.mem_cons.1 hy with rfl | hy
        · exact .inl h
        · refine .inr ⟨y, hy, ?_⟩
          rw [← selects_matches y.2 false] at h ⊢
          exact (Selects.congr hT g2 y.2 false e).2 h

theorem filters_exclude {W : World} {ondisk : Bool} (source : Bool) {xs : List Pat} (hx : ∀ x ∈ xs, Pat.ok x) {S0 : Nodes} (h0 : Tidy W S0) : Filters W ondisk S0 (Excluded W S0 ondisk xs) (exclude W ondisk source xs) := by
  intro strings S l hT hk
  unfold exclude
  split
  · rename_i h
    subst h
    exact ⟨S, l, rfl, .refl hT, .refl _, by simp [Excluded]⟩
  · obtain ⟨S1, es, e1, e2, e3⟩ := globExcl_spec source strings xs hx hT
    rw [e1]
    refine ⟨S1, _, rfl, e2, List.filter_sublist, fun p => ?_⟩
    rw [List.mem_filter]
    simp only [Bool.not_eq_true', List.any_eq_false, and_congr_right_iff]
    intro _
    constructor
    · rintro h ⟨x, hx', e, he, hfm⟩
      refine h e ((e3 e).2 ⟨x, hx', ?_⟩) hfm
      rw [← selects_matches x.2 false] at he ⊢
      exact (Selects.congr h0 hk x.2 false e).2 he
    · intro h e he hfm
      obtain ⟨x, hx', hm⟩ := (e3 e).1 he
      refine h ⟨x, hx', e, ?_, hfm⟩
      rw [← selects_matches x.2 false] at hm ⊢
      exact (Selects.congr h0 hk x.2 false e).1 hm

/-! ## The claims -/

/-- **C69** (partial: for a tidy layout) `Glob` without `exclude` returns exactly the paths that match the pattern, each once, sorted by their names; as strings or as nodes, they are the same paths; and it changes no answer of a later `Glob`: it
makes nodes only for names it finds. -/
theorem C69_exact_partial {W : World} {S : Nodes} (hT : Tidy W S) (ondisk source strings : Bool) {pat : Pat} (hp : pat.ok) :
    ∃ S' l, glob W ondisk source strings S pat [] = some (S', l) ∧ l.Nodup ∧ l.Pairwise (fun a b => W.key strings a ≤ W.key strings b) ∧ (∀ p, p ∈ l ↔ Matches W S ondisk pat.1 pat.2 p) ∧
      Tidy W S' ∧ ∀ (pat' : Pat) p, Matches W S' ondisk pat'.1 pat'.2 p ↔ Matches W S ondisk pat'.1 pat'.2 p := by
  obtain ⟨S', l, g1, g2, g3, g4, g5, _⟩ := globWith_spec (filters_exclude source (xs := []) (by simp) hT) source pat.1 hp.1 hp.2 strings hT hT (.refl (ondisk := ondisk) hT)
  refine ⟨S', l, g1, g3, g4, fun p => ?_, g2.tidy hT, fun pat' p => ?_⟩
  · rw [g5, ← selects_matches pat.2 strings]
    have : Excluded W S ondisk [] = fun _ _ => False := by funext a b; simp [Excluded]
    rw [this]
  · rw [← selects_matches _ false, ← selects_matches _ false]
    exact Selects.congr hT g2 _ _ _

/-- **C69** (partial) With `exclude`: exactly those paths that match the pattern, are not left out, and lie in directories that are not left out. -/
theorem C69_exclude_partial {W : World} {S : Nodes} (hT : Tidy W S) (ondisk source strings : Bool) {pat : Pat} (hp : pat.ok) {xs : List Pat} (hx : ∀ x ∈ xs, Pat.ok x) :
    ∃ S' l, glob W ondisk source strings S pat xs = some (S', l) ∧ l.Nodup ∧ l.Pairwise (fun a b => W.key strings a ≤ W.key strings b) ∧ (∀ p, p ∈ l ↔ Selects W S ondisk (Excluded W S ondisk xs) pat.1 pat.2 strings p) := by
  obtain ⟨S', l, g1, _, g3, g4, g5, _⟩ := globWith_spec (filters_exclude source hx hT) source pat.1 hp.1 hp.2 strings hT hT (.refl (ondisk := ondisk) hT)
  exact ⟨S', l, g1, g3, g4, g5⟩

theorem Selects.matches {W : World} {S : Nodes} {ondisk : Bool} {bad : Bool → Path → Prop} {base : Path} {pats : List String} {strings : Bool} {p : Path} (h : Selects W S ondisk bad base pats strings p) : Matches W S ondisk base pats p := by
  induction pats generalizing strings p with
  | nil => exact h
  | cons b cs ih =>
    cases p with
    | nil => exact h
    | cons n d => exact ⟨h.1, h.2.1, ih h.2.2.2.1, h.2.2.2.2⟩

/-- **C69** (partial: when the name of the file matches itself as a pattern, that is, contains no `[...]`) A file that one of the `exclude` patterns matches is not returned. -/
theorem C69_excluded_partial {W : World} {S : Nodes} (hT : Tidy W S) (ondisk source strings : Bool) {pat : Pat} (hp : pat.ok) {xs : List Pat} (hx : ∀ x ∈ xs, Pat.ok x) {S' : Nodes} {l : List Path} (h : glob W ondisk source strings S pat xs = some (S', l))
    {x : Pat} (hxs : x ∈ xs) {p : Path} (hm : Matches W S ondisk x.1 x.2 p) (hlit : W.fm (W.key strings p) (W.key strings p) = true) : p ∉ l := by
  obtain ⟨S2, l2, g1, _, _, g4⟩ := C69_exclude_partial hT ondisk source strings hp hx
  rw [h] at g1
  simp only [Option.some.injEq, Prod.mk.injEq] at g1
  obtain ⟨rfl, rfl⟩ := g1
  intro hpl
  have := (g4 p).1 hpl
  obtain ⟨hne, _⟩ := hp
  cases hpats : pat.2 with
  | nil => exact hne hpats
  | cons b cs =>
    rw [hpats] at this
    cases p with
    | nil => exact this
    | cons n d => exact this.2.2.1 ⟨x, hxs, n :: d, hm, hlit⟩

end Verif.FS.Glob
