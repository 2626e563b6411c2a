import Verif.Zip.Spec

/-!
# The Zip builder (C109)
-/

namespace Verif.Zip

theorem entry_none {n : Str} {r : List (Str × Obj)} {o : Obj} (h : entry n r = none) : (n, o) ∉ r := by
  induction r with
  | nil => simp
  | cons e r ih =>
    obtain ⟨m, x⟩ := e
    simp only [entry] at h
    by_cases hm : m = n
    · rw [if_pos hm] at h; cases h
    · rw [if_neg hm] at h
      simp only [List.mem_cons, Prod.mk.injEq, not_or, not_and]
      exact ⟨fun e _ => hm e.symm, ih h⟩

theorem entry_mem {es : List (Str × Obj)} (h : TidyL es) {n : Str} {o : Obj} : entry n es = some o ↔ (n, o) ∈ es := by
  induction es with
  | nil => simp [entry]
  | cons e r ih =>
    cases h with
    | cons hn hd ho hr =>
      rename_i m x
      simp only [entry, List.mem_cons, Prod.mk.injEq]
      by_cases hm : m = n
      · subst hm
        rw [if_pos rfl]
        constructor
        · intro e; cases e; exact Or.inl ⟨rfl, rfl⟩
        · rintro (⟨-, rfl⟩ | h)
          · rfl
          · exact absurd h (entry_none hn)
      · rw [if_neg hm, ih hr]
        constructor
        · exact Or.inr
        · rintro (⟨e, -⟩ | h)
          · exact absurd e.symm hm
          · exact h

theorem mem_here {p : Path} {es : List (Str × Obj)} {x : Path × Nat × Nat} :
    x ∈ here p es ↔ ∃ n c y, x = (p ++ [n], c, y) ∧ (n, Obj.file c y) ∈ es := by
  induction es with
  | nil => simp [here]
  | cons e r ih =>
    obtain ⟨m, o⟩ := e
    cases o with
    | file c y =>
      simp only [here, List.mem_cons, ih]
      constructor
      · rintro (rfl | ⟨n, c', y', rfl, h⟩)
        · exact ⟨m, c, y, rfl, Or.inl rfl⟩
        · exact ⟨n, c', y', rfl, Or.inr h⟩
      · rintro ⟨n, c', y', rfl, h | h⟩
        · cases h; exact Or.inl rfl
        · exact Or.inr ⟨n, c', y', rfl, h⟩
    | _ => simp [here, ih]

theorem mem_below {p : Path} {es : List (Str × Obj)} {x : Path × Nat × Nat} :
    x ∈ below es p ↔ ∃ n es', (n, Obj.dir es') ∈ es ∧ x ∈ walk (p ++ [n]) es' := by
  induction es with
  | nil => simp [below]
  | cons e r ih =>
    obtain ⟨m, o⟩ := e
    rw [below, into, List.mem_append, ih]
    cases o with
    | dir es1 =>
      rw [inside]
      constructor
      · rintro (h | ⟨n, es', h, hx⟩)
        · exact ⟨m, es1, by simp, h⟩
        · exact ⟨n, es', by simp [h], hx⟩
      · rintro ⟨n, es', h, hx⟩
        rcases List.mem_cons.1 h with h | h
        · cases h; exact Or.inl hx
        · exact Or.inr ⟨n, es', h, hx⟩
    | _ => simp [inside]

theorem tidy_mem {es : List (Str × Obj)} (h : TidyL es) {n : Str} {o : Obj} (hm : (n, o) ∈ es) : Tidy o ∧ n ≠ ['.', '.'] := by
  induction es with
  | nil => simp at hm
  | cons e r ih =>
    cases h with
    | cons hn hd ho hr =>
      rcases List.mem_cons.1 hm with e | hm
      · cases e; exact ⟨ho, hd⟩
      · exact ih hr hm

/-- The files that are met are those that are there. -/
theorem mem_walk : ∀ (k : Nat) (es : List (Str × Obj)), sizeOf es ≤ k → TidyL es → ∀ (p : Path) (x : Path × Nat × Nat),
    x ∈ walk p es ↔ ∃ q c y, x = (p ++ q, c, y) ∧ (Obj.dir es).at q = some (.file c y) := by
  intro k
  induction k with
  | zero => intro es h; cases es <;> simp at h
  | succ k ih =>
    intro es hk ht p x
    have size : ∀ n es', (n, Obj.dir es') ∈ es → sizeOf es' ≤ k := by
      intro n es' h
      have h1 := List.sizeOf_lt_of_mem h
      have h2 : sizeOf (n, Obj.dir es') = 1 + sizeOf n + (1 + sizeOf es') := by simp
      omega
    rw [walk, List.mem_append, mem_here, mem_below]
    constructor
    · rintro (⟨n, c, y, rfl, h⟩ | ⟨n, es', h, hx⟩)
      · refine ⟨[n], c, y, rfl, ?_⟩
        simp only [Obj.at, (entry_mem ht).2 h]
      · have ht' : TidyL es' := by cases (tidy_mem ht h).1; assumption
        obtain ⟨q, c, y, rfl, hq⟩ := (ih es' (size n es' h) ht' _ _).1 hx
        refine ⟨n :: q, c, y, by simp, ?_⟩
        simp only [Obj.at, (entry_mem ht).2 h]
        exact hq
    · rintro ⟨q, c, y, rfl, hq⟩
      cases q with
      | nil => simp [Obj.at] at hq
      | cons n q =>
        simp only [Obj.at] at hq
        cases he : entry n es with
        | none => rw [he] at hq; cases hq
        | some o =>
          rw [he] at hq
          have hm := (entry_mem ht).1 he
          cases o with
          | file c' y' =>
            cases q with
            | nil => simp only [Obj.at, Option.some.injEq, Obj.file.injEq] at hq; obtain ⟨rfl, rfl⟩ := hq; exact Or.inl ⟨n, _, _, rfl, hm⟩
            | cons m q => simp [Obj.at] at hq
          | dir es' =>
            have ht' : TidyL es' := by cases (tidy_mem ht hm).1; assumption
            exact Or.inr ⟨n, es', hm, (ih es' (size n es' hm) ht' _ _).2 ⟨q, c, y, by simp, hq⟩⟩
          | link es' => cases q <;> simp [Obj.at] at hq
          | other => cases q <;> simp [Obj.at] at hq

theorem mem_filesOf {o : Obj} (ht : Tidy o) (hl : ∀ es, o ≠ .link es) {p : Path} {l : List (Path × Nat × Nat)} (h : filesOf p o = some l)
    (x : Path × Nat × Nat) : x ∈ l ↔ ∃ q c y, x = (p ++ q, c, y) ∧ o.at q = some (.file c y) := by
  cases o with
  | file c y =>
    cases h
    simp only [List.mem_singleton]
    constructor
    · rintro rfl; exact ⟨[], c, y, by simp, rfl⟩
    · rintro ⟨q, c', y', rfl, hq⟩
      cases q with
      | nil => simp only [Obj.at, Option.some.injEq, Obj.file.injEq] at hq; obtain ⟨rfl, rfl⟩ := hq; simp
      | cons => simp [Obj.at] at hq
  | dir es =>
    cases h
    have ht' : TidyL es := by cases ht; assumption
    exact mem_walk _ es (Nat.le_refl _) ht' p x
  | link es => exact absurd rfl (hl es)
  | other => cases h

theorem mem_all {ss : List (Path × Obj)} : ∀ {l}, allFiles ss = some l → (∀ s ∈ ss, Tidy s.2 ∧ ∀ es, s.2 ≠ .link es) → ∀ x,
    x ∈ l ↔ ∃ s ∈ ss, ∃ q c y, x = (s.1 ++ q, c, y) ∧ s.2.at q = some (.file c y) := by
  induction ss with
  | nil => intro l h _ x; cases h; simp
  | cons s ss ih =>
    intro l h ht x
    obtain ⟨p, o⟩ := s
    simp only [allFiles] at h
    cases ha : filesOf p o with
    | none => rw [ha] at h; cases h
    | some a =>
      cases hb : allFiles ss with
      | none => rw [ha, hb] at h; cases h
      | some b =>
        rw [ha, hb] at h
        cases h
        have := ht (p, o) (by simp)
        rw [List.mem_append, mem_filesOf this.1 this.2 ha, ih hb fun s hs => ht s (by simp [hs])]
        constructor
        · rintro (h | ⟨s, hs, h⟩)
          · exact ⟨(p, o), by simp, h⟩
          · exact ⟨s, by simp [hs], h⟩
        · rintro ⟨s, hs, h⟩
          rcases List.mem_cons.1 hs with rfl | hs
          · exact Or.inl h
          · exact Or.inr ⟨s, hs, h⟩

theorem members_some {root : Path} : ∀ {fs : List (Path × Nat × Nat)} {l}, members root fs = some l →
    l = fs.map (fun x => (relpath root x.1, x.2.1)) ∧ ∀ x ∈ fs, 1980 ≤ x.2.2 := by
  intro fs
  induction fs with
  | nil => intro l h; cases h; simp
  | cons x fs ih =>
    intro l h
    obtain ⟨p, c, y⟩ := x
    simp only [members] at h
    by_cases hy : y < 1980
    · rw [if_pos hy] at h; cases h
    · rw [if_neg hy] at h
      cases hm : members root fs with
      | none => rw [hm] at h; cases h
      | some l' =>
        rw [hm] at h; cases h
        obtain ⟨rfl, h2⟩ := ih hm
        refine ⟨rfl, fun x hx => ?_⟩
        rcases List.mem_cons.1 hx with rfl | hx
        · exact Nat.le_of_not_lt hy
        · exact h2 x hx

theorem members_ok {root : Path} {fs : List (Path × Nat × Nat)} (h : ∀ x ∈ fs, 1980 ≤ x.2.2) : ∃ l, members root fs = some l := by
  induction fs with
  | nil => exact ⟨[], rfl⟩
  | cons x fs ih =>
    obtain ⟨p, c, y⟩ := x
    obtain ⟨l, hl⟩ := ih fun x hx => h x (by simp [hx])
    have hy : 1980 ≤ y := h (p, c, y) (by simp)
    exact ⟨(relpath root p, c) :: l, by simp only [members]; rw [if_neg (by omega), hl]; rfl⟩

theorem common_prefix (root q : Path) : common root (root ++ q) = ([], q) := by
  induction root with
  | nil => cases q <;> rfl
  | cons a r ih => simp [common, ih]

theorem relpath_under (root q : Path) : relpath root (root ++ q) = q := by
  rw [relpath, common_prefix]; rfl

theorem common_spec (s p : Path) : ∃ k, s = k ++ (common s p).1 ∧ p = k ++ (common s p).2 := by
  induction s generalizing p with
  | nil => cases p <;> exact ⟨[], rfl, rfl⟩
  | cons a s ih =>
    cases p with
    | nil => exact ⟨[], rfl, rfl⟩
    | cons b p =>
      simp only [common]
      by_cases h : a = b
      · obtain ⟨k, h1, h2⟩ := ih p
        rw [if_pos h]
        exact ⟨a :: k, by rw [List.cons_append, ← h1], by rw [List.cons_append, ← h2, h]⟩
      · rw [if_neg h]; exact ⟨[], rfl, rfl⟩

/-- **C109, names.** The name in the archive leads from `ZIPROOT` to the file, wherever both are. -/
theorem C109_name (root p : Path) (h : ['.', '.'] ∉ p) : follow root (relpath root p) = p := by
  obtain ⟨k, h1, h2⟩ := common_spec root p
  have up : ∀ (n : Path) (r : List Str), follow (k ++ n) (n.map (fun _ => ['.', '.']) ++ r) = follow k r := by
    intro n
    induction hn : n.length generalizing n with
    | zero => intro r; rw [List.length_eq_zero_iff.1 hn]; simp
    | succ m ih =>
      intro r
      obtain ⟨n', x, rfl⟩ : ∃ n' x, n = n' ++ [x] := by
        rcases List.eq_nil_or_concat n with rfl | ⟨n', x, rfl⟩
        · simp at hn
        · exact ⟨n', x, by simp⟩
      have hl : n'.length = m := by simpa using hn
      have e : (n' ++ [x]).map (fun _ => (['.', '.'] : Str)) ++ r = ['.', '.'] :: (n'.map (fun _ => ['.', '.']) ++ r) := by
        have : ∀ l : Path, l.map (fun _ => (['.', '.'] : Str)) ++ [['.', '.']] = ['.', '.'] :: l.map (fun _ => ['.', '.']) := by
          intro l; induction l with
          | nil => rfl
          | cons a l ih => simp [ih]
        rw [List.map_append, List.map_singleton, this]; rfl
      rw [e, follow, if_pos rfl, ← List.append_assoc, List.dropLast_concat]
      exact ih n' hl r
  have down : ∀ (r d : Path), ['.', '.'] ∉ r → follow d r = d ++ r := by
    intro r
    induction r with
    | nil => intro d _; simp [follow]
    | cons c r ih =>
      intro d hr
      simp only [List.mem_cons, not_or] at hr
      rw [follow, if_neg fun e => hr.1 e.symm, ih _ hr.2]; simp
  have hd : ['.', '.'] ∉ (common root p).2 := fun hh => h (by rw [h2]; simp [hh])
  rw [relpath]
  generalize hc : common root p = c at *
  rw [h1, up, down _ _ hd, ← h2]

theorem at_append (o : Obj) (s q : Path) : o.at (s ++ q) = (o.at s).bind fun x => x.at q := by
  induction s generalizing o with
  | nil => cases o <;> simp [Obj.at]
  | cons n s ih =>
    cases o with
    | dir es =>
      simp only [List.cons_append, Obj.at]
      cases entry n es with
      | none => rfl
      | some o' => exact ih o'
    | _ => rfl

theorem at_tidy {o x : Obj} (h : Tidy o) {s : Path} (hs : o.at s = some x) : Tidy x ∧ ((∀ c y, x ≠ .file c y) ∨ ['.', '.'] ∉ s) := by
  induction s generalizing o with
  | nil => have : o = x := by cases o <;> simpa [Obj.at] using hs
           subst this; exact ⟨h, Or.inr (by simp)⟩
  | cons n s ih =>
    cases o with
    | dir es =>
      simp only [Obj.at] at hs
      cases he : entry n es with
      | none => rw [he] at hs; cases hs
      | some o' =>
        rw [he] at hs
        have ht : TidyL es := by cases h; assumption
        have hm := tidy_mem ht ((entry_mem ht).1 he)
        obtain ⟨h1, h2⟩ := ih hm.1 hs
        refine ⟨h1, ?_⟩
        rcases h2 with h2 | h2
        · exact Or.inl h2
        · right; simp only [List.mem_cons, not_or]; exact ⟨fun e => hm.2 e.symm, h2⟩
    | _ => simp [Obj.at] at hs

/-- **C109.** What is unpacked are the files below the sources, all of them, with their contents, and nothing else - in whatever order the
file system gives its entries. -/
theorem C109_unpacked_partial {w : Obj} (hw : Tidy w) {cwd : Path} {zr : Str} {ss : List Path} {l : List (List Str × Nat)}
    (h : zip cwd zr (sources w ss) = some l) (hroot : ∀ s ∈ ss, abspath cwd zr <+: s) (hl : ∀ s ∈ ss, ∀ es, w.at s ≠ some (.link es))
    (q : Path) (c : Nat) :
    unpack l q = some c ↔ (∃ s ∈ ss, s <+: abspath cwd zr ++ q) ∧ ∃ y, w.at (abspath cwd zr ++ q) = some (.file c y) := by
  unfold zip at h
  generalize abspath cwd zr = root at *
  cases ha : allFiles (sources w ss) with
  | none => rw [ha] at h; cases h
  | some fs =>
    rw [ha] at h
    obtain ⟨hl', -⟩ := members_some (show members root fs = some l from h)
    have hs : ∀ s ∈ sources w ss, Tidy s.2 ∧ ∀ es, s.2 ≠ .link es := by
      intro s hs
      obtain ⟨t, ht, rfl⟩ := List.mem_map.1 hs
      cases hat : w.at t with
      | none => exact ⟨.other, by simp⟩
      | some o =>
        refine ⟨(at_tidy hw hat).1, fun es e => hl t ht es ?_⟩
        simp only [Option.getD_some] at e
        rw [hat, e]
    have hfs := mem_all ha hs
    have clean : ∀ {r c y}, w.at (root ++ r) = some (.file c y) → r.filter (fun c => decide (c ≠ ['.', '.'])) = r := by
      intro r c y hr
      rcases (at_tidy hw hr).2 with h | h
      · exact absurd rfl (h c y)
      · rw [List.filter_eq_self]
        intro x hx
        simp only [ne_eq, decide_eq_true_eq]
        rintro rfl
        exact h (by simp [hx])
    have hm1 : ∀ m ∈ l, ∃ y, (∃ s ∈ ss, s <+: root ++ m.1) ∧ w.at (root ++ m.1) = some (.file m.2 y) := by
      intro m hm
      rw [hl'] at hm
      obtain ⟨x, hx, rfl⟩ := List.mem_map.1 hm
      obtain ⟨s, hs, q', c', y', rfl, hq⟩ := (hfs x).1 hx
      obtain ⟨t, ht, rfl⟩ := List.mem_map.1 hs
      obtain ⟨u, rfl⟩ := hroot t ht
      refine ⟨y', ⟨_, ht, ?_⟩, ?_⟩
      · simp only [List.append_assoc, relpath_under]
        exact ⟨q', by simp⟩
      · simp only [List.append_assoc, relpath_under]
        rw [← List.append_assoc, at_append]
        cases hat : w.at (root ++ u) with
        | none => rw [hat] at hq; cases q' <;> simp [Obj.at] at hq
        | some o => rw [hat] at hq; exact hq
    have hm2 : ∀ r c y, (∃ s ∈ ss, s <+: root ++ r) → w.at (root ++ r) = some (.file c y) → (r, c) ∈ l := by
      rintro r c y ⟨s, hs, v, hv⟩ hr
      rw [hl']
      refine List.mem_map.2 ⟨(root ++ r, c, y), (hfs _).2 ⟨(s, (w.at s).getD .other), List.mem_map.2 ⟨s, hs, rfl⟩, v, c, y, by rw [hv], ?_⟩, ?_⟩
      · rw [← hv, at_append] at hr
        cases hat : w.at s with
        | none => rw [hat] at hr; cases hr
        | some o => rw [hat] at hr; exact hr
      · simp only [relpath_under]
    constructor
    · intro hu
      unfold unpack at hu
      cases hf : l.reverse.find? (fun m => decide (m.1.filter (fun c => decide (c ≠ ['.', '.'])) = q)) with
      | none => rw [hf] at hu; cases hu
      | some m =>
        rw [hf] at hu
        simp only [Option.map_some, Option.some.injEq] at hu
        subst hu
        have h1 : m ∈ l := by simpa using List.mem_of_find?_eq_some hf
        have h2 := List.find?_some hf
        obtain ⟨y, h3, h4⟩ := hm1 m h1
        rw [clean h4, decide_eq_true_eq] at h2
        subst h2
        exact ⟨h3, y, h4⟩
    · rintro ⟨h3, y, h4⟩
      have hin := hm2 q c y h3 h4
      unfold unpack
      cases hf : l.reverse.find? (fun m => decide (m.1.filter (fun c => decide (c ≠ ['.', '.'])) = q)) with
      | none =>
        rw [List.find?_eq_none] at hf
        exact absurd (clean h4) (by simpa using hf (q, c) (by simpa using hin))
      | some m =>
        have h1 : m ∈ l := by simpa using List.mem_of_find?_eq_some hf
        have h2 := List.find?_some hf
        obtain ⟨y', -, h5⟩ := hm1 m h1
        rw [clean h5, decide_eq_true_eq] at h2
        subst h2
        rw [h5] at h4
        cases h4
        rfl

/-- **C109, success.** The archive is made if the sources are there and no file is older than the format can say. -/
theorem C109_made {w : Obj} (hw : Tidy w) {cwd : Path} {zr : Str} {ss : List Path}
    (h : ∀ s ∈ ss, ∃ o, w.at s = some o ∧ o ≠ .other ∧ ∀ es, o ≠ .link es)
    (hy : ∀ s ∈ ss, ∀ q c y, w.at (s ++ q) = some (.file c y) → 1980 ≤ y) : ∃ l, zip cwd zr (sources w ss) = some l := by
  have : ∃ fs, allFiles (sources w ss) = some fs := by
    clear hy
    induction ss with
    | nil => exact ⟨[], rfl⟩
    | cons s ss ih =>
      obtain ⟨b, hb⟩ := ih fun t ht => h t (by simp [ht])
      obtain ⟨o, h1, h2, h3⟩ := h s (by simp)
      obtain ⟨a, ha⟩ : ∃ a, filesOf s o = some a := by
        cases o with
        | other => exact absurd rfl h2
        | _ => exact ⟨_, rfl⟩
      refine ⟨a ++ b, ?_⟩
      have e : sources w (s :: ss) = (s, o) :: sources w ss := by simp [sources, h1]
      rw [e]
      simp only [allFiles, ha, hb]
  obtain ⟨fs, hfs⟩ := this
  have hs : ∀ s ∈ sources w ss, Tidy s.2 ∧ ∀ es, s.2 ≠ .link es := by
    intro s hs
    obtain ⟨t, ht, rfl⟩ := List.mem_map.1 hs
    obtain ⟨o, h1, -, h3⟩ := h t ht
    simp only [h1, Option.getD_some]
    exact ⟨(at_tidy hw h1).1, h3⟩
  obtain ⟨l, hl⟩ := members_ok (root := abspath cwd zr) (fs := fs) (by
    intro x hx
    obtain ⟨s, hs', q, c, y, rfl, hq⟩ := (mem_all hfs hs x).1 hx
    obtain ⟨t, ht, rfl⟩ := List.mem_map.1 hs'
    obtain ⟨o, h1, -, -⟩ := h t ht
    refine hy t ht q c y ?_
    rw [at_append, h1]
    simpa [h1] using hq)
  exact ⟨l, by rw [zip, hfs]; exact hl⟩

/-! ## `ZIPROOT` as a text -/

theorem norm_plain {l : List Str} (h : ∀ n ∈ l, Comp n) (out : List Str) : norm out l = out.reverse ++ l := by
  induction l generalizing out with
  | nil => simp [norm]
  | cons c l ih =>
    obtain ⟨h1, h2, h3, -⟩ := h c (by simp)
    have h12 : ¬ (c = [] ∨ c = ['.']) := fun e => e.elim h1 h2
    rw [norm, if_neg h12, if_neg h3, ih fun n hn => h n (by simp [hn])]
    simp

theorem split_text {l : List Str} (hne : l ≠ []) (h : ∀ n ∈ l, Comp n) : split (text l) = l := by
  have plain : ∀ {x : Str}, '/' ∉ x → split x = [x] := by
    intro x hx
    induction x with
    | nil => rfl
    | cons c x ih =>
      simp only [List.mem_cons, not_or] at hx
      rw [split, if_neg fun e => hx.1 e.symm, ih hx.2]
  have app : ∀ {x : Str}, '/' ∉ x → ∀ r, split (x ++ '/' :: r) = x :: split r := by
    intro x hx r
    induction x with
    | nil => simp [split]
    | cons c x ih =>
      simp only [List.mem_cons, not_or] at hx
      rw [List.cons_append, split, if_neg fun e => hx.1 e.symm, ih hx.2]
  induction l with
  | nil => exact absurd rfl hne
  | cons x l ih =>
    have hx := (h x (by simp)).2.2.2
    cases l with
    | nil => exact plain hx
    | cons y l => rw [text, app hx, ih (by simp) fun n hn => h n (by simp [hn])]; simp

theorem norm_append (a b out : List Str) (h : ∀ n ∈ a, Comp n) : norm out (a ++ b) = norm (a.reverse ++ out) b := by
  induction a generalizing out with
  | nil => simp
  | cons c a ih =>
    obtain ⟨h1, h2, h3, -⟩ := h c (by simp)
    have h12 : ¬ (c = [] ∨ c = ['.']) := fun e => e.elim h1 h2
    rw [List.cons_append, norm, if_neg h12, if_neg h3, ih _ fun n hn => h n (by simp [hn])]
    simp

/-- **C109, `ZIPROOT`.** Nothing is the current directory; a name or names with slashes are found from there; with a slash in front, from
the root; `..` goes up. -/
theorem C109_root {cwd : Path} (hc : ∀ n ∈ cwd, Comp n) {l : List Str} (hl : ∀ n ∈ l, Comp n) (hne : l ≠ []) :
    abspath cwd [] = cwd ∧ abspath cwd (text l) = cwd ++ l ∧ abspath cwd ('/' :: text l) = l ∧
      abspath cwd (['.', '.', '/'] ++ text l) = cwd.dropLast ++ l := by
  have e0 : (text l).head? ≠ some '/' := by
    cases l with
    | nil => exact absurd rfl hne
    | cons x l =>
      obtain ⟨h1, -, -, h4⟩ := hl x (by simp)
      cases x with
      | nil => exact absurd rfl h1
      | cons c x =>
        have : c ≠ '/' := fun e => h4 (by simp [e])
        cases l <;> simpa [text] using this
  refine ⟨?_, ?_, ?_, ?_⟩
  · simp only [abspath, split, List.head?_nil, reduceCtorEq, if_false]
    rw [norm_append _ _ _ hc]
    simp [norm]
  · rw [abspath, if_neg e0, split_text hne hl, norm_plain]
    · rfl
    · intro n hn
      rcases List.mem_append.1 hn with h | h
      · exact hc n h
      · exact hl n h
  · rw [abspath, if_pos (by rfl), split, if_pos rfl, split_text hne hl]
    simp only [norm, true_or, if_true]
    rw [norm_plain hl]; rfl
  · have hs : split (['.', '.', '/'] ++ text l) = ['.', '.'] :: l := by
      simp only [List.cons_append, List.nil_append, split, if_neg (show ¬ ('.' = '/') by decide), if_true, split_text hne hl]
    rw [abspath, if_neg (by simp), hs, norm_append _ _ _ hc]
    simp only [norm, List.append_nil]
    rw [if_neg (by decide), if_pos trivial, norm_plain hl, List.tail_reverse, List.reverse_reverse]

/-- **C109**: a source that is a link to a directory is stored as that directory, under the name of the link (unlike links below a source, `C109_link_lost`). -/
theorem C109_link_source (cwd : Path) (zr : Str) (pre post : List (Path × Obj)) (p : Path) (es : List (Str × Obj)) :
    zip cwd zr (pre ++ (p, .link es) :: post) = zip cwd zr (pre ++ (p, .dir es) :: post) := by
  have : allFiles (pre ++ (p, .link es) :: post) = allFiles (pre ++ (p, .dir es) :: post) := by
    induction pre with
    | nil => simp [allFiles, filesOf]
    | cons a pre ih => simp only [List.cons_append, allFiles, ih]
  simp only [zip, this]

end Verif.Zip
