import Verif.Cache.Convert

/-!
# C102: changing the prefix length of a cache loses nothing
-/

namespace Verif.Cache.Convert

/-- A cache as SCons makes it: each file in the directory of its prefix, each signature once, directories of the length
of the prefix, and signatures long enough. -/
structure Tidy (st : St) (new : Nat) : Prop where
  place : ∀ e ∈ st.files, e.dir = subdir st.prefixLen e.name
  once : (st.files.map Entry.name).Nodup
  long : ∀ e ∈ st.files, st.prefixLen ≤ e.name.length ∧ new ≤ e.name.length
  dirs : ∀ e ∈ st.files, e.dir ∈ st.dirs
  lens : ∀ d ∈ st.dirs, d.length = st.prefixLen
  dirsOnce : st.dirs.Nodup

theorem subdir_eq (n : Nat) (name : Str) : subdir n name = dirName n name := rfl

theorem Tidy.place' {st : St} {new : Nat} (ht : Tidy st new) : ∀ e ∈ st.files, e.dir = dirName st.prefixLen e.name := by
  intro e he
  rw [ht.place e he, subdir_eq]

/-- The order in which the files are listed: each once. -/
structure Lists (order : List (Str × Str)) (st : St) : Prop where
  all : ∀ d n, (d, n) ∈ order ↔ ∃ e ∈ st.files, e.dir = d ∧ e.name = n
  once : order.Nodup

/-- A file is moved if its name is among these. -/
def moved (new : Nat) (names : List Str) (e : Entry) : Entry :=
  if e.name ∈ names then { e with dir := dirName new e.name } else e

theorem moved_name (new : Nat) (names : List Str) (e : Entry) : (moved new names e).name = e.name := by
  unfold moved; split <;> rfl

theorem moved_content (new : Nat) (names : List Str) (e : Entry) : (moved new names e).content = e.content := by
  unfold moved; split <;> rfl

theorem dirName_length {n : Nat} {s : Str} (h : n ≤ s.length) : (dirName n s).length = n := by
  simp [dirName, Nat.min_eq_left h]

theorem name_unique {l : List Entry} (h : (l.map Entry.name).Nodup) {a b : Entry} (ha : a ∈ l) (hb : b ∈ l)
    (hn : a.name = b.name) : a = b := by
  induction l with
  | nil => cases ha
  | cons x l ih =>
    simp only [List.map_cons, List.nodup_cons] at h
    rcases List.mem_cons.1 ha with ha | ha <;> rcases List.mem_cons.1 hb with hb | hb
    · rw [ha, hb]
    · exact absurd (List.mem_map.2 ⟨b, hb, by rw [← hn, ha]⟩) h.1
    · exact absurd (List.mem_map.2 ⟨a, ha, by rw [hn, hb]⟩) h.1
    · exact ih h.2 ha hb

/-- Where the loop is after the names in `names`. -/
structure Mid (new : Nat) (st : St) (names : List Str) (l : Loop) : Prop where
  ok : l.ok = true
  len : l.st.prefixLen = st.prefixLen
  files : l.st.files = st.files.map (moved new names)
  made : ∀ d, d ∈ l.made ↔ ∃ n ∈ names, d = dirName new n
  dirs : ∀ d, d ∈ l.st.dirs ↔ d ∈ st.dirs ∨ d ∈ l.made
  old : ∀ d, d ∈ l.old ↔ ∃ n ∈ names, d = dirName st.prefixLen n
  oldOnce : l.old.Nodup
  dirsOnce : l.st.dirs.Nodup

theorem mid_move {new : Nat} {st : St} (ht : Tidy st new) (hne : new ≠ st.prefixLen) {names : List Str} {l : Loop} (h : Mid new st names l)
    {e : Entry} (he : e ∈ st.files) (hn : e.name ∉ names) :
    Mid new st (names ++ [e.name]) (move st.prefixLen new l (e.dir, e.name)) := by
  obtain ⟨h1, h2, h3, h4, h5, h6, h7, h8⟩ := h
  have hd : e.dir ≠ dirName new e.name := by
    rw [ht.place' e he]
    intro h
    have := congrArg List.length h
    rw [dirName_length (ht.long e he).1, dirName_length (ht.long e he).2] at this
    exact hne this.symm
  have hnotdir : dirName new e.name ∉ st.dirs := by
    intro hm
    have := ht.lens _ hm
    rw [dirName_length (ht.long e he).2] at this
    exact hne this
  -- the state before the rename
  obtain ⟨m, hm⟩ : ∃ m, m = (if dirName new e.name ∈ l.made then (l.st, true) else l.st.mkdir (dirName new e.name)) := ⟨_, rfl⟩
  have hm2 : m.2 = true ∧ m.1.files = l.st.files ∧ m.1.prefixLen = l.st.prefixLen ∧ m.1.dirs.Nodup ∧
      ∀ d, d ∈ m.1.dirs ↔ d ∈ st.dirs ∨ d ∈ l.made ∨ d = dirName new e.name := by
    rw [hm]
    split
    · rename_i hin
      refine ⟨rfl, rfl, rfl, h8, fun d => ?_⟩
      rw [h5]
      constructor
      · rintro (h | h)
        · exact Or.inl h
        · exact Or.inr (Or.inl h)
      · rintro (h | h | h)
        · exact Or.inl h
        · exact Or.inr h
        · subst h; exact Or.inr hin
    · rename_i hin
      have : dirName new e.name ∉ l.st.dirs := by
        rw [h5]; rintro (h | h)
        · exact hnotdir h
        · exact hin h
      unfold St.mkdir
      rw [if_neg this]
      refine ⟨rfl, rfl, rfl, List.nodup_cons.2 ⟨this, h8⟩, fun d => ?_⟩
      simp only [List.mem_cons, h5]
      constructor
      · rintro (h | h | h) <;> simp [h]
      · rintro (h | h | h) <;> simp [h]
  -- the rename
  have hin : ∃ x ∈ m.1.files, x.dir = e.dir ∧ x.name = e.name := by
    rw [hm2.2.1, h3]
    refine ⟨moved new names e, List.mem_map.2 ⟨e, he, rfl⟩, ?_, moved_name _ _ _⟩
    simp [moved, hn]
  have hren : m.1.rename e.dir e.name (dirName new e.name) =
      ({ m.1 with files := st.files.map (moved new (names ++ [e.name])) }, true) := by
    unfold St.rename
    rw [if_neg hd]
    have hall : ¬ ((m.1.files.all fun x => decide (¬ (x.dir = e.dir ∧ x.name = e.name))) = true) := by
      obtain ⟨x, hx, h1, h2⟩ := hin
      intro h
      have := List.all_eq_true.1 h x hx
      simp [h1, h2] at this
    rw [if_neg hall]
    have key : ((m.1.files.filter fun x => decide (¬ (x.dir = dirName new e.name ∧ x.name = e.name))).map fun x =>
        if x.dir = e.dir ∧ x.name = e.name then { x with dir := dirName new e.name } else x) =
        st.files.map (moved new (names ++ [e.name])) := by
      rw [hm2.2.1, h3]
      have hf : (st.files.map (moved new names)).filter (fun x => decide (¬ (x.dir = dirName new e.name ∧ x.name = e.name))) =
          st.files.map (moved new names) := by
        apply List.filter_eq_self.2
        intro x hx
        obtain ⟨y, hy, rfl⟩ := List.mem_map.1 hx
        simp only [moved_name, decide_eq_true_eq]
        rintro ⟨k1, k2⟩
        have := name_unique ht.once hy he k2
        subst this
        simp only [moved, hn, if_false] at k1
        exact hd k1
      rw [hf, List.map_map]
      apply List.map_congr_left
      intro y hy
      simp only [Function.comp, moved_name]
      by_cases hye : y.name = e.name
      · have := name_unique ht.once hy he hye
        subst this
        simp [moved, hn]
      · simp [moved, hye]
    rw [key]
  have hmove : move st.prefixLen new l (e.dir, e.name) =
      ⟨{ m.1 with files := st.files.map (moved new (names ++ [e.name])) },
       if dirName new e.name ∈ l.made then l.made else l.made ++ [dirName new e.name],
       if dirName st.prefixLen e.name ∈ l.old then l.old else l.old ++ [dirName st.prefixLen e.name], true⟩ := by
    unfold move
    rw [if_pos h1]
    simp only
    rw [← hm, if_pos hm2.1, hren]
  rw [hmove]
  constructor
  · rfl
  · simp only [hm2.2.2.1, h2]
  · rfl
  · intro d
    simp only [List.mem_append, List.mem_singleton]
    split
    · rename_i hmd
      rw [h4]
      constructor
      · rintro ⟨n, hn1, hn2⟩; exact ⟨n, Or.inl hn1, hn2⟩
      · rintro ⟨n, hn1 | hn1, hn2⟩
        · exact ⟨n, hn1, hn2⟩
        · subst hn1; rw [hn2]; exact (h4 _).1 hmd
    · simp only [List.mem_append, List.mem_singleton, h4]
      constructor
      · rintro (⟨n, hn1, hn2⟩ | h)
        · exact ⟨n, Or.inl hn1, hn2⟩
        · exact ⟨e.name, Or.inr rfl, h⟩
      · rintro ⟨n, hn1 | hn1, hn2⟩
        · exact Or.inl ⟨n, hn1, hn2⟩
        · subst hn1; exact Or.inr hn2
  · intro d
    simp only [hm2.2.2.2.2]
    split
    · rename_i hmd
      constructor
      · rintro (h | h | h)
        · exact Or.inl h
        · exact Or.inr h
        · rw [h]; exact Or.inr hmd
      · rintro (h | h)
        · exact Or.inl h
        · exact Or.inr (Or.inl h)
    · simp only [List.mem_append, List.mem_singleton]
  · intro d
    simp only [List.mem_append, List.mem_singleton]
    split
    · rename_i hmd
      rw [h6]
      constructor
      · rintro ⟨n, hn1, hn2⟩; exact ⟨n, Or.inl hn1, hn2⟩
      · rintro ⟨n, hn1 | hn1, hn2⟩
        · exact ⟨n, hn1, hn2⟩
        · subst hn1; rw [hn2]; exact (h6 _).1 hmd
    · simp only [List.mem_append, List.mem_singleton, h6]
      constructor
      · rintro (⟨n, hn1, hn2⟩ | h)
        · exact ⟨n, Or.inl hn1, hn2⟩
        · exact ⟨e.name, Or.inr rfl, h⟩
      · rintro ⟨n, hn1 | hn1, hn2⟩
        · exact Or.inl ⟨n, hn1, hn2⟩
        · subst hn1; exact Or.inr hn2
  · simp only
    split
    · exact h7
    · rename_i hno
      refine List.nodup_append.2 ⟨h7, by simp, ?_⟩
      intro a ha b hb
      simp only [List.mem_singleton] at hb
      subst hb
      rintro rfl
      exact hno ha
  · exact hm2.2.2.2.1

theorem mid_moves {new : Nat} {st : St} (ht : Tidy st new) (hne : new ≠ st.prefixLen) :
    ∀ (order : List (Str × Str)) (names : List Str) (l : Loop), Mid new st names l → order.Nodup →
      (∀ x ∈ order, ∃ e ∈ st.files, e.dir = x.1 ∧ e.name = x.2 ∧ e.name ∉ names) →
      Mid new st (names ++ order.map Prod.snd) (order.foldl (move st.prefixLen new) l) := by
  intro order
  induction order with
  | nil => intro names l h _ _; simpa using h
  | cons x order ih =>
    intro names l h hno hall
    obtain ⟨e, he, h1, h2, h3⟩ := hall x List.mem_cons_self
    have hx : x = (e.dir, e.name) := by rw [h1, h2]
    have := ih (names ++ [e.name]) _ (mid_move ht hne h he h3) (List.nodup_cons.1 hno).2 (by
      intro y hy
      obtain ⟨f, hf, k1, k2, k3⟩ := hall y (List.mem_cons_of_mem _ hy)
      refine ⟨f, hf, k1, k2, ?_⟩
      simp only [List.mem_append, List.mem_singleton, not_or]
      refine ⟨k3, fun hfe => ?_⟩
      have := name_unique ht.once hf he hfe
      subst this
      apply (List.nodup_cons.1 hno).1
      have : y = x := by rw [hx]; exact Prod.ext k1.symm k2.symm
      rw [← this]; exact hy)
    rw [List.foldl_cons, hx]
    simpa [List.append_assoc] using this

theorem rmdirs_ok : ∀ (l : List Str) (st : St), l.Nodup → st.dirs.Nodup → (∀ d ∈ l, d ∈ st.dirs ∧ ∀ e ∈ st.files, e.dir ≠ d) →
    (rmdirs l st).2 = true ∧ (rmdirs l st).1.files = st.files ∧ ∀ d, d ∈ (rmdirs l st).1.dirs ↔ d ∈ st.dirs ∧ d ∉ l := by
  intro l
  induction l with
  | nil => intro st _ _ _; simp [rmdirs]
  | cons d l ih =>
    intro st hl hs h
    obtain ⟨hd, he⟩ := h d List.mem_cons_self
    have hr : st.rmdir d = ({ st with dirs := st.dirs.filter fun x => decide (x ≠ d) }, true) := by
      unfold St.rmdir
      rw [if_neg]
      rintro (h | h)
      · exact h hd
      · obtain ⟨e, he1, he2⟩ := List.any_eq_true.1 h
        exact he e he1 (by simpa using he2)
    simp only [rmdirs, hr, if_true]
    obtain ⟨i1, i2, i3⟩ := ih { st with dirs := st.dirs.filter fun x => decide (x ≠ d) } (List.nodup_cons.1 hl).2 (hs.filter _) (by
      intro x hx
      obtain ⟨h1, h2⟩ := h x (List.mem_cons_of_mem _ hx)
      refine ⟨List.mem_filter.2 ⟨h1, ?_⟩, h2⟩
      simp only [ne_eq, decide_eq_true_eq]
      rintro rfl
      exact (List.nodup_cons.1 hl).1 hx)
    refine ⟨i1, i2, fun x => ?_⟩
    rw [i3, List.mem_filter]
    simp only [ne_eq, decide_eq_true_eq, List.mem_cons, not_or]
    constructor
    · rintro ⟨⟨a, b⟩, c⟩; exact ⟨a, b, c⟩
    · rintro ⟨a, b, c⟩; exact ⟨⟨a, b⟩, c⟩

theorem find_of_mem {st : St} (hp : ∀ e ∈ st.files, e.dir = dirName st.prefixLen e.name) (hu : (st.files.map Entry.name).Nodup) (sig : Str) :
    st.find sig = (st.files.find? fun e => decide (e.name = sig)).map Entry.content := by
  unfold St.find
  congr 1
  have : ∀ l : List Entry, (∀ e ∈ l, e.dir = dirName st.prefixLen e.name) →
      l.find? (fun e => decide (e.dir = dirName st.prefixLen sig ∧ e.name = sig)) = l.find? fun e => decide (e.name = sig) := by
    intro l
    induction l with
    | nil => intro _; rfl
    | cons e l ih =>
      intro h
      rw [List.find?_cons, List.find?_cons, ih fun x hx => h x (List.mem_cons_of_mem _ hx)]
      have : decide (e.dir = dirName st.prefixLen sig ∧ e.name = sig) = decide (e.name = sig) := by
        by_cases hs : e.name = sig
        · have := h e List.mem_cons_self
          rw [hs] at this
          simp [hs, this]
        · simp [hs]
      rw [this]
  exact this _ hp

/-- **C102.** Changing the prefix length of a cache as SCons makes it succeeds, whatever the order in which the files are
listed: every file is found afterwards exactly as before, and it is in the directory of its new prefix. The old
directories of these files are gone. -/
theorem C102_conversion_partial {st : St} {new : Nat} (ht : Tidy st new) {order : List (Str × Str)} (ho : Lists order st) :
    (convert new order st).2 = true ∧ (convert new order st).1.prefixLen = new ∧
    (∀ sig, (convert new order st).1.find sig = st.find sig) ∧
    (∀ e ∈ (convert new order st).1.files, e.dir = subdir new e.name) ∧
    (new ≠ st.prefixLen → ∀ e ∈ st.files, e.dir ∉ (convert new order st).1.dirs) := by
  by_cases hne : new = st.prefixLen
  · unfold convert
    rw [if_pos hne]
    exact ⟨rfl, hne.symm, fun _ => rfl, by rw [hne]; exact ht.place', fun h => absurd hne h⟩
  have h0 : Mid new st [] ⟨st, [], [], true⟩ := by
    constructor
    · rfl
    · rfl
    · have : moved new [] = id := by funext e; simp [moved]
      rw [this]; simp
    · simp
    · simp
    · simp
    · simp
    · exact ht.dirsOnce
  have hm := mid_moves ht hne order [] _ h0 ho.once (by
    intro x hx
    obtain ⟨e, he, h1, h2⟩ := (ho.all x.1 x.2).1 hx
    exact ⟨e, he, h1, h2, by simp⟩)
  simp only [List.nil_append] at hm
  have hnames : ∀ e ∈ st.files, e.name ∈ order.map Prod.snd := by
    intro e he
    exact List.mem_map.2 ⟨(e.dir, e.name), (ho.all _ _).2 ⟨e, he, rfl, rfl⟩, rfl⟩
  have hfiles : (moves st.prefixLen new order st).st.files = st.files.map fun e => { e with dir := dirName new e.name } := by
    have : (moves st.prefixLen new order st).st.files = _ := hm.files
    rw [this]
    apply List.map_congr_left
    intro e he
    unfold moved
    rw [if_pos (hnames e he)]
  have hr := rmdirs_ok (moves st.prefixLen new order st).old (moves st.prefixLen new order st).st hm.oldOnce hm.dirsOnce (by
    intro d hd
    obtain ⟨n, hn, rfl⟩ := (hm.old d).1 hd
    obtain ⟨x, hx, rfl⟩ := List.mem_map.1 hn
    obtain ⟨e, he, k1, k2⟩ := (ho.all x.1 x.2).1 hx
    rw [← k2, ← ht.place' e he]
    refine ⟨(hm.dirs _).2 (Or.inl (ht.dirs e he)), ?_⟩
    rw [hfiles]
    intro y hy
    obtain ⟨f, hf, rfl⟩ := List.mem_map.1 hy
    simp only
    intro h
    have := congrArg List.length h
    rw [dirName_length (ht.long f hf).2, ht.lens _ (ht.dirs e he)] at this
    exact hne this)
  have hc : convert new order st = ({ (rmdirs (moves st.prefixLen new order st).old (moves st.prefixLen new order st).st).1 with prefixLen := new }, true) := by
    have hok : (moves st.prefixLen new order st).ok = true := hm.ok
    unfold convert
    rw [if_neg hne]
    simp only [hok, if_true, hr.1]
  rw [hc]
  refine ⟨rfl, rfl, ?_, ?_, ?_⟩
  · intro sig
    rw [find_of_mem ht.place ht.once, find_of_mem]
    · simp only [hr.2.1, hfiles]
      induction st.files with
      | nil => rfl
      | cons e l ih =>
        simp only [List.map_cons, List.find?_cons]
        cases decide (e.name = sig) with
        | true => rfl
        | false => exact ih
    · simp only [hr.2.1, hfiles]
      intro e he
      obtain ⟨f, hf, rfl⟩ := List.mem_map.1 he
      rfl
    · simp only [hr.2.1, hfiles, List.map_map]
      exact ht.once
  · simp only [hr.2.1, hfiles]
    intro e he
    obtain ⟨f, hf, rfl⟩ := List.mem_map.1 he
    rfl
  · intro _ e he hmem
    have := (hr.2.2 e.dir).1 hmem
    apply this.2
    rw [show e.dir = dirName st.prefixLen e.name from ht.place' e he]
    exact (hm.old _).2 ⟨e.name, hnames e he, rfl⟩

/-- Whenever the conversion is interrupted, between any two files: each file is still there, under its old or its new
directory, with its contents. -/
theorem C102_interrupted {st : St} {new : Nat} (ht : Tidy st new) (hne : new ≠ st.prefixLen) {order rest : List (Str × Str)}
    (ho : Lists (order ++ rest) st) : ∀ e ∈ st.files, ∃ x ∈ (moves st.prefixLen new order st).st.files,
      x.name = e.name ∧ x.content = e.content ∧ (x.dir = subdir st.prefixLen e.name ∨ x.dir = subdir new e.name) := by
  intro e he
  have h0 : Mid new st [] ⟨st, [], [], true⟩ := by
    constructor
    · rfl
    · rfl
    · have : moved new [] = id := by funext e; simp [moved]
      rw [this]; simp
    · simp
    · simp
    · simp
    · simp
    · exact ht.dirsOnce
  have hm := mid_moves ht hne order [] _ h0 (List.nodup_append.1 ho.once).1 (by
    intro x hx
    obtain ⟨e, he, h1, h2⟩ := (ho.all x.1 x.2).1 (List.mem_append_left _ hx)
    exact ⟨e, he, h1, h2, by simp⟩)
  have hf : (moves st.prefixLen new order st).st.files = _ := hm.files
  refine ⟨moved new (order.map Prod.snd) e, ?_, moved_name _ _ _, moved_content _ _ _, ?_⟩
  · rw [hf]; exact List.mem_map.2 ⟨e, he, by simp⟩
  · unfold moved
    split
    · exact Or.inr rfl
    · exact Or.inl (ht.place' e he)

/-! ## An example, and what goes wrong -/

def small : St :=
  ⟨[⟨"0A".toList, "0a11".toList, 1⟩, ⟨"0A".toList, "0a22".toList, 2⟩, ⟨"FF".toList, "ff33".toList, 3⟩], ["0A".toList, "FF".toList], 2⟩

def smallOrder : List (Str × Str) :=
  [("FF".toList, "ff33".toList), ("0A".toList, "0a11".toList), ("0A".toList, "0a22".toList)]

example : Tidy small 3 ∧ Tidy small 1 ∧ Lists smallOrder small := by
  refine ⟨⟨by decide, by decide, by decide, by decide, by decide, by decide⟩,
    ⟨by decide, by decide, by decide, by decide, by decide, by decide⟩, ?_, by decide⟩
  intro d n
  simp only [smallOrder, small, List.mem_cons, List.not_mem_nil, or_false, Prod.mk.injEq, exists_eq_or_imp, exists_eq_left]
  constructor
  · rintro (⟨rfl, rfl⟩ | ⟨rfl, rfl⟩ | ⟨rfl, rfl⟩) <;> simp
  · rintro (⟨rfl, rfl⟩ | ⟨rfl, rfl⟩ | ⟨rfl, rfl⟩) <;> simp

example : (convert 3 smallOrder small).1.find "0a22".toList = some 2 ∧ (convert 3 smallOrder small).1.dirs = ["0A2".toList, "0A1".toList, "FF3".toList] := by
  decide +kernel

/-- FOUND: an interrupted conversion cannot be finished: the second one stops at `os.mkdir` of a directory the first one
has made. The files that were moved are not found any more. -/
theorem C102_counterexample_resume :
    let st := (moves 2 3 [("FF".toList, "ff33".toList), ("0A".toList, "0a11".toList)] small).st
    small.find "0a11".toList = some 1 ∧ st.find "0a11".toList = none ∧
    ∀ order ∈ [[("FF3".toList, "ff33".toList), ("0A1".toList, "0a11".toList), ("0A".toList, "0a22".toList)],
        [("0A".toList, "0a22".toList), ("0A1".toList, "0a11".toList), ("FF3".toList, "ff33".toList)]],
      (convert 3 order st).2 = false ∧ (convert 3 order st).1.find "0a11".toList = none := by
  decide +kernel

/-- FOUND: a temporary directory that an interrupted push has left in the cache: all files are moved, but then
`os.rmdir` raises, the configuration is not written, and nothing is found any more. -/
theorem C102_counterexample_leftover :
    let st : St := { small with files := small.files ++ [⟨"FF".toList, "tmpx1y2z".toList, 0⟩] }
    let r := convert 3 (smallOrder ++ [("FF".toList, "tmpx1y2z".toList)]) st
    r.2 = false ∧ ∀ sig ∈ ["0a11".toList, "0a22".toList, "ff33".toList], (st.find sig).isSome ∧ r.1.find sig = none := by
  decide +kernel

end Verif.Cache.Convert
