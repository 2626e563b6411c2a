import Verif.FileAct.Props

/-!
# `Copy` and `Move` do what they say (C103)
-/

namespace Verif.FileAct

/-- A file can be written here: there is one, or there is a directory for it. -/
def FS.Writable (fs : FS) (t : Path) : Prop :=
  (∃ c m, fs.get t = some (.file c m)) ∨ (fs.get t = none ∧ fs.get t.dropLast = some .dir)

theorem write_spec {fs : FS} (ho : fs.Open) {p : Path} (h : fs.Writable (fs.follow 40 p)) (c m : Nat) :
    fs.write p c m = (fs.put (fs.follow 40 p) (.file c m), none) := by
  rcases h with ⟨a, b, h⟩ | ⟨h1, h2⟩
  · simp [FS.write, h]
  · simp [FS.write, h1, h2, may_open ho]

theorem copy2_spec {fs : FS} (ho : fs.Open) {src dest t : Path} {c m : Nat} (hs : fs.stat src = some (.file c m))
    (ht : t = fs.follow 40 (if fs.isDir dest then dest ++ base src else dest)) (hw : fs.Writable t) (hne : fs.follow 40 src ≠ t) :
    fs.copy2 src dest = (fs.put t (.file c m), none) := by
  simp only [FS.copy2, hs]
  rw [← ht, if_neg hne]
  subst ht
  exact write_spec ho hw c m

/-- **C103, Copy of a file.** The file at the destination, or the file of that name in it if it is a directory, becomes a
copy, contents and time; nothing else changes. -/
theorem C103_copy_file_partial {fs : FS} (ho : fs.Open) {src dest t : Path} {c m : Nat} (hs : fs.get src = some (.file c m))
    (ht : t = fs.follow 40 (if fs.isDir dest then dest ++ base src else dest)) (hw : fs.Writable t) (hne : src ≠ t) (symlinks : Bool) :
    (copy1 fs dest src symlinks).2 = none ∧
    ∀ q, (copy1 fs dest src symlinks).1.get q = if q = t then fs.get src else fs.get q := by
  have hst := stat_of_get hs (by simp)
  have hf : fs.follow 40 src = src := by rw [show (40 : Nat) = 39 + 1 from rfl, FS.follow, hs]
  have h : copy1 fs dest src symlinks = (fs.put t (.file c m), none) := by
    simp only [copy1, hs, FS.isFile, hst, if_true]
    exact copy2_spec ho hst ht hw (by rw [hf]; exact hne)
  rw [h]
  exact ⟨rfl, fun q => by rw [get_put, hs]⟩

/-- **C103, Copy of a link**, which is the default: another link with the same text; what it leads to does not matter. If there is
something at the destination already, that is an error and nothing changes. -/
theorem C103_copy_link {fs : FS} (ho : fs.Open) {src dest t : Path} (hs : fs.get src = some (.link t))
    (hd : fs.get dest.dropLast = some .dir) :
    (fs.get dest = none → (copy1 fs dest src true).2 = none ∧
      ∀ q, (copy1 fs dest src true).1.get q = if q = dest then fs.get src else fs.get q) ∧
    (fs.get dest ≠ none → copy1 fs dest src true = (fs, some .build)) := by
  constructor
  · intro hn
    have h : copy1 fs dest src true = (fs.put dest (.link t), none) := by
      simp [copy1, hs, FS.symlink, hn, hd, may_open ho]
    rw [h]
    exact ⟨rfl, fun q => by rw [get_put, hs]⟩
  · intro hn
    rcases hg : fs.get dest with _ | o
    · exact absurd hg hn
    · simp [copy1, hs, FS.symlink, hg]

/-- With `symlinks=False` the file is copied that the link leads to. -/
theorem C103_copy_through_link_partial {fs : FS} (ho : fs.Open) {src dest to t : Path} {c m : Nat} (hs : fs.get src = some (.link to))
    (hf : fs.get (fs.follow 40 src) = some (.file c m))
    (ht : t = fs.follow 40 dest) (hd : fs.isDir dest = false) (hw : fs.Writable t) (hne : fs.follow 40 src ≠ t) :
    (copy1 fs dest src false).2 = none ∧
    ∀ q, (copy1 fs dest src false).1.get q = if q = t then fs.get (fs.follow 40 src) else fs.get q := by
  have hst := stat_of_get hf (by simp)
  have hff : fs.follow 40 (fs.follow 40 src) = fs.follow 40 src := by
    generalize fs.follow 40 src = s at *
    rw [show (40 : Nat) = 39 + 1 from rfl, FS.follow, hf]
  have h : copy1 fs dest src false = (fs.put t (.file c m), none) := by
    simp only [copy1, hs, Bool.false_eq_true, if_false, FS.isFile, hst, if_true]
    exact copy2_spec ho hst (by rw [hd]; simpa using ht) hw (by rw [hff]; exact hne)
  rw [h]
  exact ⟨rfl, fun q => by rw [get_put, hf]⟩

/-! ## Trees -/

theorem get_foldr (dest : Path) (f0 : FS) (q : Path) : ∀ L : List (Path × Obj),
    (L.foldr (fun x f => f.put (dest ++ x.1) x.2) f0).get q =
      ((L.find? fun x => decide (dest ++ x.1 = q)).map Prod.snd).or (f0.get q)
  | [] => by simp
  | x :: L => by
    rw [List.foldr_cons, get_put, get_foldr dest f0 q L, List.find?_cons]
    by_cases h : q = dest ++ x.1
    · subst h; simp
    · rw [if_neg h]
      have : decide (dest ++ x.1 = q) = false := by simp; exact fun e => h e.symm
      rw [this]

theorem drop_of_prefix {a b : Path} (h : a <+: b) : a ++ b.drop a.length = b := by
  obtain ⟨r, rfl⟩ := h; simp

theorem find_treeOf (fs : FS) (src dest r : Path) (sy : Bool)
    (hsh : ∀ x ∈ fs.objs, src <+: x.1 → (fs.shown sy x.2).isSome) : ∀ l : List (Path × Obj), (∀ x ∈ l, x ∈ fs.objs) →
    ((l.filterMap fun x => if src <+: x.1 then (fs.shown sy x.2).map fun o => (x.1.drop src.length, o) else none).find?
        fun x => decide (dest ++ x.1 = dest ++ r)).map Prod.snd =
      ((l.find? fun x => decide (x.1 = src ++ r)).map Prod.snd).bind (fs.shown sy)
  | [], _ => rfl
  | x :: l, hl => by
    have ih := find_treeOf fs src dest r sy hsh l fun y hy => hl y (List.mem_cons_of_mem _ hy)
    rw [List.filterMap_cons, List.find?_cons]
    by_cases hp : src <+: x.1
    · obtain ⟨o, ho⟩ := Option.isSome_iff_exists.1 (hsh x (hl x List.mem_cons_self) hp)
      simp only [if_pos hp, ho, Option.map_some, List.find?_cons]
      by_cases hr : x.1 = src ++ r
      · have : x.1.drop src.length = r := by rw [hr]; simp
        simp [hr, ho]
      · have : x.1.drop src.length ≠ r := by
          intro e; apply hr; rw [← e, drop_of_prefix hp]
        simp only [hr, decide_false, List.append_cancel_left_eq, this]
        simpa using ih
    · simp only [if_neg hp]
      have : ¬ x.1 = src ++ r := by intro e; rw [e] at hp; exact hp ⟨r, rfl⟩
      simp only [this, decide_false]
      exact ih

/-- What is put in the copy of a tree for one thing in it: links stay links, or become copies of the files they lead to. -/
def copied (fs : FS) (symlinks : Bool) : Option Obj → Option Obj
  | some (.link t) => if symlinks then some (.link t) else fs.stat t
  | o => o

/-- **C103, Copy of a directory.** The whole tree is there under its new name; missing directories above it are made; nothing
else changes. With `symlinks=False` the links in it (here: all lead to files) are replaced by what they lead to. -/
theorem C103_copy_tree_partial {fs : FS} (hw : fs.WF) (ho : fs.Open) (hroot : fs.get [] = some .dir) {src dest : Path}
    (hs : fs.get src = some .dir) (hd : fs.get dest = none) (_hout : ¬ src <+: dest) (hc : fs.Clear dest) (symlinks : Bool)
    (hl : symlinks = false → ∀ x ∈ fs.objs, src <+: x.1 → ∀ t, x.2 = .link t → fs.isFile t = true) :
    (copy1 fs dest src symlinks).2 = none ∧
    ∀ q, (copy1 fs dest src symlinks).1.get q =
      if dest <+: q then copied fs symlinks (fs.get (src ++ q.drop dest.length))
      else if q <+: dest ∧ fs.get q = none then some .dir
      else fs.get q := by
  have hst := stat_of_get hs (by simp)
  obtain ⟨h1, h2⟩ := makedirs_ok hw ho hroot hc
  rcases hm : fs.makedirs dest with ⟨fs', e⟩
  rw [hm] at h1 h2
  simp only at h1
  subst h1
  have hdang : fs.dangling src symlinks = false := by
    unfold FS.dangling
    cases symlinks with
    | true => rfl
    | false =>
      simp only [Bool.not_false, Bool.true_and]
      rw [List.any_eq_false]
      intro x hx
      by_cases hp : src <+: x.1
      · rcases x with ⟨p, o⟩
        cases o with
        | link t => simp [hl rfl _ hx hp t rfl]
        | _ => simp
      · simp [hp]
  have hsh : ∀ x ∈ fs.objs, src <+: x.1 → (fs.shown symlinks x.2).isSome := by
    intro x hx hp
    rcases x with ⟨p, o⟩
    cases o with
    | link t =>
      cases symlinks with
      | true => simp [FS.shown]
      | false =>
        have := hl rfl _ hx hp t rfl
        unfold FS.isFile at this
        simp only [FS.shown, Bool.false_eq_true, if_false]
        rcases hq : fs.stat t with _ | o
        · rw [hq] at this; simp at this
        · rw [hq] at this; cases o <;> simp_all
    | _ => simp [FS.shown]
  have h : copy1 fs dest src symlinks =
      ((fs.treeOf src symlinks).foldr (fun x f => f.put (dest ++ x.1) x.2) fs', none) := by
    simp only [copy1, hs, FS.isFile, hst, Bool.false_eq_true, if_false, FS.copytree, hd, ne_eq, not_true_eq_false, hm, hdang]
  rw [h]
  refine ⟨rfl, fun q => ?_⟩
  simp only
  rw [get_foldr]
  have hg' : fs'.get q = if q <+: dest ∧ fs.get q = none then some .dir else fs.get q := h2.2 q
  by_cases hq : dest <+: q
  · rw [if_pos hq]
    obtain ⟨r, rfl⟩ := hq
    have := find_treeOf fs src dest r symlinks hsh fs.objs fun x hx => hx
    unfold FS.treeOf
    rw [this]
    have hgr : (fs.objs.find? fun x => decide (x.1 = src ++ r)).map Prod.snd = fs.get (src ++ r) := rfl
    rw [hgr, List.drop_left]
    rcases ho : fs.get (src ++ r) with _ | o
    · simp only [Option.bind_none, Option.none_or, copied]
      rw [hg']
      have hr : r ≠ [] := by
        rintro rfl; rw [List.append_nil, hs] at ho; cases ho
      rw [if_neg]
      · exact below_nothing hw ⟨r, rfl⟩ (by simpa using hr) (by rw [hd]; simp)
      · rintro ⟨hp, -⟩
        have := hp.length_le
        have : 0 < r.length := List.length_pos_iff.2 hr
        simp at *; omega
    · have hsome := hsh _ (get_mem ho) ⟨r, rfl⟩
      simp only at hsome
      obtain ⟨o', ho'⟩ := Option.isSome_iff_exists.1 hsome
      simp only [Option.bind_some, ho', Option.some_or]
      cases o with
      | link t =>
        cases symlinks with
        | true => simpa [FS.shown, copied] using ho'.symm
        | false =>
          simp only [FS.shown, Bool.false_eq_true, if_false] at ho'
          simp only [copied, Bool.false_eq_true, if_false]
          rcases hq : fs.stat t with _ | o
          · rw [hq] at ho'; simp at ho'
          · rw [hq] at ho'; cases o <;> simp_all
      | _ => simpa [FS.shown, copied] using ho'.symm
  · rw [if_neg hq]
    have : (fs.treeOf src symlinks).find? (fun x => decide (dest ++ x.1 = q)) = none := by
      rw [List.find?_eq_none]
      intro x _
      simp only [decide_eq_true_eq]
      rintro rfl; exact hq ⟨_, rfl⟩
    rw [this, Option.map_none, Option.none_or, hg']

/-! ## Lists of files -/

theorem follow_self {fs : FS} {p : Path} (h : ∀ t, fs.get p ≠ some (.link t)) : fs.follow 40 p = p := by
  rw [show (40 : Nat) = 39 + 1 from rfl, FS.follow]
  rcases hg : fs.get p with _ | o
  · rfl
  · cases o <;> simp_all

theorem base_ne {p dest : Path} (h : p ≠ []) : dest ++ base p ≠ dest ∧ (dest ++ base p).dropLast = dest := by
  rcases List.eq_nil_or_concat p with h' | ⟨r, x, rfl⟩
  · exact absurd h' h
  · have : base (r.concat x) = [x] := by simp [base]
    rw [this]
    exact ⟨by simp, by simp⟩

theorem copyEach {dest : Path} : ∀ (srcs : List Path) {fs : FS}, fs.Open → fs.get dest = some .dir →
    (∀ s ∈ srcs, s ≠ [] ∧ ∃ c m, fs.get s = some (.file c m)) →
    (∀ s ∈ srcs, fs.get (dest ++ base s) = none ∨ ∃ c m, fs.get (dest ++ base s) = some (.file c m)) →
    (∀ s ∈ srcs, ∀ s' ∈ srcs, s ≠ dest ++ base s') → (srcs.map base).Nodup →
    (each (fun f s => f.copy2 s dest) fs srcs).2 = none ∧
    (∀ s ∈ srcs, (each (fun f s => f.copy2 s dest) fs srcs).1.get (dest ++ base s) = fs.get s) ∧
    (∀ q, (∀ s ∈ srcs, q ≠ dest ++ base s) → (each (fun f s => f.copy2 s dest) fs srcs).1.get q = fs.get q)
  | [], fs, _, _, _, _, _, _ => by simp [each]
  | s :: l, fs, ho, hd, hs, hf, hne, hn => by
    obtain ⟨hnil, c, m, hg⟩ := hs s List.mem_cons_self
    have hnl : ∀ t, fs.get (dest ++ base s) ≠ some (.link t) := by
      intro t h
      rcases hf s List.mem_cons_self with h' | ⟨_, _, h'⟩ <;> rw [h'] at h <;> cases h
    have hcp : fs.copy2 s dest = (fs.put (dest ++ base s) (.file c m), none) := by
      refine copy2_spec ho (stat_of_get hg (by simp)) ?_ ?_ ?_
      · rw [isDir_of_dir hd, if_pos rfl, follow_self hnl]
      · rcases hf s List.mem_cons_self with h' | h'
        · exact Or.inr ⟨h', by rw [(base_ne hnil).2]; exact hd⟩
        · exact Or.inl h'
      · rw [follow_self (by rw [hg]; simp)]
        exact hne s List.mem_cons_self s List.mem_cons_self
    have hdd : dest ≠ dest ++ base s := fun h => (base_ne (dest := dest) hnil).1 h.symm
    rw [List.map_cons, List.nodup_cons] at hn
    have hbase : ∀ x ∈ l, base x ≠ base s := fun x hx h => hn.1 (List.mem_map.2 ⟨x, hx, h⟩)
    have ih := copyEach l (fs := fs.put (dest ++ base s) (.file c m)) ho (by rw [get_put, if_neg hdd]; exact hd)
      (by
        intro x hx
        rw [get_put, if_neg (hne x (List.mem_cons_of_mem _ hx) s List.mem_cons_self)]
        exact hs x (List.mem_cons_of_mem _ hx))
      (by
        intro x hx
        rw [get_put, if_neg (by simpa using hbase x hx)]
        exact hf x (List.mem_cons_of_mem _ hx))
      (fun x hx y hy => hne x (List.mem_cons_of_mem _ hx) y (List.mem_cons_of_mem _ hy)) hn.2
    simp only [each, hcp]
    refine ⟨ih.1, ?_, ?_⟩
    · intro x hx
      rcases List.mem_cons.1 hx with rfl | hx
      · rw [ih.2.2 _ (fun y hy h => hbase y hy (List.append_cancel_left h).symm), get_put, if_pos rfl, hg]
      · rw [ih.2.1 x hx, get_put, if_neg (hne x (List.mem_cons_of_mem _ hx) s List.mem_cons_self)]
    · intro q hq
      rw [ih.2.2 q fun y hy => hq y (List.mem_cons_of_mem _ hy), get_put, if_neg (hq s List.mem_cons_self)]

/-- **C103, Copy of a list of files.** The destination becomes a directory if it is not one, each file is in it, with its contents
and time, and nothing else changes. -/
theorem C103_copy_list_partial {fs : FS} (hw : fs.WF) (ho : fs.Open) (hroot : fs.get [] = some .dir) {dest : Path} (hc : fs.Clear dest)
    {srcs : List Path} (hs : ∀ s ∈ srcs, s ≠ [] ∧ ∃ c m, fs.get s = some (.file c m))
    (hf : ∀ s ∈ srcs, fs.get (dest ++ base s) = none ∨ ∃ c m, fs.get (dest ++ base s) = some (.file c m))
    (hne : ∀ s ∈ srcs, ∀ s' ∈ srcs, s ≠ dest ++ base s') (hn : (srcs.map base).Nodup) :
    (copyList fs dest srcs).2 = none ∧
    (∀ s ∈ srcs, (copyList fs dest srcs).1.get (dest ++ base s) = fs.get s) ∧
    (∀ q, (∀ s ∈ srcs, q ≠ dest ++ base s) → (copyList fs dest srcs).1.get q =
      if q <+: dest ∧ fs.get q = none then some .dir else fs.get q) := by
  obtain ⟨h1, h2⟩ := makedirs_ok hw ho hroot hc
  rcases hm : fs.makedirs dest with ⟨fs', e⟩
  rw [hm] at h1 h2
  simp only at h1 h2
  subst h1
  have hkeep : ∀ q, fs.get q ≠ none → fs'.get q = fs.get q := by
    intro q hq; rw [h2.2, if_neg (fun h => hq h.2)]
  have hd : fs'.get dest = some .dir := by
    rcases hc dest (List.prefix_refl _) with h | h
    · rw [h2.2, if_pos ⟨List.prefix_refl _, h⟩]
    · rw [hkeep _ (by rw [h]; simp), h]
  have hsame : ∀ s ∈ srcs, fs'.get s = fs.get s := by
    intro s hs'
    obtain ⟨-, c, m, hg⟩ := hs s hs'
    exact hkeep _ (by rw [hg]; simp)
  have hin : ∀ s ∈ srcs, fs'.get (dest ++ base s) = fs.get (dest ++ base s) := by
    intro s hs'
    rw [h2.2, if_neg]
    rintro ⟨hp, -⟩
    have h3 := hp.length_le
    have h4 := (base_ne (dest := dest) (hs s hs').1).1
    rw [List.length_append] at h3
    have : base s = [] := List.length_eq_zero_iff.1 (by omega)
    rw [this] at h4; simp at h4
  have := copyEach srcs (fs := fs') (show fs'.Open by unfold FS.Open; rw [h2.1]; exact ho) hd
    (fun s hs' => by rw [hsame s hs']; exact hs s hs') (fun s hs' => by rw [hin s hs']; exact hf s hs') hne hn
  simp only [copyList, hm]
  refine ⟨this.1, fun s hs' => by rw [this.2.1 s hs', hsame s hs'], fun q hq => by rw [this.2.2 q hq, h2.2]⟩

/-! ## Move -/

theorem get_mv {src dest : Path} (pr : List Path) (q : Path) (hns : ¬ src <+: dest) : ∀ l : List (Path × Obj), (∀ x ∈ l, ¬ dest <+: x.1) →
    ((FS.mk l pr).mv src dest).get q =
      if dest <+: q then (FS.mk l pr).get (src ++ q.drop dest.length) else if src <+: q then none else (FS.mk l pr).get q
  | [], _ => by simp [FS.mv, FS.get]
  | x :: l, hl => by
    have ih := get_mv pr q hns l fun y hy => hl y (List.mem_cons_of_mem _ hy)
    have hx := hl x List.mem_cons_self
    unfold FS.mv FS.get at ih ⊢
    simp only [List.map_cons, List.find?_cons] at ih ⊢
    by_cases hp : src <+: x.1
    · rw [if_pos hp]
      simp only
      by_cases hq : dest <+: q
      · obtain ⟨r, rfl⟩ := hq
        simp only [List.prefix_append, if_true, List.drop_left, List.append_cancel_left_eq] at ih ⊢
        have : decide (x.1.drop src.length = r) = decide (x.1 = src ++ r) := by
          apply decide_eq_decide.2
          constructor
          · intro e; rw [← e, drop_of_prefix hp]
          · intro e; rw [e]; simp
        rw [this]
        cases decide (x.1 = src ++ r)
        · exact ih
        · rfl
      · rw [if_neg hq] at ih ⊢
        have : decide (dest ++ x.1.drop src.length = q) = false := by
          simp only [decide_eq_false_iff_not]; rintro rfl; exact hq ⟨_, rfl⟩
        rw [this]
        simp only
        rw [ih]
        by_cases hs : src <+: q
        · rw [if_pos hs, if_pos hs]
        · rw [if_neg hs, if_neg hs]
          have : decide (x.1 = q) = false := by
            simp only [decide_eq_false_iff_not]; rintro rfl; exact hs hp
          rw [this]
    · rw [if_neg hp]
      by_cases hq : dest <+: q
      · rw [if_pos hq] at ih ⊢
        have h1 : decide (x.1 = q) = false := by
          simp only [decide_eq_false_iff_not]; rintro rfl; exact hx hq
        have h2 : decide (x.1 = src ++ q.drop dest.length) = false := by
          simp only [decide_eq_false_iff_not]; intro e; rw [e] at hp; exact hp ⟨_, rfl⟩
        rw [h1, h2]
        exact ih
      · rw [if_neg hq] at ih ⊢
        by_cases hs : src <+: q
        · rw [if_pos hs] at ih ⊢
          have h1 : decide (x.1 = q) = false := by
            simp only [decide_eq_false_iff_not]; rintro rfl; exact hp hs
          rw [h1]; exact ih
        · rw [if_neg hs] at ih ⊢
          cases decide (x.1 = q)
          · exact ih
          · rfl

theorem rename_spec {fs : FS} (hw : fs.WF) (ho : fs.Open) {src dest : Path} {o : Obj} (hs : fs.get src = some o)
    (hns : ¬ src <+: dest) (hp : fs.get dest.dropLast = some .dir)
    (hd : fs.get dest = none ∨ (o ≠ .dir ∧ fs.get dest ≠ some .dir)) :
    (fs.rename src dest).2 = none ∧ ∀ q, (fs.rename src dest).1.get q =
      if dest <+: q then fs.get (src ++ q.drop dest.length) else if src <+: q then none else fs.get q := by
  have hne : src ≠ dest := by rintro rfl; exact hns (List.prefix_refl _)
  have hbelow : ∀ q, dest <+: q → q ≠ dest → fs.get q = none := by
    intro q h1 h2
    apply below_nothing hw h1 (fun e => h2 e.symm)
    rcases hd with h | h
    · rw [h]; simp
    · exact h.2
  have hsd : ¬ dest <+: src := by
    intro h
    rw [hbelow src h hne] at hs; cases hs
  have hfin : (fs.rename src dest) = ((fs.drop dest).mv src dest, none) ∨
      (fs.rename src dest = (fs.mv src dest, none) ∧ fs.get dest = none) := by
    simp only [FS.rename, hs, if_neg hne, if_neg hns, hp, ne_eq, not_true_eq_false, if_false, may_open ho, Bool.not_true, Bool.or_self, Bool.false_eq_true]
    rcases hg : fs.get dest with _ | o'
    · exact Or.inr ⟨rfl, rfl⟩
    · left
      rcases hd with h | ⟨h1, h2⟩
      · rw [hg] at h; cases h
      · cases o' with
        | dir => exact absurd hg h2
        | _ => simp [h1]
  have hdrop : fs.get dest = none → ∀ x ∈ fs.objs, ¬ dest <+: x.1 := by
    intro hn x hx h
    by_cases hxd : x.1 = dest
    · exact get_none_iff.1 hn x hx hxd
    · exact get_none_iff.1 (hbelow _ h hxd) x hx rfl
  rcases hfin with h | ⟨h, hn⟩
  · rw [h]
    refine ⟨rfl, fun q => ?_⟩
    have := get_mv (src := src) (dest := dest) fs.prot q hns (fs.drop dest).objs (by
      intro x hx h
      have hx' := List.mem_filter.1 hx
      simp only [decide_eq_true_eq] at hx'
      exact get_none_iff.1 (hbelow _ h hx'.2) x hx'.1 rfl)
    have he : FS.mk (fs.drop dest).objs fs.prot = fs.drop dest := rfl
    rw [he] at this
    simp only
    rw [this]
    by_cases hq : dest <+: q
    · rw [if_pos hq, if_pos hq, get_drop, if_neg]
      intro e; exact hns ⟨_, e⟩
    · rw [if_neg hq, if_neg hq]
      by_cases hq2 : src <+: q
      · rw [if_pos hq2, if_pos hq2]
      · rw [if_neg hq2, if_neg hq2, get_drop, if_neg]
        rintro rfl; exact hq (List.prefix_refl _)
  · rw [h]
    exact ⟨rfl, fun q => get_mv (src := src) (dest := dest) fs.prot q hns fs.objs (hdrop hn)⟩

/-- **C103, Move.** What is at the source, a file, a link or a whole directory, is under the new name afterwards, or in the
destination under its old name if that is a directory; it is gone from where it was, and nothing else changes. -/
theorem C103_move_partial {fs : FS} (hw : fs.WF) (ho : fs.Open) {src dest t : Path} {o : Obj} (hs : fs.get src = some o)
    (ht : t = if fs.isDir dest then dest ++ base src else dest) (hns : ¬ src <+: t) (hp : fs.get t.dropLast = some .dir)
    (hsame : fs.follow 40 src ≠ fs.follow 40 dest)
    (hd : fs.get t = none ∨ (fs.isDir dest = false ∧ o ≠ .dir ∧ fs.get t ≠ some .dir)) :
    (move fs dest src).2 = none ∧ ∀ q, (move fs dest src).1.get q =
      if t <+: q then fs.get (src ++ q.drop t.length) else if src <+: q then none else fs.get q := by
  have hr := rename_spec hw ho hs hns hp (by
    rcases hd with h | h
    · exact Or.inl h
    · exact Or.inr h.2)
  have hmv : fs.moveTo src t = fs.rename src t := by
    unfold FS.moveTo
    rcases hx : fs.rename src t with ⟨fs', e⟩
    rw [hx] at hr
    simp only at hr
    rw [hr.1]
  have : move fs dest src = fs.rename src t := by
    unfold move
    by_cases hdir : fs.isDir dest = true
    · rw [if_pos hdir] at ht
      rw [if_pos hdir, if_neg (fun h => hsame h.1), ← ht]
      show (if fs.exists? t = true then (fs, some Err.shutil) else fs.moveTo src t) = _
      rw [hmv, if_neg]
      rcases hd with h | h
      · rw [not_exists_of_none h]; simp
      · rw [hdir] at h; simp at h
    · rw [if_neg hdir] at ht
      rw [if_neg hdir, ← ht, hmv]
  rw [this]
  exact hr

/-! ## What nodes remember after `Execute` -/

/-- What is remembered is true. -/
def Fresh (m : Memo) (fs : FS) : Prop := ∀ p v, m p = some v → v = fs.stat p

theorem unlink_gone {fs : FS} {p : Path} (h : (fs.unlink p).2 = none) : (fs.unlink p).1.get p = none := by
  unfold FS.unlink at h ⊢
  rcases hg : fs.get p with _ | o
  · exact hg
  · rw [hg] at h
    cases o with
    | dir => simp at h
    | file c m =>
      simp only at h ⊢
      split at h
      · rename_i hm; rw [if_pos hm, get_drop, if_pos rfl]
      · simp at h
    | link t =>
      simp only at h ⊢
      split at h
      · rename_i hm; rw [if_pos hm, get_drop, if_pos rfl]
      · simp at h

theorem mv_gone {fs : FS} {src dest : Path} (h : ¬ dest <+: src) : (fs.mv src dest).get src = none := by
  rw [get_none_iff]
  intro x hx e
  obtain ⟨y, -, rfl⟩ := List.mem_map.1 hx
  split at e
  · exact h ⟨_, e⟩
  · rename_i hn; exact hn (by rw [e]; exact List.prefix_refl _)

theorem rename_gone {fs : FS} (hw : fs.WF) {src dest : Path} (hne : dest ≠ src) (h : (fs.rename src dest).2 = none) :
    (fs.rename src dest).1.get src = none := by
  unfold FS.rename at h ⊢
  rcases hg : fs.get src with _ | o
  · exact hg
  · have hpre : fs.get dest ≠ some .dir → ¬ dest <+: src := by
      intro hd hp
      rw [below_nothing hw hp hne hd] at hg; cases hg
    rw [hg] at h
    simp only at h ⊢
    by_cases h1 : src = dest
    · exact absurd h1.symm hne
    rw [if_neg h1] at h ⊢
    by_cases h2 : src <+: dest
    · rw [if_pos h2] at h; simp at h
    rw [if_neg h2] at h ⊢
    by_cases h3 : fs.get dest.dropLast ≠ some .dir
    · rw [if_pos h3] at h; simp at h
    rw [if_neg h3] at h ⊢
    by_cases h4 : (!fs.may src || !fs.may dest) = true
    · rw [if_pos h4] at h; simp at h
    rw [if_neg h4] at h ⊢
    rcases hd : fs.get dest with _ | o'
    · exact mv_gone (hpre (by rw [hd]; simp))
    · rw [hd] at h
      cases o' with
      | dir =>
        simp only at h ⊢
        split at h
        · rename_i ha
          rw [if_pos ha]
          apply mv_gone
          intro hp
          have := List.all_eq_true.1 ha.2 _ (get_mem hg)
          simp only [decide_eq_true_eq] at this
          exact h1 (this hp)
        · simp at h
      | file c m =>
        simp only at h ⊢
        split at h
        · simp at h
        · rename_i ha; rw [if_neg ha]; exact mv_gone (hpre (by rw [hd]; simp))
      | link t =>
        simp only at h ⊢
        split at h
        · simp at h
        · rename_i ha; rw [if_neg ha]; exact mv_gone (hpre (by rw [hd]; simp))

theorem moveTo_gone {fs : FS} (hw : fs.WF) {src real : Path} (hne : real ≠ src) (h : (fs.moveTo src real).2 = none) :
    (fs.moveTo src real).1.get src = none := by
  unfold FS.moveTo at h ⊢
  have hr := rename_gone hw (src := src) (dest := real) hne
  rcases hx : fs.rename src real with ⟨fs', e⟩
  rw [hx] at h hr
  cases e with
  | none => exact hr rfl
  | some e =>
    simp only at h ⊢
    rcases hg : fs.get src with _ | o
    · rw [hg] at h
      simp only at h ⊢
      rcases hc : fs.copy2 src real with ⟨f, e⟩
      rw [hc] at h
      cases e with
      | none => exact unlink_gone h
      | some e => simp at h
    · rw [hg] at h
      cases o with
      | file c m =>
        simp only at h ⊢
        rcases hc : fs.copy2 src real with ⟨f, e⟩
        rw [hc] at h
        cases e with
        | none => exact unlink_gone h
        | some e => simp at h
      | link t =>
        simp only at h ⊢
        rcases hc : fs.symlink t real with ⟨f, e⟩
        rw [hc] at h
        cases e with
        | none => exact unlink_gone h
        | some e => simp at h
      | dir =>
        simp only at h ⊢
        by_cases hp : src <+: real
        · rw [if_pos hp] at h; simp at h
        rw [if_neg hp] at h ⊢
        rcases hc : fs.copytree src real true with ⟨f, e⟩
        rw [hc] at h
        cases e with
        | none =>
          simp only at h ⊢
          by_cases h0 : (f.rmtree src).get src = none
          · exact h0
          · rw [if_neg h0] at h; simp at h
        | some e => simp at h

/-- **C103, Move.** Whatever may be written to or not: a `Move` that reports no failure has left nothing under the old name. -/
theorem C103_move_gone {fs : FS} (hw : fs.WF) {src dest : Path} (hne : (if fs.isDir dest then dest ++ base src else dest) ≠ src)
    (hsame : fs.follow 40 src ≠ fs.follow 40 dest) (h : (move fs dest src).2 = none) : (move fs dest src).1.get src = none := by
  unfold move at h ⊢
  by_cases hd : fs.isDir dest = true
  · rw [if_pos hd] at h hne ⊢
    rw [if_neg (fun h => hsame h.1)] at h ⊢
    simp only at h ⊢
    by_cases he : fs.exists? (dest ++ base src) = true
    · rw [if_pos he] at h; simp at h
    · rw [if_neg he] at h ⊢
      exact moveTo_gone hw hne h
  · rw [if_neg hd] at h hne ⊢
    exact moveTo_gone hw hne h

/-- **C103, Copy.** A directory is not copied to where something is: that fails, and nothing changes. -/
theorem C103_copy_tree_exists {fs : FS} {src dest : Path} (hs : fs.get src = some .dir) (hd : fs.get dest ≠ none) (symlinks : Bool) :
    copy1 fs dest src symlinks = (fs, some .exists) := by
  have hst := stat_of_get hs (by simp)
  have hf : fs.isFile src = false := by simp [FS.isFile, hst]
  simp only [copy1, hs, hf, FS.copytree, hst]
  simp [hd]

/-- After `Execute(Delete(l))` what the nodes remember is still true, except for links and for what was in a directory that was
deleted. -/
theorem C103_memory_partial {m : Memo} {fs : FS} (hw : fs.WF) (ho : fs.Open) (hm : Fresh m fs) {dest : List Path} {p : Path} {v : Option Obj}
    (hp : p ∈ dest ∨ ∀ d ∈ dest, ¬ d <+: p) (hl : fs.isLink p = false) (h : forget m dest p = some v) :
    v = (delete false fs dest).1.stat p := by
  unfold forget at h
  by_cases hd : p ∈ dest
  · rw [if_pos hd] at h; cases h
  · rw [if_neg hd] at h
    have hn := hp.resolve_left hd
    have hg : (delete false fs dest).1.get p = fs.get p := by
      rw [(C103_delete_partial hw ho dest).2, if_neg]
      rintro ⟨d, h1, h2⟩; exact hn d h1 h2
    rw [hm p v h]
    rcases hgp : fs.get p with _ | o
    · rw [stat_of_none hgp, stat_of_none (hg.trans hgp)]
    · have hnl : ∀ t, o ≠ .link t := by
        rintro t rfl; unfold FS.isLink at hl; rw [hgp] at hl; cases hl
      rw [stat_of_get hgp hnl, stat_of_get (hg.trans hgp) hnl]

/-! ## An example, and what goes wrong -/

def home : FS :=
  ⟨[([], .dir), (["a"], .dir), (["a", "f"], .file 1 100), (["a", "sub"], .dir), (["a", "sub", "g"], .file 2 200),
    (["a", "ln"], .link ["b", "f"]), (["b"], .dir), (["b", "f"], .file 3 300), (["lnb"], .link ["b"]), (["gone"], .link ["b", "x"])], []⟩

/-- An executable form of `WF`. -/
def FS.wf (fs : FS) : Bool := fs.objs.all fun x => decide (x.1 = [] ∨ fs.get x.1.dropLast = some .dir)

theorem wf_sound {fs : FS} (h : fs.wf = true) : fs.WF := by
  intro p x o hg
  have := List.all_eq_true.1 h _ (get_mem hg)
  simpa using this

example : home.WF ∧ home.Open ∧ home.get [] = some .dir := ⟨wf_sound (by decide), rfl, by decide⟩

/-- Deleting a link to a directory, a file and a directory. -/
example : (delete false home [["lnb"], ["a"], ["nothing"]]).2 = none ∧
    (delete false home [["lnb"], ["a"], ["nothing"]]).1.get ["b", "f"] = some (.file 3 300) ∧
    (delete false home [["lnb"], ["a"], ["nothing"]]).1.get ["a", "sub", "g"] = none := by decide +kernel

/-- Copying a tree, moving it back over nothing. -/
example : (copy1 home ["n", "m"] ["a"] true).1.get ["n", "m", "sub", "g"] = some (.file 2 200) ∧
    (copy1 home ["n", "m"] ["a"] false).1.get ["n", "m", "ln"] = some (.file 3 300) ∧
    (move home ["b"] ["a"]).1.get ["b", "a", "sub", "g"] = some (.file 2 200) := by decide +kernel

/-- FOUND: `Delete` of a directory that cannot be removed reports success (`ignore_errors`, Defaults.py 344). -/
theorem C103_counterexample_delete_denied : let fs : FS := { home with prot := [["a", "sub"]] }
    (delete false fs [["a"]]).2 = none ∧ (delete false fs [["a"]]).1.get ["a", "sub", "g"] = some (.file 2 200) ∧
    (delete false fs [["a", "sub", "g"]]).2 = some .denied := by decide +kernel

/-- FOUND: `Touch` rounds the time down to the second: a file that was written half a second ago becomes older. -/
theorem C103_counterexample_touch_backwards : let fs : FS := home.put ["b", "f"] (.file 3 (5 * second + 200000000))
    (touch (5 * second + 700000000) fs [["b", "f"]]).1.get ["b", "f"] = some (.file 3 (5 * second)) := by decide +kernel

/-- FOUND: `Copy` of a link with `symlinks=False` into a directory gives the file the name of what the link leads to. -/
theorem C103_counterexample_copy_name :
    (copy1 home ["a", "sub"] ["a", "ln"] false).1.get ["a", "sub", "ln"] = none ∧
    (copy1 home ["a", "sub"] ["a", "ln"] false).1.get ["a", "sub", "f"] = some (.file 3 300) := by decide +kernel

/-- FOUND: `Copy(…, symlinks=False)` of a link to a directory keeps the links in the directory: the flag is forgotten in the second
call (Defaults.py 308). -/
theorem C103_counterexample_copy_flag : let fs : FS := home.put ["lna"] (.link ["a"])
    (copy1 fs ["n"] ["a"] false).1.get ["n", "ln"] = some (.file 3 300) ∧
    (copy1 fs ["n"] ["lna"] false).1.get ["n", "ln"] = some (.link ["b", "f"]) := by decide +kernel

/-- FOUND: `Copy` of a list of files two of which have the same name: the second replaces the first, without a word. -/
theorem C103_counterexample_copy_same_name :
    (copyList home ["n"] [["a", "f"], ["b", "f"]]).2 = none ∧
    (copyList home ["n"] [["a", "f"], ["b", "f"]]).1.get ["n", "f"] = some (.file 3 300) := by decide +kernel

/-- FOUND: a node in a directory that was deleted with `Execute(Delete(dir))` still remembers its file. -/
theorem C103_counterexample_memory : ∃ m : Memo, Fresh m home ∧
    (delete false home [["a"]]).1.stat ["a", "f"] = none ∧ forget m [["a"]] ["a", "f"] = some (some (.file 1 100)) := by
  refine ⟨fun p => if p = ["a", "f"] then some (some (.file 1 100)) else none, ?_, by decide +kernel, by decide⟩
  intro p v h
  by_cases hp : p = ["a", "f"]
  · subst hp
    simp only [if_true, Option.some.injEq] at h
    subst h
    decide +kernel
  · simp [hp] at h

/-- FOUND: moving a file that may not be removed leaves a copy of it behind and an error. -/
theorem C103_counterexample_move_denied : let fs : FS := { home with prot := [["a"]] }
    (move fs ["b"] ["a", "f"]).2 = some .shutil ∧ (move fs ["new"] ["a", "f"]).2 = some .denied ∧
    (move fs ["new"] ["a", "f"]).1.get ["new"] = some (.file 1 100) ∧ (move fs ["new"] ["a", "f"]).1.get ["a", "f"] = some (.file 1 100) := by
  decide +kernel

end Verif.FileAct
