import Verif.FS.DupQuery

/-! # Which file is found, and what the variant copy holds: theorems (C66, C67) -/

namespace Verif.FS.Variant

theorem touch_known_inv (C : Conf) (p q : Path) (h : (touch C p).known q = true) : C.known q = true ∨ q <:+ p := by
  induction p with
  | nil => exact Or.inl h
  | cons m e ih =>
    simp only [touch] at h
    split at h
    · rcases ih h with h | h
      · exact Or.inl h
      · exact Or.inr (h.trans (List.suffix_cons m e))
    · simp only [Bool.or_eq_true, decide_eq_true_eq] at h
      rcases h with h | h
      · right; rw [h]
      · rcases ih h with h | h
        · exact Or.inl h
        · exact Or.inr (h.trans (List.suffix_cons m e))

/-- Neither the path nor a directory above it is duplicated. -/
def NoDup (C : Conf) (x : Path) : Prop := ∀ v, v <:+ x → C.dup v = false

theorem NoDup.touch {C : Conf} {x : Path} (h : NoDup C x) (p : Path) : NoDup (touch C p) x := by
  induction p with
  | nil => exact h
  | cons n d ih =>
    intro v hv
    simp only [Variant.touch]
    split
    · exact ih v hv
    · dsimp only
      split
      · rename_i e; subst e; exact ih d ((List.suffix_cons n d).trans hv)
      · exact ih v hv

/-- A file, or a special file, is there; a symbolic link counts as what it leads to. -/
def hasFile (D : Disk) (p : Path) : Bool := decide (stat D p ≠ none ∧ stat D p ≠ some .dir)

/-- The ordinary case of a search for `n` in the directories `rs`: none of them is duplicated; those that lie in variant directories have a node for the file already (the directory the search is made for has); no node for the file, and no
directory to be searched, stands in the way. -/
structure Plain (X : S) (n : String) (rs : List Path) : Prop where
  nodup : ∀ r ∈ rs, NoDup X.conf (n :: r)
  nosrc : ∀ r ∈ rs, srcdirList X.conf r = [] ∨ X.conf.known (n :: r) = true
  file : ∀ r ∈ rs, X.isDir (n :: r) = false
  disk : ∀ r ∈ rs, X.conf.known (n :: r) = true → stat X.disk (n :: r) ≠ some .dir
  sep : ∀ r ∈ rs, ∀ r' ∈ rs, ¬ (n :: r') <:+ r

theorem Plain.mono {X : S} {n : String} {r : Path} {rs : List Path} (h : Plain X n (r :: rs)) : Plain X n rs :=
  ⟨fun x hx => h.nodup x (by simp [hx]), fun x hx => h.nosrc x (by simp [hx]), fun x hx => h.file x (by simp [hx]), fun x hx => h.disk x (by simp [hx]), fun x hx y hy => h.sep x (by simp [hx]) y (by simp [hy])⟩

theorem look_srcdirList (X : S) (p : Path) (b : Bool) (d : Path) : srcdirList (X.look p b).conf d = srcdirList X.conf d := by
  simp [srcdirList, S.look, (touch_srcdir X.conf p).1]

theorem Plain.lookDir {X : S} {n : String} {rs : List Path} (h : Plain X n rs) {r : Path} (hr : r ∈ rs) : Plain (X.look r true) n rs := by
  refine ⟨fun x hx => (h.nodup x hx).touch r, fun x hx => ?_, fun x hx => ?_, fun x hx hk => ?_, h.sep⟩
  · rw [look_srcdirList]
    rcases h.nosrc x hx with h1 | h1
    · exact Or.inl h1
    · exact Or.inr (touch_known_mono _ _ _ h1)
  · simp only [S.look]
    have hs := h.sep r hr x hx
    split
    · exact h.file x hx
    · rw [if_neg (by rintro e; exact hs (by rw [← e]))]
      have : isUnder r (n :: x) = false := by rw [Bool.eq_false_iff]; intro hu; exact hs ((isUnder_iff _ _).1 hu)
      simp [this, h.file x hx]
  · rcases touch_known_inv _ _ _ hk with hk | hk
    · exact h.disk x hx hk
    · exact absurd hk (h.sep r hr x hx)

theorem Plain.lookFile {X : S} {n : String} {rs : List Path} (h : Plain X n rs) {r : Path} (hr : ∀ r' ∈ rs, ¬ (n :: r') <:+ r) (hd : stat X.disk (n :: r) ≠ some .dir) : Plain (X.look (n :: r) false) n rs := by
  refine ⟨fun x hx => (h.nodup x hx).touch _, fun x hx => ?_, fun x hx => ?_, fun x hx hk => ?_, h.sep⟩
  · rw [look_srcdirList]
    rcases h.nosrc x hx with h1 | h1
    · exact Or.inl h1
    · exact Or.inr (touch_known_mono _ _ _ h1)
  · simp only [S.look]
    split
    · exact h.file x hx
    · split
      · rfl
      · rename_i hne
        have : isUnder (n :: r) (n :: x) = false := by
          rw [Bool.eq_false_iff]
          intro hu
          rw [isUnder_iff, List.suffix_cons_iff] at hu
          rcases hu with hu | hu
          · exact hne hu
          · exact hr x hx hu
        simp [this, h.file x hx]
  · rcases touch_known_inv _ _ _ hk with hk | hk
    · exact h.disk x hx hk
    · rw [List.suffix_cons_iff] at hk
      rcases hk with hk | hk
      · rw [hk]; exact hd
      · exact absurd hk (hr x hx)

theorem Plain.lookAll {X : S} {n : String} {rs : List Path} (h : Plain X n rs) (l : List Path) (hl : ∀ r ∈ l, r ∈ rs) : Plain (l.foldl (fun X r => X.look r true) X) n rs := by
  induction l generalizing X with
  | nil => exact h
  | cons p l ih => exact ih (h.lookDir (hl p (by simp))) fun r hr => hl r (by simp [hr])

theorem lookAll_disk (X : S) (l : List Path) : (l.foldl (fun X r => X.look r true) X).disk = X.disk ∧ (l.foldl (fun X r => X.look r true) X).linked = X.linked ∧ (l.foldl (fun X r => X.look r true) X).derived = X.derived := by
  induction l generalizing X with
  | nil => exact ⟨rfl, rfl, rfl⟩
  | cons p l ih => exact ih (X.look p true)

theorem exists_plain (U : Setup) (j : Nat) {X : S} {q : Path} (hf : X.isDir q = false) (hd : X.conf.dup q = false) : (query U (j + 1)).1 X q = some (X, (stat X.disk q).isSome) := by
  simp [query, hf, hd]

theorem stat_none {D : Disk} {p : Path} (h : D.obj p = none) : stat D p = none := by simp [stat, eloop, follow, h]

theorem rfileLoop_plain (U : Setup) (k j : Nat) {n : String} {rs : List Path} {X : S} (hP : Plain X n rs) :
    ∃ X', rfileLoop U k (query U (j + 1)).1 n X rs = some (X', (rs.map (n :: ·)).find? (hasFile X.disk)) ∧ X'.disk = X.disk ∧ X'.linked = X.linked ∧ X'.derived = X.derived ∧
      (∀ x, NoDup X.conf x → NoDup X'.conf x) ∧ ∀ q, q ∈ rs.map (n :: ·) → X'.isDir q = false := by
  suffices H : ∀ (rs' : List Path), Plain X n rs' → (∀ r ∈ rs, r ∈ rs') → ∃ X', rfileLoop U k (query U (j + 1)).1 n X rs = some (X', (rs.map (n :: ·)).find? (hasFile X.disk)) ∧ X'.disk = X.disk ∧ X'.linked = X.linked ∧ X'.derived = X.derived ∧
      (∀ x, NoDup X.conf x → NoDup X'.conf x) ∧ ∀ q, q ∈ rs'.map (n :: ·) → X'.isDir q = false from H rs hP fun _ h => h
  clear hP
  intro rs' hP hsub
  have hfile : ∀ X : S, Plain X n rs' → ∀ q, q ∈ rs'.map (n :: ·) → X.isDir q = false := by
    intro X hP q hq
    rw [List.mem_map] at hq
    obtain ⟨r, hr, rfl⟩ := hq
    exact hP.file r hr
  induction rs generalizing X with
  | nil => exact ⟨X, by simp [rfileLoop], rfl, rfl, rfl, fun _ h => h, hfile X hP⟩
  | cons r rs ih =>
    have hr : r ∈ rs' := hsub r (by simp)
    have hsub' : ∀ x ∈ rs, x ∈ rs' := fun x hx => hsub x (by simp [hx])
    simp only [rfileLoop, candidate]
    by_cases hk : X.conf.known (n :: r) = true
    · rw [if_pos hk]
      dsimp only
      rw [exists_plain U j (hP.file r hr) (hP.nodup r hr _ (List.suffix_refl _))]
      dsimp only
      rw [List.map_cons, List.find?_cons]
      have hh : hasFile X.disk (n :: r) = (stat X.disk (n :: r)).isSome := by
        have := hP.disk r hr hk
        unfold hasFile
        cases hs : stat X.disk (n :: r) with
        | none => simp
        | some o => rw [hs] at this; simp only [ne_eq, Option.some.injEq] at this; simp [this]
      rw [hh, hP.file r hr]
      cases hs : (stat X.disk (n :: r)).isSome with
      | true => exact ⟨X, by simp, rfl, rfl, rfl, fun _ h => h, hfile X hP⟩
      | false => simpa using ih hP hsub'
    · rw [if_neg hk]
      unfold fileOnDisk
      by_cases ho : X.disk.obj (n :: r) ≠ none ∧ stat X.disk (n :: r) ≠ some .dir
      · rw [if_pos ho]
        dsimp only
        have hP1 := hP.lookFile (r := r) (fun x hx => hP.sep r hr x hx) ho.2
        have hd1 : (X.look (n :: r) false).disk = X.disk := rfl
        have hl1 : (X.look (n :: r) false).linked = X.linked := rfl
        have he1 : (X.look (n :: r) false).derived = X.derived := rfl
        have hn1 : ∀ x, NoDup X.conf x → NoDup (X.look (n :: r) false).conf x := fun x hx => hx.touch (n :: r)
        generalize X.look (n :: r) false = X1 at hP1 hd1 hl1 he1 hn1
        rw [exists_plain U j (hP1.file r hr) (hP1.nodup r hr _ (List.suffix_refl _))]
        dsimp only
        rw [List.map_cons, List.find?_cons]
        have hh : hasFile X.disk (n :: r) = (stat X1.disk (n :: r)).isSome := by
          rw [hd1]
          have := ho.2
          unfold hasFile
          cases hs : stat X.disk (n :: r) with
          | none => simp
          | some o => rw [hs] at this; simp only [ne_eq, Option.some.injEq] at this; simp [this]
        rw [hh, hP1.file r hr]
        cases hs : (stat X1.disk (n :: r)).isSome with
        | true => exact ⟨X1, by simp, hd1, hl1, he1, hn1, hfile X1 hP1⟩
        | false =>
          obtain ⟨X', h1, h2, h3, h4, h5, h6⟩ := ih hP1 hsub'
          exact ⟨X', by simpa [← hd1] using h1, h2.trans hd1, h3.trans hl1, h4.trans he1, fun x hx => h5 x (hn1 x hx), h6⟩
      · rw [if_neg ho]
        have hs : srcdirList X.conf r = [] := by
          rcases hP.nosrc r hr with h | h
          · exact h
          · exact absurd h hk
        rw [hs]
        simp only [srcdirDuplicate]
        have hh : hasFile X.disk (n :: r) = false := by
          unfold hasFile
          rw [decide_eq_false_iff_not]
          rintro ⟨h1, h2⟩
          refine ho ⟨fun h => h1 (stat_none h), h2⟩
        rw [List.map_cons, List.find?_cons, hh]
        exact ih hP hsub'

/-- **C66** The file a node stands for (`rfile`): the node's own if it is there; else the first there is in the directories searched (`C66_rdirs_order`), in their order; the node itself if there is none.  Nothing on disk changes. -/
theorem C66_rfile (U : Setup) (k : Nat) {X : S} {n : String} {d : Path} {rs : List Path} (hr : allRdirs X.conf (k + 1) d = some rs) (hP : Plain X n rs) (hk : X.conf.known (n :: d) = true) :
    ∃ X', rfile U (k + 2) X (n :: d) = some (X', ((rs.map (n :: ·)).find? (hasFile X.disk)).getD (n :: d)) ∧ X'.disk = X.disk ∧ X'.linked = X.linked ∧ X'.derived = X.derived ∧
      (∀ x, NoDup X.conf x → NoDup X'.conf x) ∧ ∀ q, q ∈ rs.map (n :: ·) → X'.isDir q = false := by
  have hd : d ∈ rs := by rw [C66_rdirs_mem hr]; exact .here d
  have hhead : ∃ l, rs = d :: l := by rw [allRdirs_succ, Option.map_eq_some_iff] at hr; obtain ⟨l, _, h⟩ := hr; exact ⟨l, h.symm⟩
  unfold rfile
  rw [query]
  dsimp only
  rw [exists_plain U k (hP.file d hd) (hP.nodup d hd _ (List.suffix_refl _))]
  have hh : hasFile X.disk (n :: d) = (stat X.disk (n :: d)).isSome := by
    have := hP.disk d hd hk
    unfold hasFile
    cases hs : stat X.disk (n :: d) with
    | none => simp
    | some o => rw [hs] at this; simp only [ne_eq, Option.some.injEq] at this; simp [this]
  cases hs : (stat X.disk (n :: d)).isSome with
  | true =>
    obtain ⟨l, rfl⟩ := hhead
    refine ⟨X, ?_, rfl, rfl, rfl, fun _ h => h, ?_⟩
    · simp [hh, hs]
    · intro q hq
      rw [List.mem_map] at hq
      obtain ⟨r, hr, rfl⟩ := hq
      exact hP.file r hr
  | false =>
    dsimp only
    rw [hr]
    dsimp only
    have hP1 := hP.lookAll rs fun _ h => h
    obtain ⟨e1, e2, e3⟩ := lookAll_disk X rs
    have hn1 : ∀ x, NoDup X.conf x → NoDup (rs.foldl (fun X r => X.look r true) X).conf x := by
      clear hr hP hd hhead hP1 e1 e2 e3
      intro x hx
      revert hx
      generalize X = Y
      induction rs generalizing Y with
      | nil => exact fun h => h
      | cons p l ih => exact fun h => ih (Y.look p true) (h.touch p)
    generalize rs.foldl (fun X r => X.look r true) X = X1 at hP1 e1 e2 e3 hn1
    obtain ⟨X', h1, h2, h3, h4, h5, h6⟩ := rfileLoop_plain U (k + 1) k hP1
    rw [h1, e1]
    refine ⟨X', ?_, h2.trans e1, h3.trans e2, h4.trans e3, fun x hx => h5 x (hn1 x hx), h6⟩
    cases (rs.map (n :: ·)).find? (hasFile X.disk) <;> rfl

theorem doDuplicate_contents {U : Setup} {k : Nat} {X X' : S} {p src q : Path} {c : String} (hn : U.noExec = false) (hU : U.funcs ≠ []) (hk : 41 ≤ k) (hw : X.disk.WF) (hf : follow (X.disk.put p none) 40 src = some q)
    (hc : read (X.disk.put p none) src = some c) (ha : AbsChain (X.disk.put p none) src) (h : doDuplicate U k X p src = some X') :
    read X'.disk p = some c ∧ (∀ x, x ≠ p → X'.disk.obj x = X.disk.obj x) ∧ ∀ i, i < X.disk.next → X'.disk.data i = X.disk.data i := by
  unfold doDuplicate at h
  rw [hn] at h
  simp only [Bool.false_eq_true, if_false] at h
  split at h
  · rename_i D hD
    simp only [Option.some.injEq] at h
    subst h
    have hw' : (X.disk.put p none).WF := by
      intro x i hx
      simp only [Disk.put] at hx ⊢
      split at hx
      · cases hx
      · exact hw x i hx
    obtain ⟨h1, h2, _⟩ := C67_link_contents hw' (by simp [Disk.put]) hf hc ha hk hU hD
    exact ⟨h1, fun x hx => by rw [h2.obj x hx]; simp [Disk.put, hx], h2.data⟩
  · cases h

/-- What is read without the file at `p` is read with it. -/
theorem read_of_put {D : Disk} {p src : Path} {c : String} (h : read (D.put p none) src = some c) : read D src = some c := by
  have e : (D.put p none).put p (D.obj p) = D := by
    cases D
    simp only [Disk.put, Disk.mk.injEq, and_true]
    funext q
    split <;> simp_all
  unfold read stat at h ⊢
  cases hf : follow (D.put p none) eloop src with
  | none => simp [hf] at h
  | some q =>
    obtain ⟨h1, h2⟩ := follow_put (o := D.obj p) (dst := p) hf (by simp [Disk.put])
    rw [e] at h1
    rw [hf] at h
    rw [h1]
    simp only [Option.bind_some] at h ⊢
    have : (D.put p none).obj q = D.obj q := by simp [Disk.put, h2]
    rw [this] at h
    exact h

/-- **C67** The copy in a duplicating variant directory.  When SCons has asked whether the file `n` of the directory `d` exists, `d` lying in the variant directory `v` of `s` by the relative path `rel`, and the file is not a target and has not
been linked before in this run: if the source file, or a version of it in a repository, is there, the answer is yes, the copy has the contents of that file now (the first in the order of the search); if none is, the answer is no, and there is
no copy, even if there was one before.  Nothing else on disk has changed. -/
theorem C67_variant_copy {U : Setup} (hn : U.noExec = false) (hU : U.funcs ≠ []) {k : Nat} (hk : 39 ≤ k) {X X' : S} {e : Bool} {n : String} {d rel v s : Path} (hv : Nearest X.conf d rel v s) (hd : X.isDir (n :: d) = false)
    (hdup : X.conf.dup (n :: d) = true) (hder : X.derived (n :: d) = false) (hl : X.linked (n :: d) = false) (hw : X.disk.WF) {rs : List Path} (hr : allRdirs (touch X.conf (n :: (rel ++ s))) (k + 1) (rel ++ s) = some rs)
    (hP : Plain (X.look (n :: (rel ++ s)) false) n rs) (hk0 : (touch X.conf (n :: (rel ++ s))).known (n :: (rel ++ s)) = true) (hout : d ∉ rs)
    (hlinks : ∀ q, (rs.map (n :: ·)).find? (hasFile X.disk) = some q →
      AbsChain (X.disk.put (n :: d) none) q ∧ ∃ t c, follow (X.disk.put (n :: d) none) 40 q = some t ∧ read (X.disk.put (n :: d) none) q = some c)
    (h : exists' U (k + 3) X (n :: d) = some (X', e)) :
    (∀ q, (rs.map (n :: ·)).find? (hasFile X.disk) = some q → e = true ∧ read X'.disk (n :: d) = read X.disk q ∧ read X.disk q ≠ none) ∧
    ((rs.map (n :: ·)).find? (hasFile X.disk) = none → e = false ∧ X'.disk.obj (n :: d) = none) ∧
    (∀ x, x ≠ n :: d → X'.disk.obj x = X.disk.obj x) ∧ ∀ i, i < X.disk.next → X'.disk.data i = X.disk.data i := by
  have hsrc := C66_srcnode (n := n) hv
  have hmem : rel ++ s ∈ rs := by rw [C66_rdirs_mem hr]; exact .here _
  have hne : n :: (rel ++ s) ≠ n :: d := by
    intro e
    simp only [List.cons.injEq, true_and] at e
    exact hout (e ▸ hmem)
  unfold exists' at h
  rw [query] at h
  dsimp only at h
  rw [if_neg (by simp [hd]), if_pos (by simp [hdup, hder, hl]), hsrc, if_neg hne] at h
  have hrf := C66_rfile U k (X := X.look (n :: (rel ++ s)) false) hr hP hk0
  obtain ⟨X1, h1, h2, h3, h4, h5, h6⟩ := hrf
  unfold rfile at h1
  rw [h1] at h
  dsimp only at h
  have hX : (X.look (n :: (rel ++ s)) false).disk = X.disk := rfl
  rw [hX] at h2 h
  generalize hq0 : ((rs.map (n :: ·)).find? (hasFile X.disk)).getD (n :: (rel ++ s)) = q at h
  have hqm : q ∈ rs.map (n :: ·) := by
    cases hf : (rs.map (n :: ·)).find? (hasFile X.disk) with
    | none => rw [hf] at hq0; rw [← hq0]; simpa using hmem
    | some q' => rw [hf] at hq0; rw [← hq0]; exact List.mem_of_find?_eq_some hf
  have hqne : q ≠ n :: d := by
    rintro rfl
    rw [List.mem_map] at hqm
    obtain ⟨r, hr', e⟩ := hqm
    simp only [List.cons.injEq, true_and] at e
    exact hout (e ▸ hr')
  have hqd : X1.conf.dup q = false := by
    rw [List.mem_map] at hqm
    obtain ⟨r, hr', rfl⟩ := hqm
    exact h5 _ (hP.nodup r hr') _ (List.suffix_refl _)
  rw [if_neg hqne, exists_plain U (k + 1) (h6 q hqm) hqd, h2] at h
  cases hf : (rs.map (n :: ·)).find? (hasFile X.disk) with
  | none =>
    have hno : hasFile X.disk q = false := by
      rw [List.find?_eq_none] at hf
      simpa using hf q hqm
    have hnd : stat X.disk q ≠ some .dir := by
      rw [hf] at hq0
      simp only [Option.getD_none] at hq0
      subst hq0
      exact hP.disk _ hmem hk0
    have hs : stat X.disk q = none := by
      unfold hasFile at hno
      rw [decide_eq_false_iff_not] at hno
      by_contra hcon
      exact hno ⟨hcon, hnd⟩
    rw [hs] at h
    simp only [Option.isSome_none, Option.some.injEq, Prod.mk.injEq] at h
    rw [← h.1, ← h.2]
    refine ⟨fun q hq => (by cases hq), fun _ => ⟨rfl, by simp [Disk.put]⟩, fun x hx => by simp [Disk.put, hx, h2], fun i _ => by simp [Disk.put, h2]⟩
  | some q' =>
    rw [hf] at hq0
    simp only [Option.getD_some] at hq0
    subst hq0
    have hhas : hasFile X.disk q' = true := List.find?_some hf
    have hs : (stat X.disk q').isSome = true := by
      unfold hasFile at hhas
      rw [decide_eq_true_eq] at hhas
      cases hst : stat X.disk q' with
      | none => exact absurd hst hhas.1
      | some o => rfl
    rw [hs] at h
    dsimp only at h
    rw [Option.map_eq_some_iff] at h
    obtain ⟨X2, h7, h8⟩ := h
    simp only [Prod.mk.injEq] at h8
    obtain ⟨ha, t, c, hft, hc⟩ := hlinks q' hf
    obtain ⟨c1, c2, c3⟩ := doDuplicate_contents hn hU (by omega) (by rw [h2]; exact hw) (by rw [h2]; exact hft) (by rw [h2]; exact hc) (by rw [h2]; exact ha) h7
    rw [← h8.1, ← h8.2]
    refine ⟨fun q hq => ?_, fun hq => (by cases hq), fun x hx => by rw [c2 x hx, h2], fun i hi => by rw [c3 i (by rw [h2]; exact hi), h2]⟩
    simp only [Option.some.injEq] at hq
    subst hq
    have hrd := read_of_put hc
    refine ⟨?_, by rw [c1, hrd], by rw [hrd]; simp⟩
    unfold read at c1
    cases hst : stat X2.disk (n :: d) with
    | none => rw [hst] at c1; cases c1
    | some o => rfl

/-! ## A project -/

def exDisk : Disk where
  obj p := if p = ["f.c", "src", "top"] then some (.file 0) else if p = ["f.c", "build", "top"] then some (.file 1) else if p = ["g.c", "build", "top"] then some (.file 2) else if p = ["h.c", "src", "rep"] then some (.file 3) else none
  data i := if i = 0 then "new" else if i = 1 then "old" else if i = 2 then "stale" else "from the repository"
  next := 4
  cwd := ["top"]

def exConf : Option Conf := run ["top"] Conf.init [.variantDir ["build", "top"] ["src", "top"] true, .repository ["rep"], .lookup ["f.c", "build", "top"], .lookup ["g.c", "build", "top"], .lookup ["h.c", "build", "top"]]

def exS (C : Conf) : S := ⟨C, exDisk, fun p => p.length < 3, fun _ => false, fun _ => false⟩

def exU (noExec : Bool) : Setup := ⟨noExec, [.hard, .soft, .copy], ⟨fun _ _ => false, fun _ _ => false, fun _ _ => false⟩⟩

/-- The old copy of `f.c` is replaced, the copy of `g.c`, whose source is gone, is removed, and `h.c` comes from the repository. -/
theorem C67_copy_nonvacuous : ∃ C, exConf = some C ∧
    (exists' (exU false) 50 (exS C) ["f.c", "build", "top"]).map (fun r => (read r.1.disk ["f.c", "build", "top"], r.2)) = some (some "new", true) ∧
    (exists' (exU false) 50 (exS C) ["g.c", "build", "top"]).map (fun r => (read r.1.disk ["g.c", "build", "top"], r.2)) = some (none, false) ∧
    (exists' (exU false) 50 (exS C) ["h.c", "build", "top"]).map (fun r => (read r.1.disk ["h.c", "build", "top"], r.2)) = some (some "from the repository", true) := by
  refine ⟨_, rfl, ?_, ?_, ?_⟩ <;> decide +kernel

/-- The hypotheses of `C67_variant_copy` hold there. -/
theorem C67_plain_nonvacuous : ∃ C, exConf = some C ∧ Nearest C ["build", "top"] [] ["build", "top"] ["src", "top"] ∧
    allRdirs (touch C ["h.c", "src", "top"]) 40 ["src", "top"] = some [["src", "top"], ["src", "rep"]] ∧ Plain ((exS C).look ["h.c", "src", "top"] false) "h.c" [["src", "top"], ["src", "rep"]] ∧
    C.dup ["h.c", "build", "top"] = true := by
  refine ⟨_, rfl, ⟨rfl, by decide +kernel, fun _ _ _ _ => Nat.zero_le _⟩, by decide +kernel, ?_, by decide +kernel⟩
  have hnd : ∀ (C : Conf) (x : Path), (∀ v ∈ x.tails, C.dup v = false) → NoDup C x := fun C x h v hv => h v (by rw [List.mem_tails]; exact hv)
  refine ⟨?_, ?_, ?_, ?_, ?_⟩
  · intro r hr
    refine hnd _ _ ?_
    revert r
    decide +kernel
  · decide +kernel
  · decide +kernel
  · decide +kernel
  · decide +kernel

/-- **C67, counterexample** With `-n` SCons removes files: the copy of a source that is gone is removed by a direct call (Node/__init__.py 167), not by an action. -/
theorem C67_dry_run_removes : ∃ C, exConf = some C ∧ (exU true).noExec = true ∧ read (exS C).disk ["g.c", "build", "top"] = some "stale" ∧
    (exists' (exU true) 50 (exS C) ["g.c", "build", "top"]).map (fun r => r.1.disk.obj ["g.c", "build", "top"]) = some none := by
  refine ⟨_, rfl, rfl, ?_, ?_⟩ <;> decide +kernel

/-- **C66, counterexample** The file a file node stands for may be a directory: `isinstance(node, (File, Entry)) or not node.is_derived()` lets a directory of a repository pass. -/
theorem C66_rfile_dir : ∃ (X : S) (q : Path), (rfile (exU false) 50 X ["x", "top"]).map (·.2) = some q ∧ X.isDir ["x", "top"] = false ∧ X.isDir q = true ∧ stat X.disk q = some .dir := by
  refine ⟨⟨(run ["top"] Conf.init [.repository ["rep"], .lookup ["x", "rep"], .lookup ["x", "top"]]).getD Conf.init, ⟨fun p => if p = ["x", "rep"] then some .dir else none, fun _ => "", 0, ["top"]⟩, fun p => p ≠ ["x", "top"], fun _ => false, fun _ => false⟩,
    ["x", "rep"], ?_, ?_, ?_, ?_⟩ <;> decide +kernel

end Verif.FS.Variant
