import Verif.Store.Db

/-!
# Model of `SCons/SConsign.py`, class `DB`: entries of all directories in one database

Per directory (that a run asks about) there is one object with the directory's entries; `store_info`/`set_entry` change it in memory; the module
function `write()` at the end of the run puts the changed ones back into the database.
-/

namespace Verif.Store

/-- A `.sconsign` entry (`SConsign.py:144-185`): build information and node information. -/
structure SEntry (B N : Type) where
  binfo : B
  ninfo : N

/-- The attribute-wise merges of `BuildInfoBase` and `NodeInfoBase` (`Node/__init__.py:386-394, 473-481`) and the empty objects made by `new_binfo`,
`new_ninfo` for a node without a stored entry (`FS.py:2935-2949`). -/
structure Infos (B N : Type) where
  mergeB : B → B → B
  mergeN : N → N → N
  freshB : B
  freshN : N

def Infos.fresh {B N : Type} (M : Infos B N) : SEntry B N := ⟨M.freshB, M.freshN⟩

variable {D Name B N Val : Type} [DecidableEq D] [DecidableEq Name]

/-- `SConsign.DB` object (`SConsign.py:187-285`): `entries`, `dirty`, `to_be_merged`.  For a pending name we keep the entry object the node holds
(with its `binfo` already merged) and the node's `ninfo`. -/
structure SigFile (Name B N : Type) where
  entries : Dict Name (SEntry B N) := []
  dirty : Bool := false
  pending : Dict Name (SEntry B N × N) := []

/-- Operations of a run on a directory's object. -/
inductive SOp (Name B N : Type)
  /-- the object is created and read only (`get_entry`) -/
  | look
  /-- `store_info(name, node)` with the node's `binfo` and `ninfo` -/
  | store (n : Name) (b : B) (i : N)
  /-- `set_entry(name, entry)` (used by configure contexts) -/
  | set (n : Name) (e : SEntry B N)

/-- `SConsign.DB.__init__`, `SConsign.py:253-275`: unpickle the directory's value; a missing or corrupt value gives no entries. -/
def loadDir (C : Codec (Dict Name (SEntry B N)) Val) (db : Dict D (List Val)) (d : D) : SigFile Name B N :=
  { entries := match Dict.get? db d with
      | none => []
      | some raw => (C.dec raw).getD [] }

/-- `store_info`/`set_entry`, `SConsign.py:207-224`; for an object of mode `r` both are replaced by no-ops (`SConsign.py:277-283`).
`get_stored_info` (`FS.py:2935-2949`) is memoised on the node: at the first `store_info` the entry is taken from the directory's entries, or made;
later calls of `store_info` merge into the same object. -/
def SigFile.op (M : Infos B N) (ro : Bool) (s : SigFile Name B N) : SOp Name B N → SigFile Name B N
  | .look => s
  | .store n b i =>
    if ro then s else
    let base : SEntry B N := match Dict.get? s.pending n with
      | some p => p.1
      | none => (Dict.get? s.entries n).getD M.fresh
    { s with pending := Dict.set s.pending n (⟨M.mergeB base.binfo b, base.ninfo⟩, i), dirty := true }
  | .set n e => if ro then s else { s with entries := Dict.set s.entries n e, dirty := true }

/-- `merge`, `SConsign.py:226-239`. -/
def SigFile.merge (M : Infos B N) (s : SigFile Name B N) : SigFile Name B N :=
  { s with
    entries := s.pending.foldl (fun es p => Dict.set es p.1 ⟨p.2.1.binfo, M.mergeN p.2.1.ninfo p.2.2⟩) s.entries
    pending := [] }

/-- State of a run: the objects created so far (`sig_files`, with the memoisation `Dir.sconsign()` of `FS.py:72-77`), in order of creation. -/
abbrev Sigs (D Name B N : Type) := Dict D (SigFile Name B N)

/-- The databases: our own and the repositories' (opened with mode `r`, `SConsign.py:74-105`).  `ro d` tells that the directory is under a repository. -/
structure Bases (D Val : Type) where
  own : Dict D (List Val)
  repo : Dict D (List Val)

/-- One operation on directory `d`, creating its object first if need be. -/
def Sigs.op (C : Codec (Dict Name (SEntry B N)) Val) (M : Infos B N) (ro : D → Bool) (dbs : Bases D Val)
    (S : Sigs D Name B N) (o : D × SOp Name B N) : Sigs D Name B N :=
  let s := (Dict.get? S o.1).getD (loadDir C (if ro o.1 then dbs.repo else dbs.own) o.1)
  Dict.set S o.1 (s.op M (ro o.1) o.2)

/-- `DB.write(sync=0)`, `SConsign.py:287-302`; `none` = the `OSError` that writing to a database of mode `r` would raise (`dblite.py:226-228`). -/
def writeDir (C : Codec (Dict Name (SEntry B N)) Val) (M : Infos B N) (ro : D → Bool) (dbs : Bases D Val)
    (d : D) (s : SigFile Name B N) : Option (Bases D Val) :=
  if !s.dirty then some dbs
  else if ro d then none
  else some { dbs with own := Dict.set dbs.own d (C.enc (s.merge M).entries) }

/-- First loop of module function `write()`, `SConsign.py:119-124`. -/
def writeAll (C : Codec (Dict Name (SEntry B N)) Val) (M : Infos B N) (ro : D → Bool) :
    Sigs D Name B N → Bases D Val → Option (Bases D Val)
  | [], dbs => some dbs
  | (d, s) :: S, dbs => (writeDir C M ro dbs d s).bind (writeAll C M ro S)

/-- A whole run: the operations, then `write()`. -/
def sconsignRun (C : Codec (Dict Name (SEntry B N)) Val) (M : Infos B N) (ro : D → Bool) (dbs : Bases D Val)
    (ops : List (D × SOp Name B N)) : Option (Bases D Val) :=
  writeAll C M ro (ops.foldl (Sigs.op C M ro dbs) []) dbs

/-! ## Specification -/

/-- What is stored in a database about file `n` of directory `d`. -/
def stored (C : Codec (Dict Name (SEntry B N)) Val) (db : Dict D (List Val)) (d : D) (n : Name) : Option (SEntry B N) :=
  match Dict.get? db d with
  | none => none
  | some raw => match C.dec raw with
    | none => none
    | some es => Dict.get? es n

/-- The operations of a run that concern file `n` of directory `d`, in order. -/
def opsOn (d : D) (n : Name) (ops : List (D × SOp Name B N)) : List (SOp Name B N) :=
  ops.filterMap (fun o => if o.1 = d then (match o.2 with
    | .look => none
    | .store n' b i => if n' = n then some (.store n' b i) else none
    | .set n' e => if n' = n then some (.set n' e) else none) else none)

/-- The entry after a run that performed `l` on it.  With `store` operations only: all build informations merged in order into the old entry,
and the last node information merged into it; with `set` operations only: the last entry given.  (After a first `store`, a `set` has no effect,
because the node's entry object replaces it at the end.) -/
def entryAfter (M : Infos B N) (old : Option (SEntry B N)) : List (SOp Name B N) → Option (SEntry B N)
  | [] => old
  | .look :: l => entryAfter M old l
  | .set _ e :: l => entryAfter M (some e) l
  | .store _ b i :: l =>
    let e := old.getD M.fresh
    let stores := l.filterMap (fun | .store _ b i => some (b, i) | _ => none)
    some ⟨stores.foldl (fun x p => M.mergeB x p.1) (M.mergeB e.binfo b), M.mergeN e.ninfo ((stores.getLast?.map Prod.snd).getD i)⟩

/-! ## Proofs -/

section
omit [DecidableEq Name] in
theorem Dict.get?_foldl_set {A : Type} {X : Type} (f : X → A) (ps : List (D × X)) (hn : (ps.map Prod.fst).Nodup) (es : Dict D A) (d : D) :
    Dict.get? (ps.foldl (fun es p => Dict.set es p.1 (f p.2)) es) d =
      match Dict.get? ps d with
      | some x => some (f x)
      | none => Dict.get? es d := by
  induction ps generalizing es with
  | nil => simp
  | cons p ps ih =>
    obtain ⟨k, x⟩ := p
    simp only [List.map_cons, List.nodup_cons] at hn
    rw [List.foldl_cons, ih hn.2]
    simp only [Dict.get?]
    by_cases e : k = d
    · subst e
      have : Dict.get? ps k = none := by
        have hk := hn.1
        clear ih hn
        induction ps with
        | nil => rfl
        | cons q ps ih => obtain ⟨a, b⟩ := q; simp_all [Dict.get?]; grind
      simp [this, Dict.get?_set]
    · simp only [e, if_false]
      cases Dict.get? ps d <;> simp [Dict.get?_set, Ne.symm e]

omit [DecidableEq Name] in
theorem Dict.nodup_set {A : Type} (es : Dict D A) (h : (es.map Prod.fst).Nodup) (d : D) (a : A) : ((Dict.set es d a).map Prod.fst).Nodup := by
  have keys : ∀ (es : Dict D A) x, x ∈ (Dict.set es d a).map Prod.fst → x = d ∨ x ∈ es.map Prod.fst := by
    intro es
    induction es with
    | nil => simp [Dict.set]
    | cons q es ih => obtain ⟨k, v⟩ := q; intro x; unfold Dict.set; split <;> simp_all <;> grind
  induction es with
  | nil => simp [Dict.set]
  | cons q es ih =>
    obtain ⟨k, v⟩ := q
    simp only [List.map_cons, List.nodup_cons] at h
    unfold Dict.set
    split
    · rename_i e; simp only [List.map_cons, List.nodup_cons]; exact ⟨e ▸ h.1, h.2⟩
    · rename_i e
      simp only [List.map_cons, List.nodup_cons]
      refine ⟨fun hx => ?_, ih h.2⟩
      rcases keys es k hx with h' | h'
      · exact e h'
      · exact h.1 h'
end

/-- The operations on one directory. -/
def opsIn (d : D) (ops : List (D × SOp Name B N)) : List (SOp Name B N) := ops.filterMap (fun o => if o.1 = d then some o.2 else none)

theorem sigs_get (C : Codec (Dict Name (SEntry B N)) Val) (M : Infos B N) (ro : D → Bool) (dbs : Bases D Val)
    (ops : List (D × SOp Name B N)) (d : D) :
    ∀ S : Sigs D Name B N, Dict.get? (ops.foldl (Sigs.op C M ro dbs) S) d =
      if opsIn d ops = [] then Dict.get? S d
      else some ((opsIn d ops).foldl (SigFile.op M (ro d)) ((Dict.get? S d).getD (loadDir C (if ro d then dbs.repo else dbs.own) d))) := by
  induction ops with
  | nil => simp [opsIn]
  | cons o ops ih =>
    intro S
    rw [List.foldl_cons, ih]
    by_cases e : o.1 = d
    · subst e
      have h1 : opsIn o.1 (o :: ops) = o.2 :: opsIn o.1 ops := by simp [opsIn]
      rw [h1]
      simp only [Sigs.op, Dict.get?_set, if_true, List.foldl_cons, Option.getD_some]
      split
      · rename_i h; simp [h]
      · simp
    · have h1 : opsIn d (o :: ops) = opsIn d ops := by simp [opsIn, e]
      rw [h1]
      simp [Sigs.op, Dict.get?_set, Ne.symm e]

theorem sigs_nodup (C : Codec (Dict Name (SEntry B N)) Val) (M : Infos B N) (ro : D → Bool) (dbs : Bases D Val)
    (ops : List (D × SOp Name B N)) (S : Sigs D Name B N) (h : (S.map Prod.fst).Nodup) :
    ((ops.foldl (Sigs.op C M ro dbs) S).map Prod.fst).Nodup := by
  induction ops generalizing S with
  | nil => simpa using h
  | cons o ops ih => exact ih _ (Dict.nodup_set _ h _ _)

theorem SigFile.op_clean (M : Infos B N) (l : List (SOp Name B N)) (s : SigFile Name B N) :
    l.foldl (SigFile.op M true) s = s := by
  induction l generalizing s with
  | nil => rfl
  | cons o l ih => rw [List.foldl_cons, ih]; cases o <;> simp [SigFile.op]

/-- Effect of the first loop of `write()`. -/
theorem writeAll_spec (C : Codec (Dict Name (SEntry B N)) Val) (M : Infos B N) (ro : D → Bool) (S : Sigs D Name B N)
    (hn : (S.map Prod.fst).Nodup) (hro : ∀ p ∈ S, ro p.1 = true → p.2.dirty = false) (dbs : Bases D Val) :
    ∃ dbs', writeAll C M ro S dbs = some dbs' ∧ dbs'.repo = dbs.repo ∧
      ∀ d, Dict.get? dbs'.own d = match Dict.get? S d with
        | some s => if s.dirty then some (C.enc (s.merge M).entries) else Dict.get? dbs.own d
        | none => Dict.get? dbs.own d := by
  induction S generalizing dbs with
  | nil => exact ⟨dbs, rfl, rfl, by simp⟩
  | cons p S ih =>
    obtain ⟨k, s⟩ := p
    simp only [List.map_cons, List.nodup_cons] at hn
    have hnone : Dict.get? S k = none := by
      have hk := hn.1
      clear ih hn hro
      induction S with
      | nil => rfl
      | cons q ps ih => obtain ⟨a, b⟩ := q; simp_all [Dict.get?]; grind
    cases hd : s.dirty with
    | false =>
      obtain ⟨dbs', h1, h2, h3⟩ := ih hn.2 (fun p hp => hro p (by simp [hp])) dbs
      refine ⟨dbs', by simp [writeAll, writeDir, hd, h1], h2, fun d => ?_⟩
      rw [h3]
      simp only [Dict.get?]
      by_cases e : k = d
      · subst e; simp [hnone, hd]
      · simp [e]
    | true =>
      have hk : ro k = false := by
        cases h : ro k with
        | false => rfl
        | true => have := hro (k, s) (by simp) h; simp [hd] at this
      obtain ⟨dbs', h1, h2, h3⟩ := ih hn.2 (fun p hp => hro p (by simp [hp])) { dbs with own := Dict.set dbs.own k (C.enc (s.merge M).entries) }
      refine ⟨dbs', by simp [writeAll, writeDir, hd, hk, h1], h2, fun d => ?_⟩
      rw [h3]
      simp only [Dict.get?]
      by_cases e : k = d
      · subst e; simp [hnone, hd, Dict.get?_set]
      · simp [e, Dict.get?_set, Ne.symm e]

/-- Local invariant of a directory's object for one name: what `merge` will make of it. -/
def SigFile.final (M : Infos B N) (s : SigFile Name B N) (n : Name) : Option (SEntry B N) :=
  match Dict.get? s.pending n with
  | some p => some ⟨p.1.binfo, M.mergeN p.1.ninfo p.2⟩
  | none => Dict.get? s.entries n

theorem SigFile.pending_nodup (M : Infos B N) (l : List (SOp Name B N)) (s : SigFile Name B N) (h : (s.pending.map Prod.fst).Nodup) :
    ((l.foldl (SigFile.op M false) s).pending.map Prod.fst).Nodup := by
  induction l generalizing s with
  | nil => simpa using h
  | cons o l ih =>
    rw [List.foldl_cons]
    apply ih
    cases o with
    | look => simpa [SigFile.op] using h
    | store n b i => simpa [SigFile.op] using Dict.nodup_set _ h _ _
    | set n e => simpa [SigFile.op] using h

theorem SigFile.merge_get (M : Infos B N) (s : SigFile Name B N) (h : (s.pending.map Prod.fst).Nodup) (n : Name) :
    Dict.get? (s.merge M).entries n = s.final M n := by
  unfold SigFile.merge SigFile.final
  have := Dict.get?_foldl_set (fun x : SEntry B N × N => (⟨x.1.binfo, M.mergeN x.1.ninfo x.2⟩ : SEntry B N)) s.pending h s.entries n
  refine Eq.trans this ?_
  cases Dict.get? s.pending n <;> rfl

/-- Operations of a directory concerning one name. -/
def opsAt (n : Name) (l : List (SOp Name B N)) : List (SOp Name B N) :=
  l.filterMap (fun o => match o with
    | .look => none
    | .store n' b i => if n' = n then some (.store n' b i) else none
    | .set n' e => if n' = n then some (.set n' e) else none)

omit [DecidableEq D] in
theorem opsOn_eq [DecidableEq D] (d : D) (n : Name) (ops : List (D × SOp Name B N)) : opsOn d n ops = opsAt n (opsIn d ops) := by
  induction ops with
  | nil => rfl
  | cons o ops ih =>
    obtain ⟨d', o⟩ := o
    by_cases e : d' = d <;> cases o <;> simp_all [opsOn, opsAt, opsIn, List.filterMap_cons]

theorem SigFile.final_pending (M : Infos B N) (l : List (SOp Name B N)) (s : SigFile Name B N) (n : Name) (e : SEntry B N) (i : N)
    (h : Dict.get? s.pending n = some (e, i)) :
    (l.foldl (SigFile.op M false) s).final M n =
      let stores := (opsAt n l).filterMap (fun | .store _ b i => some (b, i) | _ => none)
      some ⟨stores.foldl (fun x p => M.mergeB x p.1) e.binfo, M.mergeN e.ninfo ((stores.getLast?.map Prod.snd).getD i)⟩ := by
  induction l generalizing s e i with
  | nil => simp [SigFile.final, h, opsAt]
  | cons o l ih =>
    rw [List.foldl_cons]
    cases o with
    | look => simpa [SigFile.op, opsAt] using ih s e i h
    | set n' e' =>
      have := ih (s.op M false (.set n' e')) e i (by simpa [SigFile.op] using h)
      by_cases en : n' = n <;> simpa [opsAt, en] using this
    | store n' b j =>
      by_cases en : n' = n
      · subst en
        have := ih (s.op M false (.store n' b j)) ⟨M.mergeB e.binfo b, e.ninfo⟩ j (by simp [SigFile.op, Dict.get?_set, h])
        rw [this]
        simp only [opsAt, List.filterMap_cons, if_true, List.foldl_cons]
        congr 3
        generalize List.filterMap _ (List.filterMap _ l) = ss
        cases ss <;> simp [List.getLast?_cons]
      · have := ih (s.op M false (.store n' b j)) e i (by simp [SigFile.op, Dict.get?_set, h, Ne.symm en])
        simpa [opsAt, en] using this

theorem SigFile.final_ops (M : Infos B N) (l : List (SOp Name B N)) (s : SigFile Name B N) (n : Name) (h : Dict.get? s.pending n = none) :
    (l.foldl (SigFile.op M false) s).final M n = entryAfter M (Dict.get? s.entries n) (opsAt n l) := by
  induction l generalizing s with
  | nil => simp [SigFile.final, h, opsAt, entryAfter]
  | cons o l ih =>
    rw [List.foldl_cons]
    cases o with
    | look => simpa [SigFile.op, opsAt] using ih s h
    | set n' e' =>
      have := ih (s.op M false (.set n' e')) (by simpa [SigFile.op] using h)
      rw [this]
      by_cases en : n' = n
      · subst en; simp [opsAt, entryAfter, SigFile.op, Dict.get?_set]
      · simp [opsAt, en, SigFile.op, Dict.get?_set, Ne.symm en]
    | store n' b j =>
      by_cases en : n' = n
      · subst en
        rw [SigFile.final_pending M l _ n' ⟨M.mergeB ((Dict.get? s.entries n').getD M.fresh).binfo b, ((Dict.get? s.entries n').getD M.fresh).ninfo⟩ j
          (by simp [SigFile.op, Dict.get?_set, h])]
        simp [opsAt, entryAfter]
      · have := ih (s.op M false (.store n' b j)) (by simp [SigFile.op, Dict.get?_set, h, Ne.symm en])
        rw [this]
        simp [opsAt, en, SigFile.op]

theorem SigFile.dirty_iff (M : Infos B N) (l : List (SOp Name B N)) (s : SigFile Name B N) :
    (l.foldl (SigFile.op M false) s).dirty = (s.dirty || l.any (fun | .look => false | _ => true)) := by
  induction l generalizing s with
  | nil => simp
  | cons o l ih => rw [List.foldl_cons, ih]; cases o <;> simp [SigFile.op]

/-- **C24.**  A run, with any operations in any order on any directories, always succeeds in writing; afterwards the database holds for each file of each directory
exactly what the operations on that very file made of what it held before: in particular files and directories not mentioned keep
their entries.  Operations on directories of repositories have no effect, and the repositories' databases are unchanged. -/
theorem C24_entries_do_not_interfere (C : Codec (Dict Name (SEntry B N)) Val) (M : Infos B N) (ro : D → Bool) (dbs : Bases D Val)
    (ops : List (D × SOp Name B N)) :
    ∃ dbs', sconsignRun C M ro dbs ops = some dbs' ∧ dbs'.repo = dbs.repo ∧
      ∀ d n, stored C dbs'.own d n = if ro d then stored C dbs.own d n else entryAfter M (stored C dbs.own d n) (opsOn d n ops) := by
  have hn := sigs_nodup C M ro dbs ops [] (by simp)
  have hget := fun d => sigs_get C M ro dbs ops d []
  simp only [Dict.get?_nil, Option.getD_none] at hget
  have mem_get : ∀ (S : Sigs D Name B N), (S.map Prod.fst).Nodup → ∀ p ∈ S, Dict.get? S p.1 = some p.2 := by
    intro S
    induction S with
    | nil => simp
    | cons q S ih =>
      obtain ⟨a, b⟩ := q
      intro hS p hp
      simp only [List.map_cons, List.nodup_cons] at hS
      rcases List.mem_cons.1 hp with rfl | hp'
      · simp [Dict.get?]
      · have : a ≠ p.1 := by rintro rfl; exact hS.1 (List.mem_map_of_mem hp')
        simpa [Dict.get?, this] using ih hS.2 p hp'
  have hro : ∀ p ∈ ops.foldl (Sigs.op C M ro dbs) [], ro p.1 = true → p.2.dirty = false := by
    intro p hp h
    have := mem_get _ hn p hp
    rw [hget] at this
    split at this
    · simp at this
    · rw [h, SigFile.op_clean] at this
      have := Option.some.inj this
      rw [← this]; rfl
  obtain ⟨dbs', h1, h2, h3⟩ := writeAll_spec C M ro _ hn hro dbs
  refine ⟨dbs', h1, h2, fun d n => ?_⟩
  have h3d := h3 d
  rw [hget] at h3d
  by_cases hr : ro d = true
  · rw [if_pos hr]
    have : Dict.get? dbs'.own d = Dict.get? dbs.own d := by
      rw [h3d, hr]
      by_cases he : opsIn d ops = []
      · simp [he]
      · simp [he, SigFile.op_clean, loadDir]
    simp only [stored, this]
  · have hr' : ro d = false := by simpa using hr
    rw [if_neg hr]
    rw [hr'] at h3d
    by_cases he : opsIn d ops = []
    · have : Dict.get? dbs'.own d = Dict.get? dbs.own d := by rw [h3d]; simp [he]
      simp [stored, this, he, opsOn_eq, opsAt, entryAfter]
    · simp only [he, if_false, Bool.false_eq_true] at h3d
      rw [SigFile.dirty_iff] at h3d
      by_cases hd : (opsIn d ops).any (fun | .look => false | _ => true) = true
      · have hnd := SigFile.pending_nodup M (opsIn d ops) (loadDir C dbs.own d) (by simp [loadDir])
        simp only [hd, Bool.or_true, if_true] at h3d
        have hs : stored C dbs'.own d n = Dict.get? ((List.foldl (SigFile.op M false) (loadDir C dbs.own d) (opsIn d ops)).merge M).entries n := by
          simp [stored, h3d, C.dec_enc]
        rw [hs, SigFile.merge_get M _ hnd, SigFile.final_ops _ _ _ _ (by simp [loadDir]), opsOn_eq]
        congr 1
        unfold loadDir stored
        cases Dict.get? dbs.own d with
        | none => simp
        | some raw => cases h : C.dec raw <;> simp [h]
      · have hno : opsAt n (opsIn d ops) = [] := by
          rw [opsAt, List.filterMap_eq_nil_iff]
          intro o ho
          have : ¬ (match o with | .look => false | _ => true) = true := fun hc => hd (List.any_eq_true.2 ⟨o, ho, by cases o <;> simp_all⟩)
          cases o <;> simp_all
        rw [opsOn_eq, hno]
        have : Dict.get? dbs'.own d = Dict.get? dbs.own d := by rw [h3d]; simp [hd, loadDir]
        simp [stored, this, entryAfter]

/-- **C24** (files that were not mentioned). -/
theorem C24_untouched_entries_are_kept (C : Codec (Dict Name (SEntry B N)) Val) (M : Infos B N) (ro : D → Bool) (dbs dbs' : Bases D Val)
    (ops : List (D × SOp Name B N)) (h : sconsignRun C M ro dbs ops = some dbs') (d : D) (n : Name)
    (hno : ∀ o ∈ ops, o.1 = d → match o.2 with | .look => True | .store n' _ _ => n' ≠ n | .set n' _ => n' ≠ n) :
    stored C dbs'.own d n = stored C dbs.own d n := by
  obtain ⟨x, h1, -, h3⟩ := C24_entries_do_not_interfere C M ro dbs ops
  rw [h] at h1
  obtain rfl := Option.some.inj h1
  rw [h3]
  have : opsOn d n ops = [] := by
    rw [opsOn, List.filterMap_eq_nil_iff]
    intro o ho
    have := hno o ho
    split
    · rename_i e; have := this e; split <;> simp_all
    · rfl
  simp [this, entryAfter]

end Verif.Store
