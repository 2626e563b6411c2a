/-!
# C58: `fs_delete` and the table `Clean()` fills

`CleanTask.fs_delete` (`Script/Main.py:363-391`) removes a file or a directory named in `Clean()`; `Environment.Clean` (`Environment.py:2556-2573`) records the names.

Simplifications: nothing else changes the tree meanwhile; each entry either can be removed or not (`stuck`), whatever happened before; `os.listdir` does not fail.
-/

namespace Verif.Clean

/-! ## `fs_delete` -/

mutual
/-- What is found under a name. -/
inductive Tree
  /-- a file; `stuck`: `os.unlink` raises `OSError` -/
  | file (stuck : Bool)
  /-- a symbolic link (`toFile`: to a file, so that `os.path.isfile` is true) -/
  | link (stuck toFile : Bool)
  /-- a pipe, a socket, a device -/
  | special
  /-- a directory; `stuck`: `os.rmdir` raises even when it is empty -/
  | dir (stuck : Bool) (es : Forest)
/-- The entries of a directory in the order of `sorted(os.listdir())`. -/
inductive Forest
  | nil
  | cons (name : String) (t : Tree) (rest : Forest)
end

/-- `os.path.isfile`, which follows links. -/
def Tree.isfile : Tree → Bool
  | .file _ => true
  | .link _ f => f
  | _ => false

/-- `os.unlink` raises. -/
def Tree.stuck : Tree → Bool
  | .file s => s
  | .link s _ => s
  | .special => true
  | .dir s _ => s

mutual
/-- `fs_delete(path, pathstr, remove)` (`Main.py:363-391`): what is left under the name, `none` if it is gone.  Exceptions never leave it. -/
def Tree.delete (remove : Bool) : Tree → Option Tree
  | .file s => if remove && !s then none else some (.file s)
  | .link s f => if remove && !s then none else some (.link s f)
  | .special => some .special                                            -- UserError, printed
  | .dir s es =>
    let r := es.delete remove
    if r.2 then some (.dir s r.1)                                        -- OSError inside the loop
    else if remove then
      match r.1 with
      | .nil => if s then some (.dir s .nil) else none                   -- os.rmdir
      | .cons n t rest => some (.dir s (.cons n t rest))                 -- os.rmdir: not empty
    else some (.dir s r.1)
/-- The loop over the entries (`:370-377`): what is left, and whether `os.unlink` raised and ended the loop. -/
def Forest.delete (remove : Bool) : Forest → Forest × Bool
  | .nil => (.nil, false)
  | .cons n t rest =>
    if t.isfile then
      if remove then
        if t.stuck then (.cons n t rest, true) else rest.delete remove
      else
        let r := rest.delete remove
        (.cons n t r.1, r.2)
    else
      match t.delete remove with
      | none => rest.delete remove
      | some t' => let r := rest.delete remove; (.cons n t' r.1, r.2)
end

mutual
/-- Everything in the tree can be removed. -/
def Tree.Free : Tree → Prop
  | .file s => s = false
  | .link s _ => s = false
  | .special => False
  | .dir s es => s = false ∧ es.Free
/-- Everything in the directory can be removed. -/
def Forest.Free : Forest → Prop
  | .nil => True
  | .cons _ t rest => t.Free ∧ rest.Free
end

mutual
/-- `Has t p u`: following the names `p` from `t` one finds `u`, not a directory. -/
inductive Tree.Has : Tree → List String → Tree → Prop
  | file {s} : Tree.Has (.file s) [] (.file s)
  | link {s f} : Tree.Has (.link s f) [] (.link s f)
  | special : Tree.Has .special [] .special
  | dir {s es p u} : Forest.Has es p u → Tree.Has (.dir s es) p u
/-- … from a directory. -/
inductive Forest.Has : Forest → List String → Tree → Prop
  | here {n t rest p u} : Tree.Has t p u → Forest.Has (.cons n t rest) (n :: p) u
  | there {n t rest p u} : Forest.Has rest p u → Forest.Has (.cons n t rest) p u
end

mutual
theorem Tree.delete_none (t : Tree) : t.delete true = none ↔ t.Free := by
  cases t with
  | file s => simp [Tree.delete, Tree.Free]
  | link s f => simp [Tree.delete, Tree.Free]
  | special => simp [Tree.delete, Tree.Free]
  | dir s es =>
    have ih := Forest.delete_nil es
    simp only [Tree.delete, Tree.Free]
    rw [← ih]
    cases h : es.delete true with
    | mk r b => cases b <;> cases r <;> cases s <;> simp
theorem Forest.delete_nil (es : Forest) : es.delete true = (.nil, false) ↔ es.Free := by
  cases es with
  | nil => simp [Forest.delete, Forest.Free]
  | cons n t rest =>
    have ih1 := Tree.delete_none t
    have ih2 := Forest.delete_nil rest
    simp only [Forest.delete, Forest.Free]
    rw [← ih1, ← ih2]
    by_cases hf : t.isfile = true
    · rw [if_pos hf, if_pos trivial]
      have : t.delete true = none ↔ t.stuck = false := by cases t <;> simp_all [Tree.isfile, Tree.delete, Tree.stuck]
      rw [this]
      cases hs : t.stuck <;> simp
    · rw [if_neg hf]
      cases hd : t.delete true <;> simp
end

mutual
theorem Tree.delete_show (t : Tree) : t.delete false = some t := by
  cases t with
  | file s => simp [Tree.delete]
  | link s f => simp [Tree.delete]
  | special => simp [Tree.delete]
  | dir s es => simp [Tree.delete, Forest.delete_show es]
theorem Forest.delete_show (es : Forest) : es.delete false = (es, false) := by
  cases es with
  | nil => simp [Forest.delete]
  | cons n t rest => simp [Forest.delete, Tree.delete_show t, Forest.delete_show rest]
end

mutual
theorem Tree.delete_has {t t' : Tree} {p : List String} {u : Tree} (h : t.delete true = some t') (hu : t'.Has p u) : t.Has p u := by
  cases t with
  | file s =>
    simp only [Tree.delete] at h
    split at h
    · cases h
    · cases h; exact hu
  | link s f =>
    simp only [Tree.delete] at h
    split at h
    · cases h
    · cases h; exact hu
  | special => cases h; exact hu
  | dir s es =>
    have ih := fun (hx : (es.delete true).1.Has p u) => Forest.delete_has (es := es) hx
    simp only [Tree.delete] at h
    split at h
    · cases h
      cases hu with | dir hu => exact .dir (ih hu)
    · rw [if_pos trivial] at h
      split at h
      · split at h
        · cases h
          cases hu with | dir hu => cases hu
        · cases h
      · rename_i hr
        cases h
        cases hu with | dir hu => exact .dir (ih (by rw [hr]; exact hu))
theorem Forest.delete_has {es : Forest} {p : List String} {u : Tree} (hu : (es.delete true).1.Has p u) : es.Has p u := by
  cases es with
  | nil => exact hu
  | cons n t rest =>
    have ih1 := fun {t' : Tree} {q : List String} (h : t.delete true = some t') (hx : t'.Has q u) => Tree.delete_has h hx
    have ih2 := fun (hx : (rest.delete true).1.Has p u) => Forest.delete_has (es := rest) hx
    simp only [Forest.delete] at hu
    split at hu
    · rw [if_pos trivial] at hu
      split at hu
      · exact hu
      · exact .there (ih2 hu)
    · split at hu
      · exact .there (ih2 hu)
      · rename_i t' ht
        cases hu with
        | here hu => exact .here (ih1 ht hu)
        | there hu => exact .there (ih2 hu)
end

mutual
theorem Tree.delete_stuck {t t' : Tree} (hfree : ∀ p u, t.Has p u → u.isfile = true → u.stuck = false) {p : List String} {u : Tree}
    (h : t.delete true = some t') (hu : t'.Has p u) : u.stuck = true := by
  cases t with
  | file s =>
    simp only [Tree.delete] at h
    split at h
    · cases h
    · rename_i hs
      cases h; cases hu; simpa [Tree.stuck] using hs
  | link s f =>
    simp only [Tree.delete] at h
    split at h
    · cases h
    · rename_i hs
      cases h; cases hu; simpa [Tree.stuck] using hs
  | special => cases h; cases hu; rfl
  | dir s es =>
    have ih := fun (hx : (es.delete true).1.Has p u) => Forest.delete_stuck (es := es) (fun p u hh => hfree p u (.dir hh)) hx
    simp only [Tree.delete] at h
    split at h
    · cases h
      cases hu with | dir hu => exact ih hu
    · rw [if_pos trivial] at h
      split at h
      · split at h
        · cases h
          cases hu with | dir hu => cases hu
        · cases h
      · rename_i hr
        cases h
        cases hu with | dir hu => exact ih (by rw [hr]; exact hu)
theorem Forest.delete_stuck {es : Forest} (hfree : ∀ p u, es.Has p u → u.isfile = true → u.stuck = false) {p : List String} {u : Tree}
    (hu : (es.delete true).1.Has p u) : u.stuck = true := by
  cases es with
  | nil => cases hu
  | cons n t rest =>
    have ih1 := fun {t' : Tree} {q : List String} (h : t.delete true = some t') (hx : t'.Has q u) => Tree.delete_stuck (fun p u hh => hfree (n :: p) u (.here hh)) h hx
    have ih2 := fun (hx : (rest.delete true).1.Has p u) => Forest.delete_stuck (es := rest) (fun p u hh => hfree p u (.there hh)) hx
    simp only [Forest.delete] at hu
    split at hu
    · rename_i hf
      rw [if_pos trivial] at hu
      split at hu
      · rename_i hs
        have : t.stuck = false := by
          cases t with
          | file s => exact hfree _ _ (.here .file) rfl
          | link s f => exact hfree _ _ (.here .link) hf
          | special => cases hf
          | dir s es => cases hf
        rw [this] at hs; cases hs
      · exact ih2 hu
    · split at hu
      · exact ih2 hu
      · rename_i t' ht
        cases hu with
        | here hu => exact ih1 ht hu
        | there hu => exact ih2 hu
end

/-- **C58, what stays below a directory named in `Clean()`**: only what cannot be removed, provided no plain file fails to be removed (otherwise
`C58_directory_stops_counterexample`): entries that are neither files nor directories, and directories that are not empty because of them, do not end the loop. -/
theorem C58_directory_removes_what_it_can_partial {t t' : Tree} (hfree : ∀ p u, t.Has p u → u.isfile = true → u.stuck = false)
    (h : t.delete true = some t') {p : List String} {u : Tree} (hu : t'.Has p u) : u.stuck = true := Tree.delete_stuck hfree h hu

/-- A pipe in a subdirectory stays; the files around it go. -/
example : (Tree.dir false (.cons "a" (.file false) (.cons "d" (.dir false (.cons "b" .special (.cons "c" (.file false) .nil))) (.cons "e" (.file false) .nil)))).delete true
    = some (.dir false (.cons "d" (.dir false (.cons "b" .special .nil)) .nil)) := rfl

/-- **C58, `Clean()` of a directory.**  Without `-n`, a directory named in `Clean()` is gone afterwards exactly if everything below it can be removed. -/
theorem C58_directory_removed_iff (t : Tree) : t.delete true = none ↔ t.Free := t.delete_none

/-- Nothing below it is moved, changed or created. -/
theorem C58_directory_only_shrinks {t t' : Tree} (h : t.delete true = some t') {p : List String} {u : Tree} (hu : t'.Has p u) : t.Has p u := Tree.delete_has h hu

/-- With `-n` nothing is removed. -/
theorem C58_no_exec_keeps_directory (t : Tree) : t.delete false = some t := t.delete_show

/-- **C58, counterexample**: one file that cannot be removed keeps the ones after it, which could be. -/
theorem C58_directory_stops_counterexample : ∃ es : Forest, (Tree.dir false es).Has ["b"] (.file false) ∧
    ∃ t', (Tree.dir false es).delete true = some t' ∧ t'.Has ["b"] (.file false) :=
  ⟨.cons "a" (.file true) (.cons "b" (.file false) .nil), .dir (.there (.here .file)), _, rfl, .dir (.there (.here .file))⟩

/-- Links are removed, not followed: what is removed of a tree with a link does not depend on what the link points to, except for what `isfile` says; a tree of links and
files in two levels is removed. -/
theorem C58_directory_nonvacuous : (Tree.dir false (.cons "a" (.link false true) (.cons "d" (.dir false (.cons "b" (.file false) (.cons "c" (.link false false) .nil))) .nil))).delete true = none :=
  (C58_directory_removed_iff _).2 (by simp [Tree.Free, Forest.Free])

/-! ## `Clean()` -/

variable {V : Type} [DecidableEq V]

/-- The dictionary `CleanTargets`: keys to list objects, and what is in each list object. -/
structure Table (V : Type) where
  dict : V → Option Nat
  lists : Nat → List V
  next : Nat

/-- The empty dictionary. -/
def Table.empty : Table V := ⟨fun _ => none, fun _ => [], 0⟩

/-- One round of the loop in `Clean` (`Environment.py:2569-2573`) with the list object `r`. -/
def Table.one (T : Table V) (r : Nat) (t : V) : Table V :=
  match T.dict t with
  | some r' => { T with lists := fun i => if i = r' then T.lists r' ++ T.lists r else T.lists i }   -- CleanTargets[t].extend(flist)
  | none => { T with dict := fun x => if x = t then some r else T.dict x }                          -- CleanTargets[t] = flist

/-- `env.Clean(targets, files)`. -/
def Table.clean (T : Table V) (targets files : List V) : Table V :=
  targets.foldl (fun T' t => T'.one T.next t) { T with lists := fun i => if i = T.next then files else T.lists i, next := T.next + 1 }

/-- `CleanTargets[t]`, empty if there is none. -/
def Table.get (T : Table V) (t : V) : List V := match T.dict t with | some r => T.lists r | none => []

/-- A sequence of calls. -/
def Table.cleans (T : Table V) (calls : List (List V × List V)) : Table V := calls.foldl (fun T c => T.clean c.1 c.2) T

/-- Specification: `f` was attached to `t` in one of the calls. -/
def Asked (calls : List (List V × List V)) (t f : V) : Prop := ∃ c ∈ calls, t ∈ c.1 ∧ f ∈ c.2

/-- Keys point to list objects that exist. -/
def Table.OK (T : Table V) : Prop := ∀ t r, T.dict t = some r → r < T.next

/-- Later tables have more. -/
def Table.Le (T T' : Table V) : Prop :=
  (∀ t r, T.dict t = some r → T'.dict t = some r) ∧ (∀ i, i < T.next → ∀ f ∈ T.lists i, f ∈ T'.lists i) ∧ T.next ≤ T'.next

theorem Table.Le.trans {T T' T'' : Table V} (h : T.Le T') (h' : T'.Le T'') : T.Le T'' :=
  ⟨fun t r e => h'.1 t r (h.1 t r e), fun i hi f hf => h'.2.1 i (by have := h.2.2; omega) f (h.2.1 i hi f hf), Nat.le_trans h.2.2 h'.2.2⟩

theorem Table.Le.get {T T' : Table V} (hT : T.OK) (h : T.Le T') {t f : V} (hf : f ∈ T.get t) : f ∈ T'.get t := by
  unfold Table.get at *
  cases e : T.dict t with
  | none => rw [e] at hf; simp at hf
  | some r =>
    rw [e] at hf
    rw [h.1 t r e]
    exact h.2.1 r (hT t r e) f hf

theorem Table.one_spec {T : Table V} (hT : T.OK) {r : Nat} (hr : r < T.next) (t : V) :
    (T.one r t).OK ∧ T.Le (T.one r t) ∧ (T.one r t).next = T.next ∧ ∀ f ∈ T.lists r, f ∈ (T.one r t).get t := by
  unfold Table.one
  cases e : T.dict t with
  | some r' =>
    refine ⟨hT, ⟨fun _ _ h => h, fun i _ f hf => ?_, Nat.le_refl _⟩, rfl, fun f hf => ?_⟩
    · simp only; split
      · rename_i e'; subst e'; simp [hf]
      · exact hf
    · simp [Table.get, e, hf]
  | none =>
    refine ⟨fun x r' h => ?_, ⟨fun x r' h => ?_, fun i _ f hf => hf, Nat.le_refl _⟩, rfl, fun f hf => ?_⟩
    · simp only at h
      split at h
      · cases h; exact hr
      · exact hT x r' h
    · simp only
      rw [if_neg]
      · exact h
      · rintro rfl; rw [e] at h; cases h
    · simp [Table.get, hf]

theorem Table.loop_spec {r : Nat} (ts : List V) {T : Table V} (hT : T.OK) (hr : r < T.next) :
    (ts.foldl (fun T' t => T'.one r t) T).OK ∧ T.Le (ts.foldl (fun T' t => T'.one r t) T) ∧ (ts.foldl (fun T' t => T'.one r t) T).next = T.next ∧
      ∀ t ∈ ts, ∀ f ∈ T.lists r, f ∈ (ts.foldl (fun T' t => T'.one r t) T).get t := by
  induction ts generalizing T with
  | nil => exact ⟨hT, ⟨fun _ _ h => h, fun _ _ _ h => h, Nat.le_refl _⟩, rfl, by simp⟩
  | cons t ts ih =>
    obtain ⟨a1, a2, a3, a4⟩ := Table.one_spec hT hr t
    obtain ⟨b1, b2, b3, b4⟩ := ih a1 (by omega)
    refine ⟨b1, a2.trans b2, b3.trans a3, ?_⟩
    intro x hx f hf
    rcases List.mem_cons.1 hx with rfl | hx
    · exact b2.get a1 (a4 f hf)
    · exact b4 x hx f (a2.2.1 r hr f hf)

theorem Table.clean_spec {T : Table V} (hT : T.OK) (ts fs : List V) :
    (T.clean ts fs).OK ∧ T.Le (T.clean ts fs) ∧ ∀ t ∈ ts, ∀ f ∈ fs, f ∈ (T.clean ts fs).get t := by
  have hT' : Table.OK { T with lists := fun i => if i = T.next then fs else T.lists i, next := T.next + 1 } := fun t r h => Nat.lt_succ_of_lt (hT t r h)
  obtain ⟨a1, a2, a3, a4⟩ := Table.loop_spec ts hT' (r := T.next) (Nat.lt_succ_self _)
  have h0 : T.Le { T with lists := fun i => if i = T.next then fs else T.lists i, next := T.next + 1 } := by
    refine ⟨fun _ _ h => h, fun i hi f hf => ?_, Nat.le_succ _⟩
    simp only
    rw [if_neg (by omega)]
    exact hf
  exact ⟨a1, h0.trans a2, fun t ht f hf => a4 t ht f (by simp [hf])⟩

theorem Table.cleans_spec (calls : List (List V × List V)) {T : Table V} (hT : T.OK) :
    T.Le (T.cleans calls) ∧ ∀ t f, Asked calls t f → f ∈ (T.cleans calls).get t := by
  induction calls generalizing T with
  | nil => exact ⟨⟨fun _ _ h => h, fun _ _ _ h => h, Nat.le_refl _⟩, by rintro t f ⟨c, hc, -⟩; cases hc⟩
  | cons c calls ih =>
    obtain ⟨a1, a2, a3⟩ := Table.clean_spec hT c.1 c.2
    obtain ⟨b1, b2⟩ := ih a1
    refine ⟨a2.trans b1, ?_⟩
    rintro t f ⟨c', hc', ht, hf⟩
    rcases List.mem_cons.1 hc' with rfl | hc'
    · exact b1.get a1 (a3 t ht f hf)
    · exact b2 t f ⟨c', hc', ht, hf⟩

/-- **C58, `Clean()` forgets nothing**: after any sequence of calls, every file attached to a target is recorded for it. -/
theorem C58_clean_calls_are_recorded (calls : List (List V × List V)) {t f : V} (h : Asked calls t f) : f ∈ (Table.empty.cleans calls).get t :=
  (Table.cleans_spec calls (T := Table.empty) (fun _ _ h => by cases h)).2 t f h

/-- **C58, `Clean()` records nothing else** — if every call names one target. -/
theorem C58_clean_calls_only_partial (calls : List (List V × List V)) (h1 : ∀ c ∈ calls, ∃ t, c.1 = [t]) {t f : V} (hf : f ∈ (Table.empty.cleans calls).get t) :
    Asked calls t f := by
  suffices H : ∀ (calls done : List (List V × List V)) (T : Table V), (∀ c ∈ calls, ∃ t, c.1 = [t]) → T.OK → (∀ x y r, T.dict x = some r → T.dict y = some r → x = y) →
      (∀ t f, f ∈ T.get t → Asked done t f) → ∀ t f, f ∈ (T.cleans calls).get t → Asked (done ++ calls) t f by
    simpa using H calls [] Table.empty h1 (fun _ _ h => by cases h) (fun _ _ _ h => by cases h) (fun t f h => by simp [Table.get, Table.empty] at h) t f hf
  intro calls
  induction calls with
  | nil => intro done T _ _ _ h4 t f hf; simpa using h4 t f hf
  | cons c calls ih =>
    intro done T h1 h2 h3 h4 t f hf
    obtain ⟨x, hx⟩ := h1 c (by simp)
    have := ih (done ++ [c]) (T.clean c.1 c.2) (fun c' hc' => h1 c' (by simp [hc'])) (Table.clean_spec h2 _ _).1 ?_ ?_ t f hf
    · simpa using this
    · rw [hx]
      intro a b r
      simp only [Table.clean, List.foldl_cons, List.foldl_nil, Table.one]
      cases e : T.dict x with
      | some r' => exact h3 a b r
      | none =>
        simp only
        intro ha hb
        split at ha
        · split at hb
          · simp_all
          · cases ha
            exact absurd (h2 b _ hb) (Nat.lt_irrefl _)
        · split at hb
          · cases hb
            exact absurd (h2 a _ ha) (Nat.lt_irrefl _)
          · exact h3 a b r ha hb
    · rw [hx]
      intro t f hf
      have old : f ∈ T.get t → Asked (done ++ [c]) t f := by
        intro h
        obtain ⟨c', hc', h5⟩ := h4 t f h
        exact ⟨c', by simp [hc'], h5⟩
      have new : t = x → f ∈ c.2 → Asked (done ++ [c]) t f := by
        rintro rfl h
        exact ⟨c, by simp, by simp [hx], h⟩
      simp only [Table.clean, List.foldl_cons, List.foldl_nil, Table.one, Table.get] at hf
      cases e : T.dict x with
      | some r' =>
        simp only [e] at hf
        cases et : T.dict t with
        | none => rw [et] at hf; simp at hf
        | some r =>
          have hr := h2 t r et
          rw [et] at hf
          simp only at hf
          split at hf
          · rename_i e'; subst e'
            have : t = x := h3 t x r et e
            subst this
            simp only [if_true, List.mem_append, if_neg (Nat.ne_of_lt hr)] at hf
            rcases hf with hf | hf
            · exact old (by simp [Table.get, et, hf])
            · exact new rfl hf
          · rw [if_neg (Nat.ne_of_lt hr)] at hf
            exact old (by simp [Table.get, et, hf])
      | none =>
        simp only [e] at hf
        by_cases ht : t = x
        · subst ht
          simp only [if_true] at hf
          exact new rfl hf
        · simp only [if_neg ht] at hf
          cases et : T.dict t with
          | none => rw [et] at hf; simp at hf
          | some r =>
            rw [et] at hf
            simp only at hf
            rw [if_neg (Nat.ne_of_lt (h2 t r et))] at hf
            exact old (by simp [Table.get, et, hf])

/-- **C58, counterexample.**  `Clean(['a', 'b'], 'x'); Clean('a', 'y')`: both keys share one list, so `scons -c b` removes `y`. -/
theorem C58_clean_calls_counterexample :
    "y" ∈ (Table.empty.cleans [(["a", "b"], ["x"]), (["a"], ["y"])]).get "b" ∧ ¬ Asked [(["a", "b"], ["x"]), (["a"], ["y"])] "b" "y" := by
  refine ⟨by decide, ?_⟩
  rintro ⟨c, hc, h1, h2⟩
  simp at hc
  rcases hc with rfl | rfl <;> simp_all

end Verif.Clean
