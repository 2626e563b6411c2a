import Verif.Store.DirFile

/-!
# Non-vacuity and counterexamples for the signature store

A concrete serialiser satisfying `Codec`, a concrete history with a crash meeting the hypotheses of C22/C23, and what goes wrong with `del`.
-/

namespace Verif.Store

/-- Reading back: items up to the stop mark, which must be the end. -/
def decList {α : Type} : List (Option α) → Option (List α)
  | [] => none
  | none :: [] => some []
  | none :: _ :: _ => none
  | some a :: p => (decList p).map (a :: ·)

/-- A serialiser over "bytes" `Option α`: the items followed by a stop mark. -/
def listCodec (α : Type) : Codec (List α) (Option α) where
  enc l := l.map some ++ [none]
  dec := decList
  dec_enc l := by induction l <;> simp_all [decList]
  enc_ne l := by simp
  dec_prefix l p hp hne := by
    induction l generalizing p with
    | nil =>
      cases p with
      | nil => rfl
      | cons x p => simp only [List.map_nil, List.nil_append, List.cons_prefix_cons, List.prefix_nil] at hp; simp_all
    | cons a l ih =>
      cases p with
      | nil => rfl
      | cons x p =>
        simp only [List.map_cons, List.cons_append, List.cons_prefix_cons] at hp
        obtain ⟨rfl, hp⟩ := hp
        simp [decList, ih p hp (by rintro rfl; simp at hne)]

abbrev C₀ := listCodec (Nat × Nat)

/-- An empty disk. -/
def disk₀ : Disk (Option (Nat × Nat)) := fun _ => none

/-- A history: create, store `1 ↦ 10`, sync; change to `1 ↦ 11`, start a sync, be killed half-way; reopen. -/
theorem example_history : ∃ s, DbRun C₀ ⟨disk₀, .off⟩
    ([] ++ (.opened .c :: [.set 1 10, .syncCalled, .wrote, .wrote] ++ .synced :: [.set 1 11, .syncCalled, .wrote, .gone] ++ [.opened .c])) s ∧
    s.phase = .idle ⟨.c, [(1, 10)], false⟩ := by
  have r := DbRun.nil (C := C₀) ⟨disk₀, .off⟩
  have r := DbRun.snoc r (DbStep.openCreate _ (by rfl))
  have r := DbRun.snoc r (DbStep.set _ _ 1 10 (by decide))
  have r := DbRun.snoc r (DbStep.syncStart _ _ (by decide))
  have r := DbRun.snoc r (DbStep.write _ _ _ 2 [] (by rfl))
  have r := DbRun.snoc r (DbStep.closeTmp _ _)
  have r := DbRun.snoc r (DbStep.replace _ _ [some (1, 10), none] (by rfl))
  have r := DbRun.snoc r (DbStep.set _ _ 1 11 (by decide))
  have r := DbRun.snoc r (DbStep.syncStart _ _ (by decide))
  have r := DbRun.snoc r (DbStep.write _ _ _ 1 [] (by rfl))
  have r := DbRun.snoc r (DbStep.gone _ _)
  have r := DbRun.snoc r (DbStep.openOld _ .c _ (by decide) (by rfl))
  exact ⟨_, r, rfl⟩

/-- C23 does not extend to `del` followed by `close`: `__delitem__` (`dblite.py:245-246`) does not set `_needs_sync`, so `close` has
nothing to do and the deleted key is back when the database is opened again.  (`SConsign` never deletes and always calls `sync`.) -/
theorem C23_counterexample_del_then_close : ∃ s, DbRun C₀ ⟨fun f => if f = .db then some (C₀.enc [(1, 10)]) else none, .off⟩
    [.opened .c, .del 1, .nothing, .gone, .opened .c] s ∧ s.phase = .idle ⟨.c, [(1, 10)], false⟩ := by
  have r := DbRun.nil (C := C₀) ⟨(fun f => if f = .db then some (C₀.enc [(1, 10)]) else none), .off⟩
  have r := DbRun.snoc r (DbStep.openOld _ .c _ (by decide) (by rfl))
  have r := DbRun.snoc r (DbStep.del _ _ 1)
  have r := DbRun.snoc r (DbStep.closeIdle _ _ (by rfl))
  have r := DbRun.snoc r (DbStep.gone _ _)
  have r := DbRun.snoc r (DbStep.openOld _ .c _ (by decide) (by rfl))
  exact ⟨_, r, rfl⟩

/-- C25: with a fall-back a truncated file does appear under the final name (and is then ignored by the next run, losing the old entries). -/
theorem C25_counterexample_fallback_truncates : ∃ t, DRun (C₀.enc [(1, 11)]) ⟨fun f => if f = .sconsign then some (C₀.enc [(1, 10)]) else none, .start⟩ true t ∧
    t.disk .sconsign = some [some (1, 11)] := by
  have r := DRun.nil (new := C₀.enc [(1, 11)]) ⟨(fun f => if f = .sconsign then some (C₀.enc [(1, 10)]) else none), .start⟩
  have r := DRun.snoc r (DStep.openDirect _)
  have r := DRun.snoc r (DStep.writeDirect _ _ 1 [] (by rfl))
  exact ⟨_, r, rfl⟩

/-- C25: without a fall-back there is a moment with no file at all (unlinked before the rename). -/
theorem C25_window_without_file : ∃ t, DRun (C₀.enc [(1, 11)]) ⟨fun f => if f = .sconsign then some (C₀.enc [(1, 10)]) else none, .start⟩ false t ∧
    t.disk .sconsign = none := by
  have r := DRun.nil (new := C₀.enc [(1, 11)]) ⟨(fun f => if f = .sconsign then some (C₀.enc [(1, 10)]) else none), .start⟩
  have r := DRun.snoc r (DStep.openTemp _)
  have r := DRun.snoc r (DStep.writeTemp _ _ 2 [] (by rfl))
  have r := DRun.snoc r (DStep.closeTemp _)
  have r := DRun.snoc r (DStep.removeOk _)
  exact ⟨_, r, rfl⟩

/-- A complete write, and what is read back. -/
example : ∃ t, DRun (C₀.enc [(1, 11)]) ⟨fun f => if f = .sconsign then some (C₀.enc [(1, 10)]) else none, .start⟩ false t ∧
    t.phase = .cleanup ∧ readSconsign C₀ t.disk = [(1, 11)] := by
  have r := DRun.nil (new := C₀.enc [(1, 11)]) ⟨(fun f => if f = .sconsign then some (C₀.enc [(1, 10)]) else none), .start⟩
  have r := DRun.snoc r (DStep.openTemp _)
  have r := DRun.snoc r (DStep.writeTemp _ _ 2 [] (by rfl))
  have r := DRun.snoc r (DStep.closeTemp _)
  have r := DRun.snoc r (DStep.removeOk _)
  have r := DRun.snoc r (DStep.renameOk _ true [some (1, 11), none] (by rfl))
  exact ⟨_, r, rfl, rfl⟩

/-- Merges that keep the attributes not given (`none`). -/
def infos₀ : Infos (Option Nat) (Option Nat) := ⟨fun a b => b.or a, fun a b => b.or a, none, none⟩

abbrev C₁ := listCodec (Nat × SEntry (Option Nat) (Option Nat))

/-- A run over two directories (and a repository's directory 9), with stores, a configure `set` and a second store for the same file. -/
example : ∃ dbs', sconsignRun C₁ infos₀ (fun d : Nat => d == 9) ⟨[(1, C₁.enc [(5, ⟨some 1, some 1⟩), (6, ⟨some 2, none⟩)])], []⟩
      [(1, .store 5 (some 7) none), (2, .set 5 ⟨some 3, none⟩), (9, .store 5 (some 7) none), (1, .store 5 (some 8) (some 4)), (3, .look)] = some dbs' ∧
    stored C₁ dbs'.own 1 5 = some ⟨some 8, some 4⟩ ∧ stored C₁ dbs'.own 1 6 = some ⟨some 2, none⟩ ∧
    stored C₁ dbs'.own 2 5 = some ⟨some 3, none⟩ ∧ stored C₁ dbs'.own 9 5 = none ∧ stored C₁ dbs'.own 3 5 = none := by
  refine ⟨_, rfl, ?_, ?_, ?_, ?_, ?_⟩ <;> rfl

end Verif.Store
