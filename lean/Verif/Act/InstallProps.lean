import Verif.Act.Install
import Mathlib.Data.List.Basic

/-!
# `Install` (C81): proofs
-/

set_option linter.unusedVariables false

namespace Verif.Install

variable {B : Type}

theorem put_entry (m : Nat) (ns : List Name) (f : Name → Tree B) (n k : Name) (x : Tree B) :
    ((Tree.dir m ns f).put n x).entry k = if k = n then some x else (Tree.dir m ns f).entry k := by
  simp only [Tree.put, Tree.entry]
  by_cases e : k = n
  · subst e; by_cases h : k ∈ ns <;> simp [h]
  · by_cases h : n ∈ ns
    · simp [h, e]
    · simp only [h, if_false, List.mem_append, List.mem_singleton, e, or_false]

theorem write_none {su : Bool} {dm m : Nat} {c : B} {d : Option (Tree B)} (h : (write su dm c m d).1 = none) : d = none := by
  unfold write at h
  split at h
  · rfl
  · split at h <;> cases h
  · cases h

theorem copy2_none {su : Bool} {dm m : Nat} {n : Name} {c : B} {d : Option (Tree B)} (h : (copy2 su dm n c m d).1 = none) : d = none := by
  unfold copy2 at h
  split at h
  · cases h
  · exact write_none h

theorem copyTree_none {su : Bool} {s : Tree B} {dm : Nat} {n : Name} {d : Option (Tree B)} (h : (copyTree su s dm n d).1 = none) : d = none := by
  cases s with
  | file c m => exact copy2_none h
  | dir m names sub =>
    unfold copyTree at h
    split at h
    · cases h
    · cases h
    · rfl

/-- The loop over the entries. -/
theorem fold_spec (copy : Name → Nat → Option (Tree B) → Option (Tree B) × Bool) (hnone : ∀ k dm d, (copy k dm d).1 = none → d = none) :
    ∀ (names : List Name), names.Nodup → ∀ (m : Nat) (ns : List Name) (f : Name → Tree B) (ok : Bool),
    let r := names.foldl (fun acc k => round (copy k) k acc) (.dir m ns f, ok)
    (∃ ns' f', r.1 = .dir m ns' f') ∧
    (∀ k, r.1.entry k = if k ∈ names then (copy k m ((Tree.dir m ns f).entry k)).1 else (Tree.dir m ns f).entry k) ∧
    (r.2 = true ↔ ok = true ∧ ∀ k ∈ names, (copy k m ((Tree.dir m ns f).entry k)).2 = true) := by
  intro names
  induction names with
  | nil => intro _ m ns f ok; exact ⟨⟨ns, f, rfl⟩, by simp, by simp⟩
  | cons a names ih =>
    intro hnd m ns f ok
    obtain ⟨ha, hnd'⟩ := List.nodup_cons.1 hnd
    dsimp only
    rw [List.foldl_cons]
    have hround : ∃ ns1 f1, round (copy a) a (.dir m ns f, ok) = (.dir m ns1 f1, ok && (copy a m ((Tree.dir m ns f).entry a)).2) ∧
        ∀ k, (Tree.dir m ns1 f1).entry k = if k = a then (copy a m ((Tree.dir m ns f).entry a)).1 else (Tree.dir m ns f).entry k := by
      unfold round Tree.after
      simp only [Tree.mode]
      cases hc : (copy a m ((Tree.dir m ns f).entry a)).1 with
      | none =>
        refine ⟨ns, f, rfl, fun k => ?_⟩
        split
        · rename_i e; subst e; exact hnone _ _ _ hc
        · rfl
      | some x =>
        refine ⟨_, _, rfl, fun k => ?_⟩
        exact put_entry m ns f a k x
    obtain ⟨ns1, f1, e1, e2⟩ := hround
    rw [e1]
    obtain ⟨h1, h2, h3⟩ := ih hnd' m ns1 f1 (ok && (copy a m ((Tree.dir m ns f).entry a)).2)
    refine ⟨h1, fun k => ?_, ?_⟩
    · rw [h2 k, e2 k]
      by_cases hk : k = a
      · subst hk; simp [ha]
      · simp [hk]
    · rw [h3]
      simp only [Bool.and_eq_true, List.mem_cons, forall_eq_or_imp, and_assoc]
      refine and_congr_right fun _ => and_congr_right fun _ => ?_
      refine forall_congr' fun k => forall_congr' fun hk => ?_
      rw [e2 k, if_neg (fun (e : k = a) => ha (e ▸ hk))]

theorem look_chmod (t : Tree B) (m : Nat) (k : Name) (p : List Name) : look (t.chmod m) (k :: p) = look t (k :: p) := by
  cases t <;> rfl

theorem fits_sub {m : Nat} {names : List Name} {sub : Name → Tree B} {d : Tree B} (h : Fits (.dir m names sub) d) {k : Name} (hk : k ∈ names)
    {x : Tree B} (hx : d.entry k = some x) : Fits (sub k) x := by
  intro p
  have := h (k :: p)
  have e1 : look (.dir m names sub) (k :: p) = look (sub k) p := by
    simp only [look, Tree.entry, hk, if_true, Option.bind_some]
  have e2 : look d (k :: p) = look x p := by
    simp only [look, hx, Option.bind_some]
  rw [e1, e2] at this
  exact this

theorem look_dir (m : Nat) (names : List Name) (sub : Name → Tree B) (k : Name) (p : List Name) :
    look (.dir m names sub) (k :: p) = if k ∈ names then look (sub k) p else none := by
  simp only [look, Tree.entry]
  split <;> rfl

/-- What the copy does when it ends without an error. -/
theorem copyTree_spec (su : Bool) (s : Tree B) : ∀ (dm : Nat) (n : Name) (d : Option (Tree B)) (r : Tree B), Listed s →
    copyTree su s dm n d = (some r, true) → (∀ x, d = some x → Fits s x) →
    HasCopy s r ∧ ∀ p, look s p = none → look r p = d.bind fun x => look x p := by
  induction s with
  | file c m =>
    intro dm n d r hl h hfit
    have hr : r = .file c m ∧ ∀ m' ns f, d ≠ some (.dir m' ns f) := by
      have hd : ∀ m' ns f, d ≠ some (.dir m' ns f) := fun m' ns f e => (hfit _ e []).1 c m rfl m' ns f rfl
      unfold copyTree copy2 at h
      split at h
      · rename_i m' ns f; exact absurd rfl (hd m' ns f)
      · unfold write at h
        split at h
        · split at h
          · cases h; exact ⟨rfl, hd⟩
          · cases h
        · split at h
          · cases h; exact ⟨rfl, hd⟩
          · cases h
        · cases h
    obtain ⟨rfl, hd⟩ := hr
    refine ⟨fun p => ⟨fun c' m' h => h, fun m' ns f h => ⟨ns, f, h⟩⟩, fun p hp => ?_⟩
    cases p with
    | nil => cases hp
    | cons k p =>
      cases d with
      | none => rfl
      | some x =>
        cases x with
        | file c' m' => rfl
        | dir m' ns f => exact absurd rfl (hd m' ns f)
  | dir m names sub ih =>
    intro dm n d r hl h hfit
    cases hl with
    | dir _ _ _ hnd hls =>
      -- both cases: a loop that starts with a directory
      have key : ∃ m0 ns0 f0 R, (names.foldl (fun acc k => round (fun dm' x => copyTree su (sub k) dm' k x) k acc) (Tree.dir m0 ns0 f0, true)) = (R, true) ∧ r = R.chmod m ∧
          (∀ k, (Tree.dir m0 ns0 f0).entry k = d.bind fun x => x.entry k) := by
        unfold copyTree at h
        split at h
        · cases h
        · rename_i m' ns' f'
          dsimp only at h
          generalize hR : names.foldl (fun acc k => round (fun dm' x => copyTree su (sub k) dm' k x) k acc) (Tree.dir m' ns' f', true) = R at h
          obtain ⟨R1, R2⟩ := R
          cases h
          exact ⟨m', ns', f', R1, hR, rfl, fun k => rfl⟩
        · split at h
          · dsimp only at h
            generalize hR : names.foldl (fun acc k => round (fun dm' x => copyTree su (sub k) dm' k x) k acc) (newDir (.dir m names sub), true) = R at h
            obtain ⟨R1, R2⟩ := R
            cases h
            exact ⟨493, [], _, R1, hR, rfl, fun k => by simp [Tree.entry]⟩
          · cases h
      obtain ⟨m0, ns0, f0, R, hR, rfl, hent⟩ := key
      obtain ⟨⟨ns', f', hdir⟩, hk, hok⟩ := fold_spec (fun k dm' x => copyTree su (sub k) dm' k x) (fun k dm d => copyTree_none) names hnd m0 ns0 f0 true
      rw [hR] at hdir hk hok
      dsimp only at hdir hk hok
      have hok' := (hok.1 rfl).2
      have hsub : ∀ k ∈ names, ∃ x, R.entry k = some x ∧ HasCopy (sub k) x ∧
          ∀ p, look (sub k) p = none → look x p = (d.bind fun y => y.entry k).bind fun y => look y p := by
        intro k hkn
        have h1 := hk k
        rw [if_pos hkn, hent k] at h1
        have h2 := hok' k hkn
        rw [hent k] at h2
        cases hx : (copyTree su (sub k) m0 k (d.bind fun x => x.entry k)).1 with
        | none =>
          exfalso
          cases hs : sub k with
          | file c m =>
            rw [hs] at hx h2
            have hd := copyTree_none hx
            rw [hd] at hx h2
            simp only [copyTree, copy2, write] at hx h2
            split at h2
            · simp_all
            · cases h2
          | dir m1 n1 s1 =>
            rw [hs] at hx h2
            have hd := copyTree_none hx
            rw [hd] at hx h2
            simp only [copyTree] at hx h2
            split at h2
            · simp_all
            · cases h2
        | some x =>
          rw [hx] at h1
          refine ⟨x, h1, ih k m0 k _ x (hls k hkn) (Prod.ext hx h2) ?_⟩
          intro y hy
          cases d with
          | none => cases hy
          | some z => exact fits_sub (hfit z rfl) hkn hy
      refine ⟨fun p => ?_, fun p hp => ?_⟩
      · cases p with
        | nil =>
          refine ⟨fun c' m' h => (by cases h), fun m' ns f h => ?_⟩
          cases h
          exact ⟨ns', f', by rw [hdir]; rfl⟩
        | cons k p =>
          rw [look_dir, look_chmod]
          by_cases hkn : k ∈ names
          · obtain ⟨x, hx, hc, -⟩ := hsub k hkn
            simp only [hkn, if_true, look, hx, Option.bind_some]
            exact hc p
          · simp [hkn]
      · cases p with
        | nil => cases hp
        | cons k p =>
          rw [look_dir] at hp
          rw [look_chmod]
          by_cases hkn : k ∈ names
          · rw [if_pos hkn] at hp
            obtain ⟨x, hx, -, hp2⟩ := hsub k hkn
            simp only [look, hx, Option.bind_some]
            rw [hp2 p hp]
            cases d <;> rfl
          · simp only [look]
            rw [hk k, if_neg hkn, hent k]
            cases d <;> rfl

/-- **C81** Installing a directory: if there is no error, the destination holds a copy of the source, and what is in the destination under other names is
untouched.  Partial: no file of the source meets a directory in the destination (`Ex.file_into_directory`). -/
theorem C81_directory_partial (su : Bool) (dm : Nat) (n : Name) (m : Nat) (names : List Name) (sub : Name → Tree B) (d : Option (Tree B)) (r : Tree B)
    (hl : Listed (.dir m names sub)) (h : copyFunc su dm n (.dir m names sub) d = (some r, true)) (hfit : ∀ x, d = some x → Fits (.dir m names sub) x) :
    HasCopy (.dir m names sub) r ∧ ∀ p, look (.dir m names sub) p = none → look r p = d.bind fun x => look x p :=
  copyTree_spec su _ dm n d r hl h hfit

theorem copyTree_ok (su : Bool) (s : Tree B) : ∀ (dm : Nat) (n : Name) (d : Option (Tree B)), Listed s →
    (d = none → canWrite su dm = true) → (∀ x, d = some x → Fits s x ∧ (su = true ∨ Writable s x)) → (copyTree su s dm n d).2 = true := by
  induction s with
  | file c m =>
    intro dm n d hl hnew hd
    unfold copyTree copy2
    split
    · rename_i m' ns f
      exact absurd rfl (((hd _ rfl).1 []).1 c m rfl m' ns f)
    · unfold write
      split
      · rw [if_pos (hnew rfl)]
      · rename_i c' m' _
        have : canWrite su m' = true := by
          unfold canWrite
          rcases (hd _ rfl).2 with h | h
          · simp [h]
          · have h7 : m'.testBit 7 = true := h [] (.file c m) (.file c' m') rfl rfl
            simp [h7]
        rw [if_pos this]
      · exact absurd rfl (((hd _ rfl).1 []).1 c m rfl _ _ _)
  | dir m names sub ih =>
    intro dm n d hl hnew hd
    cases hl with
    | dir _ _ _ hnd hls =>
      have key : ∀ m0 ns0 f0, canWrite su m0 = true → (∀ k, (Tree.dir m0 ns0 f0).entry k = d.bind fun x => x.entry k) →
          (names.foldl (fun acc k => round (fun dm' x => copyTree su (sub k) dm' k x) k acc) (Tree.dir m0 ns0 f0, true)).2 = true := by
        intro m0 ns0 f0 hw hent
        obtain ⟨-, -, hok⟩ := fold_spec (fun k dm' x => copyTree su (sub k) dm' k x) (fun k dm d => copyTree_none) names hnd m0 ns0 f0 true
        refine hok.2 ⟨rfl, fun k hk => ?_⟩
        refine ih k m0 k _ (hls k hk) (fun _ => hw) fun x hx => ?_
        rw [hent k] at hx
        cases d with
        | none => cases hx
        | some y =>
          refine ⟨fits_sub (hd y rfl).1 hk hx, (hd y rfl).2.imp id fun h p a b h1 h2 => h (k :: p) a b ?_ ?_⟩
          · rw [look_dir, if_pos hk]; exact h1
          · have : y.entry k = some x := hx
            simp only [look, this, Option.bind_some]; exact h2
      unfold copyTree
      split
      · rename_i c' m'
        exact absurd rfl (((hd _ rfl).1 []).2 m names sub rfl c' m')
      · rename_i m' ns' f'
        refine key m' ns' f' ?_ (fun k => rfl)
        unfold canWrite
        rcases (hd _ rfl).2 with h | h
        · simp [h]
        · have h7 : m'.testBit 7 = true := h [] (.dir m names sub) (.dir m' ns' f') rfl rfl
          simp [h7]
      · rw [if_pos (hnew rfl)]
        refine key 493 [] _ ?_ (fun k => by simp [Tree.entry])
        have : Nat.testBit 493 7 = true := by decide
        simp [canWrite, this]

/-- **C81** Installing a directory succeeds: nothing is in its way, and everything that is to be replaced can be written (always so for the superuser and for a first installation). -/
theorem C81_directory_succeeds (su : Bool) (dm : Nat) (n : Name) (m : Nat) (names : List Name) (sub : Name → Tree B) (d : Option (Tree B))
    (hl : Listed (.dir m names sub)) (hnew : d = none → canWrite su dm = true)
    (hd : ∀ x, d = some x → Fits (.dir m names sub) x ∧ (su = true ∨ Writable (.dir m names sub) x)) :
    ∃ r, copyFunc su dm n (.dir m names sub) d = (some r, true) := by
  have h2 := copyTree_ok su _ dm n d hl hnew hd
  cases h : (copyTree su (.dir m names sub) dm n d).1 with
  | some r => exact ⟨r, Prod.ext h h2⟩
  | none =>
    exfalso
    have hdn := copyTree_none h
    subst hdn
    simp only [copyTree, hnew rfl, if_true] at h
    cases h

/-- One version of a file after another is installed to the same place; between two installations the copy may be removed (`none`), as SCons does before it installs again. -/
def installAll (dm : Nat) (n : Name) : List (B × Nat × Bool) → Option (Tree B) → Option (Tree B) × Bool
  | [], d => (d, true)
  | (c, m, gone) :: rest, d =>
    let r := copyFunc false dm n (.file c m) (if gone then none else d)
    if r.2 then installAll dm n rest r.1 else r

/-- **C81** Installing versions of a file, one after the other: no installation fails, whatever the modes of the versions, and in the end the destination has the content
of the last one, its mode, and can be written. -/
theorem C81_file (dm : Nat) (hdm : dm.testBit 7 = true) (n : Name) (vs : List (B × Nat × Bool)) (c : B) (m : Nat) (gone : Bool)
    (d : Option (Tree B)) (hd : d = none ∨ ∃ c' m', d = some (.file c' m') ∧ m'.testBit 7 = true) :
    installAll dm n (vs ++ [(c, m, gone)]) d = (some (.file c (m ||| 128)), true) := by
  have hw : canWrite false dm = true := by simp [canWrite, hdm]
  have one : ∀ (c : B) (m : Nat) (d : Option (Tree B)), (d = none ∨ ∃ c' m', d = some (.file c' m') ∧ m'.testBit 7 = true) →
      copyFunc false dm n (.file c m) d = (some (.file c (m ||| 128)), true) := by
    intro c m d hd
    rcases hd with rfl | ⟨c', m', rfl, hm⟩
    · simp [copyFunc, copy2, write, hw, Tree.chmod]
    · have : canWrite false m' = true := by simp [canWrite, hm]
      simp [copyFunc, copy2, write, this, Tree.chmod]
  have hgone : ∀ (gone : Bool) (d : Option (Tree B)), (d = none ∨ ∃ c' m', d = some (.file c' m') ∧ m'.testBit 7 = true) →
      ((if gone then none else d) = none ∨ ∃ c' m', (if gone then none else d) = some (.file c' m') ∧ m'.testBit 7 = true) := by
    intro gone d h
    cases gone
    · exact h
    · exact .inl rfl
  induction vs generalizing d with
  | nil =>
    simp only [List.nil_append, installAll, one c m _ (hgone gone d hd), if_true]
  | cons v vs ih =>
    obtain ⟨c1, m1, g1⟩ := v
    simp only [List.cons_append, installAll, one c1 m1 _ (hgone g1 d hd), if_true]
    refine ih _ (.inr ⟨c1, m1 ||| 128, rfl, ?_⟩)
    have : Nat.testBit 128 7 = true := by decide
    rw [Nat.testBit_or, this, Bool.or_true]

end Verif.Install
