import Verif.Scan.ImplicitCacheProps

/-!
# `--implicit-cache` (C80): an example, and where the cache is wrong
-/

namespace Verif.ImplicitCache.Ex

open Verif.Sig Verif.Scan

/-- A file: the files it includes, and the rest of it. -/
abbrev Text := List Nat × Nat

def M : Hash Text Text := ⟨id, ([], 0), fun _ => 0⟩

/-- A scanner that finds what is included. -/
def scanner (look : Files Nat Text → Nat → List Nat) (fs : Files Nat Text) : Env Nat Unit where
  sel s _ := some s
  envSc _ := some ()
  found v _ := (((fs v).getD M.nofile).1).flatMap (look fs)
  recurse _ l := l

/-- Target 10 is made from source 0. -/
def cfg : Cfg Nat Unit Text Text where
  targets := [10]
  sources := [0]
  depends := fun _ => []
  ignore := fun _ => []
  actsig := ([], 7)
  srcScanner := some ()
  tgtScanner := none
  own := [99]
  env := scanner fun _ v => [v]
  make := fun fs _ => ([], (((fs 0).getD M.nofile).2 + ((fs 1).getD M.nofile).2))

def empty : St Nat Text Text := ⟨fun _ => none, fun _ => none⟩

def put (v : Nat) (t : Text) (fs : Files Nat Text) : Files Nat Text := fun x => if x = v then some t else fs x

def cached : Flags := ⟨true, false, false⟩

/-- Source 0 includes header 1; then header 1 includes header 2; header 2 is changed; nothing is changed; source 0 includes nothing any more. -/
def hist : List (Session Nat Unit Text Text) :=
  [⟨fun fs => put 0 ([1], 3) (put 1 ([], 4) fs), cfg, 10, cached⟩,
   ⟨put 1 ([2], 4), cfg, 10, cached⟩,
   ⟨put 2 ([], 5), { cfg with make := fun _ _ => ([], 1) }, 10, cached⟩,
   ⟨id, cfg, 10, cached⟩,
   ⟨put 0 ([], 3), cfg, 10, ⟨true, true, false⟩⟩]

/-- The answers of the runs. -/
def answers (hs : List (Session Nat Unit Text Text)) : Option (List Bool) := (history M 9 hs empty).map (·.2)

theorem nonvacuous : answers hist = some [true, true, true, false, true] ∧
    ((history M 9 hist empty).bind fun r => r.1.db 10).map (·.bimplicit) = some [99] := by
  constructor <;> decide +kernel

theorem stable (a b : Cfg Nat Unit Text Text × Files Nat Text) (mk mk' : Files Nat Text → Nat → Text) (fs fs' : Files Nat Text)
    (ha : a = ({ cfg with make := mk }, fs)) (hb : b = ({ cfg with make := mk' }, fs')) (ht : ((fs' 10).getD M.nofile).1 = [])
    (ht' : ((fs 10).getD M.nofile).1 = []) : Stable M a b := by
  subst ha hb
  refine ⟨rfl, rfl, rfl, rfl, rfl, rfl, rfl, rfl, rfl, rfl, ?_⟩
  intro v sc h
  simp only [cfg, scanner, List.mem_singleton] at h ⊢
  rcases h with h | h | ⟨t, -, h⟩
  · rw [h]
  · subst h; rw [ht, ht']
  · cases h

theorem sane (mk : Files Nat Text → Nat → Text) : Sane { cfg with make := mk } where
  nodup := by simp [cfg]
  ignore := by intro t _ t' _; rfl
  depends := by intro t _ x hx; cases hx
  recurse := by intro fs sc l x hx; exact hx

/-- All runs of the example are as without the option. -/
theorem applied : history M 9 hist empty = history M 9 (hist.map Session.without) empty := by
  refine C80_implicit_cache_partial (fun x y h => h) 9 hist empty ?_ (fun _ => rfl) ?_
  · intro h hh
    simp only [hist, List.mem_cons, List.not_mem_nil, or_false] at hh
    rcases hh with rfl | rfl | rfl | rfl | rfl <;> exact ⟨rfl, sane _, by simp [cfg]⟩
  · have key : ∀ e ∈ met M 9 (hist.map Session.without) empty, ∃ mk fs, e = ({ cfg with make := mk }, fs) ∧ ((fs 10).getD M.nofile).1 = [] := by
      have h1 : ∀ (hs : List (Session Nat Unit Text Text)) (s : St Nat Text Text),
          (∀ h ∈ hs, (∃ mk, h.cfg = { cfg with make := mk } ∧ ∀ fs v, (mk fs v).1 = []) ∧ ∀ fs, h.edit fs 10 = fs 10) →
          ((s.fs 10).getD M.nofile).1 = [] →
          ∀ e ∈ met M 9 hs s, ∃ mk fs, e = ({ cfg with make := mk }, fs) ∧ ((fs 10).getD M.nofile).1 = [] := by
        intro hs
        induction hs with
        | nil => intro s _ _ e he; cases he
        | cons h hs ih =>
          intro s hok h10 e he
          obtain ⟨⟨mk, hmk, hmk1⟩, hed⟩ := hok h List.mem_cons_self
          unfold met at he
          rcases List.mem_cons.1 he with rfl | he
          · exact ⟨mk, h.edit s.fs, by rw [hmk], by rw [hed]; exact h10⟩
          · revert he
            generalize hr : run M 9 h.flags h.cfg h.first { s with fs := h.edit s.fs } = r
            intro he
            cases r with
            | none => cases he
            | some p =>
              obtain ⟨s', b⟩ := p
              refine ih s' (fun x hx => hok x (List.mem_cons_of_mem _ hx)) ?_ e he
              unfold run at hr
              split at hr
              · cases hr
              · cases hr
                dsimp only
                split
                · rw [hed]; exact h10
                · rw [hmk]; simp [cfg, hmk1]
      refine h1 _ _ ?_ rfl
      intro h hh
      simp only [hist, List.map_cons, List.map_nil, List.mem_cons, List.not_mem_nil, or_false, Session.without] at hh
      rcases hh with rfl | rfl | rfl | rfl | rfl
      · exact ⟨⟨_, rfl, fun _ _ => rfl⟩, fun fs => by simp [put]⟩
      · exact ⟨⟨_, rfl, fun _ _ => rfl⟩, fun fs => by simp [put]⟩
      · exact ⟨⟨_, rfl, fun _ _ => rfl⟩, fun fs => by simp [put]⟩
      · exact ⟨⟨_, rfl, fun _ _ => rfl⟩, fun fs => rfl⟩
      · exact ⟨⟨_, rfl, fun _ _ => rfl⟩, fun fs => by simp [put]⟩
    refine (List.pairwise_of_forall_mem_list (l := met M 9 (hist.map Session.without) empty) (r := Stable M) ?_)
    intro a ha b hb
    obtain ⟨mk, fs, e, h⟩ := key a ha
    obtain ⟨mk', fs', e', h'⟩ := key b hb
    exact stable a b mk mk' fs fs' e e' h' h

/-! ### Where the cache is wrong -/

/-- A new header that hides the one found before (2 is looked for before 1) is not noticed. -/
theorem hidden_header :
    let c := { cfg with env := scanner fun fs v => if v = 1 ∧ (fs 2).isSome then [2] else [v] }
    let hs := [⟨fun fs => put 0 ([1], 3) (put 1 ([], 4) fs), c, 10, cached⟩, ⟨put 2 ([], 5), c, 10, cached⟩]
    answers hs = some [true, false] ∧ answers (hs.map Session.without) = some [true, true] := by
  constructor <;> decide +kernel

/-- `Ignore(10, 1)` is removed from the script: the header is not made a dependency again, its changes are not noticed. -/
theorem ignore_removed :
    let c := { cfg with ignore := fun _ => [1] }
    let hs := [⟨fun fs => put 0 ([1], 3) (put 1 ([], 4) fs), c, 10, cached⟩, ⟨id, cfg, 10, cached⟩, ⟨put 1 ([], 5), cfg, 10, cached⟩]
    answers hs = some [true, false, false] ∧ answers (hs.map Session.without) = some [true, true, true] := by
  constructor <;> decide +kernel

/-- An ignored header that comes to include another file: that file is not made a dependency. -/
theorem ignored_header_changed :
    let c := { cfg with ignore := fun _ => [1] }
    let hs := [⟨fun fs => put 0 ([1], 3) (put 1 ([], 4) fs), c, 10, cached⟩, ⟨put 1 ([2], 4), c, 10, cached⟩, ⟨put 2 ([], 5), c, 10, cached⟩]
    answers hs = some [true, false, false] ∧ answers (hs.map Session.without) = some [true, true, true] := by
  constructor <;> decide +kernel

/-- A command with the targets 10 and 11 of which only 10 ignores header 1: 11 gets the list of 10.  The second run builds without a reason, the third does not
notice that the header has changed. -/
theorem ignored_by_one_target :
    let c := { cfg with targets := [10, 11], ignore := fun t => if t = 10 then [1] else [] }
    let hs := [⟨fun fs => put 0 ([1], 3) (put 1 ([], 4) fs), c, 10, cached⟩, ⟨id, c, 10, cached⟩, ⟨put 1 ([], 5), c, 10, cached⟩]
    answers hs = some [true, true, false] ∧ answers (hs.map Session.without) = some [true, false, true] := by
  constructor <;> decide +kernel

/-- A file that was `Depends()` becomes a source: what it includes is not made a dependency. -/
theorem depends_to_source :
    let c := { cfg with depends := fun _ => [3] }
    let c' := { cfg with sources := [0, 3] }
    let hs := [⟨fun fs => put 0 ([], 3) (put 1 ([], 4) (put 3 ([1], 0) fs)), c, 10, cached⟩, ⟨id, c', 10, cached⟩, ⟨put 1 ([], 5), c', 10, cached⟩]
    answers hs = some [true, false, false] ∧ answers (hs.map Session.without) = some [true, true, true] := by
  constructor <;> decide +kernel

/-- `--implicit-deps-unchanged`: the source is changed to include another header; it is built, but the header is not made a dependency. -/
theorem deps_unchanged :
    let f : Flags := ⟨true, false, true⟩
    let hs := [⟨fun fs => put 0 ([1], 3) (put 1 ([], 4) fs), cfg, 10, f⟩, ⟨put 0 ([1, 2], 3), cfg, 10, f⟩, ⟨put 2 ([], 5), cfg, 10, f⟩]
    answers hs = some [true, true, false] ∧ answers (hs.map Session.without) = some [true, true, true] := by
  constructor <;> decide +kernel

/-- The children of a target whose source no longer includes anything are still those of the cached list if the command runs no program that is a
node: the header of the old list counts as a dependency (it would be built) in this run. -/
theorem old_header_still_a_child :
    let c := { cfg with own := [] }
    let s1 := (history M 9 [⟨fun fs => put 0 ([1], 3) (put 1 ([], 4) fs), c, 10, cached⟩] empty).map (·.1)
    (s1.bind fun s => (scan M cached c { s with fs := put 0 ([], 3) s.fs } 9 Nodes.new 10).map fun N => (N.implicit 10, children c N 10)) =
      some (some [], [0, 1]) := by
  decide +kernel

end Verif.ImplicitCache.Ex
