import Verif.Sig.Props

/-!
# C20 over histories: is the stored (time stamp, signature) pair of a file truthful?

The stored entry of a file is updated after each run by *merging* the attributes that are set in the node's `ninfo` into the old entry.
-/

namespace Verif.Sig

variable {V B K : Type} [DecidableEq V] [DecidableEq K]

/-- `NodeInfoBase.merge`, `Node/__init__.py:367-375` with `__getstate__`/`__setstate__` `:419-450`: attributes that are set in `new` replace
those of `old`, the others are kept. -/
def NInfo.merge (old new : NInfo K) : NInfo K :=
  { csig := new.csig.or old.csig, timestamp := new.timestamp.or old.timestamp, size := new.size.or old.size }

/-- `File.visited`, `FS.py:3031-3051`, for a source file: reuse the stored signature if the drift rule allows, take time stamp and size from
the disk. -/
def World.visited (W : World V B K) (I : Infos V K) (v : V) : Infos V K :=
  fun x => if x = v then
    { csig := (W.driftCsig v).or (I v).csig, timestamp := some (W.timestamp v), size := some (W.getSize v) } else I x

/-- Set the stored node info of one file. -/
def World.setStored (W : World V B K) (v : V) (n : NInfo K) : World V B K :=
  { W with stored := fun x => if x = v then { W.stored x with ninfo := n } else W.stored x }

/-- What happens to one file. -/
inductive Ev (V B : Type)
  /-- the user replaces the content; the file gets modification time `t` -/
  | edit (v : V) (b : B) (t : Int)
  /-- a run of SCons at time `now` visits `v` as a source (`make_ready_current` → `visited()`), asks a content-looking decider about it
  (`hashed = true`) or not, and at the end writes the signature file (`SConsign.Base.merge`, `SConsign.py:223-237`) -/
  | run (v : V) (hashed : Bool) (now : Int)

/-- Effect of an event. -/
def World.ev (W : World V B K) : Ev V B → World V B K
  | .edit v b t => { W with content := fun x => if x = v then some b else W.content x, mtime := fun x => if x = v then t else W.mtime x }
  | .run v hashed now =>
    let W := { W with now := now }
    let I := W.visited (fun _ => {}) v
    let I := if hashed then (W.getCsig I v).2 else I
    W.setStored v ((W.stored v).ninfo.merge (I v))

/-- Every edit gives the file a later, positive modification time. -/
def Ev.ticks (W : World V B K) : Ev V B → Prop
  | .edit v _ t => W.mtime v < t ∧ 0 < t
  | .run v _ _ => (W.content v).isSome

/-- The run asks a content-looking decider about the file. -/
def Ev.hashes : Ev V B → Prop
  | .edit _ _ _ => True
  | .run _ h _ => h = true

/-- Histories. -/
inductive Hist (P : World V B K → Ev V B → Prop) : World V B K → World V B K → Prop
  | nil (W) : Hist P W W
  | snoc {W W1 : World V B K} (e : Ev V B) : Hist P W W1 → P W1 e → Hist P W (W1.ev e)

/-- Nothing recorded yet, no file older than the epoch. -/
def World.Fresh (W : World V B K) : Prop := (∀ v, (W.stored v).ninfo = {}) ∧ ∀ v, 0 ≤ W.mtime v

/-- Stored pairs are truthful, and no stored time stamp is later than the file's. -/
structure Truthful (W : World V B K) : Prop where
  stamp : ∀ v t, (W.stored v).ninfo.timestamp = some t → t ≤ W.mtime v ∧ (W.content v).isSome
  csig : ∀ v k, (W.stored v).ninfo.csig = some k → (W.stored v).ninfo.timestamp = some (W.mtime v) → k = W.diskCsig v
  pos : ∀ v, 0 ≤ W.mtime v

theorem Truthful.drift {W : World V B K} (h : Truthful W) (h0 : W.maxDrift ≠ 0) : DriftOK W := by
  refine driftOK_of_truthful h0 fun v n k e1 e2 e3 => ?_
  simp only [Option.some.injEq] at e1
  subst e1
  have := (h.stamp v _ e2).2
  simp only [World.timestamp, this, if_true] at e2
  exact h.csig v k e3 e2

theorem Truthful.ev {W : World V B K} (h : Truthful W) (h0 : W.maxDrift ≠ 0) {e : Ev V B} (ht : e.ticks W) (hh : e.hashes) :
    Truthful (W.ev e) ∧ (W.ev e).maxDrift ≠ 0 := by
  cases e with
  | edit v b t =>
    refine ⟨⟨?_, ?_, ?_⟩, h0⟩
    · intro x s hs
      have := h.stamp x s hs
      simp only [World.ev]
      split
      · rename_i e; subst e
        have := ht.1; exact ⟨by omega, rfl⟩
      · exact this
    · intro x k hk hs
      simp only [World.ev, World.diskCsig] at hk hs ⊢
      split at hs
      · rename_i e; subst e
        have h1 := ht.1; have h2 := (h.stamp x t hs).1; omega
      · rename_i e; simp only [e, if_false]; exact h.csig x k hk hs
    · intro x
      simp only [World.ev]
      split
      · have := ht.2; omega
      · exact h.pos x
  | run v hashed now =>
    cases hh
    have hW : Truthful { W with now := now } := ⟨h.stamp, h.csig, h.pos⟩
    have hD : DriftOK { W with now := now } := hW.drift h0
    simp only [Ev.ticks] at ht
    -- the infos of this run
    generalize hI : (World.visited { W with now := now } (fun _ => {}) v) = I
    have hIv : I v = { csig := World.driftCsig { W with now := now } v, timestamp := some (W.mtime v), size := some (W.getSize v) } := by
      rw [← hI]
      simp [World.visited, World.timestamp, ht, World.getSize]
    have hIok : ∀ k, (I v).csig = some k → k = W.diskCsig v := by
      intro k hk; rw [hIv] at hk; exact hD v k hk
    have hcs : ∃ k, (({ W with now := now } : World V B K).getCsig I v).2 v = { I v with csig := some k } ∧ k = W.diskCsig v := by
      unfold World.getCsig
      split
      · rename_i k hk; refine ⟨k, ?_, hIok k hk⟩; show I v = _; cases hIe : I v; rw [hIe] at hk; simp only at hk; simp [hk]
      · rename_i hk
        refine ⟨_, (by simp only [setCsig, if_true]; rfl), ?_⟩
        rw [hIv] at hk
        simp only at hk
        rw [hk]; rfl
    obtain ⟨k, hk1, hk2⟩ := hcs
    have hst : (W.ev (.run v true now)).stored v = { W.stored v with ninfo := { csig := some k, timestamp := some (W.mtime v), size := some (W.getSize v) } } := by
      simp only [World.ev, World.setStored, if_true, hI, hk1, hIv, NInfo.merge, Option.or_some]
      simp
    have hso : ∀ x, x ≠ v → (W.ev (.run v true now)).stored x = W.stored x := by
      intro x hx; simp [World.ev, World.setStored, hx]
    have hc : (W.ev (.run v true now)).content = W.content := rfl
    have hm : (W.ev (.run v true now)).mtime = W.mtime := rfl
    have hdk : ∀ x, (W.ev (.run v true now)).diskCsig x = W.diskCsig x := fun _ => rfl
    refine ⟨⟨?_, ?_, ?_⟩, h0⟩
    · intro x s hs
      rw [hc, hm]
      by_cases hx : x = v
      · subst hx
        rw [hst] at hs
        simp only [Option.some.injEq] at hs
        exact ⟨by omega, ht⟩
      · rw [hso x hx] at hs; exact h.stamp x s hs
    · intro x k' hk' hs
      rw [hdk]
      by_cases hx : x = v
      · subst hx
        rw [hst] at hk'
        simp only [Option.some.injEq] at hk'
        rw [← hk', hk2]
      · rw [hso x hx] at hk' hs; exact h.csig x k' hk' hs
    · rw [hm]; exact h.pos

/-- **C20 over histories, partial.**  If every run that visits a file also hashes it, then, starting from an empty signature file and with edits that
advance modification times, the signature `get_csig()` uses is always that of the current content.  The hypothesis `hashes` is needed:
`C20_counterexample_visit_without_hash`. -/
theorem C20_history_partial {W0 W : World V B K} (h0 : W0.Fresh) (hd : W0.maxDrift ≠ 0)
    (h : Hist (fun W e => e.ticks W ∧ e.hashes) W0 W) {I : Infos V K} (hI : InfosOK W I) (v : V) :
    (W.getCsig I v).1 = W.diskCsig v := by
  have hT : Truthful W ∧ W.maxDrift ≠ 0 := by
    clear hI
    induction h with
    | nil => exact ⟨⟨(by intro v t ht; rw [h0.1 v] at ht; simp at ht), (by intro v k hk; rw [h0.1 v] at hk; simp at hk), h0.2⟩, hd⟩
    | snoc e _ hP ih =>
      obtain ⟨g1, g2⟩ := ih
      exact g1.ev g2 hP.1 hP.2
  exact (getCsig_spec hI (hT.1.drift hT.2) v).1

/-! ### The counterexample

Node 0 is a source, node 1 the target built from it; contents are numbers, the hash is the identity, `--max-drift` is 10. -/

/-- Nothing recorded, source content 5 with time stamp 100, target does not exist. -/
def exW0 : World (Fin 2) Nat Nat where
  content := fun v => if v = 0 then some 5 else none
  mtime := fun v => if v = 0 then 100 else 0
  now := 100
  maxDrift := 10
  stored := fun _ => {}
  hash := id
  nofile := 0
  size := fun _ => 1

/-- The target: source 0, action signature 77. -/
def exT : Target (Fin 2) Nat := { sources := [0], depends := [], implicit := [], ignore := [], hasBuilder := true, actsig := 77 }

/-- First build, with content hashing; the target (content 50) is built and recorded. -/
def exW1 : World (Fin 2) Nat Nat :=
  let W := (exW0.ev (.run 0 true 101)).ev (.edit 1 50 101)
  { W with stored := fun x => if x = 1 then { W.stored 1 with binfo := exT.binfo (fun c => W.freshInfo c (some (W.diskCsig c))) } else W.stored x }

/-- The user edits the source; then a run visits it without asking a decider (`scons src`, an order-only prerequisite, …); much later, a build. -/
def exW2 : World (Fin 2) Nat Nat :=
  let W := (exW1.ev (.edit 0 6 200)).ev (.run 0 false 201)
  { W with now := 1000 }

/-- **Finding.**  A source file visited by a run that does not compute its content signature gets its *new* time stamp stored next to its *old*
signature, because the stored info is merged attribute by attribute.  Once the file is older than `--max-drift`, `get_csig()` returns the
stale signature, and the target is declared up to date although its source has changed. -/
theorem C20_counterexample_visit_without_hash :
    Hist (fun W e => e.ticks W) exW1 { exW2 with now := 201 } ∧
      RecordedBy exW1 exT (exW2.stored 1).binfo ∧
      exW2.content 0 = some 6 ∧ exW1.content 0 = some 5 ∧
      (exW2.getCsig (fun _ => {}) 0).1 = exW2.hash 5 ∧
      (exW2.isUpToDate .content 1 exT (fun _ => {})).1 = true := by
  refine ⟨?_, ?_, ?_, ?_, ?_, ?_⟩
  · have h1 : Hist (fun W e => e.ticks W) exW1 (exW1.ev (.edit 0 6 200)) := .snoc _ (.nil _) ⟨by decide, by decide⟩
    exact .snoc (.run 0 false 201) h1 rfl
  · rfl
  · rfl
  · rfl
  · decide
  · decide

/-- The same history with a hashing run in place of the careless one does trigger the rebuild. -/
example : ((({ (exW1.ev (.edit 0 6 200)).ev (.run 0 true 201) with now := 1000 } : World (Fin 2) Nat Nat)).isUpToDate .content 1 exT (fun _ => {})).1
    = false := by decide

/-- Non-vacuity of `C20_history_partial`: a history with an edit between two hashing runs, after which the stored signature *is* reused. -/
example : exW0.Fresh ∧ Hist (fun W e => e.ticks W ∧ e.hashes) exW0 (((exW0.ev (.run 0 true 101)).ev (.edit 0 6 200)).ev (.run 0 true 5000)) ∧
    (((exW0.ev (.run 0 true 101)).ev (.edit 0 6 200)).ev (.run 0 true 5000)).driftCsig 0 = some 6 := by
  refine ⟨⟨fun _ => rfl, by decide⟩, ?_, by decide⟩
  exact .snoc _ (.snoc _ (.snoc _ (.nil _) ⟨rfl, rfl⟩) ⟨⟨by decide, by decide⟩, trivial⟩) ⟨rfl, rfl⟩

end Verif.Sig
