/-!
# Model of task execution with a cache: `Task.execute` (`Taskmaster/__init__.py:216-263`), `File.retrieve_from_cache`, `File.push_to_cache`,
`File.visited` (`FS.py:3001-3034`), `CacheDir.retrieve`, `push`, `push_if_forced`, `CacheRetrieveFunc`, `CachePushFunc` (`CacheDir.py`)

One process; sequential (concurrent use of the cache is in `Share.lean`).  `T` = targets, `K` = cache keys, `B` = contents.
-/

namespace Verif.Cache.Exec

/-- The options: `--cache-disable` (negated), `CacheDir()` given a path, `--cache-readonly`, `--cache-force`, `--cache-show`, `-n`. -/
structure Flags where
  enabled : Bool := true
  hasPath : Bool := true
  readonly : Bool := false
  force : Bool := false
  «show» : Bool := false
  noExec : Bool := false

/-- `CacheDir.is_enabled`, `CacheDir.py:351-352`. -/
def Flags.isEnabled (f : Flags) : Bool := f.enabled && f.hasPath

variable {T K B : Type} [DecidableEq T] [DecidableEq K]

/-- What happens in the run, in order. -/
inductive Ev (T : Type)
  /-- the action of the task was run (or shown, with `-n`) -/
  | build
  /-- a target was copied from the cache -/
  | fetched (t : T)
  deriving DecidableEq

/-- Files of the build tree, files of the cache, log. -/
structure W (T K B : Type) where
  files : T → Option B
  cache : K → Option B
  log : List (Ev T)

def upd {A C : Type} [DecidableEq A] (f : A → C) (a : A) (c : C) : A → C := fun x => if x = a then c else f x

/-- Static facts about targets, and outcomes of file system calls that may fail: `copyFails t = some junk` when copying from the cache raises, leaving `junk`;
`unlinkFails`, `pushFails`. -/
structure Env (T K B : Type) where
  key : T → K
  nocache : T → Bool
  derived : T → Bool
  copyFails : T → Option (Option B)
  unlinkFails : T → Bool
  pushFails : T → Bool
  /-- the action: what it does to the build tree; does it succeed? -/
  action : (T → Option B) → (T → Option B)
  ok : (T → Option B) → Bool

/-- `File.retrieve_from_cache` (`FS.py:3016-3029`), `CacheDir.retrieve` (`CacheDir.py:379-421`), `CacheRetrieveFunc` (`CacheDir.py:53-75`).
With `--cache-show` the same function is run by an action that does not print, then `node.build(presub=0, execute=0)` prints the command line and executes nothing. -/
def retrieve (E : Env T K B) (f : Flags) (w : W T K B) (t : T) : Bool × W T K B :=
  if E.nocache t then (false, w)
  else if !E.derived t then (false, w)
  else if !f.isEnabled then (false, w)
  else match w.cache (E.key t) with
    | none => (false, w)
    | some b =>
      if f.noExec then (true, w)
      else match E.copyFails t with
        | some junk => (false, { w with files := upd w.files t junk })
        | none =>
          let w' : W T K B := { w with files := upd w.files t (some b), log := w.log ++ [.fetched t] }
          if f.show then (true, w') else (true, w')

/-- The loop of lines 229-233: stop at the first miss. -/
def retrieveAll (E : Env T K B) (f : Flags) : List T → W T K B → List T × W T K B
  | [], w => ([], w)
  | t :: ts, w =>
    match retrieve E f w t with
    | (false, w') => ([], w')
    | (true, w') => let (c, w'') := retrieveAll E f ts w'; (t :: c, w'')

/-- Lines 240-245: `t.fs.unlink(…)`, errors ignored (with a warning).  NB not through an action, so also with `-n`. -/
def unlinkAll (E : Env T K B) (ts : List T) (w : W T K B) : W T K B :=
  ts.foldl (fun w t => if E.unlinkFails t then w else { w with files := upd w.files t none }) w

/-- `self.targets[0].build()`: with `-n` the command is shown only. -/
def build (E : Env T K B) (f : Flags) (w : W T K B) : Bool × W T K B :=
  if f.noExec then (true, { w with log := w.log ++ [.build] })
  else (E.ok w.files, { w with files := E.action w.files, log := w.log ++ [.build] })

/-- `File.push_to_cache` (`FS.py:3001-3014`), `CacheDir.push` (`CacheDir.py:423-426`), `CachePushFunc` (`CacheDir.py:78-123`). -/
def push (E : Env T K B) (f : Flags) (w : W T K B) (t : T) : W T K B :=
  if E.nocache t then w
  else match w.files t with
    | none => w
    | some b =>
      if f.readonly || !f.isEnabled then w
      else if f.noExec then w
      else match w.cache (E.key t) with
        | some _ => w
        | none => if E.pushFails t then w else { w with cache := upd w.cache (E.key t) (some b) }

/-- `File.visited`, first lines (`FS.py:3031-3033`), and `push_if_forced` (`CacheDir.py:428-430`); `hasExec`: `self.executor is not None`. -/
def visited (E : Env T K B) (f : Flags) (hasExec : Bool) (w : W T K B) (t : T) : W T K B :=
  if (w.files t).isSome && hasExec then
    if f.force then
      -- `CacheDir.push` directly, not `push_to_cache`; `CachePushFunc` checks `nocache` itself
      push E f w t
    else w
  else w

/-- How a task ended. -/
inductive Outcome | retrieved | built | failed
  deriving DecidableEq

/-- `Task.execute`. -/
def execute (E : Env T K B) (f : Flags) (targets : List T) (w : W T K B) : Outcome × W T K B :=
  let (cached, w1) := retrieveAll E f targets w
  if cached.length < targets.length then
    let w2 := unlinkAll E cached w1
    match build E f w2 with
    | (false, w3) => (.failed, w3)
    | (true, w3) => (.built, targets.foldl (push E f) w3)
  else (.retrieved, w1)

/-! ## Specification -/

/-- `t` can be had from the cache. -/
def Available (E : Env T K B) (f : Flags) (w : W T K B) (t : T) : Prop :=
  f.enabled = true ∧ f.hasPath = true ∧ E.nocache t = false ∧ E.derived t = true ∧ (∃ b, w.cache (E.key t) = some b) ∧
    (f.noExec = true ∨ E.copyFails t = none)

theorem retrieve_cache (E : Env T K B) (f : Flags) (w : W T K B) (t : T) : (retrieve E f w t).2.cache = w.cache := by
  unfold retrieve; grind

theorem retrieve_iff (E : Env T K B) (f : Flags) (w : W T K B) (t : T) : (retrieve E f w t).1 = true ↔ Available E f w t := by
  unfold retrieve Available Flags.isEnabled
  cases h : w.cache (E.key t) <;> cases h2 : E.copyFails t <;> cases E.nocache t <;> cases E.derived t <;> cases f.enabled <;> cases f.hasPath <;>
    cases f.noExec <;> simp

/-- After a successful retrieval without `-n`. -/
theorem retrieve_hit (E : Env T K B) (f : Flags) (w : W T K B) (t : T) (hn : f.noExec = false) (h : (retrieve E f w t).1 = true) :
    (retrieve E f w t).2 = { w with files := upd w.files t (w.cache (E.key t)), log := w.log ++ [.fetched t] } := by
  have ha := (retrieve_iff E f w t).1 h
  obtain ⟨a, b, c, d, ⟨x, e⟩, g⟩ := ha
  have g : E.copyFails t = none := by simpa [hn] using g
  unfold retrieve
  simp [Flags.isEnabled, a, b, c, d, e, g, hn]

/-- A failed retrieval changes at most the target itself. -/
theorem retrieve_miss (E : Env T K B) (f : Flags) (w : W T K B) (t : T) (h : (retrieve E f w t).1 = false) :
    (retrieve E f w t).2.log = w.log ∧ (∀ x, x ≠ t → (retrieve E f w t).2.files x = w.files x) := by
  revert h
  unfold retrieve upd
  grind

theorem retrieve_noExec (E : Env T K B) (f : Flags) (w : W T K B) (t : T) (hn : f.noExec = true) : (retrieve E f w t).2 = w := by
  unfold retrieve; grind

theorem Available.of_cache {E : Env T K B} {f : Flags} {w w' : W T K B} (h : w'.cache = w.cache) {t : T} : Available E f w' t ↔ Available E f w t := by
  simp [Available, h]

theorem retrieveAll_cache (E : Env T K B) (f : Flags) (ts : List T) (w : W T K B) : (retrieveAll E f ts w).2.cache = w.cache := by
  induction ts generalizing w with
  | nil => rfl
  | cons t ts ih =>
    have := retrieve_cache E f w t
    unfold retrieveAll
    split
    · rename_i w' e; rw [e] at this; exact this
    · rename_i w' e; rw [e] at this; simp [ih, ← this]

/-- What the loop retrieves: the longest prefix of available targets. -/
theorem retrieveAll_prefix (E : Env T K B) (f : Flags) (ts : List T) (w : W T K B) :
    (retrieveAll E f ts w).1 <+: ts ∧ (∀ t ∈ (retrieveAll E f ts w).1, Available E f w t) ∧
    ((retrieveAll E f ts w).1.length < ts.length → ∃ t ∈ ts, ¬ Available E f w t) := by
  induction ts generalizing w with
  | nil => simp [retrieveAll]
  | cons t ts ih =>
    have hc := retrieve_cache E f w t
    have hi := retrieve_iff E f w t
    unfold retrieveAll
    split
    · rename_i w' e
      rw [e] at hi
      refine ⟨by simp, by simp, fun _ => ⟨t, by simp, fun h => ?_⟩⟩
      simpa using hi.2 h
    · rename_i w' e
      rw [e] at hi hc
      obtain ⟨h1, h2, h3⟩ := ih w'
      refine ⟨by simpa using h1, ?_, ?_⟩
      · intro x hx
        rcases List.mem_cons.1 hx with rfl | hx
        · exact hi.1 rfl
        · exact (Available.of_cache hc).1 (h2 x hx)
      · intro hl
        obtain ⟨x, hx, hna⟩ := h3 (by simpa using hl)
        exact ⟨x, by simp [hx], fun h => hna ((Available.of_cache hc).2 h)⟩

theorem retrieveAll_all (E : Env T K B) (f : Flags) (ts : List T) (w : W T K B) (hn : f.noExec = false)
    (h : (retrieveAll E f ts w).1.length = ts.length) :
    (∀ t ∈ ts, (retrieveAll E f ts w).2.files t = w.cache (E.key t)) ∧ (∀ x, x ∉ ts → (retrieveAll E f ts w).2.files x = w.files x) ∧
    (retrieveAll E f ts w).2.log = w.log ++ ts.map .fetched := by
  induction ts generalizing w with
  | nil => simp [retrieveAll]
  | cons t ts ih =>
    have hc := retrieve_cache E f w t
    have hh := retrieve_hit E f w t hn
    unfold retrieveAll at h ⊢
    revert h
    split
    · intro h; simp at h
    · rename_i w' e
      intro h
      rw [e] at hh hc
      obtain ⟨h1, h2, h3⟩ := ih w' (by simpa using h)
      have hw := hh rfl
      subst hw
      simp only at h1 h2 h3 ⊢
      refine ⟨?_, ?_, by simp [h3]⟩
      · intro x hx
        by_cases hxt : x ∈ ts
        · exact h1 x hxt
        · have : x = t := by simpa [hxt] using hx
          subst this
          rw [h2 x hxt]; simp [upd]
      · intro x hx
        have : x ≠ t ∧ x ∉ ts := by simpa using hx
        rw [h2 x this.2]; simp [upd, this.1]

theorem retrieveAll_other (E : Env T K B) (f : Flags) (ts : List T) (w : W T K B) :
    (∀ x, x ∉ ts → (retrieveAll E f ts w).2.files x = w.files x) ∧ Ev.build ∉ (retrieveAll E f ts w).2.log.drop w.log.length ∧
    w.log <+: (retrieveAll E f ts w).2.log := by
  induction ts generalizing w with
  | nil => simp [retrieveAll]
  | cons t ts ih =>
    have hm := retrieve_miss E f w t
    have hh := retrieve_hit E f w t
    have hne := retrieve_noExec E f w t
    unfold retrieveAll
    split
    · rename_i w' e
      rw [e] at hm
      obtain ⟨h1, h2⟩ := hm rfl
      exact ⟨fun x hx => h2 x (by simp at hx; exact hx.1), by simp at h1; simp [h1], by simp at h1; simp [h1]⟩
    · rename_i w' e
      rw [e] at hh hne
      obtain ⟨h1, h2, h3⟩ := ih w'
      cases hn : f.noExec with
      | true =>
        have := hne hn
        simp only at this
        subst this
        exact ⟨fun x hx => h1 x (by simp at hx; exact hx.2), h2, h3⟩
      | false =>
        have := hh hn rfl
        simp only at this
        subst this
        simp only at h1 h2 h3 ⊢
        obtain ⟨l, hl⟩ := h3
        refine ⟨?_, ?_, ?_⟩
        · intro x hx
          have : x ≠ t ∧ x ∉ ts := by simpa using hx
          rw [h1 x this.2]; simp [upd, this.1]
        · rw [← hl] at h2 ⊢
          simp only [List.drop_left] at h2
          rw [List.append_assoc, List.drop_left]
          simpa using h2
        · rw [← hl, List.append_assoc]; exact List.prefix_append _ _

theorem unlinkAll_spec (E : Env T K B) (ts : List T) (w : W T K B) :
    (unlinkAll E ts w).cache = w.cache ∧ (unlinkAll E ts w).log = w.log ∧
    ∀ x, (unlinkAll E ts w).files x = if x ∈ ts ∧ E.unlinkFails x = false then none else w.files x := by
  induction ts generalizing w with
  | nil => simp [unlinkAll]
  | cons t ts ih =>
    have := ih (if E.unlinkFails t then w else { w with files := upd w.files t none })
    simp only [unlinkAll, List.foldl_cons] at this ⊢
    refine ⟨this.1.trans (by split <;> rfl), this.2.1.trans (by split <;> rfl), fun x => ?_⟩
    rw [this.2.2 x]
    cases hu : E.unlinkFails t <;> simp [upd] <;> grind

theorem push_spec (E : Env T K B) (f : Flags) (w : W T K B) (t : T) :
    (push E f w t).files = w.files ∧ (push E f w t).log = w.log ∧
    (∀ k, k ≠ E.key t → (push E f w t).cache k = w.cache k) ∧ (∀ k b, w.cache k = some b → (push E f w t).cache k = some b) ∧
    (f.readonly = true ∨ f.enabled = false ∨ f.hasPath = false ∨ f.noExec = true → (push E f w t).cache = w.cache) ∧
    (∀ k b, (push E f w t).cache k = some b → w.cache k = some b ∨ (k = E.key t ∧ w.files t = some b)) ∧
    (f.readonly = false → f.enabled = true → f.hasPath = true → f.noExec = false → E.nocache t = false → E.pushFails t = false → (w.files t).isSome →
      ((push E f w t).cache (E.key t)).isSome) := by
  have key : push E f w t = w ∨ ((f.readonly = false ∧ f.enabled = true ∧ f.hasPath = true ∧ f.noExec = false) ∧ w.cache (E.key t) = none ∧ ∃ b, w.files t = some b ∧
      push E f w t = { w with cache := upd w.cache (E.key t) (some b) }) := by
    unfold push Flags.isEnabled
    grind
  have last : f.readonly = false → f.enabled = true → f.hasPath = true → f.noExec = false → E.nocache t = false → E.pushFails t = false → (w.files t).isSome →
      ((push E f w t).cache (E.key t)).isSome := by
    intro a b c d e g h
    obtain ⟨y, hy⟩ := Option.isSome_iff_exists.1 h
    unfold push Flags.isEnabled
    cases hc : w.cache (E.key t) <;> simp [a, b, c, d, e, g, hy, hc, upd]
  refine ⟨?_, ?_, ?_, ?_, ?_, ?_, last⟩
  all_goals
    rcases key with key | ⟨⟨k1, k2, k3, k4⟩, k5, b, k6, key⟩
    · simp only [key] <;> grind
    · simp only [key, upd] <;> grind

theorem pushAll_spec (E : Env T K B) (f : Flags) (ts : List T) (w : W T K B) :
    (ts.foldl (push E f) w).files = w.files ∧ (ts.foldl (push E f) w).log = w.log ∧
    (∀ k, (∀ t ∈ ts, k ≠ E.key t) → (ts.foldl (push E f) w).cache k = w.cache k) ∧
    (∀ k b, w.cache k = some b → (ts.foldl (push E f) w).cache k = some b) ∧
    (f.readonly = true ∨ f.enabled = false ∨ f.hasPath = false ∨ f.noExec = true → (ts.foldl (push E f) w).cache = w.cache) ∧
    (∀ k b, (ts.foldl (push E f) w).cache k = some b → w.cache k = some b ∨ ∃ t ∈ ts, k = E.key t ∧ w.files t = some b) ∧
    (f.readonly = false → f.enabled = true → f.hasPath = true → f.noExec = false → ∀ t ∈ ts, E.nocache t = false → E.pushFails t = false → (w.files t).isSome →
      ((ts.foldl (push E f) w).cache (E.key t)).isSome) := by
  induction ts generalizing w with
  | nil => simp
  | cons t ts ih =>
    obtain ⟨p1, p2, p3, p4, p5, p6, p7⟩ := push_spec E f w t
    obtain ⟨i1, i2, i3, i4, i5, i6, i7⟩ := ih (push E f w t)
    rw [List.foldl_cons]
    refine ⟨i1.trans p1, i2.trans p2, ?_, ?_, ?_, ?_, ?_⟩
    · intro k hk; rw [i3 k (fun t ht => hk t (by simp [ht])), p3 k (hk t (by simp))]
    · intro k b h; exact i4 k b (p4 k b h)
    · intro h; rw [i5 h, p5 h]
    · intro k b h
      rcases i6 k b h with h | ⟨x, hx, h1, h2⟩
      · rcases p6 k b h with h | h
        · exact .inl h
        · exact .inr ⟨t, by simp, h⟩
      · exact .inr ⟨x, by simp [hx], h1, by rw [← p1]; exact h2⟩
    · intro a b c d x hx e g h
      rcases List.mem_cons.1 hx with rfl | hx
      · have := p7 a b c d e g h
        obtain ⟨y, hy⟩ := Option.isSome_iff_exists.1 this
        rw [i4 _ y hy]; rfl
      · exact i7 a b c d x hx e g (by rw [p1]; exact h)

/-- **C28** (all).  The task ends as "retrieved" exactly when every target is available; a build is never skipped when one of them is not. -/
theorem C28_retrieved_iff_all_available (E : Env T K B) (f : Flags) (targets : List T) (w : W T K B) :
    (execute E f targets w).1 = .retrieved ↔ ∀ t ∈ targets, Available E f w t := by
  obtain ⟨h1, h2, h3⟩ := retrieveAll_prefix E f targets w
  unfold execute
  by_cases hl : (retrieveAll E f targets w).1.length < targets.length
  · obtain ⟨t, ht, hna⟩ := h3 hl
    simp only [hl, if_true]
    constructor
    · intro h; split at h <;> simp at h
    · intro h; exact absurd (h t ht) hna
  · simp only [hl, if_false, true_iff]
    have := h1.eq_of_length_le (by omega)
    intro t ht
    exact h2 t (by rw [this]; exact ht)

/-- **C28** (retrieved).  Then each target file is the one in the cache, no other file changed, the cache is unchanged, and the action was not run. -/
theorem C28_retrieved_effects (E : Env T K B) (f : Flags) (targets : List T) (w : W T K B) (hn : f.noExec = false)
    (h : (execute E f targets w).1 = .retrieved) :
    let w' := (execute E f targets w).2
    (∀ t ∈ targets, w'.files t = w.cache (E.key t)) ∧ (∀ x, x ∉ targets → w'.files x = w.files x) ∧ w'.cache = w.cache ∧
    w'.log = w.log ++ targets.map .fetched := by
  have hall := (C28_retrieved_iff_all_available E f targets w).1 h
  obtain ⟨h1, h2, h3⟩ := retrieveAll_prefix E f targets w
  have hl : ¬ (retrieveAll E f targets w).1.length < targets.length := fun hl => by
    obtain ⟨t, ht, hna⟩ := h3 hl
    exact hna (hall t ht)
  have hlen : (retrieveAll E f targets w).1.length = targets.length := by have := h1.length_le; omega
  obtain ⟨a, b, c⟩ := retrieveAll_all E f targets w hn hlen
  unfold execute
  simp only [hl, if_false]
  exact ⟨a, b, retrieveAll_cache E f targets w, c⟩

/-- **C28** (nothing).  Otherwise the action is run exactly once.  It starts in a tree `pre` in which the targets that had been retrieved have been removed again (unless removing failed) and in which files that
are not targets are untouched; if it fails nothing is pushed; if it succeeds the tree is what the action made of it, no entry of the cache is changed or removed, what is added under
the key of a target is the target's new content, and every existing target that may be cached is in the cache. -/
theorem C28_built_effects (E : Env T K B) (f : Flags) (targets : List T) (w : W T K B) (hn : f.noExec = false)
    (h : (execute E f targets w).1 ≠ .retrieved) :
    let w' := (execute E f targets w).2
    ∃ pre : T → Option B,
      (∀ x, x ∉ targets → pre x = w.files x) ∧
      (∀ t, Ev.fetched t ∈ w'.log.drop w.log.length → t ∈ targets ∧ (E.unlinkFails t = false → pre t = none)) ∧
      (w'.log.drop w.log.length).count .build = 1 ∧
      w'.files = E.action pre ∧
      (E.ok pre = false → (execute E f targets w).1 = .failed ∧ w'.cache = w.cache) ∧
      (E.ok pre = true → (execute E f targets w).1 = .built ∧
        (∀ k b, w.cache k = some b → w'.cache k = some b) ∧
        (∀ k b, w'.cache k = some b → w.cache k = some b ∨ ∃ t ∈ targets, k = E.key t ∧ E.action pre t = some b) ∧
        (f.readonly = false → f.enabled = true → f.hasPath = true → ∀ t ∈ targets, E.nocache t = false → E.pushFails t = false →
          (E.action pre t).isSome → (w'.cache (E.key t)).isSome)) := by
  have hl : (retrieveAll E f targets w).1.length < targets.length := by
    false_or_by_contra
    rename_i hl
    apply h
    unfold execute
    simp [hl]
  obtain ⟨hp1, hp2, -⟩ := retrieveAll_prefix E f targets w
  obtain ⟨ho1, ho2, ho3⟩ := retrieveAll_other E f targets w
  have hcache := retrieveAll_cache E f targets w
  obtain ⟨hu1, hu2, hu3⟩ := unlinkAll_spec E (retrieveAll E f targets w).1 (retrieveAll E f targets w).2
  -- every fetched event of the loop is about a retrieved target
  have hfetch : ∀ (ts : List T) (w : W T K B) t, Ev.fetched t ∈ (retrieveAll E f ts w).2.log.drop w.log.length → t ∈ (retrieveAll E f ts w).1 := by
    intro ts
    induction ts with
    | nil => intro w t; simp [retrieveAll]
    | cons t' ts ih =>
      intro w t
      have hm := retrieve_miss E f w t'
      have hh := retrieve_hit E f w t' hn
      unfold retrieveAll
      split
      · rename_i w' e
        rw [e] at hm
        have := (hm rfl).1
        simp only at this
        simp [this]
      · rename_i w' e
        rw [e] at hh
        have := hh rfl
        simp only at this
        subst this
        obtain ⟨l, hlog⟩ := (retrieveAll_other E f ts { w with files := upd w.files t' (w.cache (E.key t')), log := w.log ++ [.fetched t'] }).2.2
        have ih' := ih { w with files := upd w.files t' (w.cache (E.key t')), log := w.log ++ [.fetched t'] } t
        simp only at hlog ih' ⊢
        rw [← hlog] at ih' ⊢
        rw [List.append_assoc, List.drop_left]
        rw [List.drop_left] at ih'
        simp only [List.singleton_append, List.mem_cons, Ev.fetched.injEq]
        rintro (h | h)
        · exact .inl h
        · exact .inr (ih' h)
  have hfetch := hfetch targets w
  obtain ⟨l, hlog⟩ := ho3
  rw [← hlog, List.drop_left] at ho2 hfetch
  refine ⟨(unlinkAll E (retrieveAll E f targets w).1 (retrieveAll E f targets w).2).files, ?_, ?_, ?_, ?_, ?_, ?_⟩
  · intro x hx
    rw [hu3, if_neg (fun hc => hx (hp1.subset hc.1)), ho1 x hx]
  all_goals
    unfold execute
    simp only [hl, if_true, build, hn, Bool.false_eq_true, if_false]
    cases hok : E.ok (unlinkAll E (retrieveAll E f targets w).1 (retrieveAll E f targets w).2).files
    all_goals simp only [(pushAll_spec E f targets _).2.1, (pushAll_spec E f targets _).1, hu2, hu1, ← hlog, hcache]
  · intro t ht
    rw [List.append_assoc, List.drop_left] at ht
    have ht := hfetch t (by simpa using ht)
    refine ⟨hp1.subset ht, fun hu => ?_⟩
    rw [hu3, if_pos ⟨ht, hu⟩]
  · intro t ht
    rw [List.append_assoc, List.drop_left] at ht
    have ht := hfetch t (by simpa using ht)
    refine ⟨hp1.subset ht, fun hu => ?_⟩
    rw [hu3, if_pos ⟨ht, hu⟩]
  · rw [List.append_assoc, List.drop_left]; simp [List.count_eq_zero.2 ho2]
  · rw [List.append_assoc, List.drop_left]; simp [List.count_eq_zero.2 ho2]
  · simp
  · simp
  · simp
  · obtain ⟨-, -, -, q4, -, q6, q7⟩ := pushAll_spec E f targets
      ⟨E.action (unlinkAll E (retrieveAll E f targets w).1 (retrieveAll E f targets w).2).files, w.cache, w.log ++ l ++ [.build]⟩
    intro _
    exact ⟨trivial, q4, q6, fun a b c => q7 a b c hn⟩

/-- **C29** (read-only or disabled).  With `--cache-readonly`, `--cache-disable` or no cache directory, neither executing a task nor visiting an up-to-date node changes the cache, whatever the other flags. -/
theorem C29_cache_not_written (E : Env T K B) (f : Flags) (targets : List T) (w : W T K B)
    (hf : f.readonly = true ∨ f.enabled = false ∨ f.hasPath = false) :
    (execute E f targets w).2.cache = w.cache ∧ ∀ hasExec t, (visited E f hasExec w t).cache = w.cache := by
  have hf' : f.readonly = true ∨ f.enabled = false ∨ f.hasPath = false ∨ f.noExec = true := by grind
  constructor
  · have hc := retrieveAll_cache E f targets w
    obtain ⟨hu1, -, -⟩ := unlinkAll_spec E (retrieveAll E f targets w).1 (retrieveAll E f targets w).2
    unfold execute
    simp only
    split
    · unfold build
      split
      · rename_i w3 e; split at e <;> simp at e <;> simp [← e.2, hu1, hc]
      · rename_i w3 e
        rw [(pushAll_spec E f targets w3).2.2.2.2.1 hf']
        split at e <;> simp at e
        · simp [← e, hu1, hc]
        · simp [← e.2, hu1, hc]
    · exact hc
  · intro he t
    unfold visited
    split
    · split
      · exact (push_spec E f w t).2.2.2.2.1 hf'
      · rfl
    · rfl

/-- **C29** (disabled).  With the cache disabled (or without a directory) nothing is retrieved either: a task builds from the tree as it is. -/
theorem C29_disabled_retrieves_nothing (E : Env T K B) (f : Flags) (targets : List T) (w : W T K B) (hne : targets ≠ [])
    (hf : f.enabled = false ∨ f.hasPath = false) (hn : f.noExec = false) :
    (execute E f targets w).1 ≠ .retrieved ∧ (execute E f targets w).2.files = E.action w.files ∧ (execute E f targets w).2.log = w.log ++ [.build] := by
  obtain ⟨t, ts, rfl⟩ := List.exists_cons_of_ne_nil hne
  have hr : retrieve E f w t = (false, w) := by
    unfold retrieve Flags.isEnabled
    grind
  have : retrieveAll E f (t :: ts) w = ([], w) := by simp [retrieveAll, hr]
  unfold execute
  simp only [this, unlinkAll, build, hn]
  cases hok : E.ok w.files <;>
    simp [hok, (pushAll_spec E f ts _).1, (pushAll_spec E f ts _).2.1, (push_spec E f _ t).1, (push_spec E f _ t).2.1]

/-- **C29** (`--cache-show`, `--cache-force`).  They do not change what executing a task does to the tree and to the cache. -/
theorem C29_show_and_force_are_cosmetic (E : Env T K B) (f g : Flags) (targets : List T) (w : W T K B)
    (h : f.enabled = g.enabled ∧ f.hasPath = g.hasPath ∧ f.readonly = g.readonly ∧ f.noExec = g.noExec) :
    execute E f targets w = execute E g targets w := by
  obtain ⟨h1, h2, h3, h4⟩ := h
  have e1 : retrieve E f = retrieve E g := by
    funext w t; unfold retrieve Flags.isEnabled; rw [h1, h2, h4]; simp only [ite_self]
  have e2 : retrieveAll E f = retrieveAll E g := by
    funext ts
    induction ts with
    | nil => rfl
    | cons t ts ih => funext w; simp only [retrieveAll, e1, ih]
  have e3 : push E f = push E g := by
    funext w t; unfold push Flags.isEnabled; rw [h1, h2, h3, h4]
  unfold execute build
  rw [e2, e3, h4]

/-- **C29** (`--cache-force`).  Visiting an up-to-date target with it adds the target's own content under its key, if there is none yet, and does nothing else. -/
theorem C29_force_pushes_own_content (E : Env T K B) (f : Flags) (he : Bool) (w : W T K B) (t : T) :
    (visited E f he w t).files = w.files ∧ (∀ k b, w.cache k = some b → (visited E f he w t).cache k = some b) ∧
    (∀ k b, (visited E f he w t).cache k = some b → w.cache k = some b ∨ (f.force = true ∧ k = E.key t ∧ w.files t = some b)) := by
  obtain ⟨p1, p2, p3, p4, p5, p6, p7⟩ := push_spec E f w t
  unfold visited
  grind

/-- Whatever a push changes in the cache belongs to a target that may be cached. -/
theorem push_nocache (E : Env T K B) (f : Flags) (w : W T K B) (t : T) (k : K) (h : (push E f w t).cache k ≠ w.cache k) :
    E.nocache t = false ∧ k = E.key t := by
  revert h
  unfold push upd
  grind

/-- **C29** (`NoCache`).  A target marked `NoCache()` is never put into the cache, neither when its task is executed nor by `--cache-force`: whatever changes
in the cache is an entry for another target of the task, not so marked.  And it is never retrieved: the task is then executed. -/
theorem C29_nocache (E : Env T K B) (f : Flags) (targets : List T) (w : W T K B) :
    (∀ k, (execute E f targets w).2.cache k ≠ w.cache k → ∃ t ∈ targets, E.nocache t = false ∧ k = E.key t) ∧
    (∀ hasExec t, E.nocache t = true → (visited E f hasExec w t).cache = w.cache) ∧
    (∀ t ∈ targets, E.nocache t = true → (execute E f targets w).1 ≠ .retrieved) := by
  refine ⟨?_, ?_, ?_⟩
  · intro k hk
    have hc := retrieveAll_cache E f targets w
    obtain ⟨hu1, -, -⟩ := unlinkAll_spec E (retrieveAll E f targets w).1 (retrieveAll E f targets w).2
    have hb : ∀ r w3, build E f (unlinkAll E (retrieveAll E f targets w).1 (retrieveAll E f targets w).2) = (r, w3) → w3.cache = w.cache := by
      intro r w3 e
      unfold build at e
      split at e <;> simp only [Prod.mk.injEq] at e <;> rw [← e.2] <;> exact hu1.trans hc
    have hp : ∀ (ts : List T) (w3 : W T K B), (ts.foldl (push E f) w3).cache k ≠ w3.cache k → ∃ t ∈ ts, E.nocache t = false ∧ k = E.key t := by
      intro ts
      induction ts with
      | nil => intro w3 h; exact absurd rfl h
      | cons t ts ih =>
        intro w3 h
        rw [List.foldl_cons] at h
        by_cases h1 : (push E f w3 t).cache k = w3.cache k
        · rw [← h1] at h
          obtain ⟨x, hx, h2⟩ := ih _ h
          exact ⟨x, by simp [hx], h2⟩
        · exact ⟨t, by simp, push_nocache E f w3 t k h1⟩
    unfold execute at hk
    simp only at hk
    split at hk
    · split at hk
      · rename_i w3 e; exact absurd (congrFun (hb _ _ e) k) hk
      · rename_i w3 e
        rw [← hb _ _ e] at hk
        exact hp targets w3 hk
    · exact absurd (congrFun hc k) hk
  · intro he t ht
    funext k
    false_or_by_contra
    rename_i h
    unfold visited at h
    split at h
    · split at h
      · have := (push_nocache E f w t k h).1; rw [ht] at this; cases this
      · exact h rfl
    · exact h rfl
  · intro t ht hn h
    have := (C28_retrieved_iff_all_available E f targets w).1 h t ht
    rw [this.2.2.1] at hn; cases hn

/-! ## Findings and examples -/

/-- Three targets 0, 1, 2; key of `t` is `t + 10`; the action writes `t ↦ t + 100` for the three. -/
def E₀ : Env Nat Nat Nat where
  key t := t + 10
  nocache _ := false
  derived _ := true
  copyFails _ := none
  unlinkFails _ := false
  pushFails _ := false
  action _ := fun t => if t < 3 then some (t + 100) else none
  ok _ := true

/-- Targets 0 and 1 are in the cache, 2 is not; old versions of all three are in the tree. -/
def w₀ : W Nat Nat Nat where
  files t := if t < 3 then some t else none
  cache k := if k = 10 then some 100 else if k = 11 then some 101 else none
  log := []

/-- Non-vacuity of C28: partial hit: fetched twice, built once, third target pushed. -/
example : (execute E₀ {} [0, 1, 2] w₀).1 = .built ∧ (execute E₀ {} [0, 1, 2] w₀).2.log = [.fetched 0, .fetched 1, .build] ∧
    (execute E₀ {} [0, 1, 2] w₀).2.cache 12 = some 102 ∧ (execute E₀ {} [0, 1] w₀).1 = .retrieved ∧ (execute E₀ {} [0, 1] w₀).2.files 1 = some 101 := by
  decide

/-- FOUND: `scons -n` is not without effect: after a partial cache hit, `Task.execute` unlinks the "retrieved" targets directly (not through an action), although with `-n` they were not
retrieved: the existing (old) target files are deleted from the tree. -/
theorem C28_counterexample_dry_run_deletes :
    w₀.files 0 = some 0 ∧ (execute E₀ { noExec := true } [0, 1, 2] w₀).2.files 0 = none ∧ (execute E₀ { noExec := true } [0, 1, 2] w₀).2.files 2 = some 2 := by
  decide

end Verif.Cache.Exec
