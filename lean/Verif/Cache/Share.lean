/-!
# Model of concurrent use of one cache directory (`SCons/CacheDir.py`, `CacheRetrieveFunc`, `CachePushFunc`)

Any number of processes (and threads) `P` push into and fetch from one cache.  Every file system operation is a step; data are copied in pieces
of any size; any operation may fail; any process may be killed at any point; entries may be removed from the cache by other programs.

`cache k` is the file at the final name for signature `k` (`cachepath`, `CacheDir.py:361-377`: sub-directory from the first characters, file named by the
signature).  A temporary file lives in a directory made by `tempfile.TemporaryDirectory`, whose name is unique, so each process has its own.
`os.rename` is atomic.  A reader that has opened a file keeps reading that file even if it is unlinked or another one is renamed over it.
-/

namespace Verif.Cache

variable {P K β : Type} [DecidableEq P] [DecidableEq K]

/-- Program points of a process. -/
inductive PC (K β : Type)
  | idle
  /-- in `CachePushFunc`, before `fs.exists(cachefile)`; `b` is the content of the target that was built -/
  | push (k : K) (b : List β)
  /-- copying to the temporary file (`copy_to_cache`), `rest` still to be written -/
  | pushing (k : K) (rest : List β)
  /-- before `fs.rename(temp_file, cachefile)` -/
  | pushed (k : K)
  /-- in `CacheRetrieveFunc`, before `fs.exists(cachefile)` -/
  | fetch (k : K)
  /-- after a positive `fs.exists` -/
  | hit (k : K)
  /-- copying from the opened cache file: `got` written to the target so far, `rest` still to come -/
  | fetching (k : K) (got rest : List β)
  /-- killed -/
  | dead

/-- State: the visible cache files, each process's temporary file, each process's program point. -/
structure CState (P K β : Type) where
  cache : K → Option (List β)
  temp : P → Option (List β)
  pc : P → PC K β

/-- Observable events. -/
inductive CLabel (P K β : Type)
  /-- process `p` starts pushing a target with content `b` under `k` -/
  | pushStart (p : P) (k : K) (b : List β)
  /-- process `p` starts looking for `k` -/
  | fetchStart (p : P) (k : K)
  /-- the retrieval succeeded, the target file now has content `b` -/
  | fetched (p : P) (k : K) (b : List β)
  /-- the retrieval was reported as failed -/
  | missed (p : P) (k : K)
  /-- anything else -/
  | tau

def upd {A B : Type} [DecidableEq A] (f : A → B) (a : A) (b : B) : A → B := fun x => if x = a then b else f x

/-- Steps. -/
inductive CStep : CState P K β → CLabel P K β → CState P K β → Prop
  /-- `CachePushFunc` is called, `CacheDir.py:78-86` -/
  | pushStart (s) (p k b) (h : s.pc p = .idle) : CStep s (.pushStart p k b) { s with pc := upd s.pc p (.push k b) }
  /-- `fs.exists(cachefile)`: already there, `CacheDir.py:87-96` -/
  | pushSkip (s) (p k b c) (h : s.pc p = .push k b) (hc : s.cache k = some c) : CStep s .tau { s with pc := upd s.pc p .idle }
  /-- temporary directory and file, `CacheDir.py:107-108, 112`.  (The check and this step are separate operations in the code; since nothing is assumed about what
  others did in between, the step does not require the entry to be still absent.) -/
  | pushTemp (s) (p k b) (h : s.pc p = .push k b) :
      CStep s .tau { s with temp := upd s.temp p (some []), pc := upd s.pc p (.pushing k b) }
  /-- some bytes are copied, `CacheDir.py:112` (`copy2`) -/
  | pushWrite (s) (p k c rest) (n : Nat) (h : s.pc p = .pushing k rest) (ht : s.temp p = some c) :
      CStep s .tau { s with temp := upd s.temp p (some (c ++ rest.take n)), pc := upd s.pc p (.pushing k (rest.drop n)) }
  /-- the copy is complete -/
  | pushClose (s) (p k) (h : s.pc p = .pushing k []) : CStep s .tau { s with pc := upd s.pc p (.pushed k) }
  /-- `fs.rename(temp_file, cachefile)`, `CacheDir.py:113`; replaces an entry somebody else made in the meantime -/
  | pushRename (s) (p k c) (h : s.pc p = .pushed k) (ht : s.temp p = some c) :
      CStep s .tau { s with cache := upd s.cache k (some c), temp := upd s.temp p none, pc := upd s.pc p .idle }
  /-- an `OSError` at any point of the push; the temporary directory is removed, `CacheDir.py:115-123` -/
  | pushFails (s) (p k rest) (h : s.pc p = .pushing k rest ∨ s.pc p = .pushed k ∨ s.pc p = .push k rest) :
      CStep s .tau { s with temp := upd s.temp p none, pc := upd s.pc p .idle }
  /-- `CacheRetrieveFunc` is called, `CacheDir.py:53-58` -/
  | fetchStart (s) (p k) (h : s.pc p = .idle) : CStep s (.fetchStart p k) { s with pc := upd s.pc p (.fetch k) }
  /-- not in the cache, `CacheDir.py:59-61` -/
  | fetchMiss (s) (p k) (h : s.pc p = .fetch k) (hc : s.cache k = none) : CStep s (.missed p k) { s with pc := upd s.pc p .idle }
  | fetchHit (s) (p k c) (h : s.pc p = .fetch k) (hc : s.cache k = some c) : CStep s .tau { s with pc := upd s.pc p (.hit k) }
  /-- `copy_from_cache` opens the file there is now, `CacheDir.py:68` -/
  | fetchOpen (s) (p k c) (h : s.pc p = .hit k) (hc : s.cache k = some c) : CStep s .tau { s with pc := upd s.pc p (.fetching k [] c) }
  | fetchCopy (s) (p k got rest) (n : Nat) (h : s.pc p = .fetching k got rest) :
      CStep s .tau { s with pc := upd s.pc p (.fetching k (got ++ rest.take n) (rest.drop n)) }
  /-- complete: `return 0`, `CacheDir.py:75` -/
  | fetchDone (s) (p k got) (h : s.pc p = .fetching k got []) : CStep s (.fetched p k got) { s with pc := upd s.pc p .idle }
  /-- an exception at any point: the action's result is not 0, `retrieve` returns `False` (`CacheDir.py:411-421`) -/
  | fetchFails (s) (p k got rest) (h : s.pc p = .hit k ∨ s.pc p = .fetching k got rest) :
      CStep s (.missed p k) { s with pc := upd s.pc p .idle }
  /-- the process is killed; its temporary file stays behind -/
  | kill (s) (p) : CStep s .tau { s with pc := upd s.pc p .dead }
  /-- somebody removes an entry -/
  | evict (s) (k) : CStep s .tau { s with cache := upd s.cache k none }

/-- Executions, with the trace in order of time. -/
inductive CRun : CState P K β → List (CLabel P K β) → CState P K β → Prop
  | nil (s) : CRun s [] s
  | snoc {s t u tr l} : CRun s tr t → CStep t l u → CRun s (tr ++ [l]) u

/-- `b` is a complete file known under `k`: it was in the cache at the start, or some process called push with it. -/
def Known (cache₀ : K → Option (List β)) (tr : List (CLabel P K β)) (k : K) (b : List β) : Prop :=
  cache₀ k = some b ∨ ∃ p, CLabel.pushStart p k b ∈ tr

structure CInv (cache₀ : K → Option (List β)) (tr : List (CLabel P K β)) (s : CState P K β) : Prop where
  cache : ∀ k c, s.cache k = some c → Known cache₀ tr k c
  push : ∀ p k b, s.pc p = .push k b → Known cache₀ tr k b
  pushing : ∀ p k rest, s.pc p = .pushing k rest → ∃ c, s.temp p = some c ∧ Known cache₀ tr k (c ++ rest)
  pushed : ∀ p k, s.pc p = .pushed k → ∃ c, s.temp p = some c ∧ Known cache₀ tr k c
  fetching : ∀ p k got rest, s.pc p = .fetching k got rest → Known cache₀ tr k (got ++ rest)
  fetched : ∀ p k b, CLabel.fetched p k b ∈ tr → Known cache₀ tr k b

omit [DecidableEq P] [DecidableEq K] in
theorem Known.mono {cache₀ : K → Option (List β)} {tr : List (CLabel P K β)} {k : K} {b : List β} (l : CLabel P K β)
    (h : Known cache₀ tr k b) : Known cache₀ (tr ++ [l]) k b := by
  rcases h with h | ⟨p, h⟩
  · exact .inl h
  · exact .inr ⟨p, List.mem_append_left _ h⟩

theorem CInv.step {cache₀ : K → Option (List β)} {tr : List (CLabel P K β)} {s t : CState P K β} {l : CLabel P K β}
    (h : CInv cache₀ tr s) (st : CStep s l t) : CInv cache₀ (tr ++ [l]) t := by
  obtain ⟨h1, h2, h3, h4, h5, h6⟩ := h
  have h1 := fun k c hc => (h1 k c hc).mono l
  have h2 := fun p k b hc => (h2 p k b hc).mono l
  have h3 : ∀ p k rest, s.pc p = .pushing k rest → ∃ c, s.temp p = some c ∧ Known cache₀ (tr ++ [l]) k (c ++ rest) :=
    fun p k r hc => let ⟨c, hc, hk⟩ := h3 p k r hc; ⟨c, hc, hk.mono l⟩
  have h4 : ∀ p k, s.pc p = .pushed k → ∃ c, s.temp p = some c ∧ Known cache₀ (tr ++ [l]) k c :=
    fun p k hc => let ⟨c, hc, hk⟩ := h4 p k hc; ⟨c, hc, hk.mono l⟩
  have h5 := fun p k g r hc => (h5 p k g r hc).mono l
  have h6 := fun p k b hc => (h6 p k b hc).mono l
  cases st with
  | pushStart p k b h =>
    have hk : Known cache₀ (tr ++ [.pushStart p k b]) k b := .inr ⟨p, by simp⟩
    constructor <;> simp only [upd, List.mem_append, List.mem_singleton] <;> grind
  | pushWrite p k c rest n h ht =>
    have hk : Known cache₀ (tr ++ [.tau]) k ((c ++ rest.take n) ++ rest.drop n) := by
      obtain ⟨c', hc', hk⟩ := h3 p k rest h
      have : c = c' := by simpa [ht] using hc'
      subst this
      rwa [List.append_assoc, List.take_append_drop]
    constructor <;> simp only [upd, List.mem_append, List.mem_singleton] <;> grind
  | pushClose p k h =>
    obtain ⟨c', hc', hk⟩ := h3 p k [] h
    rw [List.append_nil] at hk
    constructor <;> simp only [upd, List.mem_append, List.mem_singleton] <;> grind
  | fetchCopy p k got rest n h =>
    have hk : Known cache₀ (tr ++ [.tau]) k ((got ++ rest.take n) ++ rest.drop n) := by
      rw [List.append_assoc, List.take_append_drop]; exact h5 p k got rest h
    constructor <;> simp only [upd, List.mem_append, List.mem_singleton] <;> grind
  | fetchDone p k got h =>
    have hk := h5 p k got [] h
    rw [List.append_nil] at hk
    constructor <;> simp only [upd, List.mem_append, List.mem_singleton] <;> grind
  | _ => constructor <;> simp only [upd, List.mem_append, List.mem_singleton] <;> grind

/-- Start: no process is in the middle of anything; the cache may hold anything. -/
def start (cache₀ : K → Option (List β)) : CState P K β := ⟨cache₀, fun _ => none, fun _ => .idle⟩

theorem CInv.run {cache₀ : K → Option (List β)} {tr : List (CLabel P K β)} {s : CState P K β} (r : CRun (start cache₀) tr s) :
    CInv cache₀ tr s := by
  generalize hs : start cache₀ = s₀ at r
  induction r with
  | nil => subst hs; constructor <;> simp [start, Known]
  | snoc _ st ih => exact ih.step st

/-- **C26.**  Whatever the interleaving, failures and kills: a retrieval that reports success produced, byte for byte, a complete file that
was in the cache at the start under that signature, or that some process pushed under that signature. -/
theorem C26_retrieved_is_what_was_pushed {cache₀ : K → Option (List β)} {tr : List (CLabel P K β)} {s : CState P K β}
    (r : CRun (start cache₀) tr s) {p : P} {k : K} {b : List β} (h : CLabel.fetched p k b ∈ tr) :
    cache₀ k = some b ∨ ∃ q, CLabel.pushStart q k b ∈ tr :=
  (CInv.run r).fetched p k b h

/-- **C26.**  At every moment, everything visible under a final name is complete. -/
theorem C26_visible_entries_are_complete {cache₀ : K → Option (List β)} {tr : List (CLabel P K β)} {s : CState P K β}
    (r : CRun (start cache₀) tr s) {k : K} {b : List β} (h : s.cache k = some b) :
    cache₀ k = some b ∨ ∃ q, CLabel.pushStart q k b ∈ tr :=
  (CInv.run r).cache k b h

/-- **C26** (deterministic builds).  If the build with signature `k` always produces `built k`, and the cache was filled by such builds, every retrieved file is what building would have produced. -/
theorem C26_retrieved_equals_built {cache₀ : K → Option (List β)} {tr : List (CLabel P K β)} {s : CState P K β}
    (r : CRun (start cache₀) tr s) (built : K → List β) (h₀ : ∀ k b, cache₀ k = some b → b = built k)
    (hd : ∀ p k b, CLabel.pushStart p k b ∈ tr → b = built k) {p : P} {k : K} {b : List β} (h : CLabel.fetched p k b ∈ tr) : b = built k := by
  rcases C26_retrieved_is_what_was_pushed r h with h | ⟨q, h⟩
  · exact h₀ k b h
  · exact hd q k b h

/-- Non-vacuity: process 0 pushes `[7,8]` under 3 in two pieces, process 1 meanwhile misses, and later fetches it; process 2 is killed half-way through a push. -/
theorem example_sharing : ∃ s, CRun (start (fun _ => none) : CState Nat Nat Nat)
    [.pushStart 0 3 [7, 8], .tau, .pushStart 2 3 [7, 8], .tau, .tau, .tau, .fetchStart 1 3, .missed 1 3, .tau, .tau, .tau, .fetchStart 1 3, .tau, .tau, .tau,
      .fetched 1 3 [7, 8], .tau] s := by
  have r := CRun.nil (start (fun _ => none) : CState Nat Nat Nat)
  have r := CRun.snoc r (CStep.pushStart _ 0 3 [7, 8] rfl)
  have r := CRun.snoc r (CStep.pushTemp _ 0 3 [7, 8] rfl)
  have r := CRun.snoc r (CStep.pushStart _ 2 3 [7, 8] rfl)
  have r := CRun.snoc r (CStep.pushTemp _ 2 3 [7, 8] rfl)
  have r := CRun.snoc r (CStep.pushWrite _ 2 3 [] [7, 8] 1 rfl rfl)
  have r := CRun.snoc r (CStep.pushWrite _ 0 3 [] [7, 8] 1 rfl rfl)
  have r := CRun.snoc r (CStep.fetchStart _ 1 3 rfl)
  have r := CRun.snoc r (CStep.fetchMiss _ 1 3 rfl rfl)
  have r := CRun.snoc r (CStep.pushWrite _ 0 3 [7] [8] 1 rfl rfl)
  have r := CRun.snoc r (CStep.pushClose _ 0 3 rfl)
  have r := CRun.snoc r (CStep.pushRename _ 0 3 [7, 8] rfl rfl)
  have r := CRun.snoc r (CStep.fetchStart _ 1 3 rfl)
  have r := CRun.snoc r (CStep.fetchHit _ 1 3 [7, 8] rfl rfl)
  have r := CRun.snoc r (CStep.fetchOpen _ 1 3 [7, 8] rfl rfl)
  have r := CRun.snoc r (CStep.fetchCopy _ 1 3 [] [7, 8] 2 rfl)
  have r := CRun.snoc r (CStep.fetchDone _ 1 3 [7, 8] rfl)
  have r := CRun.snoc r (CStep.kill _ 2)
  exact ⟨_, r⟩

end Verif.Cache
