import Verif.Hash.Main

/-!
# C113: examples and counterexamples
-/

namespace Verif.Hash.Ex

/-- A digest with the right number of characters. -/
def dig (a : Alg) (x : Bytes) : Str := ((x.map fun n => Char.ofNat (65 + n)) ++ List.replicate 64 'z').take (match a with | .md5 => 32 | .sha1 => 40 | .sha256 => 64)

/-- The source 0 and the target 1, which is the source with a mark before it. -/
def P : Project Nat Unit where
  dirOf _ := ()
  deps t := if t = 1 then [0] else []
  act _ cs := 100 :: cs.flatten
  dig := dig
  avail _ := true

theorem lengths : Lengths P := by
  intro a x
  cases a <;> simp [P, dig]

def W0 : World Nat Unit := ⟨fun f => if f = 0 then some [1] else none, fun _ => 0, 0, fun _ _ => {}, fun _ => none, fun b => ∃ f : Nat, (if f = 0 then some [1] else none) = some b⟩

def s (t : String) : Str := t.toList

/-- A run with a hash format and a script. -/
def r (fmt : Option Str) (es : List (Ev Nat) := []) : Run Nat := ⟨fmt, 64, es, [1], fun _ => false⟩

def next (W : Option (World Nat Unit)) (x : Run Nat) : Option (World Nat Unit) := W.bind fun W => (run P W x).map (·.1)
def change (W : Option (World Nat Unit)) (c : Bytes) : Option (World Nat Unit) := W.map fun W => edit W 0 (some c)

/-- What a run does: what is executed, and the target afterwards. -/
def result (W : Option (World Nat Unit)) (x : Run Nat) : Option (List Nat × Option Bytes) := W.bind fun W => (run P W x).map fun p => (p.2.2.2, p.1.files 1)

/-- The databases used. -/
def dbs (W : Option (World Nat Unit)) (x : Run Nat) : Option (Option (DbId Unit)) := W.bind fun W => (run P W x).map fun p => p.2.1.sconsigns ()

theorem ordered : Ordered P [1] := by
  intro a t b h
  cases a with
  | nil => simp at h; obtain ⟨rfl, rfl⟩ := h; simp [P]
  | cons x a => simp at h

/-! ## The theorems apply -/

/-- A project with a named database, built with md5, changed, built with sha256, changed back, built with md5 again. -/
def named (fmt : Option Str) : Run Nat := r fmt [.sconsignFile (some (s "sigs")), .check [0]]

theorem named_ok (fmt : Option Str) : Ordered P (named fmt).targets ∧ Named (s "sigs") (named fmt) :=
  ⟨ordered, by decide, [], [.check [0]], rfl, by simp, by simp⟩

example : Named (s "sigs") (r none [.setOption (s "sha1"), .sconsignFile none, .sconsignFile (some (s "sigs")), .check [0]]) := ⟨by decide, [.setOption (s "sha1"), .sconsignFile none], [.check [0]], rfl, by simp, by simp⟩

theorem C113_directories_example : PerDirectory (r none [.sconsignFile none, .setOption (s "sha1")]) ∧ dbs (some W0) (r none [.sconsignFile none, .setOption (s "sha1")]) = some (some (.dir () (s ".sconsign_sha1"))) :=
  ⟨⟨[.setOption (s "sha1")], rfl, by simp⟩, by decide +kernel⟩

theorem hist_run {ok : World Nat Unit → Run Nat → Prop} {W : World Nat Unit} (h : Hist P ok W) (x : Run Nat) (ho : ok W x) (W' : World Nat Unit) (e : next (some W) x = some W') : Hist P ok W' := by
  simp only [next, Option.bind_some, Option.map_eq_some_iff] at e
  obtain ⟨⟨W1, M, done, ex⟩, h1, rfl⟩ := e
  exact .run x h ho h1

theorem C113_example : ∃ W, Hist P (fun _ x => Ordered P x.targets ∧ Named (s "sigs") x) W ∧ ∃ W' M' done ex, run P W (named none) = some (W', M', done, ex) ∧ 1 ∈ done ∧ W'.last 1 ≠ none ∧
    W'.files 1 = some [100, 1] ∧ ex = [1] := by
  have h0 : Hist P (fun _ x => Ordered P x.targets ∧ Named (s "sigs") x) W0 := .new _ _ _ (by simp)
  have e1 : (next (some W0) (named none)).isSome = true := by decide +kernel
  obtain ⟨W1, e1⟩ := Option.isSome_iff_exists.1 e1
  have h1 := hist_run h0 _ (named_ok none) W1 e1
  have h2 := Hist.edit 0 (some [2]) h1
  have e2 : (next (change (next (some W0) (named none)) [2]) (named (some (s "sha256")))).isSome = true := by decide +kernel
  obtain ⟨W2, e2⟩ := Option.isSome_iff_exists.1 e2
  have h3 := hist_run h2 _ (named_ok _) W2 (by rw [e1] at e2; exact e2)
  have h4 := Hist.edit 0 (some [1]) h3
  refine ⟨_, h4, ?_⟩
  have e3 : ((change (next (change (next (some W0) (named none)) [2]) (named (some (s "sha256")))) [1]).bind fun W => (run P W (named none)).map fun p =>
      decide (1 ∈ p.2.2.1 ∧ p.1.last 1 ≠ none ∧ p.1.files 1 = some [100, 1] ∧ p.2.2.2 = [1])) = some true := by decide +kernel
  rw [e2] at e3
  simp only [change, Option.map_some, Option.bind_some, Option.map_eq_some_iff, decide_eq_true_eq] at e3
  obtain ⟨⟨W', M', done, ex⟩, f1, f2⟩ := e3
  exact ⟨W', M', done, ex, f1, f2⟩

/-! ## Against -/

/-- **Wrong result**: built with md5; the source changed and built with sha256; the source changed back and built with md5.  The records of the first run are in the database of md5, and still say what the source is now:
nothing is executed, and the target stays what the second run made of the other source. -/
theorem C113_formats_mixed : result (change (next (change (next (some W0) (r none)) [2]) (r (some (s "sha256")))) [1]) (r none) = some ([], some [100, 2]) := by decide +kernel

/-- The same with `SetOption` in the script, or with another name for the database. -/
theorem C113_databases_mixed : result (change (next (change (next (some W0) (r none)) [2]) (r none [.sconsignFile (some (s "other"))])) [1]) (r none) = some ([], some [100, 2]) := by decide +kernel

/-- A configure check opens the database before the hash format is set: `--hash-format=sha256` (or `SetOption`) does not change its name. -/
theorem C113_check_first : dbs (some W0) (r (some (s "sha256")) [.check [0]]) = some (some (.project (s ".sconsign"))) ∧ dbs (some W0) (r (some (s "sha256"))) = some (some (.project (s ".sconsign_sha256"))) := by
  decide +kernel

/-- `SConsignFile()` takes the name before the hash format is set, even if `SetOption` was called before it, as the manual asks. -/
theorem C113_default_name : dbs (some W0) (r none [.setOption (s "sha256"), .sconsignFile (some [])]) = some (some (.project (s ".sconsign"))) := by decide +kernel

/-- `SConsignFile` after a configure check has no effect. -/
theorem C113_named_late : dbs (some W0) (r none [.check [0], .sconsignFile (some (s "sigs"))]) = some (some (.project (s ".sconsign"))) := by decide +kernel

/-- With one database, a file that a configure check looks at has the signature of the default format, whatever format is asked for. -/
theorem C113_check_format : ((some W0).bind fun W => (run P W (r (some (s "sha256")) [.check [0]])).map fun p => (p.1.db (.project (s ".sconsign")) 1).deps) = some (some [(0, dig .md5 [1])]) := by decide +kernel

/-- Asking for md5, or for the empty format, changes the database although the hash function is the same: everything is built again. -/
theorem C113_explicit_md5 : result (next (some W0) (r none)) (r (some (s "md5"))) = some ([1], some [100, 1]) ∧ result (next (some W0) (r none)) (r (some [])) = some ([1], some [100, 1]) ∧
    result (next (some W0) (r none)) (r none) = some ([], some [100, 1]) := by decide +kernel

end Verif.Hash.Ex
