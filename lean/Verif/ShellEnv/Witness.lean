import Verif.ShellEnv.Props

/-! # C96: a concrete environment, and what goes wrong -/

namespace Verif.ShellEnv
namespace Ex

def path : Str := "PATH".toList
def home : Str := "HOME".toList
def tools : Str := "TOOLS".toList

/-- `ENV` with a search path given as a nested list, and a `Dir`. -/
def env0 : Dict := [(path, .list [.str "/bin".toList, .list [.other "tools".toList, .tuple [.str "/x".toList] "('/x',)".toList]]),
  (home, .str "/root".toList), (tools, .other "tools".toList)]

def vars0 : List (Str × Str) := [(path, "/bin:tools:/x".toList), (home, "/root".toList), (tools, "tools".toList)]

theorem vars_ok : Variables env0 vars0 := by
  refine .cons (Text.list (a := ["/bin".toList, "tools".toList, "/x".toList]) ?_)
    (.cons (.str _) (.cons (.other _) .nil))
  exact .cons (a := [_]) (.str _) (.cons (a := [_, _]) (b := [])
    (.list (.cons (a := [_]) (.other _) (.cons (a := [_]) (b := []) (.tuple (.cons (a := [_]) (b := []) (.str _) .nil)) .nil))) .nil)

/-- A generator that sets a variable. -/
def setLang : Gen := fun D => some (D ++ [("LANG".toList, .str ['C'])])

theorem texts_append (D D' : Dict) : texts (D ++ D') = texts D ++ texts D' := by simp [texts]

theorem setLang_textOnly : TextOnly setLang := by
  intro D D' h
  simp only [setLang]
  rw [same_variables] at h ⊢
  rw [texts_append, texts_append, h]

/-- Two commands without generators and one with, interleaved: the second reads the search path
before the first has written it back. -/
def sched : List Nat := [0, 0, 1, 1, 2, 0, 1, 1, 0, 1, 0, 0, 1, 1, 0, 0, 1, 1, 0, 0]

def final : St := run ⟨env0, [.start [], .start [], .start [setLang]]⟩ sched

/-- They meet the hypotheses and run. -/
theorem applied : env0.keys.Nodup ∧
    (∀ l ∈ ([[], [], [setLang]] : List (List Gen)), ∀ g ∈ l, TextOnly g) ∧
    (∃ e, final.ths[0]? = some (.spawned e) ∧ Started (.spawned e) vars0) ∧
    (∃ e, final.ths[1]? = some (.spawned e) ∧ Started (.spawned e) vars0) ∧
    (∃ e, final.ths[2]? = some (.spawned e) ∧ Started (.spawned e) (vars0 ++ [("LANG".toList, ['C'])])) := by
  refine ⟨by decide, ?_, ⟨_, rfl, rfl⟩, ⟨_, rfl, rfl⟩, ⟨_, rfl, rfl⟩⟩
  simp only [List.mem_cons, List.not_mem_nil, or_false]
  rintro l (rfl | rfl | rfl) g hg
  · simp at hg
  · simp at hg
  · simp only [List.mem_cons, List.not_mem_nil, or_false] at hg
    subst hg; exact setLang_textOnly

end Ex

/-- Running a command changes `env['ENV']` itself: a search path that was a list is a string
afterwards, and appending to it as to a list no longer means the same. -/
theorem C96_counterexample_changed : (Ex.env0.get Ex.path).map V.isStr = some false ∧
    ((run ⟨Ex.env0, [.start []]⟩ (List.replicate 8 0)).dict.get Ex.path).map V.isStr = some true := by
  exact ⟨rfl, rfl⟩

/-- With generators it does not: they work on a copy. -/
theorem C96_generators_leave_it (D0 : Dict) (g : Gen) (r : List Gen) (n : Nat) :
    (run ⟨D0, [.start (g :: r)]⟩ (List.replicate n 0)).dict = D0 := by
  have key : ∀ (s : St), s.dict = D0 → (s.ths = [.start (g :: r)] ∨ (∃ e, s.ths = [.spawned e]) ∨ s.ths = [.refused]) →
      (run s (List.replicate n 0)).dict = D0 := by
    induction n with
    | zero => intro s h _; exact h
    | succ n ih =>
      intro s h ht
      rw [List.replicate_succ]
      show (run (stepAt s 0) (List.replicate n 0)).dict = D0
      rcases ht with ht | ⟨e, ht⟩ | ht
      · apply ih
        · simp [stepAt, ht, step, h]
        · rcases hr : runGens (g :: r) D0 with _ | R
          · right; right; simp [stepAt, ht, step, h, hr]
          · right; left; exact ⟨convAll R, by simp [stepAt, ht, step, h, hr]⟩
      · apply ih
        · simp [stepAt, ht, step, h]
        · right; left; exact ⟨e, by simp [stepAt, ht, step]⟩
      · apply ih
        · simp [stepAt, ht, step, h]
        · right; right; simp [stepAt, ht, step]
  exact key _ rfl (.inl rfl)

/-- A generator that appends a directory if the search path is a list, as its author saw it to be. -/
def appendBin : Gen := fun D => some (D.map fun p => match p.2 with
  | .list l => if p.1 = Ex.path then (p.1, .list (l ++ [.str "/opt".toList])) else p
  | _ => p)

/-- Whether the program sees the directory depends on whether another command of the same
dictionary ran first. -/
theorem C96_counterexample_generator :
    Ex.final.ths.length = 3 ∧
    ∃ e e', (run ⟨Ex.env0, [.start [], .start [appendBin]]⟩ [1, 0, 0, 0, 0, 0, 0, 0]).ths[1]? = some (.spawned e) ∧
      (run ⟨Ex.env0, [.start [], .start [appendBin]]⟩ [0, 0, 0, 0, 0, 0, 0, 1]).ths[1]? = some (.spawned e') ∧
      Started (.spawned e) [(Ex.path, "/bin:tools:/x:/opt".toList), (Ex.home, "/root".toList), (Ex.tools, "tools".toList)] ∧
      Started (.spawned e') Ex.vars0 := by
  exact ⟨rfl, _, _, rfl, rfl, rfl, rfl⟩

/-- A tuple is no search path: the program sees how Python shows it. -/
theorem C96_counterexample_tuple (l : List V) (shown : Str) (hs : shown ≠ [':'].intercalate (flatL l)) :
    (run ⟨[(Ex.path, .tuple l shown)], [.start []]⟩ [0, 0, 0, 0]).ths = [.spawned [(Ex.path, .str shown)]] ∧
      (∀ a, Entries l a → shown ≠ [':'].intercalate a) := by
  refine ⟨rfl, fun a ha => ?_⟩
  rw [entries_unique l a ha]; exact hs

end Verif.ShellEnv
