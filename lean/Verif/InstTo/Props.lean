import Verif.InstTo.Model
import Mathlib.Data.List.Nodup
import Mathlib.Data.List.Infix

/-!
# Where Install puts files (C130): specification and proofs
-/

namespace Verif.InstTo

/-! ## Specification -/

/-- A text that stays below where it begins, and does not begin with `#`. -/
def Arg.Inside : Arg → Prop
  | .rel cs => "..".toList ∉ cs
  | .abs cs => "..".toList ∉ cs
  | _ => False

/-- All targets of the calls, in order. -/
def targets : List Op → List Path
  | [] => []
  | .call ts :: ops => ts ++ targets ops
  | _ :: ops => targets ops

/-! ## Where files go -/

theorem below (cs : List Str) (h : "..".toList ∉ cs) (p : Path) : cs.foldl step p = p ++ cs.filter (· ≠ ".".toList) := by
  induction cs generalizing p with
  | nil => simp
  | cons c cs ih =>
    simp only [List.mem_cons, not_or] at h
    rw [List.foldl_cons, ih h.2]
    unfold step
    rw [if_neg (fun e => h.1 e.symm)]
    by_cases hc : c = ".".toList
    · rw [if_pos hc, List.filter_cons_of_neg (by simp [hc])]
    · rw [if_neg hc, List.filter_cons_of_pos (by simpa using hc)]
      simp

/-- Each source goes to each directory, under its name, and nothing else is made. -/
theorem C130_targets (W : World) (dirs : List Arg) (srcs : List Path) :
    (∀ t s, (t, s) ∈ W.install dirs srcs ↔ s ∈ srcs ∧ ∃ d ∈ dirs, t = W.place d ++ [name s]) ∧ (W.install dirs srcs).length = dirs.length * srcs.length := by
  constructor
  · intro t s
    unfold World.install
    simp only [List.mem_flatMap, List.mem_map, Prod.mk.injEq]
    constructor
    · rintro ⟨d, hd, x, hx, rfl, rfl⟩
      exact ⟨hx, d, hd, rfl⟩
    · rintro ⟨hs, d, hd, rfl⟩
      exact ⟨d, hd, s, hs, rfl, rfl⟩
  · unfold World.install
    induction dirs with
    | nil => simp
    | cons d dirs ih =>
      rw [List.flatMap_cons, List.length_append, ih, List.length_map, List.length_cons, Nat.succ_mul]
      omega

/-- If the directories are different, and the names of the sources, no target has two sources. -/
theorem C130_apart (W : World) (dirs : List Arg) (srcs : List Path) (hd : (dirs.map W.place).Nodup) (hs : (srcs.map name).Nodup) : ((W.install dirs srcs).map (·.1)).Nodup := by
  induction dirs with
  | nil => exact List.nodup_nil
  | cons d dirs ih =>
    rw [List.map_cons, List.nodup_cons] at hd
    have e : (W.install (d :: dirs) srcs).map (·.1) = (srcs.map name).map (fun n => W.place d ++ [n]) ++ (W.install dirs srcs).map (·.1) := by
      unfold World.install
      rw [List.flatMap_cons, List.map_append]
      simp [Function.comp_def]
    rw [e, List.nodup_append]
    refine ⟨hs.map fun a b h => by simpa using h, ih hd.2, ?_⟩
    intro a ha b hb heq
    subst heq
    obtain ⟨n, -, rfl⟩ := List.mem_map.1 ha
    obtain ⟨⟨t, s⟩, hm, ht⟩ := List.mem_map.1 hb
    obtain ⟨-, d', hd', he⟩ := ((C130_targets W dirs srcs).1 t s).1 hm
    have ht : t = W.place d ++ [n] := ht
    rw [he] at ht
    exact hd.1 (List.mem_map.2 ⟨d', hd', (List.append_inj' ht rfl).1⟩)

/-- With a sandbox everything is below it: for directories given as texts that do not lead out.  (What is missing: nodes, `#` and `..`, see the counterexample.) -/
theorem C130_sandbox_partial (W : World) (S : Path) (hS : W.sandbox = some S) (dirs : List Arg) (h : ∀ d ∈ dirs, d.Inside) (srcs : List Path) (targs : List Arg) (h' : ∀ d ∈ targs, d.Inside) :
    ∀ x ∈ W.install dirs srcs ++ W.installAs targs srcs, S <+: x.1 := by
  have hp : ∀ d : Arg, d.Inside → S <+: W.place d := by
    intro d hd
    cases d with
    | rel cs => exact ⟨_, by unfold World.place; rw [hS]; exact (below cs hd S).symm⟩
    | abs cs => exact ⟨_, by unfold World.place; rw [hS]; exact (below cs hd S).symm⟩
    | top cs => cases hd
    | node p => cases hd
  intro x hx
  rcases List.mem_append.1 hx with hx | hx
  · obtain ⟨-, d, hd, e⟩ := ((C130_targets W dirs srcs).1 x.1 x.2).1 hx
    rw [e]
    exact (hp d (h d hd)).trans (List.prefix_append _ _)
  · obtain ⟨⟨s, t⟩, hm, rfl⟩ := List.mem_map.1 hx
    exact hp t (h' t (List.of_mem_zip hm).2)

/-- What would be at an absolute path is at this path below the sandbox. -/
theorem C130_moved (W : World) (S : Path) (cs : List Str) (h : "..".toList ∉ cs) : { W with sandbox := some S }.place (.abs cs) = S ++ { W with sandbox := none }.place (.abs cs) := by
  show cs.foldl step S = S ++ cs.foldl step []
  rw [below cs h, below cs h, List.nil_append]

/-- `InstallAs`: if there are as many targets as sources, each source goes to its target.  (What is missing: other numbers, see the counterexample.) -/
theorem C130_as_partial (W : World) (targs : List Arg) (srcs : List Path) (h : targs.length = srcs.length) :
    (W.installAs targs srcs).map (·.1) = targs.map W.place ∧ (W.installAs targs srcs).map (·.2) = srcs := by
  have h1 : (srcs.zip targs).map Prod.snd = targs := List.map_snd_zip (by omega)
  have h2 : (srcs.zip targs).map Prod.fst = srcs := List.map_fst_zip (by omega)
  unfold World.installAs
  rw [List.map_map, List.map_map]
  constructor
  · conv_rhs => rw [← h1]
    rw [List.map_map]; rfl
  · conv_rhs => rw [← h2]
    rfl

/-! ## What is installed -/

theorem mem_uniquer (l : List Path) (x : Path) : x ∈ uniquer l ↔ x ∈ l := by
  induction l with
  | nil => simp [uniquer]
  | cons y l ih =>
    unfold uniquer
    rw [List.mem_cons, List.mem_filter, ih, List.mem_cons]
    by_cases h : x = y <;> simp [h]

theorem uniquer_order (l : List Path) : (uniquer l).Pairwise fun x y => l.idxOf x < l.idxOf y := by
  induction l with
  | nil => exact .nil
  | cons z l ih =>
    unfold uniquer
    refine List.pairwise_cons.2 ⟨?_, ?_⟩
    · intro y hy
      have hne : y ≠ z := by simpa using (List.mem_filter.1 hy).2
      rw [List.idxOf_cons_self, List.idxOf_cons_ne _ (Ne.symm hne)]
      omega
    · have := ih.filter (p := fun x => decide (x ≠ z))
      refine List.Pairwise.imp_of_mem ?_ this
      intro x y hx hy hlt
      have hx : x ≠ z := by simpa using (List.mem_filter.1 hx).2
      have hy : y ≠ z := by simpa using (List.mem_filter.1 hy).2
      rw [List.idxOf_cons_ne _ (Ne.symm hx), List.idxOf_cons_ne _ (Ne.symm hy)]
      omega

theorem run_inv (ops : List Op) (h : ∀ l, .change l ∉ ops) (s : State) (hs : s.unique = none ∨ s.unique = some (uniquer s.files)) :
    (ops.foldl State.step s).files = s.files ++ targets ops ∧ ((ops.foldl State.step s).unique = none ∨ (ops.foldl State.step s).unique = some (uniquer (ops.foldl State.step s).files)) := by
  induction ops generalizing s with
  | nil => exact ⟨by simp [targets], hs⟩
  | cons o ops ih =>
    have h2 : ∀ l, .change l ∉ ops := fun l hl => h l (by simp [hl])
    rw [List.foldl_cons]
    cases o with
    | call ts =>
      have := ih h2 (s.step (.call ts)) (.inl rfl)
      refine ⟨?_, this.2⟩
      rw [this.1]
      simp [State.step, targets]
    | query =>
      have ha : s.answer = uniquer s.files := by
        unfold State.answer
        rcases hs with hs | hs <;> rw [hs] <;> rfl
      have := ih h2 (s.step .query) (.inr (by simp [State.step, ha]))
      refine ⟨?_, this.2⟩
      rw [this.1]
      simp [State.step, targets]
    | change l => exact absurd (by simp) (h l)

/-- After any calls and questions, FindInstalledFiles gives the targets of all calls so far, each once, in the order in which they came first.  (What is missing: callers that change the list, see the counterexample.) -/
theorem C130_found_partial (ops : List Op) (h : ∀ l, .change l ∉ ops) :
    (∀ t, t ∈ (run ops).answer ↔ ∃ ts, .call ts ∈ ops ∧ t ∈ ts) ∧ (run ops).answer.Pairwise fun x y => (targets ops).idxOf x < (targets ops).idxOf y := by
  obtain ⟨hf, hu⟩ := run_inv ops h .init (.inl rfl)
  have hf : (run ops).files = targets ops := by
    have h2 : (run ops).files = [] ++ targets ops := hf
    simpa using h2
  have ha : (run ops).answer = uniquer (targets ops) := by
    unfold State.answer
    have hu : (run ops).unique = none ∨ (run ops).unique = some (uniquer (run ops).files) := hu
    rcases hu with hu | hu <;> rw [hu] <;> simp [hf]
  have hm : ∀ ops : List Op, ∀ t, t ∈ targets ops ↔ ∃ ts, .call ts ∈ ops ∧ t ∈ ts := by
    intro ops t
    induction ops with
    | nil => simp [targets]
    | cons o ops ih =>
      cases o with
      | call ts =>
        unfold targets
        rw [List.mem_append, ih]
        constructor
        · rintro (h | ⟨x, hx, ht⟩)
          · exact ⟨ts, by simp, h⟩
          · exact ⟨x, by simp [hx], ht⟩
        · rintro ⟨x, hx, ht⟩
          rcases List.mem_cons.1 hx with e | hx
          · injection e with e; subst e; exact .inl ht
          · exact .inr ⟨x, hx, ht⟩
      | query => unfold targets; rw [ih]; simp
      | change l => unfold targets; rw [ih]; simp
  rw [ha]
  exact ⟨fun t => by rw [mem_uniquer, hm], uniquer_order _⟩

/-! ## Cases -/

def p (l : List String) : Path := l.map String.toList

/-- The sandbox `/s/box`; SConstruct in `/s`, the script in `/s/a`. -/
def world : World := { cwd := p ["s", "a"], top := p ["s"], sandbox := some (p ["s", "box"]) }

theorem C130_sample : world.install [.abs (p ["usr", "bin"]), .rel (p ["lib"])] [p ["s", "a", "x"]] = [(p ["s", "box", "usr", "bin", "x"], p ["s", "a", "x"]), (p ["s", "box", "lib", "x"], p ["s", "a", "x"])] ∧
    p ["s", "box"] <+: p ["s", "box", "usr", "bin", "x"] := by
  have e : world.install [.abs (p ["usr", "bin"]), .rel (p ["lib"])] [p ["s", "a", "x"]] = [(p ["s", "box", "usr", "bin", "x"], p ["s", "a", "x"]), (p ["s", "box", "lib", "x"], p ["s", "a", "x"])] := by decide +kernel
  refine ⟨e, C130_sandbox_partial world _ rfl [.abs (p ["usr", "bin"]), .rel (p ["lib"])] ?_ [p ["s", "a", "x"]] [] (by simp) (p ["s", "box", "usr", "bin", "x"], p ["s", "a", "x"]) (by rw [e]; simp)⟩
  intro d hd
  simp only [List.mem_cons, List.not_mem_nil, or_false] at hd
  rcases hd with rfl | rfl <;> (unfold Arg.Inside; decide +kernel)

theorem C130_sample_found : (run [.call [p ["x"], p ["y"]], .query, .call [p ["x"], p ["z"]]]).answer = [p ["x"], p ["y"], p ["z"]] ∧ p ["z"] ∈ (run [.call [p ["x"], p ["y"]], .query, .call [p ["x"], p ["z"]]]).answer :=
  ⟨by decide +kernel, ((C130_found_partial _ (by simp)).1 _).2 ⟨[p ["x"], p ["z"]], by simp, by simp⟩⟩

/-! ## Where it fails -/

/-- A directory that is a node, begins with `#` or leads out with `..` is not in the sandbox. -/
theorem C130_sandbox_counterexample : world.install [.node (p ["usr", "bin"]), .top (p ["out"]), .rel (p ["..", "lib"])] [p ["s", "a", "x"]] =
    [(p ["usr", "bin", "x"], p ["s", "a", "x"]), (p ["s", "out", "x"], p ["s", "a", "x"]), (p ["s", "lib", "x"], p ["s", "a", "x"])] := by decide +kernel

/-- With a sandbox, relative directories of different scripts are the same: two files, from `/s/a` and `/s/b`, go to one target. -/
theorem C130_relative_counterexample : (world.install [.rel (p ["lib"])] [p ["s", "a", "x"]]).map Prod.fst = ({ world with cwd := p ["s", "b"] }.install [.rel (p ["lib"])] [p ["s", "b", "x"]]).map Prod.fst ∧
    ({ world with sandbox := none }.install [.rel (p ["lib"])] [p ["s", "a", "x"]]).map Prod.fst ≠ ({ world with cwd := p ["s", "b"], sandbox := none }.install [.rel (p ["lib"])] [p ["s", "b", "x"]]).map Prod.fst := by decide +kernel

/-- `InstallAs` with more sources than targets leaves the others out, without an error. -/
theorem C130_as_counterexample : world.installAs [.rel (p ["y"])] [p ["s", "x"], p ["s", "z"]] = [(p ["s", "box", "y"], p ["s", "x"])] := by decide +kernel

/-- A caller that changes the list it was given changes what the next call gives. -/
theorem C130_found_counterexample : (run [.call [p ["x"]], .query, .change []]).answer = [] := by decide +kernel

end Verif.InstTo
