import Verif.Cpp.Props
/-!
# C36: the preprocessor computes the standard's rule, and terminates
-/
namespace Verif.Cpp

variable {N F C O I : Type} [DecidableEq F]

/-- All files an `#include` can be resolved to are among `U`. -/
def FindsIn (W : World N F C O I) (U : List F) : Prop :=
  ∀ i g n f m, W.find i g n = (some f, m) → f ∈ U

omit [DecidableEq F] in
/-- Files are only added. -/
theorem Sem.mono {W : World N F C O I} {prog once blk s s'} (h : Sem W prog once blk s s') :
    s.result ⊆ s'.result := by
  induction h with
  | nil => exact List.Subset.refl _
  | fin => exact List.Subset.refl _
  | inc _ _ _ _ ih1 ih2 =>
    intro x hx
    exact ih2 (ih1 (List.mem_append_left _ hx))
  | yes _ _ _ ih1 ih2 => exact fun x hx => ih2 (ih1 hx)
  | no _ _ _ ih1 ih2 => exact fun x hx => ih2 (ih1 hx)
  | _ => assumption

omit [DecidableEq F] in
/-- The file being read is the same afterwards. -/
theorem Sem.cur_eq {W : World N F C O I} {prog once blk s s'} (h : Sem W prog once blk s s') :
    s'.cur = s.cur := by
  induction h <;> simp_all

omit [DecidableEq F] in
/-- The standard's rule gives at most one result. -/
theorem Sem.det {W : World N F C O I} {prog once blk s s1 s2} (h1 : Sem W prog once blk s s1)
    (h2 : Sem W prog once blk s s2) : s1 = s2 := by
  induction h1 generalizing s2 with
  | nil => cases h2; rfl
  | op _ ih => cases h2 with | op h => exact ih h
  | notFound hf _ ih =>
    cases h2 with
    | notFound hf' h => rw [hf] at hf'; cases hf'; exact ih h
    | seen _ hf' _ _ => rw [hf] at hf'; cases hf'
    | inc hf' _ _ _ => rw [hf] at hf'; cases hf'
  | seen ho hf hm _ ih =>
    cases h2 with
    | notFound hf' h => rw [hf] at hf'; cases hf'
    | seen _ hf' _ h => rw [hf] at hf'; cases hf'; exact ih h
    | inc hf' hm' _ _ => rw [hf] at hf'; cases hf'; exact absurd hm (hm' ho)
  | inc hf hm _ _ ih1 ih2 =>
    cases h2 with
    | notFound hf' h => rw [hf] at hf'; cases hf'
    | seen ho hf' hm' h => rw [hf] at hf'; cases hf'; exact absurd hm' (hm ho)
    | inc hf' _ h1 h2 =>
      rw [hf] at hf'; cases hf'
      have := ih1 h1; subst this
      exact ih2 h2
  | yes hc _ _ ih1 ih2 =>
    cases h2 with
    | yes _ h1 h2 => have := ih1 h1; subst this; exact ih2 h2
    | no hc' _ _ => rw [hc] at hc'; cases hc'
  | no hc _ _ ih1 ih2 =>
    cases h2 with
    | no _ h1 h2 => have := ih1 h1; subst this; exact ih2 h2
    | yes hc' _ _ => rw [hc] at hc'; cases hc'
  | fin => cases h2; rfl
  | elifYes hc _ ih =>
    cases h2 with
    | elifYes _ h => exact ih h
    | elifNo hc' _ => rw [hc] at hc'; cases hc'
  | elifNo hc _ ih =>
    cases h2 with
    | elifNo _ h => exact ih h
    | elifYes hc' _ => rw [hc] at hc'; cases hc'
  | els _ ih => cases h2 with | els h => exact ih h

/-- How many files can still be found. -/
def left (U res : List F) : Nat := (U.filter (fun f => decide (f ∉ res))).length

theorem left_mono {U a b : List F} (h : a ⊆ b) : left U b ≤ left U a := by
  unfold left
  induction U with
  | nil => simp
  | cons x U ih =>
    simp only [List.filter_cons]
    by_cases hb : x ∈ b
    · by_cases ha : x ∈ a
      · simpa [ha, hb] using ih
      · simp [ha, hb]; simp at ih; omega
    · have ha : x ∉ a := fun k => hb (h k)
      simpa [ha, hb] using ih

theorem left_append {U res : List F} {f : F} (hU : f ∈ U) (hf : f ∉ res) :
    left U (res ++ [f]) < left U res := by
  induction U with
  | nil => cases hU
  | cons x U ih =>
    have hm : left U (res ++ [f]) ≤ left U res := left_mono (by simp)
    unfold left at *
    simp only [List.filter_cons]
    by_cases hx : x = f
    · subst hx; simp [hf]; simp at hm; omega
    · have hU' : f ∈ U := by
        cases hU with
        | head => exact absurd rfl hx
        | tail _ h => exact h
      have := ih hU'
      by_cases hr : x ∈ res <;> simp [hr, hx] <;> simp at this <;> omega

section
variable (W : World N F C O I) (prog : F → Prog C O I) (U : List F) (ht : Total W)
  (hU : FindsIn W U)
include ht hU

mutual
theorem total_prog_aux (k : Nat)
    (IH : ∀ (p : Prog C O I) (s : Obs N F), left U s.result < k → ∃ s', Sem W prog true (.prog p) s s') :
    ∀ (p : Prog C O I) (s : Obs N F), left U s.result ≤ k → ∃ s', Sem W prog true (.prog p) s s'
  | .nil, s, _ => ⟨s, .nil s⟩
  | .op o p, s, h => by
    obtain ⟨s', hs⟩ := total_prog_aux k IH p { s with ns := W.exec o s.ns } h
    exact ⟨s', .op hs⟩
  | .inc i p, s, h => by
    match hf : W.find i s.cur s.ns with
    | (none, n) =>
      obtain ⟨s', hs⟩ := total_prog_aux k IH p { s with ns := n } h
      exact ⟨s', .notFound hf hs⟩
    | (some f, n) =>
      by_cases hm : f ∈ s.result
      · obtain ⟨s', hs⟩ := total_prog_aux k IH p { s with ns := n } h
        exact ⟨s', .seen rfl hf hm hs⟩
      · have hlt := left_append (hU _ _ _ _ _ hf) hm
        obtain ⟨s1, h1⟩ := IH (prog f) { ns := n, cur := f, result := s.result ++ [f] }
          (Nat.lt_of_lt_of_le hlt h)
        have hle : left U s1.result ≤ k :=
          Nat.le_trans (left_mono h1.mono) (Nat.le_trans (Nat.le_of_lt hlt) h)
        obtain ⟨s', h2⟩ := total_prog_aux k IH p { s1 with cur := s.cur } hle
        exact ⟨s', .inc hf (fun _ => hm) h1 h2⟩
  | .grp c b r p, s, h => by
    obtain ⟨v, hv⟩ := ht c s.ns
    cases v with
    | true =>
      obtain ⟨s1, h1⟩ := total_prog_aux k IH b s h
      obtain ⟨s', h2⟩ := total_prog_aux k IH p s1 (Nat.le_trans (left_mono h1.mono) h)
      exact ⟨s', .yes hv h1 h2⟩
    | false =>
      obtain ⟨s1, h1⟩ := total_rest_aux k IH r s h
      obtain ⟨s', h2⟩ := total_prog_aux k IH p s1 (Nat.le_trans (left_mono h1.mono) h)
      exact ⟨s', .no hv h1 h2⟩
theorem total_rest_aux (k : Nat)
    (IH : ∀ (p : Prog C O I) (s : Obs N F), left U s.result < k → ∃ s', Sem W prog true (.prog p) s s') :
    ∀ (r : Rest C O I) (s : Obs N F), left U s.result ≤ k → ∃ s', Sem W prog true (.rest r) s s'
  | .fin, s, _ => ⟨s, .fin s⟩
  | .elif c b r, s, h => by
    obtain ⟨v, hv⟩ := ht c s.ns
    cases v with
    | true =>
      obtain ⟨s1, h1⟩ := total_prog_aux k IH b s h
      exact ⟨s1, .elifYes hv h1⟩
    | false =>
      obtain ⟨s1, h1⟩ := total_rest_aux k IH r s h
      exact ⟨s1, .elifNo hv h1⟩
  | .els b, s, h => by
    obtain ⟨s1, h1⟩ := total_prog_aux k IH b s h
    exact ⟨s1, .els h1⟩
end

theorem sem_total (p : Prog C O I) (s : Obs N F) : ∃ s', Sem W prog true (.prog p) s s' := by
  suffices ∀ k p s, left U s.result < k → ∃ s', Sem W prog true (.prog p) s s' from
    this _ p s (Nat.lt_succ_self _)
  intro k
  induction k with
  | zero => intro p s h; omega
  | succ k ih => intro p s h; exact total_prog_aux W prog U ht hU k ih p s (by omega)
end

/-- **C36 (each file processed once)** If all files have properly nested conditionals,
no condition raises an exception and `#include` lines resolve to finitely many
files, scanning terminates and gives exactly the files (and macros) of the
standard's rule for conditionals: in every group the lines of the first branch with
a true condition are processed, the other branches have no effect, however deeply
groups are nested and whatever is included from within them.
Partial: (1) a file included a second time is not processed again
(`C36_guarded_headers` shows when this makes no difference,
`C36_counterexample_second_inclusion` that it can); (2) conditions within skipped
lines *are* evaluated, hence `Total` (`C36_counterexample_skipped_condition`). -/
theorem C36_conditionals_partial (W : World N F C O I) (prog : F → Prog C O I) (U : List F)
    (hp : ∀ f, W.read f = (prog f).lines) (ht : Total W) (hU : FindsIn W U) (n0 : N) (f : F) :
    ∃ s', Sem W prog true (.prog (prog f)) { ns := n0, cur := f, result := [f] } s' ∧
      (∀ s'', Sem W prog true (.prog (prog f)) { ns := n0, cur := f, result := [f] } s'' → s'' = s') ∧
      ∃ n1, ∀ n, n1 ≤ n → run W n (start W n0 f) = .done s' := by
  obtain ⟨s', h⟩ := sem_total W prog U ht hU (prog f) { ns := n0, cur := f, result := [f] }
  refine ⟨s', h, fun s'' h'' => h''.det h, ?_⟩
  have h1 := sem_steps W ht prog hp h [] .default [] rfl
  have e : start W n0 f = ⟨[], .default, { ns := n0, cur := f, result := [f] }, (prog f).lines ++ []⟩ := by
    simp [start, hp]
  rw [e]
  exact h1.run rfl

/-! ### Include guards -/

/-- Every file other than `root` has an include guard: its lines are
`#ifndef GUARD`, `#define GUARD`, body, `#endif`; `G f n` says that `f`'s guard is
defined; nothing undefines it. -/
structure Guarded (W : World N F C O I) (prog : F → Prog C O I) (root : F) (G : F → N → Prop) : Prop where
  shape : ∀ f, f ≠ root → ∃ c o body, prog f = .grp c (.op o body) .fin .nil ∧
    (∀ n, (G f n → W.evalC c n = some false) ∧ (¬ G f n → W.evalC c n = some true)) ∧
    ∀ n, G f (W.exec o n)
  keepOp : ∀ f o n, G f n → G f (W.exec o n)
  keepFind : ∀ f i g n, G f n → G f (W.find i g n).2
  notRoot : ∀ i g n, (W.find i g n).1 ≠ some root

/-- All files found but `x` have their guards defined. -/
def GInv (root : F) (G : F → N → Prop) (x : Option F) (s : Obs N F) : Prop :=
  ∀ f ∈ s.result, f ≠ root → some f ≠ x → G f s.ns

/-- The states of the two semantics agree, up to repetitions in the list of files. -/
def Same (s t : Obs N F) : Prop :=
  t.ns = s.ns ∧ t.cur = s.cur ∧ ∀ f, f ∈ t.result ↔ f ∈ s.result

omit [DecidableEq F] in
theorem guarded_sim {W : World N F C O I} {prog : F → Prog C O I} {root : F} {G : F → N → Prop}
    (hg : Guarded W prog root G) {blk s s'} (h : Sem W prog false blk s s') :
    (GInv root G none s ∨ ∃ f, f ≠ root ∧ GInv root G (some f) s ∧
      (blk = .prog (prog f) ∨ ∃ o body, blk = .prog (.op o body) ∧ ∀ n, G f (W.exec o n))) →
    GInv root G none s' ∧ ∀ t, Same s t → ∃ t', Sem W prog true blk t t' ∧ Same s' t' := by
  induction h with
  | nil s =>
    rintro (h | ⟨f, hf, hi, h | ⟨o, body, h, _⟩⟩)
    · exact ⟨h, fun t ht => ⟨t, .nil t, ht⟩⟩
    · obtain ⟨c, o, body, e, _⟩ := hg.shape f hf
      rw [e] at h; cases h
    · cases h
  | @op o p s s' h ih =>
    intro hpre
    have key : GInv root G none { s with ns := W.exec o s.ns } := by
      rcases hpre with hi | ⟨f, hf, hi, h | ⟨o', body, h, ho⟩⟩
      · exact fun x hx hr _ => hg.keepOp _ _ _ (hi x hx hr (by simp))
      · obtain ⟨c, o, body, e, _⟩ := hg.shape f hf
        rw [e] at h; cases h
      · cases h
        intro x hx hr _
        by_cases hxf : x = f
        · subst hxf; exact ho _
        · exact hg.keepOp _ _ _ (hi x hx hr (by simpa using hxf))
    obtain ⟨h1, h2⟩ := ih (.inl key)
    refine ⟨h1, fun t ht => ?_⟩
    obtain ⟨t', ht', hs⟩ := h2 { t with ns := W.exec o t.ns } ⟨by simp [ht.1], ht.2.1, ht.2.2⟩
    exact ⟨t', .op ht', hs⟩
  | @notFound i p s n s' hf h ih =>
    intro hpre
    have hi : GInv root G none s := by
      rcases hpre with hi | ⟨f, hf, hi, h | ⟨o', body, h, ho⟩⟩
      · exact hi
      · obtain ⟨c, o, body, e, _⟩ := hg.shape f hf
        rw [e] at h; cases h
      · cases h
    have key : GInv root G none { s with ns := n } := fun x hx hr hn => by
      have := hg.keepFind x i s.cur s.ns (hi x hx hr hn)
      rwa [hf] at this
    obtain ⟨h1, h2⟩ := ih (.inl key)
    refine ⟨h1, fun t ht => ?_⟩
    obtain ⟨t', ht', hs⟩ := h2 { t with ns := n } ⟨rfl, ht.2.1, ht.2.2⟩
    exact ⟨t', .notFound (by rw [ht.1, ht.2.1]; exact hf) ht', hs⟩
  | seen ho => cases ho
  | @inc i p s f n s1 s' hf _ h1 h2 ih1 ih2 =>
    intro hpre
    have hi : GInv root G none s := by
      rcases hpre with hi | ⟨f, hf, hi, h | ⟨o', body, h, ho⟩⟩
      · exact hi
      · obtain ⟨c, o, body, e, _⟩ := hg.shape f hf
        rw [e] at h; cases h
      · cases h
    have key : GInv root G none { s with ns := n } := fun x hx hr hn => by
      have := hg.keepFind x i s.cur s.ns (hi x hx hr hn)
      rwa [hf] at this
    have hfr : f ≠ root := fun e => hg.notRoot i s.cur s.ns (by rw [hf, e])
    by_cases hm : f ∈ s.result
    · -- the guard makes the second inclusion a no-op
      have hG : G f n := key f hm hfr (by simp)
      obtain ⟨c, o, body, e, hc, _⟩ := hg.shape f hfr
      have hs1 : s1 = { ns := n, cur := f, result := s.result ++ [f] } := by
        rw [e] at h1
        cases h1 with
        | yes hc' _ _ => rw [(hc n).1 hG] at hc'; cases hc'
        | no _ h1 h2 => cases h1; cases h2; rfl
      subst hs1
      have hi2 : GInv root G none { ns := n, cur := s.cur, result := s.result ++ [f] } := by
        intro x hx hr hn
        have : x ∈ s.result := by
          simp at hx
          rcases hx with hx | hx
          · exact hx
          · rw [hx]; exact hm
        exact key x this hr hn
      obtain ⟨h1', h2'⟩ := ih2 (.inl hi2)
      refine ⟨h1', fun t ht => ?_⟩
      obtain ⟨t', ht', hs⟩ := h2' { t with ns := n } ⟨rfl, ht.2.1, fun x => by
        simp only [List.mem_append, List.mem_singleton]
        rw [ht.2.2]
        constructor
        · exact .inl
        · rintro (hx | rfl)
          · exact hx
          · exact hm⟩
      exact ⟨t', .seen rfl (by rw [ht.1, ht.2.1]; exact hf) ((ht.2.2 f).2 hm) ht', hs⟩
    · have hi1 : GInv root G (some f) { ns := n, cur := f, result := s.result ++ [f] } := by
        intro x hx hr hn
        simp at hx
        rcases hx with hx | hx
        · exact key x hx hr (by simp)
        · exact absurd (by rw [hx]) hn
      obtain ⟨hi1', hsim1⟩ := ih1 (.inr ⟨f, hfr, hi1, .inl rfl⟩)
      obtain ⟨h1', hsim2⟩ := ih2 (.inl hi1')
      refine ⟨h1', fun t ht => ?_⟩
      obtain ⟨t1, ht1, hs1⟩ := hsim1 { ns := n, cur := f, result := t.result ++ [f] }
        ⟨rfl, rfl, fun x => by simp [ht.2.2]⟩
      obtain ⟨t', ht', hs⟩ := hsim2 { t1 with cur := t.cur } ⟨hs1.1, ht.2.1, hs1.2.2⟩
      exact ⟨t', .inc (by rw [ht.1, ht.2.1]; exact hf) (fun _ k => hm ((ht.2.2 f).1 k)) ht1 ht', hs⟩
  | @yes c b r p s s1 s' hc h1 h2 ih1 ih2 =>
    intro hpre
    obtain ⟨hi1, hsim1⟩ := ih1 (by
      rcases hpre with hi | ⟨f, hf, hi, h | ⟨o', body, h, ho⟩⟩
      · exact .inl hi
      · obtain ⟨c', o, body, e, _, ho⟩ := hg.shape f hf
        rw [e] at h; cases h
        exact .inr ⟨f, hf, hi, .inr ⟨o, body, rfl, ho⟩⟩
      · cases h)
    obtain ⟨hi2, hsim2⟩ := ih2 (.inl hi1)
    refine ⟨hi2, fun t ht => ?_⟩
    obtain ⟨t1, ht1, hs1⟩ := hsim1 t ht
    obtain ⟨t', ht', hs⟩ := hsim2 t1 hs1
    exact ⟨t', .yes (by rw [ht.1]; exact hc) ht1 ht', hs⟩
  | @no c b r p s s1 s' hc h1 h2 ih1 ih2 =>
    intro hpre
    have hi : GInv root G none s := by
      rcases hpre with hi | ⟨f, hf, hi, h | ⟨o', body, h, ho⟩⟩
      · exact hi
      · obtain ⟨c', o, body, e, hcc, ho⟩ := hg.shape f hf
        rw [e] at h; cases h
        intro x hx hr hn
        by_cases hxf : x = f
        · subst hxf
          refine Classical.byContradiction fun hG => ?_
          rw [(hcc _).2 hG] at hc
          cases hc
        · exact hi x hx hr (by simpa using hxf)
      · cases h
    obtain ⟨hi1, hsim1⟩ := ih1 (.inl hi)
    obtain ⟨hi2, hsim2⟩ := ih2 (.inl hi1)
    refine ⟨hi2, fun t ht => ?_⟩
    obtain ⟨t1, ht1, hs1⟩ := hsim1 t ht
    obtain ⟨t', ht', hs⟩ := hsim2 t1 hs1
    exact ⟨t', .no (by rw [ht.1]; exact hc) ht1 ht', hs⟩
  | fin s =>
    rintro (h | ⟨f, hf, hi, h | ⟨o, body, h, _⟩⟩)
    · exact ⟨h, fun t ht => ⟨t, .fin t, ht⟩⟩
    · cases h
    · cases h
  | elifYes hc h ih =>
    rintro (hi | ⟨f, hf, hi, h | ⟨o, body, h, _⟩⟩)
    · obtain ⟨h1, h2⟩ := ih (.inl hi)
      refine ⟨h1, fun t ht => ?_⟩
      obtain ⟨t', ht', hs⟩ := h2 t ht
      exact ⟨t', .elifYes (by rw [ht.1]; exact hc) ht', hs⟩
    · cases h
    · cases h
  | elifNo hc h ih =>
    rintro (hi | ⟨f, hf, hi, h | ⟨o, body, h, _⟩⟩)
    · obtain ⟨h1, h2⟩ := ih (.inl hi)
      refine ⟨h1, fun t ht => ?_⟩
      obtain ⟨t', ht', hs⟩ := h2 t ht
      exact ⟨t', .elifNo (by rw [ht.1]; exact hc) ht', hs⟩
    · cases h
    · cases h
  | els h ih =>
    rintro (hi | ⟨f, hf, hi, h | ⟨o, body, h, _⟩⟩)
    · obtain ⟨h1, h2⟩ := ih (.inl hi)
      refine ⟨h1, fun t ht => ?_⟩
      obtain ⟨t', ht', hs⟩ := h2 t ht
      exact ⟨t', .els ht', hs⟩
    · cases h
    · cases h

/-- **C36 (the C standard)** If every header has an include guard that nothing
undefines, scanning finds exactly the files that the standard's preprocessing
reads (a preprocessing that processes a file each time it is included),
and ends with the same macros. -/
theorem C36_guarded_headers (W : World N F C O I) (prog : F → Prog C O I)
    (hp : ∀ f, W.read f = (prog f).lines) (ht : Total W) (root : F) (G : F → N → Prop)
    (hg : Guarded W prog root G) (n0 : N) (s' : Obs N F)
    (h : Sem W prog false (.prog (prog root)) { ns := n0, cur := root, result := [root] } s') :
    ∃ t n1, (∀ n, n1 ≤ n → run W n (start W n0 root) = .done t) ∧
      t.ns = s'.ns ∧ ∀ f, f ∈ t.result ↔ f ∈ s'.result := by
  have hi : GInv root G none { ns := n0, cur := root, result := [root] } := by
    intro f hf hr; simp at hf; exact absurd hf hr
  obtain ⟨_, hsim⟩ := guarded_sim hg h (.inl hi)
  obtain ⟨t, hs, hsame⟩ := hsim { ns := n0, cur := root, result := [root] } ⟨rfl, rfl, fun _ => Iff.rfl⟩
  have h1 := sem_steps W ht prog hp hs [] .default [] rfl
  have e : start W n0 root = ⟨[], .default, { ns := n0, cur := root, result := [root] }, (prog root).lines ++ []⟩ := by
    simp [start, hp]
  obtain ⟨n1, hr⟩ := h1.run rfl
  exact ⟨t, n1, by rw [e]; exact hr, hsame.1, hsame.2.2⟩

end Verif.Cpp
