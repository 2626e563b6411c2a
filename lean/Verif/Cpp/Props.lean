import Verif.Cpp.Model
/-!
# C36: conditionals select exactly the branch of the C standard
# C37: DumbPreProcessor finds a superset
-/
namespace Verif.Cpp

variable {N F C O I : Type} [DecidableEq F]

/-- Several iterations of the loop. -/
inductive Steps (W : World N F C O I) : St N F C O I → St N F C O I → Prop
  | refl (a) : Steps W a a
  | head {a b c} (hne : a.tuples ≠ []) (h1 : step W a = some b) (h2 : Steps W b c) : Steps W a c

theorem Steps.trans {W : World N F C O I} {a b c} (h1 : Steps W a b) (h2 : Steps W b c) : Steps W a c := by
  induction h1 with
  | refl => exact h2
  | head hne h _ ih => exact .head hne h (ih h2)

theorem run_done (W : World N F C O I) (n) (st : St N F C O I) (h : st.tuples = []) :
    run W n st = .done st.obs := by
  cases n <;> simp [run, h]

theorem run_mono (W : World N F C O I) (k n) (st : St N F C O I) (o) (h : run W n st = .done o) :
    run W (n + k) st = .done o := by
  induction n generalizing st with
  | zero =>
    rw [Cpp.run.eq_def] at h
    simp only at h
    split at h
    · rename_i he
      cases h
      exact run_done W _ st (List.isEmpty_iff.1 he)
    · cases h
  | succ n ih =>
    rw [Cpp.run.eq_def] at h
    simp only at h
    split at h
    · rename_i he
      cases h
      exact run_done W _ st (List.isEmpty_iff.1 he)
    · rename_i he
      have e : n + 1 + k = (n + k) + 1 := by omega
      rw [e, Cpp.run.eq_def]
      simp only [he]
      split at h
      · cases h
      · rename_i hs
        exact ih _ h

theorem Steps.run {W : World N F C O I} {a b} (h : Steps W a b) (hb : b.tuples = []) :
    ∃ n0, ∀ n, n0 ≤ n → run W n a = .done b.obs := by
  induction h with
  | refl a => exact ⟨0, fun n _ => run_done W n a hb⟩
  | @head a b c hne h1 _ ih =>
    obtain ⟨n0, ih⟩ := ih hb
    refine ⟨n0 + 1, fun n hn => ?_⟩
    obtain ⟨n, rfl⟩ : ∃ k, n = k + 1 := ⟨n - 1, by omega⟩
    rw [Cpp.run.eq_def]
    simp only
    rw [if_neg (by simpa using hne)]
    simp only [h1]
    exact ih n (by omega)

/-- No condition raises an exception. -/
def Total (W : World N F C O I) : Prop := ∀ c n, ∃ b, W.evalC c n = some b

/-! ### Skipped lines have no effect -/

mutual
theorem skip_prog (W : World N F C O I) (ht : Total W) : ∀ (p : Prog C O I) (stack : List Table)
    (tbl : Table) (o : Obs N F) (rest : List (Line F C O I)), tbl.live = false →
    Steps W ⟨stack, tbl, o, p.lines ++ rest⟩ ⟨stack, tbl, o, rest⟩
  | .nil, stack, tbl, o, rest, _ => .refl _
  | .op x p, stack, tbl, o, rest, h => by
    refine .head (by simp [Prog.lines]) ?_ (skip_prog W ht p stack tbl o rest h)
    simp [step, Prog.lines, h]
  | .inc i p, stack, tbl, o, rest, h => by
    refine .head (by simp [Prog.lines]) ?_ (skip_prog W ht p stack tbl o rest h)
    simp [step, Prog.lines, h]
  | .grp c b r p, stack, tbl, o, rest, h => by
    obtain ⟨v, hv⟩ := ht c o.ns
    have e : (Prog.grp c b r p).lines ++ rest = (.ifc c : Line F C O I) :: (b.lines ++ (r.lines ++ (p.lines ++ rest))) := by
      simp [Prog.lines]
    rw [e]
    cases v with
    | true =>
      refine .head (by simp) (by simp [step, hv]; exact rfl) ?_
      rw [h]
      refine (skip_prog W ht b _ _ o _ rfl).trans ?_
      exact (skip_rest W ht r _ _ _ o _ rfl (.inr h)).trans (skip_prog W ht p stack tbl o rest h)
    | false =>
      refine .head (by simp) (by simp [step, hv]; exact rfl) ?_
      refine (skip_prog W ht b _ _ o _ rfl).trans ?_
      exact (skip_rest W ht r _ _ _ o _ rfl (.inr h)).trans (skip_prog W ht p stack tbl o rest h)
/-- The rest of a group whose branch was already taken, or that is itself within
skipped lines. -/
theorem skip_rest (W : World N F C O I) (ht : Total W) : ∀ (r : Rest C O I) (stack : List Table)
    (t0 tbl : Table) (o : Obs N F) (rest : List (Line F C O I)), tbl.live = false →
    ((tbl.elifStop = true ∧ tbl.els = .stop) ∨ t0.live = false) →
    Steps W ⟨t0 :: stack, tbl, o, r.lines ++ rest⟩ ⟨stack, t0, o, rest⟩
  | .fin, stack, t0, tbl, o, rest, h, h' =>
    .head (by simp [Rest.lines]) (by simp [step, Rest.lines]) (.refl _)
  | .elif c b r, stack, t0, tbl, o, rest, h, h' => by
    have e : (Rest.elif c b r).lines ++ rest = (.elif c : Line F C O I) :: (b.lines ++ (r.lines ++ rest)) := by
      simp [Rest.lines]
    rw [e]
    cases hs : tbl.elifStop with
    | true =>
      refine .head (by simp) (by simp [step, hs]; exact rfl) ?_
      refine (skip_prog W ht b _ _ o _ rfl).trans ?_
      exact skip_rest W ht r _ _ _ o _ rfl (by simpa [hs] using h')
    | false =>
      obtain ⟨v, hv⟩ := ht c o.ns
      have h0 : t0.live = false := by simpa [hs] using h'
      cases v with
      | true =>
        refine .head (by simp) (by simp [step, hs, hv]; exact rfl) ?_
        refine (skip_prog W ht b _ _ o _ (by simpa [parentLive] using h0)).trans ?_
        exact skip_rest W ht r _ _ _ o _ (by simpa [parentLive] using h0) (.inr h0)
      | false =>
        refine .head (by simp) (by simp [step, hs, hv]; exact rfl) ?_
        refine (skip_prog W ht b _ _ o _ h).trans ?_
        exact skip_rest W ht r _ _ _ o _ h (.inr h0)
  | .els b, stack, t0, tbl, o, rest, h, h' => by
    have e : (Rest.els b).lines ++ rest = (.els : Line F C O I) :: (b.lines ++ (.endif :: rest)) := by
      simp [Rest.lines]
    rw [e]
    have fin : ∀ t : Table, Steps W ⟨t0 :: stack, t, o, (.endif : Line F C O I) :: rest⟩ ⟨stack, t0, o, rest⟩ :=
      fun t => .head (by simp) (by simp [step]) (.refl _)
    cases hs : tbl.els with
    | pass =>
      refine .head (by simp) (by simp [step, hs]; exact rfl) ?_
      exact (skip_prog W ht b _ _ o _ h).trans (fin _)
    | stop =>
      refine .head (by simp) (by simp [step, hs]; exact rfl) ?_
      exact (skip_prog W ht b _ _ o _ rfl).trans (fin _)
    | start =>
      have h0 : t0.live = false := by simpa [hs] using h'
      refine .head (by simp) (by simp [step, hs]; exact rfl) ?_
      exact (skip_prog W ht b _ _ o _ (by simpa [parentLive] using h0)).trans (fin _)
end

/-- The rest of a group after a taken branch, whatever the table says about lines. -/
theorem skip_after_taken (W : World N F C O I) (ht : Total W) (r : Rest C O I) (stack : List Table)
    (t0 tbl : Table) (o : Obs N F) (rest : List (Line F C O I))
    (h : tbl.elifStop = true ∧ tbl.els = .stop) :
    Steps W ⟨t0 :: stack, tbl, o, r.lines ++ rest⟩ ⟨stack, t0, o, rest⟩ := by
  cases r with
  | fin => exact .head (by simp [Rest.lines]) (by simp [step, Rest.lines]) (.refl _)
  | elif c b r =>
    have e : (Rest.elif c b r).lines ++ rest = (.elif c : Line F C O I) :: (b.lines ++ (r.lines ++ rest)) := by
      simp [Rest.lines]
    rw [e]
    refine .head (by simp) (by simp [step, h.1]; exact rfl) ?_
    refine (skip_prog W ht b _ _ o _ rfl).trans ?_
    exact skip_rest W ht r _ _ _ o _ rfl (.inl ⟨rfl, h.2⟩)
  | els b =>
    have e : (Rest.els b).lines ++ rest = (.els : Line F C O I) :: (b.lines ++ (.endif :: rest)) := by
      simp [Rest.lines]
    rw [e]
    refine .head (by simp) (by simp [step, h.2]; exact rfl) ?_
    refine (skip_prog W ht b _ _ o _ rfl).trans ?_
    exact .head (by simp) (by simp [step]) (.refl _)

/-! ### The machine follows the standard's rule -/

theorem sem_steps (W : World N F C O I) (ht : Total W) (prog : F → Prog C O I)
    (hp : ∀ f, W.read f = (prog f).lines) {blk : Blk C O I} {s s' : Obs N F}
    (h : Sem W prog true blk s s') :
    match blk with
    | .prog p => ∀ stack tbl rest, tbl.live = true →
        Steps W ⟨stack, tbl, s, p.lines ++ rest⟩ ⟨stack, tbl, s', rest⟩
    | .rest r => ∀ stack t0 tbl rest, t0.live = true → tbl.live = false → tbl.elifStop = false → tbl.els = .start →
        Steps W ⟨t0 :: stack, tbl, s, r.lines ++ rest⟩ ⟨stack, t0, s', rest⟩ := by
  induction h with
  | nil s => intro stack tbl rest _; exact .refl _
  | op h ih =>
    intro stack tbl rest hl
    refine .head (by simp [Prog.lines]) ?_ (ih stack tbl rest hl)
    simp [step, Prog.lines, hl]
  | notFound hf h ih =>
    intro stack tbl rest hl
    refine .head (by simp [Prog.lines]) ?_ (ih stack tbl rest hl)
    simp [step, Prog.lines, hl, hf]
  | seen ho hf hm h ih =>
    intro stack tbl rest hl
    refine .head (by simp [Prog.lines]) ?_ (ih stack tbl rest hl)
    simp [step, Prog.lines, hl, hf, hm]
  | @inc i p s f n s1 s' hf hm h1 h2 ih1 ih2 =>
    intro stack tbl rest hl
    refine .head (b := ⟨stack, tbl, { s with ns := n, result := s.result ++ [f] },
      .cur f :: (W.read f ++ .cur s.cur :: (p.lines ++ rest))⟩) (by simp [Prog.lines]) ?_ ?_
    · simp [step, Prog.lines, hl, hf, hm rfl]
    refine .head (by simp) rfl ?_
    rw [hp]
    refine (ih1 stack tbl _ hl).trans ?_
    refine .head (by simp) rfl ?_
    exact ih2 stack tbl rest hl
  | @yes c b r p s s1 s' hc h1 h2 ih1 ih2 =>
    intro stack tbl rest hl
    have e : (Prog.grp c b r p).lines ++ rest = (.ifc c : Line F C O I) :: (b.lines ++ (r.lines ++ (p.lines ++ rest))) := by
      simp [Prog.lines]
    rw [e]
    refine .head (by simp) (by simp [step, hc]; exact rfl) ?_
    refine (ih1 _ { live := tbl.live, elifStop := true, els := .stop } _ hl).trans ?_
    refine (skip_after_taken W ht r _ _ _ _ _ ⟨rfl, rfl⟩).trans ?_
    exact ih2 stack tbl rest hl
  | @no c b r p s s1 s' hc h1 h2 ih1 ih2 =>
    intro stack tbl rest hl
    have e : (Prog.grp c b r p).lines ++ rest = (.ifc c : Line F C O I) :: (b.lines ++ (r.lines ++ (p.lines ++ rest))) := by
      simp [Prog.lines]
    rw [e]
    refine .head (by simp) (by simp [step, hc]; exact rfl) ?_
    refine (skip_prog W ht b _ _ _ _ rfl).trans ?_
    refine (ih1 _ _ _ _ hl rfl rfl rfl).trans ?_
    exact ih2 stack tbl rest hl
  | fin s =>
    intro stack t0 tbl rest _ _ _ _
    exact .head (by simp [Rest.lines]) (by simp [step, Rest.lines]) (.refl _)
  | @elifYes c b r s s' hc h ih =>
    intro stack t0 tbl rest h0 hlive hs he
    have e : (Rest.elif c b r).lines ++ rest = (.elif c : Line F C O I) :: (b.lines ++ (r.lines ++ rest)) := by
      simp [Rest.lines]
    rw [e]
    refine .head (by simp) (by simp [step, hs, hc]; exact rfl) ?_
    refine (ih _ _ _ (by simpa [parentLive] using h0)).trans ?_
    exact skip_after_taken W ht r _ _ _ _ _ ⟨rfl, rfl⟩
  | @elifNo c b r s s' hc h ih =>
    intro stack t0 tbl rest h0 hlive hs he
    have e : (Rest.elif c b r).lines ++ rest = (.elif c : Line F C O I) :: (b.lines ++ (r.lines ++ rest)) := by
      simp [Rest.lines]
    rw [e]
    refine .head (by simp) (by simp [step, hs, hc]; exact rfl) ?_
    refine (skip_prog W ht b _ _ _ _ hlive).trans ?_
    exact ih _ _ _ _ h0 hlive hs he
  | @els b s s' h ih =>
    intro stack t0 tbl rest h0 hlive hs he
    have e : (Rest.els b).lines ++ rest = (.els : Line F C O I) :: (b.lines ++ (.endif :: rest)) := by
      simp [Rest.lines]
    rw [e]
    refine .head (by simp) (by simp [step, he]; exact rfl) ?_
    refine (ih _ _ _ (by simpa [parentLive] using h0)).trans ?_
    exact .head (by simp) (by simp [step]) (.refl _)

/-- **C36 (stray directives)** A `#elif`, `#else` or `#endif` without `#if` does not switch off the lines after it (the compiler would reject the file). -/
theorem C36_stray_directives (W : World N F C O I) (o : Obs N F) (rest : List (Line F C O I)) (l : Line F C O I)
    (hl : l = .els ∨ l = .endif ∨ ∃ c, l = .elif c ∧ (W.evalC c o.ns).isSome) :
    ∃ st', step W { stack := [], tbl := .default, obs := o, tuples := l :: rest } = some st' ∧ st'.tbl.live = true ∧ st'.obs = o ∧
      st'.tuples = rest ∧ st'.stack = [] := by
  rcases hl with rfl | rfl | ⟨c, rfl, hc⟩
  · exact ⟨_, rfl, rfl, rfl, rfl, rfl⟩
  · exact ⟨_, rfl, rfl, rfl, rfl, rfl⟩
  · obtain ⟨b, hb⟩ := Option.isSome_iff_exists.1 hc
    cases b
    · exact ⟨_, by simp [step, Table.default, hb]; rfl, rfl, rfl, rfl, rfl⟩
    · exact ⟨_, by simp [step, Table.default, hb]; rfl, rfl, rfl, rfl, rfl⟩

end Verif.Cpp
