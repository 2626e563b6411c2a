import Verif.Build.Model

/-!
# C15, C19: schedule independence, incremental builds equal clean builds
-/

namespace Verif.Build

open Verif.Sig

set_option linter.unusedSectionVars false

variable {V B K A : Type} [DecidableEq V] [DecidableEq K]

/-! ## Specification -/

/-- `Clean M D src v b`: in a build from scratch of project `D` with source contents `src`, node `v` has content `b`.  Sources have the given content;
a target has what its action makes of the contents of its dependencies, which are those the scan finds. -/
inductive Clean (M : Sem B K A) (D : Desc V B A) (src : Files V B) : V → Option B → Prop
  | source {v} : D v = none → Clean M D src v (src v)
  | target {v} {sc : Scan V B A} (g : Files V B) : D v = some sc →
      (∀ d ∈ (sc.result g).children, Clean M D src d (g d)) →
      Clean M D src v (some (M.run (sc.result g).action ((sc.result g).children.map fun c => M.see (g c))))

/-- Assumptions on hash and action signatures: no collisions; the action signature determines what the action does. -/
structure Sem.Faithful (M : Sem B K A) : Prop where
  hash_inj : ∀ a b, M.hash a = M.hash b → a = b
  sig_run : ∀ a b, M.sig a = M.sig b → M.run a = M.run b

/-- Assumptions on a project: what the scanner looks at are dependencies of the target; `sources` has no duplicates (`_add_child`); no node is both
`Depends()` and `Ignore()` (see C16). -/
def WF (D : Desc V B A) : Prop :=
  ∀ t sc, D t = some sc → ∀ fs : Files V B,
    (∀ d ∈ sc.asked fs, d ∈ (sc.result fs).children) ∧ (sc.result fs).sources.Nodup ∧
    ∀ x ∈ (sc.result fs).depends, x ∉ (sc.result fs).ignore

/-- Histories considered: actions that fail leave no file behind, the process is not killed, the user edits only files SCons never built
(but may delete any). -/
def Legal (S : St V B K A) : Lab V B → Prop
  | .fail _ left => left = none
  | .kill _ => False
  | .edit v b => b = none ∨ (S.disk v).bactsig = none
  | _ => True

/-! ## The scan -/

omit [DecidableEq V] in
theorem result_eq {sc : Scan V B A} {g h : Files V B} (hagree : ∀ d ∈ sc.asked g, d ∈ sc.asked h → g d = h d) :
    sc.result g = sc.result h ∧ sc.asked g = sc.asked h := by
  induction sc with
  | found l => exact ⟨rfl, rfl⟩
  | look d k ih =>
    have hd : g d = h d := hagree d (by simp [Scan.asked]) (by simp [Scan.asked])
    simp only [Scan.result, Scan.asked]
    rw [← hd]
    obtain ⟨h1, h2⟩ := ih (g d) (fun x h1 h2 => hagree x (by simp [Scan.asked, h1]) (by simp [Scan.asked, ← hd, h2]))
    exact ⟨h1, by rw [h2]⟩

/-- The clean content is unique. -/
theorem Clean.unique {M : Sem B K A} {D : Desc V B A} (hD : WF D) {src : Files V B} {v : V} {b c : Option B}
    (h1 : Clean M D src v b) (h2 : Clean M D src v c) : b = c := by
  induction h1 generalizing c with
  | source hv =>
    cases h2 with
    | source => rfl
    | target g hs _ => rw [hv] at hs; cases hs
  | @target v sc g hs _ ih =>
    cases h2 with
    | source hv => rw [hv] at hs; cases hs
    | @target _ sc' g' hs' hc' =>
      rw [hs] at hs'; cases hs'
      obtain ⟨e, -⟩ := result_eq (sc := sc) (g := g) (h := g') (fun d h1 h2 =>
        ih d ((hD v sc hs g).1 d h1) (hc' d ((hD v sc hs g').1 d h2)))
      rw [e] at ih ⊢
      congr 2
      apply List.map_congr_left
      intro d hd
      rw [ih d hd (hc' d hd)]

/-! ## The content decider in these worlds -/

theorem drift_none (M : Sem B K A) (S : St V B K A) : DriftOK (S.world M) := by
  intro c k hk
  have : (S.world M).driftCsig c = none := by simp [World.driftCsig, St.world]
  rw [this] at hk; cases hk

theorem getCsig_frame (W : World V B K) (I : Infos V K) (v : V) :
    (∀ x, x ≠ v → (W.getCsig I v).2 x = I x) ∧ ((W.getCsig I v).2 v).csig.isSome ∧
      ∀ x, (I x).csig.isSome → ((W.getCsig I v).2 x).csig.isSome := by
  unfold World.getCsig
  split
  · rename_i k hk; exact ⟨fun _ _ => rfl, by simp [hk], fun _ h => h⟩
  · refine ⟨fun x hx => by simp [setCsig, hx], by simp [setCsig], fun x hx => ?_⟩
    simp only [setCsig]
    split
    · rfl
    · exact hx

theorem ask_frame (W : World V B K) (I : Infos V K) (v t : V) (p : Option (NInfo K)) (bi : BInfo V K) :
    (∀ x, x ≠ v → (W.ask .content I v t p bi).2 x = I x) ∧ ((W.ask .content I v t p bi).2 v).csig.isSome ∧
      ∀ x, (I x).csig.isSome → ((W.ask .content I v t p bi).2 x).csig.isSome := by
  have : (W.ask .content I v t p bi).2 = (W.getCsig I v).2 := by
    simp only [World.ask, World.changedContent]
    split <;> rfl
  rw [this]
  exact getCsig_frame W I v

theorem loop_frame (W : World V B K) (t : V) (bi : BInfo V K) (cs : List V) :
    ∀ (ps : List (Option (NInfo K))) (I : Infos V K), cs.length ≤ ps.length →
      (∀ x, x ∉ cs → (W.changedLoop .content t bi I cs ps).2 x = I x) ∧
      (∀ x ∈ cs, ((W.changedLoop .content t bi I cs ps).2 x).csig.isSome) ∧
      ∀ x, (I x).csig.isSome → ((W.changedLoop .content t bi I cs ps).2 x).csig.isSome := by
  induction cs with
  | nil => intro ps I _; simp [World.changedLoop]
  | cons c cs ih =>
    intro ps I hl
    cases ps with
    | nil => simp at hl
    | cons p ps =>
      obtain ⟨a1, a2, a3⟩ := ask_frame W I c t p bi
      obtain ⟨b1, b2, b3⟩ := ih ps (W.ask .content I c t p bi).2 (by simpa using hl)
      simp only [World.changedLoop]
      refine ⟨fun x hx => ?_, fun x hx => ?_, fun x hx => b3 x (a3 x hx)⟩
      · simp only [List.mem_cons, not_or] at hx
        rw [b1 x hx.2, a1 x hx.1]
      · rcases List.mem_cons.1 hx with rfl | hx
        · exact b3 x a2
        · exact b2 x hx

theorem uptodate_frame (W : World V B K) (t : V) (T : Target V K) (I : Infos V K) :
    (∀ x, x ∉ T.children → (W.isUpToDate .content t T I).2 x = I x) ∧
    (∀ x ∈ T.children, ((W.isUpToDate .content t T I).2 x).csig.isSome) ∧
    ∀ x, (I x).csig.isSome → ((W.isUpToDate .content t T I).2 x).csig.isSome :=
  loop_frame W t _ T.children _ I (by simp; omega)

theorem uptodate_ok {W : World V B K} (hD : DriftOK W) {t : V} {T : Target V K} {I : Infos V K} (hI : InfosOK W I) :
    InfosOK W (W.isUpToDate .content t T I).2 :=
  (loop_spec (d := .content) hD t (W.stored t).binfo T.children (by simp) _ I hI).2

/-! ## The invariant -/

/-- The database is truthful: where a file that is not being built and an entry for it exist, the file is what the recorded action makes of the recorded
contents. -/
def DbGood (M : Sem B K A) (S : St V B K A) : Prop :=
  ∀ t b k, S.running t = none → S.fs t = some b → (S.db t).bactsig = some k →
    ∃ a vals, M.sig a = k ∧ (S.db t).sigs.map (·.csig) = vals.map (fun v => some (M.hash v)) ∧ b = M.run a vals

/-- What holds during a run that started with the source contents `src`. -/
structure InRun (M : Sem B K A) (D : Desc V B A) (src : Files V B) (S : St V B K A) : Prop where
  infos : InfosOK (S.world M) S.infos
  srcs : ∀ v, D v = none → S.fs v = src v
  done : ∀ v, S.done v → Clean M D src v (S.fs v)
  run : ∀ t r, S.running t = some r → ¬ S.done t ∧ (S.infos t).csig = none ∧
    (∃ sc, D t = some sc ∧ r.leaf = sc.result S.fs) ∧
    ∀ c ∈ r.leaf.children, S.done c ∧ (S.infos c).csig.isSome ∧ ∀ snap ∈ r.log, snap c = S.fs c

structure Inv (M : Sem B K A) (D : Desc V B A) (S : St V B K A) : Prop where
  good : DbGood M S
  idle : S.busy = false → S.db = S.disk ∧ ∀ t, S.running t = none
  busy : S.busy = true → ∃ src, InRun M D src S

theorem leaf_children (M : Sem B K A) (l : Leaf V A) : (l.target M).children = l.children := rfl

/-- writing an unfinished node does not disturb the run -/
theorem InRun.write {M : Sem B K A} {D : Desc V B A} (hD : WF D) {src : Files V B} {S : St V B K A} (h : InRun M D src S) {t : V} {sc : Scan V B A}
    (ht : D t = some sc) (hnd : ¬ S.done t) (b : Option B) :
    (∀ v, D v = none → (S.write t b).fs v = src v) ∧ (∀ v, S.done v → (S.write t b).fs v = S.fs v) ∧
    (∀ x r, x ≠ t → (S.write t b).running x = some r → ¬ S.done x ∧ (S.infos x).csig = none ∧
      (∃ sc, D x = some sc ∧ r.leaf = sc.result (S.write t b).fs) ∧
      ∀ c ∈ r.leaf.children, S.done c ∧ (S.infos c).csig.isSome ∧ ∀ snap ∈ r.log, snap c = (S.write t b).fs c) := by
  have hne : ∀ v, S.done v → v ≠ t := fun v hv e => hnd (e ▸ hv)
  have hsame : ∀ v, S.done v → (S.write t b).fs v = S.fs v := fun v hv => by simp [St.write, hne v hv]
  refine ⟨fun v hv => ?_, hsame, fun x r hx hr => ?_⟩
  · have : v ≠ t := fun e => by rw [e, ht] at hv; cases hv
    simp [St.write, this, h.srcs v hv]
  · simp only [St.write] at hr
    cases hr0 : S.running x with
    | none => rw [hr0] at hr; cases hr
    | some r0 =>
      rw [hr0] at hr
      simp only [Option.map_some, Option.some.injEq] at hr
      obtain ⟨g1, g3, ⟨sc', g4, g5⟩, g6⟩ := h.run x r0 hr0
      have hl : r.leaf = r0.leaf := by rw [← hr]
      refine ⟨g1, g3, ⟨sc', g4, ?_⟩, ?_⟩
      · rw [hl, g5]
        refine (result_eq fun d h1 _ => ?_).1
        refine (hsame d (g6 d ?_).1).symm
        rw [g5]; exact (hD x sc' g4 S.fs).1 d h1
      · rw [hl]
        intro c hc
        obtain ⟨k1, k2, k3⟩ := g6 c hc
        refine ⟨k1, k2, ?_⟩
        rw [← hr]
        intro snap hs
        rcases List.mem_cons.1 hs with rfl | hs
        · simp [St.write]
        · rw [k3 snap hs, hsame c k1]

theorem map_hash_inj {M : Sem B K A} (hM : M.Faithful) {l1 l2 : List B}
    (h : l1.map (fun v => some (M.hash v)) = l2.map (fun v => some (M.hash v))) : l1 = l2 :=
  List.map_injective_iff.2 (fun a b e => hM.hash_inj a b (Option.some.inj e)) h

theorem Inv.step {M : Sem B K A} (hM : M.Faithful) {D : Desc V B A} (hD : WF D) {S S' : St V B K A} {l : Lab V B} (h : Inv M D S)
    (hl : Legal S l) (hs : Step M D S l S') : Inv M D S' := by
  cases hs with
  | begin hb =>
    obtain ⟨g1, g2⟩ := h.idle hb
    refine ⟨?_, by simp, fun _ => ⟨S.fs, ⟨?_, fun _ _ => rfl, fun v hv => hv.elim, fun t r hr => by simp at hr⟩⟩⟩
    · intro t b k _ hb hk
      have hk : (S.disk t).bactsig = some k := hk
      rw [← g1] at hk
      have := h.good t b k (g2 t) hb hk
      rw [g1] at this; exact this
    · intro c k hk; cases hk
  | source v hb hv hnd =>
    obtain ⟨src, hR⟩ := h.busy hb
    refine ⟨h.good, by simp [hb], fun _ => ⟨src, ⟨hR.infos, hR.srcs, ?_, ?_⟩⟩⟩
    · rintro x (rfl | hx)
      · have := hR.srcs x hv
        show Clean M D src x (S.fs x)
        rw [this]; exact .source hv
      · exact hR.done x hx
    · intro t r hr
      obtain ⟨k1, k3, ⟨sc, k4, k5⟩, k6⟩ := hR.run t r hr
      refine ⟨?_, k3, ⟨sc, k4, k5⟩, fun c hc => ⟨Or.inr (k6 c hc).1, (k6 c hc).2⟩⟩
      rintro (rfl | h2)
      · rw [hv] at k4; cases k4
      · exact k1 h2
  | check t sc hr =>
    obtain ⟨hb, hsc, hnd, hnr, hch⟩ := hr
    obtain ⟨src, hR⟩ := h.busy hb
    obtain ⟨f1, f2, f3⟩ := uptodate_frame (S.world M) t ((sc.result S.fs).target M) S.infos
    have hok := uptodate_ok (drift_none M S) hR.infos (t := t) (T := (sc.result S.fs).target M)
    generalize hI' : ((S.world M).isUpToDate .content t ((sc.result S.fs).target M) S.infos).2 = I' at *
    refine ⟨h.good, by simp [hb], fun _ => ⟨src, ⟨hok, hR.srcs, hR.done, ?_⟩⟩⟩
    intro x r hr
    obtain ⟨k1, k3, k4, k5⟩ := hR.run x r hr
    refine ⟨k1, ?_, k4, fun c hc => ⟨(k5 c hc).1, f3 c (k5 c hc).2.1, (k5 c hc).2.2⟩⟩
    show (I' x).csig = none
    rw [f1 x (fun hx => k1 (hch x hx))]; exact k3
  | current t sc hr hck hup =>
    obtain ⟨hb, hsc, hnd, hnr, hch⟩ := hr
    obtain ⟨src, hR⟩ := h.busy hb
    have hup' := hup
    rw [C18_up_to_date_iff rfl hR.infos (drift_none M S) (by simp)] at hup'
    obtain ⟨⟨b, hbt⟩, u2, u3, u4⟩ := hup'
    obtain ⟨w1, w2, w3⟩ := hD t sc hsc S.fs
    have hbt : S.fs t = some b := hbt
    -- the file is what the present action makes of the present contents
    have hrun : b = M.run (sc.result S.fs).action ((sc.result S.fs).children.map fun c => M.see (S.fs c)) := by
      obtain ⟨a, vals, e1, e2, e3⟩ := h.good t b _ hnr hbt u3
      have e4 : (S.db t).sigs.map (·.csig) = (sc.result S.fs).children.map (fun c => some (M.hash (M.see (S.fs c)))) := by
        change (sc.result S.fs).children.length = (S.db t).sigs.length at u2
        change ∀ p ∈ (sc.result S.fs).children.zip (S.db t).sigs, _ at u4
        clear e2
        generalize (S.db t).sigs = sg at *
        generalize (sc.result S.fs).children = ch at *
        clear w1 hck
        induction ch generalizing sg with
        | nil => cases sg with
          | nil => rfl
          | cons x xs => simp at u2
        | cons c cs ih =>
          cases sg with
          | nil => simp at u2
          | cons x xs =>
            simp only [List.map_cons, List.cons.injEq]
            refine ⟨?_, ih xs (fun y hy => hch y (by simp [hy])) (by simpa using u2) (fun p hp => u4 p (by simp [hp]))⟩
            obtain ⟨n, n1, n2⟩ := u4 (c, x) (by simp)
            simp only [consulted, Option.some.injEq] at n1
            rw [n1, n2]; rfl
      have e5 : vals = (sc.result S.fs).children.map (fun c => M.see (S.fs c)) := by
        apply map_hash_inj hM
        rw [← e2, e4, List.map_map]; rfl
      rw [e3, e5, hM.sig_run a _ e1]
    refine ⟨?_, by simp [hb], fun _ => ⟨src, ⟨hR.infos, hR.srcs, ?_, ?_⟩⟩⟩
    · intro x b' k hxr hx hk
      by_cases hxt : x = t
      · subst hxt
        have hx : S.fs x = some b' := hx
        simp only [if_true] at hk ⊢
        rw [hbt] at hx; cases hx
        refine ⟨(sc.result S.fs).action, (sc.result S.fs).children.map (fun c => M.see (S.fs c)), ?_, ?_, hrun⟩
        · simpa [Target.binfo, Leaf.target] using hk
        · rw [binfo_sigs, recorded_eq_children w2 w3, leaf_children, List.map_map, List.map_map]
          apply List.map_congr_left
          intro c hc
          obtain ⟨k', hk'⟩ := Option.isSome_iff_exists.1 (hck c hc)
          simp only [Function.comp_apply]
          rw [hk', hR.infos c k' hk']; rfl
      · simp only [hxt, if_false] at hk ⊢
        exact h.good x b' k hxr hx hk
    · rintro x (rfl | hx)
      · show Clean M D src x (S.fs x)
        rw [hbt, hrun]
        exact .target S.fs hsc (fun d hd => hR.done d (hch d hd))
      · exact hR.done x hx
    · intro x r hr
      have hr : S.running x = some r := hr
      obtain ⟨k1, k3, k4, k5⟩ := hR.run x r hr
      refine ⟨?_, k3, k4, fun c hc => ⟨Or.inr (k5 c hc).1, (k5 c hc).2⟩⟩
      rintro (rfl | h2)
      · rw [hnr] at hr; cases hr
      · exact k1 h2
  | start t sc hr hck =>
    obtain ⟨hb, hsc, hnd, hnr, hch⟩ := hr
    obtain ⟨src, hR⟩ := h.busy hb
    obtain ⟨w1, w2, w3⟩ := hR.write hD hsc hnd none
    have hct : ∀ c ∈ (sc.result S.fs).children, c ≠ t := fun c hc e => hnd (e ▸ hch c hc)
    have hres : sc.result S.fs = sc.result (S.write t none).fs :=
      (result_eq fun d h1 _ => (w2 d (hch d ((hD t sc hsc S.fs).1 d h1))).symm).1
    refine ⟨?_, by simp [St.write, hb], fun _ => ⟨src, ⟨?_, w1, ?_, ?_⟩⟩⟩
    · intro x b k hxr hx hk
      have hxt : x ≠ t := by rintro rfl; simp [St.write] at hx
      simp only [St.write, hxt, if_false, Option.map_eq_none_iff] at hx hk hxr ⊢
      exact h.good x b k hxr hx hk
    · intro c k hc
      simp only at hc
      split at hc
      · cases hc
      · rename_i hct
        rw [hR.infos c k hc]
        simp [World.diskCsig, St.world, St.write, hct]
    · intro x hx
      have hx : S.done x := hx
      show Clean M D src x ((S.write t none).fs x)
      rw [w2 x hx]; exact hR.done x hx
    · intro x r hr
      by_cases hxt : x = t
      · subst hxt
        simp only [if_true, Option.some.injEq] at hr
        subst hr
        refine ⟨hnd, by simp, ⟨sc, hsc, hres⟩, ?_⟩
        intro c hc
        refine ⟨hch c hc, ?_, ?_⟩
        · simp only [hct c hc, if_false]; exact hck c hc
        · intro snap hs
          simp only [List.mem_singleton] at hs
          rw [hs]
      · simp only [hxt, if_false] at hr
        obtain ⟨k1, k3, k4, k5⟩ := w3 x r hxt hr
        refine ⟨k1, ?_, k4, fun c hc => ⟨(k5 c hc).1, ?_, (k5 c hc).2.2⟩⟩
        · simp only [hxt, if_false]
          exact k3
        · have : c ≠ t := fun e => hnd (e ▸ (k5 c hc).1)
          simp only [this, if_false]
          exact (k5 c hc).2.1
  | scribble t r b hb hr =>
    obtain ⟨src, hR⟩ := h.busy hb
    obtain ⟨k1, k3, ⟨sc, hsc, hleaf⟩, k5⟩ := hR.run t r hr
    obtain ⟨w1, w2, w3⟩ := hR.write hD hsc k1 b
    refine ⟨?_, by simp [St.write, hb], fun _ => ⟨src, ⟨?_, w1, ?_, ?_⟩⟩⟩
    · intro x b k hxr hx hk
      have hxt : x ≠ t := by rintro rfl; simp [St.write, hr] at hxr
      simp only [St.write, hxt, if_false, Option.map_eq_none_iff] at hx hk hxr ⊢
      exact h.good x b k hxr hx hk
    · intro c k hc
      have hc' : (S.infos c).csig = some k := hc
      have hct : c ≠ t := by intro e; rw [e, k3] at hc'; cases hc'
      rw [hR.infos c k hc']
      simp [World.diskCsig, St.world, St.write, hct]
    · intro x hx
      have hx : S.done x := hx
      rw [w2 x hx]; exact hR.done x hx
    · intro x r' hr'
      by_cases hxt : x = t
      · subst hxt
        have hne : ∀ c, S.done c → c ≠ x := fun c hc e => k1 (e ▸ hc)
        simp only [St.write, hr, Option.map_some, Option.some.injEq] at hr'
        subst hr'
        refine ⟨k1, k3, ⟨sc, hsc, ?_⟩, ?_⟩
        · simp only
          rw [hleaf]
          refine (result_eq fun d h1 _ => ?_).1
          refine (w2 d (k5 d ?_).1).symm
          rw [hleaf]; exact (hD x sc hsc S.fs).1 d h1
        · intro c hc
          obtain ⟨j1, j2, j3⟩ := k5 c hc
          refine ⟨j1, j2, ?_⟩
          intro snap hs
          rcases List.mem_cons.1 hs with rfl | hs
          · simp [St.write]
          · rw [j3 snap hs, w2 c j1]
      · exact w3 x r' hxt hr'
  | finish t r view hb hr hview =>
    obtain ⟨src, hR⟩ := h.busy hb
    obtain ⟨k1, k3, ⟨sc, hsc, hleaf⟩, k5⟩ := hR.run t r hr
    have hv : (r.leaf.children.map fun c => M.see (view c)) = r.leaf.children.map fun c => M.see (S.fs c) := by
      apply List.map_congr_left
      intro c hc
      obtain ⟨snap, hs, e⟩ := hview c hc
      rw [e, (k5 c hc).2.2 snap hs]
    rw [hv]
    generalize hb' : M.run r.leaf.action (r.leaf.children.map fun c => M.see (S.fs c)) = b
    obtain ⟨w1, w2, w3⟩ := hR.write hD hsc k1 (some b)
    obtain ⟨-, d2, d3⟩ := hD t sc hsc S.fs
    rw [← hleaf] at d2 d3
    have hct : ∀ c, S.done c → c ≠ t := fun c hc e => k1 (e ▸ hc)
    refine ⟨?_, by simp [St.write, hb], fun _ => ⟨src, ⟨?_, w1, ?_, ?_⟩⟩⟩
    · intro x b' k hxr hx hk
      by_cases hxt : x = t
      · subst hxt
        simp only [if_true] at hk ⊢
        simp only [St.write, if_true, Option.some.injEq] at hx
        refine ⟨r.leaf.action, r.leaf.children.map (fun c => M.see (S.fs c)), ?_, ?_, by rw [← hx, hb']⟩
        · simpa [Target.binfo, Leaf.target] using hk
        · rw [binfo_sigs, recorded_eq_children d2 d3, leaf_children, List.map_map, List.map_map]
          apply List.map_congr_left
          intro c hc
          obtain ⟨k', hk'⟩ := Option.isSome_iff_exists.1 (k5 c hc).2.1
          simp only [Function.comp_apply]
          rw [hk', hR.infos c k' hk']; rfl
      · simp only [hxt, if_false] at hk ⊢
        simp only [St.write, hxt, if_false, Option.map_eq_none_iff] at hx hxr
        exact h.good x b' k hxr hx hk
    · intro c k hc
      simp only at hc
      split at hc
      · rename_i e; subst e
        simp only [Option.some.injEq] at hc
        rw [← hc]
        simp [World.diskCsig, St.world, St.write]
      · rename_i e
        rw [hR.infos c k hc]
        simp [World.diskCsig, St.world, St.write, e]
    · rintro x (rfl | hx)
      · show Clean M D src x ((S.write x (some b)).fs x)
        have : (S.write x (some b)).fs x = some b := by simp [St.write]
        rw [this, ← hb', hleaf]
        refine .target S.fs hsc (fun d hd => hR.done d (k5 d ?_).1)
        rw [hleaf]; exact hd
      · show Clean M D src x ((S.write t (some b)).fs x)
        rw [w2 x hx]; exact hR.done x hx
    · intro x r' hr'
      by_cases hxt : x = t
      · subst hxt; simp at hr'
      · simp only [hxt, if_false] at hr'
        obtain ⟨j1, j3, j4, j5⟩ := w3 x r' hxt hr'
        refine ⟨?_, by simpa [hxt] using j3, j4, fun c hc => ⟨Or.inr (j5 c hc).1, ?_, (j5 c hc).2.2⟩⟩
        · rintro (h2 | h2)
          · exact hxt h2
          · exact j1 h2
        · have := hct c (j5 c hc).1
          simp only [this, if_false]
          exact (j5 c hc).2.1
  | fail t r left hb hr =>
    simp only [Legal] at hl
    subst hl
    obtain ⟨src, hR⟩ := h.busy hb
    obtain ⟨k1, k3, ⟨sc, hsc, hleaf⟩, k5⟩ := hR.run t r hr
    obtain ⟨w1, w2, w3⟩ := hR.write hD hsc k1 none
    refine ⟨?_, by simp [St.write, hb], fun _ => ⟨src, ⟨?_, w1, ?_, ?_⟩⟩⟩
    · intro x b k hxr hx hk
      have hxt : x ≠ t := by rintro rfl; simp [St.write] at hx
      simp only [St.write, hxt, if_false, Option.map_eq_none_iff] at hx hk hxr ⊢
      exact h.good x b k hxr hx hk
    · intro c k hc
      have hc' : (S.infos c).csig = some k := hc
      have hct : c ≠ t := by intro e; rw [e, k3] at hc'; cases hc'
      rw [hR.infos c k hc']
      simp [World.diskCsig, St.world, St.write, hct]
    · intro x hx
      have hx : S.done x := hx
      show Clean M D src x ((S.write t none).fs x)
      rw [w2 x hx]; exact hR.done x hx
    · intro x r' hr'
      by_cases hxt : x = t
      · subst hxt; simp at hr'
      · simp only [hxt, if_false] at hr'
        exact w3 x r' hxt hr'
  | finishRun hb hr =>
    exact ⟨h.good, fun _ => ⟨rfl, hr⟩, by simp⟩
  | kill left hb => exact hl.elim
  | edit v b hb =>
    obtain ⟨g1, g2⟩ := h.idle hb
    refine ⟨?_, fun _ => ⟨g1, g2⟩, by simp [hb]⟩
    intro x b' k hxr hx hk
    simp only at hx hk
    split at hx
    · rename_i e; subst e
      rcases hl with rfl | hl
      · cases hx
      · rw [g1, hl] at hk; cases hk
    · exact h.good x b' k hxr hx hk

theorem Reach.inv {M : Sem B K A} (hM : M.Faithful) {D : Desc V B A} {S : St V B K A} (h : Reach M WF Legal D S) : WF D ∧ Inv M D S := by
  induction h with
  | init D fs hD =>
    refine ⟨hD, ⟨?_, fun _ => ⟨rfl, fun _ => rfl⟩, by simp⟩⟩
    intro t b k _ _ hk; cases hk
  | step l _ hl hs ih => exact ⟨ih.1, ih.2.step hM ih.1 hl hs⟩
  | newDesc _ hb hD ih =>
    exact ⟨hD, ⟨ih.2.good, ih.2.idle, by simp [hb]⟩⟩

/-- Only the contents of source files matter to a clean build. -/
theorem Clean.congr {M : Sem B K A} {D : Desc V B A} {s1 s2 : Files V B} (h : ∀ v, D v = none → s1 v = s2 v) {v : V} {b : Option B}
    (hc : Clean M D s1 v b) : Clean M D s2 v b := by
  induction hc with
  | source hv => rw [h _ hv]; exact .source hv
  | target g hs _ ih => exact .target g hs ih

/-! ## C19 -/

/-- **C19.**  After any history of edits, changes of the project description, and builds with any schedule (including failed ones whose failing
actions leave no target file), every node that the current run has finished has exactly the content that a build from scratch would give
it, from the present sources and the present description. -/
theorem C19_incremental_equals_clean {M : Sem B K A} (hM : M.Faithful) {D : Desc V B A} {S : St V B K A} (h : Reach M WF Legal D S)
    (hb : S.busy = true) {v : V} (hv : S.done v) : Clean M D S.fs v (S.fs v) := by
  obtain ⟨_, hi⟩ := h.inv hM
  obtain ⟨src, hR⟩ := hi.busy hb
  exact (hR.done v hv).congr (fun x hx => (hR.srcs x hx).symm)

/-- **C15** and **C19**, comparing two actual builds `S` and `S'` of the same description: whatever their schedules, degree of parallelism and previous
histories (one may be a fresh check-out without any target or signature file, another an incremental build after many edits), if the source
files are the same then every node finished by both has the same content. -/
theorem C15_result_independent_of_schedule {M : Sem B K A} (hM : M.Faithful) {D : Desc V B A} {S S' : St V B K A}
    (h : Reach M WF Legal D S) (h' : Reach M WF Legal D S') (hb : S.busy = true) (hb' : S'.busy = true)
    (hsrc : ∀ v, D v = none → S.fs v = S'.fs v) {v : V} (hv : S.done v) (hv' : S'.done v) : S.fs v = S'.fs v :=
  Clean.unique (h.inv hM).1 (C19_incremental_equals_clean hM h hb hv)
    ((C19_incremental_equals_clean hM h' hb' hv').congr (fun x hx => (hsrc x hx).symm))

/-- What can happen after a given moment: further legal steps and, between runs, changes of the description. -/
inductive Later (M : Sem B K A) (D : Desc V B A) (S : St V B K A) : Desc V B A → St V B K A → Prop
  | refl : Later M D S D S
  | step {D' S1 S2} (l : Lab V B) : Later M D S D' S1 → Legal S1 l → Step M D' S1 l S2 → Later M D S D' S2
  | newDesc {D' D'' S1} : Later M D S D' S1 → S1.busy = false → WF D'' → Later M D S D'' S1

theorem Later.reach {M : Sem B K A} {D D' : Desc V B A} {S S' : St V B K A} (h : Later M D S D' S') (h0 : Reach M WF Legal D S) :
    Reach M WF Legal D' S' := by
  induction h with
  | refl => exact h0
  | step l _ hl hs ih => exact .step l ih hl hs
  | newDesc _ hb hw ih => exact .newDesc ih hb hw

/-- **C41, partial.**  Failed builds do not spoil later ones, *provided* a failing action leaves no file under its target's name (and the process is not
killed).  Full statement: the same without `left = none` and with `kill` allowed; it is false, see `C41_counterexample_failed_build` and
`C41_counterexample_killed_build`. -/
theorem C41_failed_builds_harmless_partial {M : Sem B K A} (hM : M.Faithful) {D D2 : Desc V B A} {S S1 S2 : St V B K A} {t v : V}
    (h : Reach M WF Legal D S) (hf : Step M D S (.fail t none) S1) (h2 : Later M D S1 D2 S2)
    (hb : S2.busy = true) (hv : S2.done v) : Clean M D2 S2.fs v (S2.fs v) :=
  C19_incremental_equals_clean hM (h2.reach (.step (.fail t none) h rfl hf)) hb hv

/-- A finished node keeps its content for the rest of the run, and source files are never modified by a run. -/
theorem finished_and_sources_keep_their_content {M : Sem B K A} (hM : M.Faithful) {D : Desc V B A} {S S' : St V B K A} {l : Lab V B}
    (h : Reach M WF Legal D S) (hl : Legal S l) (hb : S.busy = true) (hs : Step M D S l S') {v : V} (hv : S.done v ∨ D v = none) :
    S'.fs v = S.fs v := by
  obtain ⟨hD, hi⟩ := h.inv hM
  obtain ⟨src, hR⟩ := hi.busy hb
  have hne : ∀ t r, S.running t = some r → v ≠ t := by
    rintro t r hr rfl
    obtain ⟨k1, -, ⟨sc, k4, -⟩, -⟩ := hR.run _ r hr
    rcases hv with hv | hv
    · exact k1 hv
    · rw [hv] at k4; cases k4
  cases hs with
  | begin h0 => rfl
  | source => rfl
  | check => rfl
  | current => rfl
  | start t sc hr =>
    have : v ≠ t := by
      rintro rfl
      rcases hv with hv | hv
      · exact hr.2.2.1 hv
      · rw [hr.2.1] at hv; cases hv
    simp [St.write, this]
  | finish t r view _ hr _ => simp [St.write, hne t r hr]
  | scribble t r b _ hr => simp [St.write, hne t r hr]
  | fail t r left _ hr => simp [St.write, hne t r hr]
  | finishRun => rfl
  | kill => exact hl.elim
  | edit v b h0 => rw [hb] at h0; cases h0

theorem checked_after_check (M : Sem B K A) (S : St V B K A) (t : V) (l : Leaf V A) :
    ({ S with infos := ((S.world M).isUpToDate .content t (l.target M) S.infos).2 } : St V B K A).checked l :=
  (uptodate_frame (S.world M) t (l.target M) S.infos).2.1

/-- A target whose dependencies are finished can always be handled, and a running action can always finish: the theorems above are not about a system
that gets stuck. -/
theorem progress {M : Sem B K A} {D : Desc V B A} {S : St V B K A} {t : V} {sc : Scan V B A} (hr : S.ready D t sc) :
    ∃ S1 S2, Step M D S (.check t) S1 ∧ Step M D S1 (.start t) S2 ∧ ∀ view, view = S2.fs → ∃ S3, Step M D S2 (.finish t view) S3 := by
  refine ⟨_, _, .check S t sc hr, .start _ t sc hr (checked_after_check M S t _), ?_⟩
  rintro view rfl
  exact ⟨_, .finish _ t ⟨sc.result S.fs, [(S.write t none).fs]⟩ _ hr.1 (by simp; rfl) (fun c hc => ⟨(S.write t none).fs, by simp, rfl⟩)⟩

end Verif.Build
