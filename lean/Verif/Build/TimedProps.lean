import Verif.Build.Timed

/-!
# Whole builds with the timestamp deciders (C83): proofs
-/

namespace Verif.Build

open Verif.Sig

set_option linter.unusedSectionVars false

variable {V B K A : Type} [DecidableEq V] [DecidableEq K]

/-! ### What asking a decider does to the infos -/

/-- The infos differ at most in the content signature, and only for `v`. -/
theorem setCsig_frame (I : Infos V K) (v : V) (k : K) :
    (∀ x, x ≠ v → setCsig I v k x = I x) ∧ ∀ x, (setCsig I v k x).timestamp = (I x).timestamp := by
  refine ⟨fun x hx => by simp [setCsig, hx], fun x => ?_⟩
  unfold setCsig; split <;> rfl

theorem getCsig_frame2 (W : World V B K) (I : Infos V K) (v : V) :
    (∀ x, x ≠ v → (W.getCsig I v).2 x = I x) ∧ ∀ x, ((W.getCsig I v).2 x).timestamp = (I x).timestamp := by
  unfold World.getCsig
  split
  · exact ⟨fun _ _ => rfl, fun _ => rfl⟩
  · exact setCsig_frame I v _

theorem changedContent_frame (W : World V B K) (I : Infos V K) (v : V) (p : Option (NInfo K)) :
    (W.changedContent I v p).2 = (W.getCsig I v).2 := by
  unfold World.changedContent
  dsimp only
  split <;> rfl

theorem ask_frame2 (W : World V B K) (d : Decider) (I : Infos V K) (v t : V) (p : Option (NInfo K)) (bi : BInfo V K) :
    (∀ x, x ≠ v → (W.ask d I v t p bi).2 x = I x) ∧ ∀ x, ((W.ask d I v t p bi).2 x).timestamp = (I x).timestamp := by
  cases d with
  | content => simp only [World.ask, changedContent_frame]; exact getCsig_frame2 W I v
  | timestampNewer => exact ⟨fun _ _ => rfl, fun _ => rfl⟩
  | timestampMatch => exact ⟨fun _ _ => rfl, fun _ => rfl⟩
  | contentTimestamp =>
    simp only [World.ask, World.changedTimestampThenContent]
    split
    · exact getCsig_frame2 W I v
    · split
      · rw [changedContent_frame]; exact getCsig_frame2 W I v
      · split
        · exact setCsig_frame I v _
        · exact ⟨fun _ _ => rfl, fun _ => rfl⟩

theorem loop_frame2 (W : World V B K) (d : Decider) (t : V) (bi : BInfo V K) (cs : List V) :
    ∀ (ps : List (Option (NInfo K))) (I : Infos V K),
      (∀ x, x ∉ cs → (W.changedLoop d t bi I cs ps).2 x = I x) ∧ ∀ x, ((W.changedLoop d t bi I cs ps).2 x).timestamp = (I x).timestamp := by
  induction cs with
  | nil => intro ps I; exact ⟨fun _ _ => rfl, fun _ => rfl⟩
  | cons c cs ih =>
    intro ps I
    cases ps with
    | nil => exact ⟨fun _ _ => rfl, fun _ => rfl⟩
    | cons p ps =>
      obtain ⟨a1, a2⟩ := ask_frame2 W d I c t p bi
      obtain ⟨b1, b2⟩ := ih ps (W.ask d I c t p bi).2
      simp only [World.changedLoop]
      refine ⟨fun x hx => ?_, fun x => by rw [b2, a2]⟩
      simp only [List.mem_cons, not_or] at hx
      rw [b1 x hx.2, a1 x hx.1]

theorem upToDate_frame2 (W : World V B K) (d : Decider) (t : V) (T : Target V K) (I : Infos V K) :
    (∀ x, x ∉ T.children → (W.isUpToDate d t T I).2 x = I x) ∧ ∀ x, ((W.isUpToDate d t T I).2 x).timestamp = (I x).timestamp :=
  loop_frame2 W d t _ _ _ _

/-! ### The invariant -/

/-- What is known of a dependency `c` recorded for `t`, which had the content `gc` and left the info `n`. -/
def Known (M : Sem B K A) (d : Decider) (S : TSt V B K) (t c : V) (gc : Option B) (n : NInfo K) : Prop :=
  (d = .timestampNewer → (S.content t).isSome → (S.content c).isSome → S.mtime c ≤ S.mtime t → S.content c = gc) ∧
  gc.isSome ∧
  (d ≠ .timestampNewer → ∃ τ, n.timestamp = some τ ∧ S.had c τ gc ∧ ∀ k, n.csig = some k → k = M.hash (M.see gc))

/-- A record is that of a build of one of the descriptions, and the file is what that build made. -/
def Good (M : Sem B K A) (d : Decider) (F : Desc V B A → Prop) (S : TSt V B K) (t : V) (b : BInfo V K) : Prop :=
  ∃ (D : Desc V B A) (sc : Scan V B A) (g : Files V B) (J : Infos V K), F D ∧ D t = some sc ∧ b = ((sc.result g).target M).binfo J ∧
    (∀ x, S.content t = some x → x = M.make (sc.result g) g) ∧ ∀ c ∈ (sc.result g).children, Known M d S t c (g c) (J c)

structure TRun (M : Sem B K A) (d : Decider) (D : Desc V B A) (S : TSt V B K) : Prop where
  clean : ∀ v, S.done v → Clean M D S.content v (S.content v)
  notDone : ∀ v, ¬ S.done v → S.infos v = {}
  isDone : ∀ v, S.done v → (S.infos v).timestamp = some (stampOf (S.content v) (S.mtime v)) ∧ ∀ k, (S.infos v).csig = some k → k = M.hash (M.see (S.content v))
  recd : ∀ t T, S.recd t = some T → S.done t ∧ ∃ sc, D t = some sc ∧ T = (sc.result S.content).target M ∧
    S.content t = some (M.make (sc.result S.content) S.content) ∧ ∀ c ∈ (sc.result S.content).children, S.done c
  old : d = .timestampNewer → ∀ v, S.recd v = none → (S.content v).isSome → S.mtime v < S.began
  notNewer : d = .timestampNewer → ∀ t T, S.recd t = some T → ∀ c ∈ T.children, S.mtime c ≤ S.mtime t
  isThere : ∀ v, S.done v → (S.content v).isSome

structure TInv (M : Sem B K A) (d : Decider) (F : Desc V B A → Prop) (D : Desc V B A) (S : TSt V B K) : Prop where
  desc : F D
  now : ∀ v, S.had v (stampOf (S.content v) (S.mtime v)) (S.content v)
  uniq : d ≠ .timestampNewer → ∀ v τ b b', S.had v τ b → S.had v τ b' → b = b'
  good : ∀ t, (S.busy = true → S.recd t = none) → (S.db t) = {} ∨ ((S.db t).bactsig ≠ none ∧ Good M d F S t (S.db t))
  run : S.busy = true → TRun M d D S

/-! ### Steps -/

theorem write_content {S : TSt V B K} {v x : V} {b : Option B} {m : Int} (h : x ≠ v) : (S.write v b m).content x = S.content x := by
  simp [TSt.write, h]

theorem write_mtime {S : TSt V B K} {v x : V} {b : Option B} {m : Int} (h : x ≠ v) : (S.write v b m).mtime x = S.mtime x := by
  simp [TSt.write, h]

theorem write_now {S : TSt V B K} (h : ∀ v, S.had v (stampOf (S.content v) (S.mtime v)) (S.content v)) (v : V) (b : Option B) (m : Int) (x : V) :
    (S.write v b m).had x (stampOf ((S.write v b m).content x) ((S.write v b m).mtime x)) ((S.write v b m).content x) := by
  by_cases e : x = v
  · subst e; left; simp [TSt.write]
  · right; rw [write_content e, write_mtime e]; exact h x

theorem write_uniq {S : TSt V B K} (h : ∀ v τ b b', S.had v τ b → S.had v τ b' → b = b') {v : V} {b : Option B} {m : Int} (hf : FreshTime S v b m) (x : V) (τ : Int)
    (c c' : Option B) (h1 : (S.write v b m).had x τ c) (h2 : (S.write v b m).had x τ c') : c = c' := by
  rcases h1 with ⟨e1, e2, e3⟩ | h1 <;> rcases h2 with ⟨f1, f2, f3⟩ | h2
  · rw [e3, f3]
  · rw [e1, e2] at h2; rw [e3]; exact (hf c' h2).symm
  · rw [f1, f2] at h1; rw [f3]; exact hf c h1
  · exact h x τ c c' h1 h2

/-- A record stays good when another file, or the file itself by deletion, is written. -/
theorem Good.write {M : Sem B K A} {d : Decider} {F : Desc V B A → Prop} {S : TSt V B K} {t : V} {bi : BInfo V K} (h : Good M d F S t bi) {v : V} {b : Option B} {m : Int}
    (hself : t = v → b = none) (hnew : d = .timestampNewer → t ≠ v → (S.content t).isSome → b.isSome → S.mtime t < m) :
    Good M d F (S.write v b m) t bi := by
  obtain ⟨D, sc, g, J, h1, h2, h3, h4, h5⟩ := h
  refine ⟨D, sc, g, J, h1, h2, h3, fun x hx => ?_, fun c hc => ?_⟩
  · by_cases e : t = v
    · simp [TSt.write, e, hself e] at hx
    · rw [write_content e] at hx; exact h4 x hx
  · obtain ⟨k1, k0, k2⟩ := h5 c hc
    refine ⟨fun hd ht hcs hle => ?_, k0, fun hd => ?_⟩
    · have e : t ≠ v := by rintro rfl; simp [TSt.write, hself rfl] at ht
      rw [write_content e] at ht
      rw [write_mtime e] at hle
      by_cases e' : c = v
      · subst e'
        have : (S.write c b m).mtime c = m := by simp [TSt.write]
        rw [this] at hle
        have hb : b.isSome := by simpa [TSt.write] using hcs
        have := hnew hd e ht hb
        omega
      · rw [write_content e'] at hcs ⊢
        rw [write_mtime e'] at hle
        exact k1 hd ht hcs hle
    · obtain ⟨τ, q1, q2, q3⟩ := k2 hd
      exact ⟨τ, q1, .inr q2, q3⟩

theorem timestamp_world (M : Sem B K A) (S : TSt V B K) (v : V) : (S.world M).timestamp v = stampOf (S.content v) (S.mtime v) := rfl

theorem diskCsig_world (M : Sem B K A) (S : TSt V B K) (v : V) : (S.world M).diskCsig v = M.hash (M.see (S.content v)) := rfl

theorem drift_world (M : Sem B K A) (S : TSt V B K) (v : V) : (S.world M).driftCsig v = none := by simp [World.driftCsig, TSt.world]

theorem driftOK_world (M : Sem B K A) (S : TSt V B K) : DriftOK (S.world M) := by
  intro c k hk; rw [drift_world] at hk; cases hk

theorem TRun.infosOK {M : Sem B K A} {d : Decider} {D : Desc V B A} {S : TSt V B K} (h : TRun M d D S) : InfosOK (S.world M) S.infos := by
  intro c k hk
  by_cases hc : S.done c
  · exact (h.isDone c hc).2 k hk
  · rw [h.notDone c hc] at hk; cases hk

/-- What is recorded with the time a file has now is the signature of what it is now. -/
theorem TInv.stampOK {M : Sem B K A} {d : Decider} {F : Desc V B A → Prop} (hF : ∀ D, F D → WF D) {D : Desc V B A} {S : TSt V B K} (h : TInv M d F D S) (hd : d ≠ .timestampNewer)
    {t : V} (ht : S.busy = true → S.recd t = none) (c : V) : StampOK (S.world M) c (dictGet (dependencyMap (S.db t)) c) := by
  intro n k hn hτ hk
  rcases h.good t ht with e | ⟨-, D', sc, g, J, h1, h2, h3, -, h5⟩
  · rw [e] at hn; simp [dependencyMap, dictGet] at hn
  · obtain ⟨-, w2, w3⟩ := hF D' h1 t sc h2 g
    rw [h3, C21_looked_up_under_own_name_partial w2 w3] at hn
    split at hn
    · rename_i hc
      cases hn
      obtain ⟨τ, q1, q2, q3⟩ := (h5 c hc).2.2 hd
      rw [q1, timestamp_world] at hτ
      cases hτ
      rw [q3 k hk, h.uniq hd c _ _ _ q2 (h.now c)]; rfl
    · cases hn

theorem TInv.infosOK' {M : Sem B K A} {d : Decider} {F : Desc V B A → Prop} (hF : ∀ D, F D → WF D) {D : Desc V B A} {S : TSt V B K} (h : TInv M d F D S) (hb : S.busy = true)
    {t : V} (ht : S.recd t = none) (T : Target V K) : InfosOK (S.world M) ((S.world M).isUpToDate d t T S.infos).2 :=
  (loop_spec (d := d) (driftOK_world M S) t _ T.children
    (fun e c _ => h.stampOK hF (by rw [e]; simp) (fun _ => ht) c) _ S.infos (h.run hb).infosOK).2

/-- The infos after a target has been looked at. -/
theorem TInv.after {M : Sem B K A} {d : Decider} {F : Desc V B A → Prop} (hF : ∀ D, F D → WF D) {D : Desc V B A} {S : TSt V B K} (h : TInv M d F D S) (hb : S.busy = true)
    {t : V} (ht : S.recd t = none) (T : Target V K) (hT : ∀ c ∈ T.children, S.done c) :
    (∀ v, ¬ S.done v → ((S.world M).isUpToDate d t T S.infos).2 v = {}) ∧
    ∀ v, S.done v → (((S.world M).isUpToDate d t T S.infos).2 v).timestamp = some (stampOf (S.content v) (S.mtime v)) ∧
      ∀ k, (((S.world M).isUpToDate d t T S.infos).2 v).csig = some k → k = M.hash (M.see (S.content v)) := by
  obtain ⟨f1, f2⟩ := upToDate_frame2 (S.world M) d t T S.infos
  have hok := h.infosOK' hF hb ht T
  refine ⟨fun v hv => ?_, fun v hv => ⟨?_, fun k hk => hok v k hk⟩⟩
  · rw [f1 v (fun hc => hv (hT v hc))]; exact (h.run hb).notDone v hv
  · rw [f2]; exact ((h.run hb).isDone v hv).1

/-- Two scans that meet the same files, as far as both list them in order. -/
theorem result_eq_inOrder {sc : Scan V B A} {g h : Files V B} (L L' : List V) (h1 : sc.asked g <+: L) (h2 : sc.asked h <+: L')
    (hagree : ∀ p ∈ L.zip L', p.1 = p.2 → g p.1 = h p.1) : sc.result g = sc.result h := by
  induction sc generalizing L L' with
  | found l => rfl
  | look d k ih =>
    simp only [Scan.asked] at h1 h2
    cases L with
    | nil => exact absurd h1 (by simp)
    | cons a L =>
      cases L' with
      | nil => exact absurd h2 (by simp)
      | cons a' L' =>
        rw [List.cons_prefix_cons] at h1 h2
        obtain ⟨rfl, h1⟩ := h1
        obtain ⟨rfl, h2⟩ := h2
        have hd : g d = h d := hagree (d, d) (by simp) rfl
        simp only [Scan.result]
        rw [← hd] at h2 ⊢
        exact ih (g d) L L' h1 h2 (fun p hp => hagree p (by simp [hp]))

/-- **The core**: a target found up to date is what its action would make now. -/
theorem TInv.current {M : Sem B K A} (hM : M.Faithful) {d : Decider} (hd : d ≠ .content) {F : Desc V B A → Prop} (hF : ∀ D, F D → WF D) (hK : Keyed M F)
    (hO : d = .timestampMatch → ∀ D, F D → InOrder D) {D : Desc V B A} {S : TSt V B K} (h : TInv M d F D S) {t : V} {sc : Scan V B A} (hr : S.ready D t sc) (ht : S.recd t = none)
    (hup : ((S.world M).isUpToDate d t ((sc.result S.content).target M) S.infos).1 = true) :
    S.content t = some (M.make (sc.result S.content) S.content) := by
  obtain ⟨hb, hsc, hnd, hch⟩ := hr
  rw [C18_up_to_date_iff rfl (h.run hb).infosOK (driftOK_world M S) (fun e c _ => h.stampOK hF (by rw [e]; simp) (fun _ => ht) c)] at hup
  obtain ⟨⟨x, hx⟩, u2, u3, u4⟩ := hup
  have hx : S.content t = some x := hx
  rcases h.good t (fun _ => ht) with e | ⟨-, D', sc', g, J, h1, h2, h3, h4, h5⟩
  · exfalso
    have u3 : (S.db t).bactsig = some (M.sig (sc.result S.content).action) := u3
    rw [e] at u3; cases u3
  have u3 : (S.db t).bactsig = some (M.sig (sc.result S.content).action) := u3
  have hsig : M.sig (sc'.result g).action = M.sig (sc.result S.content).action := by
    rw [h3] at u3
    simpa [Target.binfo, Leaf.target] using u3
  have := hK D' D h1 h.desc t sc' sc h2 hsc g S.content hsig
  subst this
  obtain ⟨w1, w2, w3⟩ := hF D h.desc t sc' hsc S.content
  obtain ⟨w1', w2', w3'⟩ := hF D' h1 t sc' h2 g
  have hsigs : (S.db t).sigs = (sc'.result g).children.map J := by
    rw [h3, binfo_sigs, recorded_eq_children w2' w3']; rfl
  change (sc'.result S.content).children.length = (S.db t).sigs.length at u2
  change ∀ p ∈ (sc'.result S.content).children.zip (S.db t).sigs, Unchanged (S.world M) d t p.1 (consulted d (S.db t) p.1 (some p.2)) at u4
  -- what the decider says means
  have same : ∀ p ∈ (sc'.result S.content).children.zip (sc'.result g).children, p.1 ∈ (sc'.result g).children → (d = .timestampMatch → p.1 = p.2) →
      S.content p.1 = g p.1 := by
    intro p hp hc' hpm
    obtain ⟨i, hi, rfl⟩ := List.getElem_of_mem hp
    rw [List.length_zip] at hi
    have hi' : i < (S.db t).sigs.length := by omega
    have hc : ((sc'.result S.content).children.zip (sc'.result g).children)[i].1 ∈ (sc'.result S.content).children := by simp
    have hu := u4 ((sc'.result S.content).children[i], (S.db t).sigs[i]) (by
      rw [List.mem_iff_getElem]
      exact ⟨i, by rw [List.length_zip]; omega, by simp⟩)
    simp only [List.getElem_zip] at hc hc' hpm ⊢
    obtain ⟨k1, k0, k2⟩ := h5 _ hc'
    have hcs := (h.run hb).isThere _ (hch _ hc)
    cases d with
    | content => exact absurd rfl hd
    | timestampMatch =>
      obtain ⟨τ, q1, q2, -⟩ := k2 (by simp)
      obtain ⟨n, n1, n2⟩ := hu
      simp only [consulted, Option.some.injEq] at n1
      subst n1
      have e : (S.db t).sigs[i] = J (sc'.result S.content).children[i] := by
        rw [hpm rfl]
        simp only [hsigs, List.getElem_map]
      rw [e, q1, timestamp_world] at n2
      cases n2
      exact h.uniq (by simp) _ _ _ _ (h.now _) q2
    | timestampNewer =>
      have hle : (S.world M).timestamp (sc'.result S.content).children[i] ≤ (S.world M).timestamp t := hu
      rw [timestamp_world, timestamp_world, stampOf, stampOf, if_pos hcs, if_pos (by rw [hx]; rfl)] at hle
      exact k1 rfl (by rw [hx]; rfl) hcs hle
    | contentTimestamp =>
      obtain ⟨τ, q1, q2, q3⟩ := k2 (by simp)
      obtain ⟨n, n1, n2⟩ := hu
      have e := C21_looked_up_under_own_name_partial (T := (sc'.result g).target M) w2' w3' J (sc'.result S.content).children[i]
      rw [if_pos (show _ ∈ ((sc'.result g).target M).children from hc'), ← h3] at e
      simp only [consulted, e, Option.some.injEq] at n1
      subst n1
      rcases n2 with n2 | n2
      · rw [q1, timestamp_world] at n2
        cases n2
        exact h.uniq (by simp) _ _ _ _ (h.now _) q2
      · have := q3 _ n2
        rw [diskCsig_world] at this
        have e := hM.hash_inj _ _ this
        obtain ⟨y, hy⟩ := Option.isSome_iff_exists.1 hcs
        obtain ⟨z, hz⟩ := Option.isSome_iff_exists.1 k0
        rw [hy, hz] at e ⊢
        exact congrArg some e
  have hlen : (sc'.result S.content).children.length = (sc'.result g).children.length := by rw [u2, hsigs, List.length_map]
  have mem : ∀ c ∈ (sc'.result S.content).children, ∃ p ∈ (sc'.result S.content).children.zip (sc'.result g).children, p.1 = c := by
    intro c hc
    obtain ⟨i, hi, rfl⟩ := List.getElem_of_mem hc
    exact ⟨((sc'.result S.content).children.zip (sc'.result g).children)[i]'(by rw [List.length_zip]; omega), List.getElem_mem _, by simp⟩
  have hres : sc'.result S.content = sc'.result g := by
    by_cases hdm : d = .timestampMatch
    · refine result_eq_inOrder _ _ (hO hdm D h.desc t sc' hsc S.content) (hO hdm D' h1 t sc' h2 g) fun p hp e => ?_
      exact same p hp (by rw [e]; exact (List.of_mem_zip hp).2) fun _ => e
    · refine (result_eq fun c hc hc' => ?_).1
      obtain ⟨p, hp, rfl⟩ := mem c (w1 c hc)
      exact same p hp (w1' _ hc') fun e => absurd e hdm
  rw [hx, h4 x hx, Sem.make, Sem.make, hres]
  congr 2
  refine List.map_congr_left fun c hc => ?_
  obtain ⟨i, hi, rfl⟩ := List.getElem_of_mem hc
  have := same ((sc'.result g).children[i], (sc'.result g).children[i]) (by
    rw [hres, List.mem_iff_getElem]
    exact ⟨i, by rw [List.length_zip]; omega, by simp⟩) hc (fun _ => rfl)
  rw [this]

theorem visited_spec (M : Sem B K A) (S : TSt V B K) (I : Infos V K) (v x : V) :
    (S.world M).visited I v x = if x = v then { csig := (I v).csig, timestamp := some (stampOf (S.content v) (S.mtime v)), size := some ((S.world M).getSize v) } else I x := by
  unfold World.visited
  rw [drift_world]; rfl

/-- Writing a file that is not finished does not disturb what is finished. -/
theorem TRun.write {M : Sem B K A} {d : Decider} {D : Desc V B A} (hD : WF D) {S : TSt V B K} (h : TRun M d D S) {t : V} {sc : Scan V B A} (hsc : D t = some sc) (hnd : ¬ S.done t)
    (b : Option B) (m : Int) :
    (∀ v, S.done v → Clean M D (S.write t b m).content v ((S.write t b m).content v)) ∧
    (∀ t' T, S.recd t' = some T → S.done t' ∧ ∃ sc, D t' = some sc ∧ T = (sc.result (S.write t b m).content).target M ∧
      (S.write t b m).content t' = some (M.make (sc.result (S.write t b m).content) (S.write t b m).content) ∧
      ∀ c ∈ (sc.result (S.write t b m).content).children, S.done c) := by
  have hne : ∀ v, S.done v → v ≠ t := fun v hv e => hnd (e ▸ hv)
  refine ⟨fun v hv => ?_, fun t' T hT => ?_⟩
  · rw [write_content (hne v hv)]
    refine (h.clean v hv).congr fun x hx => ?_
    have : x ≠ t := fun e => by rw [e, hsc] at hx; cases hx
    rw [write_content this]
  · obtain ⟨k1, sc', k2, k3, k4, k5⟩ := h.recd t' T hT
    have hres : sc'.result S.content = sc'.result (S.write t b m).content :=
      (result_eq fun c hc _ => (write_content (hne c (k5 c ((hD t' sc' k2 S.content).1 c hc)))).symm).1
    have hmake : M.make (sc'.result S.content) S.content = M.make (sc'.result S.content) (S.write t b m).content := by
      unfold Sem.make
      congr 1
      refine List.map_congr_left fun c hc => ?_
      rw [write_content (hne c (k5 c hc))]
    refine ⟨k1, sc', k2, by rw [k3, hres], ?_, by rw [← hres]; exact k5⟩
    rw [write_content (hne t' k1), k4, ← hres, hmake]

theorem TInv.step {M : Sem B K A} (hM : M.Faithful) {d : Decider} (hd : d ≠ .content) {F : Desc V B A → Prop} (hF : ∀ D, F D → WF D) (hK : Keyed M F)
    (hO : d = .timestampMatch → ∀ D, F D → InOrder D) {D : Desc V B A} {S S' : TSt V B K} (h : TInv M d F D S) {l : TLab V B} (hl : TLegal d S l)
    (hs : TStep M d D S l S') : TInv M d F D S' := by
  cases hs with
  | begin now hb =>
    refine ⟨h.desc, h.now, h.uniq, fun t _ => h.good t (by simp [hb]), fun _ => ⟨fun v hv => hv.elim, fun _ _ => rfl, fun v hv => hv.elim, fun t T hT => ?_, fun e v _ hv => hl e v hv,
      fun _ t T hT => (by cases hT), fun v hv => hv.elim⟩⟩
    cases hT
  | source v hb hv hnd =>
    have hR := h.run hb
    refine ⟨h.desc, h.now, h.uniq, h.good, fun _ => ⟨?_, ?_, ?_, ?_, hR.old, hR.notNewer, ?_⟩⟩
    · rintro x (rfl | hx)
      · exact .source hv
      · exact hR.clean x hx
    · intro x hx
      rw [not_or] at hx
      simp only
      rw [visited_spec, if_neg hx.1]
      exact hR.notDone x hx.2
    · intro x hx
      simp only
      rw [visited_spec]
      split
      · rename_i e; subst e
        refine ⟨rfl, fun k hk => ?_⟩
        rw [hR.notDone x hnd] at hk; cases hk
      · rename_i e
        exact hR.isDone x (hx.resolve_left e)
    · intro t T hT
      obtain ⟨k1, sc, k2, k3, k4, k5⟩ := hR.recd t T hT
      exact ⟨.inr k1, sc, k2, k3, k4, fun c hc => .inr (k5 c hc)⟩
    · rintro x (rfl | hx)
      · exact hl
      · exact hR.isThere x hx
  | current t sc hr hup =>
    obtain ⟨hb, hsc, hnd, hch⟩ := id hr
    have hR := h.run hb
    have ht : S.recd t = none := by
      cases e : S.recd t with
      | none => rfl
      | some T => exact absurd (hR.recd t T e).1 hnd
    have hcur := h.current hM hd hF hK hO hr ht hup
    obtain ⟨a1, a2⟩ := h.after hF hb ht ((sc.result S.content).target M) hch
    refine ⟨h.desc, h.now, h.uniq, fun x hx => ?_, fun _ => ⟨?_, ?_, ?_, ?_, ?_, ?_, ?_⟩⟩
    · have hx := hx hb
      simp only at hx
      split at hx
      · cases hx
      · exact h.good x fun _ => hx
    · rintro x (rfl | hx)
      · show Clean M D S.content x (S.content x)
        rw [hcur]
        exact .target S.content hsc (fun c hc => hR.clean c (hch c hc))
      · exact hR.clean x hx
    · intro x hx
      rw [not_or] at hx
      simp only
      rw [visited_spec, if_neg hx.1]
      exact a1 x hx.2
    · intro x hx
      simp only
      rw [visited_spec]
      split
      · rename_i e; subst e
        refine ⟨rfl, fun k hk => ?_⟩
        rw [a1 x hnd] at hk; cases hk
      · rename_i e
        exact a2 x (hx.resolve_left e)
    · intro x T hT
      simp only at hT
      split at hT
      · rename_i e; subst e
        cases hT
        exact ⟨.inl rfl, sc, hsc, rfl, hcur, fun c hc => .inr (hch c hc)⟩
      · obtain ⟨k1, sc', k2, k3, k4, k5⟩ := hR.recd x T hT
        exact ⟨.inr k1, sc', k2, k3, k4, fun c hc => .inr (k5 c hc)⟩
    · intro e x hx
      simp only at hx
      split at hx
      · cases hx
      · exact hR.old e x hx
    · intro e x T hT c hc
      simp only at hT
      split at hT
      · rename_i ex; subst ex
        cases hT
        rw [C18_up_to_date_iff rfl hR.infosOK (driftOK_world M S) (fun e c _ => h.stampOK hF (by rw [e]; simp) (fun _ => ht) c)] at hup
        obtain ⟨-, u2, -, u4⟩ := hup
        obtain ⟨i, hi, rfl⟩ := List.getElem_of_mem hc
        have hu := u4 (((sc.result S.content).target M).children[i], ((S.world M).stored x).binfo.sigs[i]'(by omega)) (by
          rw [List.mem_iff_getElem]
          exact ⟨i, by rw [List.length_zip]; omega, by simp⟩)
        subst e
        have hle : (S.world M).timestamp ((sc.result S.content).target M).children[i] ≤ (S.world M).timestamp x := hu
        rw [timestamp_world, timestamp_world, stampOf, stampOf, if_pos (hR.isThere _ (hch _ hc)), if_pos (by rw [hcur]; rfl)] at hle
        exact hle
      · exact hR.notNewer e x T hT c hc
    · rintro x (rfl | hx)
      · show (S.content x).isSome
        rw [hcur]; rfl
      · exact hR.isThere x hx
  | build t sc b m hr hbm =>
    obtain ⟨hb, hsc, hnd, hch⟩ := id hr
    have hR := h.run hb
    have ht : S.recd t = none := by
      cases e : S.recd t with
      | none => rfl
      | some T => exact absurd (hR.recd t T e).1 hnd
    obtain ⟨a1, a2⟩ := h.after hF hb ht ((sc.result S.content).target M) hch
    obtain ⟨w1, w2⟩ := hR.write (hF D h.desc) hsc hnd (some b) m
    have hne : ∀ v, S.done v → v ≠ t := fun v hv e => hnd (e ▸ hv)
    have hct : (S.write t (some b) m).content t = some b := by simp [TSt.write]
    have hres : sc.result S.content = sc.result (S.write t (some b) m).content :=
      (result_eq fun c hc _ => (write_content (hne c (hch c ((hF D h.desc t sc hsc S.content).1 c hc)))).symm).1
    have hmake : M.make (sc.result S.content) S.content = M.make (sc.result S.content) (S.write t (some b) m).content := by
      unfold Sem.make
      congr 1
      refine List.map_congr_left fun c hc => ?_
      rw [write_content (hne c (hch c hc))]
    refine ⟨h.desc, write_now h.now t (some b) m, fun e => write_uniq (h.uniq e) (hl.2 e), fun x hx => ?_, fun _ => ⟨?_, ?_, ?_, ?_, ?_, ?_, ?_⟩⟩
    · have hx := hx hb
      simp only at hx
      split at hx
      · cases hx
      · rename_i hxt
        refine (h.good x fun _ => hx).imp id fun g => ⟨g.1, g.2.write (fun e => absurd e hxt) fun e _ hxs _ => ?_⟩
        have := hR.old e x hx hxs
        have := (hl.1 e).1
        omega
    · rintro x (rfl | hx)
      · show Clean M D (S.write x (some b) m).content x ((S.write x (some b) m).content x)
        have hb' : b = M.make (sc.result (S.write x (some b) m).content) (S.write x (some b) m).content := by rw [← hres, ← hmake]; exact hbm
        rw [hct]
        conv => rhs; rw [hb']
        exact .target (S.write x (some b) m).content hsc (fun c hc => by
          rw [← hres] at hc
          exact w1 c (hch c hc))
      · exact w1 x hx
    · intro x hx
      rw [not_or] at hx
      simp only [hx.1, if_false]
      exact a1 x hx.2
    · intro x hx
      by_cases e : x = t
      · subst e
        simp only [if_true]
        refine ⟨rfl, fun k hk => ?_⟩
        show k = M.hash (M.see ((S.write x (some b) m).content x))
        rw [hct]
        cases hk; rfl
      · simp only [e, if_false]
        show _ = some (stampOf ((S.write t (some b) m).content x) ((S.write t (some b) m).mtime x)) ∧ ∀ k, _ → k = M.hash (M.see ((S.write t (some b) m).content x))
        rw [write_content e, write_mtime e]
        exact a2 x (hx.resolve_left e)
    · intro x T hT
      simp only at hT
      split at hT
      · rename_i e; subst e
        cases hT
        refine ⟨.inl rfl, sc, hsc, ?_, ?_, ?_⟩
        · show _ = (sc.result (S.write x (some b) m).content).target M
          rw [← hres]
        · show (S.write x (some b) m).content x = some (M.make (sc.result (S.write x (some b) m).content) (S.write x (some b) m).content)
          rw [hct, ← hres, ← hmake, hbm]
        · show ∀ c ∈ (sc.result (S.write x (some b) m).content).children, _
          rw [← hres]
          exact fun c hc => .inr (hch c hc)
      · obtain ⟨k1, sc', k2, k3, k4, k5⟩ := w2 x T hT
        exact ⟨.inr k1, sc', k2, k3, k4, fun c hc => .inr (k5 c hc)⟩
    · intro e x hx
      simp only at hx
      split at hx
      · cases hx
      · rename_i hxt
        show ((S.write t (some b) m).content x).isSome → (S.write t (some b) m).mtime x < S.began
        rw [write_content hxt, write_mtime hxt]
        exact hR.old e x hx
    · intro e x T hT c hc
      simp only at hT
      show (S.write t (some b) m).mtime c ≤ (S.write t (some b) m).mtime x
      split at hT
      · rename_i ex; subst ex
        cases hT
        rw [write_mtime (hne c (hch c hc))]
        have : (S.write x (some b) m).mtime x = m := by simp [TSt.write]
        rw [this]
        exact (hl.1 e).2 c (hR.isThere c (hch c hc))
      · obtain ⟨k1, sc', k2, k3, -, k5⟩ := hR.recd x T hT
        rw [write_mtime (hne x k1), write_mtime (hne c (k5 c (by rw [k3] at hc; exact hc)))]
        exact hR.notNewer e x T hT c hc
    · rintro x (rfl | hx)
      · show ((S.write x (some b) m).content x).isSome
        rw [hct]; rfl
      · show ((S.write t (some b) m).content x).isSome
        rw [write_content (hne x hx)]
        exact hR.isThere x hx
  | fail t sc hr =>
    obtain ⟨hb, hsc, hnd, hch⟩ := id hr
    have hR := h.run hb
    have ht : S.recd t = none := by
      cases e : S.recd t with
      | none => rfl
      | some T => exact absurd (hR.recd t T e).1 hnd
    obtain ⟨a1, a2⟩ := h.after hF hb ht ((sc.result S.content).target M) hch
    obtain ⟨w1, w2⟩ := hR.write (hF D h.desc) hsc hnd none 0
    have hne : ∀ v, S.done v → v ≠ t := fun v hv e => hnd (e ▸ hv)
    refine ⟨h.desc, write_now h.now t none 0, fun e => write_uniq (h.uniq e) (hl e), fun x hx => ?_, fun _ => ⟨w1, ?_, ?_, w2, ?_, ?_, ?_⟩⟩
    · refine (h.good x fun _ => hx hb).imp id fun g => ⟨g.1, g.2.write (fun _ => rfl) fun _ _ _ e => by cases e⟩
    · intro x hx
      simp only
      split
      · rfl
      · exact a1 x hx
    · intro x hx
      have hxt := hne x hx
      simp only [hxt, if_false]
      show _ = some (stampOf ((S.write t none 0).content x) ((S.write t none 0).mtime x)) ∧ ∀ k, _ → k = M.hash (M.see ((S.write t none 0).content x))
      rw [write_content hxt, write_mtime hxt]
      exact a2 x hx
    · intro e x hx
      show ((S.write t none 0).content x).isSome → (S.write t none 0).mtime x < S.began
      by_cases hxt : x = t
      · subst hxt; intro hs; simp [TSt.write] at hs
      · rw [write_content hxt, write_mtime hxt]
        exact hR.old e x hx
    · intro e x T hT c hc
      obtain ⟨k1, sc', k2, k3, -, k5⟩ := hR.recd x T hT
      show (S.write t none 0).mtime c ≤ (S.write t none 0).mtime x
      rw [write_mtime (hne x k1), write_mtime (hne c (k5 c (by rw [k3] at hc; exact hc)))]
      exact hR.notNewer e x T hT c hc
    · intro x hx
      show ((S.write t none 0).content x).isSome
      rw [write_content (hne x hx)]
      exact hR.isThere x hx
  | finishRun hb =>
    have hR := h.run hb
    refine ⟨h.desc, h.now, h.uniq, fun t _ => ?_, fun e => by cases e⟩
    cases hT : S.recd t with
    | none =>
      simp only [TSt.records, hT]
      exact h.good t fun _ => hT
    | some T =>
      simp only [TSt.records, hT]
      obtain ⟨k1, sc, k2, k3, k4, k5⟩ := hR.recd t T hT
      right
      refine ⟨by rw [k3]; simp [Target.binfo, Leaf.target], D, sc, S.content, S.infos, h.desc, k2, by rw [k3], fun x hx => ?_, fun c hc => ⟨fun _ _ _ _ => rfl, hR.isThere c (k5 c hc), fun _ => ?_⟩⟩
      · have hx : S.content t = some x := hx
        rw [k4] at hx; cases hx; rfl
      · obtain ⟨q1, q2⟩ := hR.isDone c (k5 c hc)
        exact ⟨_, q1, h.now c, q2⟩
  | edit v b m hb =>
    refine ⟨h.desc, write_now h.now v b m, fun e => write_uniq (h.uniq e) (hl.2.2 e), fun x _ => ?_, fun e => by rw [show (S.write v b m).busy = S.busy from rfl, hb] at e; cases e⟩
    refine (h.good x (by simp [hb])).imp id fun g => ⟨g.1, g.2.write (fun e => ?_) fun e hxv hxs hbs => hl.2.1 e hbs x hxs⟩
    subst e
    exact hl.1.resolve_right g.1

theorem TReach.inv {M : Sem B K A} (hM : M.Faithful) {d : Decider} (hd : d ≠ .content) {F : Desc V B A → Prop} (hF : ∀ D, F D → WF D) (hK : Keyed M F)
    (hO : d = .timestampMatch → ∀ D, F D → InOrder D) {D : Desc V B A} {S : TSt V B K} (h : TReach M d F (TLegal d) D S) : TInv M d F D S := by
  induction h with
  | init D fs mt hD =>
    exact ⟨hD, fun v => ⟨rfl, rfl⟩, fun _ v τ b b' h1 h2 => by rw [h1.2, h2.2], fun _ _ => .inl rfl, fun e => by cases e⟩
  | step l _ hl hs ih => exact ih.step hM hd hF hK hO hl hs
  | newDesc _ hb hD ih => exact ⟨hD, ih.now, ih.uniq, ih.good, fun e => by rw [hb] at e; cases e⟩

/-- A run that builds nothing: it begins, visits sources and finds targets up to date. -/
inductive Quiet (M : Sem B K A) (d : Decider) (D : Desc V B A) : TSt V B K → TSt V B K → Prop
  | begin {S S'} (now : Int) : TLegal d S (.begin now) → TStep M d D S (.begin now) S' → Quiet M d D S S'
  | source {S S1 S'} (v : V) : Quiet M d D S S1 → TLegal d S1 (.source v) → TStep M d D S1 (.source v) S' → Quiet M d D S S'
  | current {S S1 S'} (t : V) : Quiet M d D S S1 → TStep M d D S1 (.current t) S' → Quiet M d D S S'

theorem Quiet.same {M : Sem B K A} {d : Decider} {D : Desc V B A} {S S' : TSt V B K} (h : Quiet M d D S S') : S'.content = S.content ∧ S'.mtime = S.mtime ∧ S'.db = S.db := by
  induction h with
  | begin now _ hs => cases hs; exact ⟨rfl, rfl, rfl⟩
  | source v _ _ hs ih => cases hs; exact ih
  | current t _ hs ih => cases hs; exact ih

theorem Quiet.reach {M : Sem B K A} {d : Decider} {F : Desc V B A → Prop} {D : Desc V B A} {S S' : TSt V B K} (h : Quiet M d D S S') (hr : TReach M d F (TLegal d) D S) : TReach M d F (TLegal d) D S' := by
  induction h with
  | begin now hl hs => exact .step _ hr hl hs
  | source v _ hl hs ih => exact .step _ ih hl hs
  | current t _ hs ih => exact .step (.current t) ih trivial hs

/-- **C83** What a run has finished, the next run, with nothing changed in between, finds up to date, whichever of the three deciders is used: by induction it builds nothing of it. -/
theorem C83_second_run_partial {M : Sem B K A} (hM : M.Faithful) {d : Decider} (hd : d ≠ .content) {F : Desc V B A → Prop} (hF : ∀ D, F D → WF D) (hK : Keyed M F)
    (hO : d = .timestampMatch → ∀ D, F D → InOrder D) {D : Desc V B A} {S S1 S2 : TSt V B K} (h : TReach M d F (TLegal d) D S) {t : V} {T : Target V K} (hT : S.recd t = some T)
    (hend : TStep M d D S .finishRun S1) (hq : Quiet M d D S1 S2) {sc : Scan V B A} (hr : S2.ready D t sc) :
    ((S2.world M).isUpToDate d t ((sc.result S2.content).target M) S2.infos).1 = true := by
  have hr2 : TReach M d F (TLegal d) D S2 := hq.reach (.step .finishRun h trivial hend)
  have hI2 := hr2.inv hM hd hF hK hO
  obtain ⟨e1, e2, e3⟩ := hq.same
  cases hend with
  | finishRun hb =>
    have hR := (h.inv hM hd hF hK hO).run hb
    obtain ⟨k1, sc', k2, k3, k4, k5⟩ := hR.recd t T hT
    obtain ⟨hb2, hsc, hnd, hch⟩ := id hr
    have hR2 := hI2.run hb2
    have ht : S2.recd t = none := by
      cases e : S2.recd t with
      | none => rfl
      | some T => exact absurd (hR2.recd t T e).1 hnd
    have e1 : S2.content = S.content := e1
    have e2 : S2.mtime = S.mtime := e2
    have e3 : S2.db t = T.binfo S.infos := by rw [e3]; simp [TSt.records, hT]
    rw [hsc] at k2; cases k2
    obtain ⟨w1, w2, w3⟩ := hF D hI2.desc t sc hsc S.content
    have hsigs : (S2.db t).sigs = (sc.result S.content).children.map S.infos := by
      rw [e3, k3, binfo_sigs, recorded_eq_children w2 w3]; rfl
    rw [C18_up_to_date_iff rfl hR2.infosOK (driftOK_world M S2) (fun e c _ => hI2.stampOK hF (by rw [e]; simp) (fun _ => ht) c)]
    refine ⟨⟨_, show S2.content t = _ by rw [e1, k4]⟩, ?_, ?_, ?_⟩
    · show (sc.result S2.content).children.length = (S2.db t).sigs.length
      rw [hsigs, e1, List.length_map]
    · show (S2.db t).bactsig = some (M.sig (sc.result S2.content).action)
      rw [e3, k3, e1]; simp [Target.binfo, Leaf.target]
    · show ∀ p ∈ (sc.result S2.content).children.zip (S2.db t).sigs, Unchanged (S2.world M) d t p.1 (consulted d (S2.db t) p.1 (some p.2))
      rw [hsigs, e1]
      rintro ⟨c, r⟩ hp
      obtain ⟨hc, rfl⟩ := mem_zip_map hp
      have q := (hR.isDone c (k5 c hc)).1
      rw [← e1, ← e2, ← timestamp_world M S2] at q
      cases d with
      | content => exact absurd rfl hd
      | timestampMatch => exact ⟨_, rfl, q⟩
      | timestampNewer =>
        show (S2.world M).timestamp c ≤ (S2.world M).timestamp t
        rw [timestamp_world, timestamp_world, stampOf, stampOf, e1, e2, if_pos (hR.isThere c (k5 c hc)), if_pos (hR.isThere t k1)]
        exact hR.notNewer rfl t T hT c (by rw [k3]; exact hc)
      | contentTimestamp =>
        have e := C21_looked_up_under_own_name_partial (T := (sc.result S.content).target M) w2 w3 S.infos c
        rw [if_pos (show _ ∈ ((sc.result S.content).target M).children from hc), ← k3, ← e3] at e
        exact ⟨_, e, .inl q⟩

/-- **C83** `Decider('content-timestamp')`: every node that a run has finished, built or found up to date, has the content a build from scratch would give it, as long as a file gets
a time stamp it had before only with the content it had then.  Partial: the scan of a target may change only together with its command (`Keyed`; see `TEx.order_changed`). -/
theorem C83_content_timestamp_partial {M : Sem B K A} (hM : M.Faithful) {F : Desc V B A → Prop} (hF : ∀ D, F D → WF D) (hK : Keyed M F)
    {D : Desc V B A} {S : TSt V B K} (h : TReach M .contentTimestamp F (TLegal .contentTimestamp) D S) (hb : S.busy = true) {v : V} (hv : S.done v) : Clean M D S.content v (S.content v) :=
  ((h.inv hM (by simp) hF hK (by simp)).run hb).clean v hv

/-- **C83** `Decider('timestamp-match')`: the same, if also the dependencies are listed in the order in which they are looked at. -/
theorem C83_timestamp_match_partial {M : Sem B K A} (hM : M.Faithful) {F : Desc V B A → Prop} (hF : ∀ D, F D → WF D) (hK : Keyed M F) (hO : ∀ D, F D → InOrder D)
    {D : Desc V B A} {S : TSt V B K} (h : TReach M .timestampMatch F (TLegal .timestampMatch) D S) (hb : S.busy = true) {v : V} (hv : S.done v) : Clean M D S.content v (S.content v) :=
  ((h.inv hM (by simp) hF hK (fun _ => hO)).run hb).clean v hv

/-- **C83** `Decider('timestamp-newer')`: the same, if the clock ticks between runs and edits, every file gets the time at which it is written, and no source is missing. -/
theorem C83_timestamp_newer_partial {M : Sem B K A} (hM : M.Faithful) {F : Desc V B A → Prop} (hF : ∀ D, F D → WF D) (hK : Keyed M F)
    {D : Desc V B A} {S : TSt V B K} (h : TReach M .timestampNewer F (TLegal .timestampNewer) D S) (hb : S.busy = true) {v : V} (hv : S.done v) : Clean M D S.content v (S.content v) :=
  ((h.inv hM (by simp) hF hK (by simp)).run hb).clean v hv

end Verif.Build
