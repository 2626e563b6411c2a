import Verif.Build.TimedProps

/-!
# Whole builds with the timestamp deciders (C83): histories, and what goes wrong without the hypotheses
-/

namespace Verif.Build.TEx

open Verif.Sig

/-- Contents are numbers; an action appends its inputs, in order, to its parameter. -/
def M : Sem Nat Nat Nat := { run := fun a l => l.foldl (fun acc x => acc * 100 + x) a, sig := id, hash := id, nofile := 0, size := fun _ => 1 }

theorem faithful : M.Faithful := ⟨fun _ _ h => h, fun a b h => by cases (show a = b from h); rfl⟩

abbrev N := Fin 4

/-- 0 and 1 are sources; 2 is built from 0 and, if 0 includes it (content from 10 on), from 1; 3 is built from 2. -/
def D (a : Nat) : Desc N Nat Nat := fun v =>
  if v = 2 then some (.look 0 fun c =>
    if 10 ≤ c.getD 0 then .look 1 fun _ => .found { sources := [0], depends := [], implicit := [1], ignore := [], action := a }
    else .found { sources := [0], depends := [], implicit := [], ignore := [], action := a })
  else if v = 3 then some (.found { sources := [2], depends := [], implicit := [], ignore := [], action := a + 1 })
  else none

/-- 2 is built from the given files, always with the same command. -/
def E (deps : List N) : Desc N Nat Nat := fun v =>
  if v = 2 then some (.found { sources := deps, depends := [], implicit := [], ignore := [], action := 5 }) else none

/-- The descriptions of the example, and those of the counterexamples. -/
def FD : Desc N Nat Nat → Prop := fun X => ∃ a, X = D a
def FE : Desc N Nat Nat → Prop := fun X => ∃ deps : List N, deps.Nodup ∧ X = E deps

theorem FD_wf : ∀ X, FD X → WF X := by
  rintro X ⟨a, rfl⟩ t sc h fs
  unfold D at h
  split at h
  · cases h
    by_cases h0 : 10 ≤ (fs 0).getD 0 <;> simp [Scan.asked, Scan.result, Leaf.children, h0]
  · split at h
    · cases h; simp [Scan.asked, Scan.result]
    · cases h

theorem FE_wf : ∀ X, FE X → WF X := by
  rintro X ⟨deps, hn, rfl⟩ t sc h fs
  unfold E at h
  split at h
  · cases h; simp [Scan.asked, Scan.result, hn]
  · cases h

theorem FD_inOrder : ∀ X, FD X → InOrder X := by
  rintro X ⟨a, rfl⟩ t sc h fs
  unfold D at h
  split at h
  · cases h
    by_cases h0 : 10 ≤ (fs 0).getD 0 <;> simp [Scan.asked, Scan.result, Leaf.children, h0]
  · split at h
    · cases h; simp [Scan.asked]
    · cases h

theorem FD_keyed : Keyed M FD := by
  rintro X X' ⟨a, rfl⟩ ⟨a', rfl⟩ t sc sc' h h' g g' hs
  have key : ∀ (fs : Files N Nat), (Scan.result fs (.look 0 fun c =>
    if 10 ≤ c.getD 0 then .look 1 fun _ => .found { sources := [0], depends := [], implicit := [1], ignore := [], action := a }
    else .found { sources := [0], depends := [], implicit := [], ignore := [], action := a })).action = a := by
    intro fs
    by_cases h0 : 10 ≤ (fs 0).getD 0 <;> simp [Scan.result, h0]
  have key' : ∀ (fs : Files N Nat), (Scan.result fs (.look 0 fun c =>
    if 10 ≤ c.getD 0 then .look 1 fun _ => .found { sources := [0], depends := [], implicit := [1], ignore := [], action := a' }
    else .found { sources := [0], depends := [], implicit := [], ignore := [], action := a' })).action = a' := by
    intro fs
    by_cases h0 : 10 ≤ (fs 0).getD 0 <;> simp [Scan.result, h0]
  unfold D at h h'
  split at h
  · rename_i e
    rw [if_pos e] at h'
    cases h; cases h'
    have : a = a' := by
      have hs : (Scan.result g _).action = (Scan.result g' _).action := hs
      rw [key, key'] at hs; exact hs
    subst this; rfl
  · rename_i e
    rw [if_neg e] at h'
    split at h
    · rename_i e3
      rw [if_pos e3] at h'
      cases h; cases h'
      have : a + 1 = a' + 1 := hs
      have : a = a' := by omega
      subst this; rfl
    · cases h

/-! ### Executable histories -/

abbrev State := TSt N Nat Nat

/-- What is finished and what files were, as lists. -/
structure Side where
  done : List N
  had : List (N × Int × Option Nat)

def Agree (S : State) (s : Side) : Prop := (∀ x, S.done x ↔ x ∈ s.done) ∧ ∀ v τ b, S.had v τ b ↔ (v, τ, b) ∈ s.had

def readyB (X : Desc N Nat Nat) (S : State) (s : Side) (t : N) : Option (Scan N Nat Nat) :=
  match X t with
  | none => none
  | some sc => if S.busy = true ∧ t ∉ s.done ∧ ∀ c ∈ (sc.result S.content).children, c ∈ s.done then some sc else none

def put (s : Side) (v : N) (b : Option Nat) (m : Int) : List (N × Int × Option Nat) := (v, stampOf b m, b) :: s.had

def exec (d : Decider) (X : Desc N Nat Nat) (S : State) (s : Side) : TLab N Nat → Option (State × Side)
  | .begin now => if S.busy = false then
      some ({ S with busy := true, began := now, done := fun _ => False, infos := fun _ => {}, recd := fun _ => none }, ⟨[], s.had⟩) else none
  | .source v => if S.busy = true ∧ (X v).isNone = true ∧ v ∉ s.done then
      some ({ S with infos := (S.world M).visited S.infos v, done := fun x => x = v ∨ S.done x }, ⟨v :: s.done, s.had⟩) else none
  | .current t => (readyB X S s t).bind fun sc =>
      if ((S.world M).isUpToDate d t ((sc.result S.content).target M) S.infos).1 = true then
        some ({ S with
          infos := (S.world M).visited ((S.world M).isUpToDate d t ((sc.result S.content).target M) S.infos).2 t
          recd := fun x => if x = t then some ((sc.result S.content).target M) else S.recd x
          done := fun x => x = t ∨ S.done x }, ⟨t :: s.done, s.had⟩) else none
  | .build t b m => (readyB X S s t).bind fun sc =>
      if b = M.make (sc.result S.content) S.content then
        some ({ S.write t (some b) m with
          infos := fun x => if x = t then ((S.write t (some b) m).world M).freshInfo t (some (M.hash b))
            else ((S.world M).isUpToDate d t ((sc.result S.content).target M) S.infos).2 x
          recd := fun x => if x = t then some ((sc.result S.content).target M) else S.recd x
          done := fun x => x = t ∨ S.done x }, ⟨t :: s.done, put s t (some b) m⟩) else none
  | .fail t => (readyB X S s t).bind fun sc =>
      some ({ S.write t none 0 with
        infos := fun x => if x = t then {} else ((S.world M).isUpToDate d t ((sc.result S.content).target M) S.infos).2 x }, ⟨s.done, put s t none 0⟩)
  | .finishRun => if S.busy = true then
      some ({ S with busy := false, db := S.records }, s) else none
  | .edit v b m => if S.busy = false then some (S.write v b m, ⟨s.done, put s v b m⟩) else none

theorem readyB_sound {X S s t sc} (ha : Agree S s) (h : readyB X S s t = some sc) : S.ready X t sc := by
  unfold readyB at h
  split at h
  · cases h
  · split at h
    · rename_i sc' e h1
      cases h
      exact ⟨h1.1, e, fun h2 => h1.2.1 ((ha.1 t).1 h2), fun c hc => (ha.1 c).2 (h1.2.2 c hc)⟩
    · cases h

theorem put_sound {S : State} {s : Side} (ha : Agree S s) (v : N) (b : Option Nat) (m : Int) (x : N) (τ : Int) (c : Option Nat) :
    (S.write v b m).had x τ c ↔ (x, τ, c) ∈ put s v b m := by
  show ((x = v ∧ τ = stampOf b m ∧ c = b) ∨ S.had x τ c) ↔ _
  rw [put, List.mem_cons, ha.2]
  simp

theorem exec_sound {d X S s l S' s'} (ha : Agree S s) (h : exec d X S s l = some (S', s')) : TStep M d X S l S' ∧ Agree S' s' := by
  cases l with
  | begin now =>
    simp only [exec] at h; split at h
    · cases h; exact ⟨.begin S now (by assumption), by simp, ha.2⟩
    · cases h
  | source v =>
    simp only [exec] at h; split at h
    · rename_i h1; cases h
      exact ⟨.source S v h1.1 (Option.isNone_iff_eq_none.1 h1.2.1) (fun h2 => h1.2.2 ((ha.1 v).1 h2)), fun x => by simp [ha.1], ha.2⟩
    · cases h
  | current t =>
    simp only [exec, Option.bind_eq_some_iff] at h
    obtain ⟨sc, h1, h2⟩ := h
    split at h2
    · rename_i hc; cases h2; exact ⟨.current S t sc (readyB_sound ha h1) hc, fun x => by simp [ha.1], ha.2⟩
    · cases h2
  | build t b m =>
    simp only [exec, Option.bind_eq_some_iff] at h
    obtain ⟨sc, h1, h2⟩ := h
    split at h2
    · rename_i hc; cases h2; exact ⟨.build S t sc b m (readyB_sound ha h1) hc, fun x => by simp [ha.1], put_sound ha t (some b) m⟩
    · cases h2
  | fail t =>
    simp only [exec, Option.bind_eq_some_iff] at h
    obtain ⟨sc, h1, h2⟩ := h
    cases h2; exact ⟨.fail S t sc (readyB_sound ha h1), ha.1, put_sound ha t none 0⟩
  | finishRun =>
    simp only [exec] at h
    split at h
    · cases h; exact ⟨.finishRun S (by assumption), ha⟩
    · cases h
  | edit v b m =>
    simp only [exec] at h
    split at h
    · cases h; exact ⟨.edit S v b m (by assumption), ha.1, put_sound ha v b m⟩
    · cases h

/-- A history: steps, and changes of the description. -/
def execAll (d : Decider) (ok : State → Side → TLab N Nat → Bool) :
    Desc N Nat Nat → State → Side → List (Desc N Nat Nat ⊕ TLab N Nat) → Option (State × Side)
  | _, S, s, [] => some (S, s)
  | _, S, s, .inl X :: ls => if S.busy = false then execAll d ok X S s ls else none
  | X, S, s, .inr l :: ls => if ok S s l = true then (exec d X S s l).bind fun p => execAll d ok X p.1 p.2 ls else none

/-- The last description. -/
def lastDesc (X : Desc N Nat Nat) : List (Desc N Nat Nat ⊕ TLab N Nat) → Desc N Nat Nat
  | [] => X
  | .inl Y :: ls => lastDesc Y ls
  | .inr _ :: ls => lastDesc X ls

theorem execAll_sound {d : Decider} {F : Desc N Nat Nat → Prop} {ok : State → Side → TLab N Nat → Bool} {P : State → TLab N Nat → Prop}
    (hok : ∀ S s l, Agree S s → ok S s l = true → P S l) {ls : List (Desc N Nat Nat ⊕ TLab N Nat)} (hls : ∀ Y, .inl Y ∈ ls → F Y) :
    ∀ {X S s S' s'}, TReach M d F P X S → Agree S s → execAll d ok X S s ls = some (S', s') → TReach M d F P (lastDesc X ls) S' ∧ Agree S' s' := by
  induction ls with
  | nil => intro X S s S' s' h ha he; cases he; exact ⟨h, ha⟩
  | cons l ls ih =>
    intro X S s S' s' h ha he
    have hls' : ∀ Y, Sum.inl Y ∈ ls → F Y := fun Y hY => hls Y (List.mem_cons_of_mem _ hY)
    cases l with
    | inl Y =>
      simp only [execAll] at he
      split at he
      · exact ih hls' (.newDesc h (by assumption) (hls Y List.mem_cons_self)) ha he
      · cases he
    | inr l =>
      simp only [execAll] at he
      split at he
      · rename_i h1
        simp only [Option.bind_eq_some_iff] at he
        obtain ⟨⟨S1, s1⟩, h2, h3⟩ := he
        obtain ⟨g1, g2⟩ := exec_sound ha h2
        exact ih hls' (.step l h (hok S s l ha h1) g1) g2 h3
      · cases he

/-- A fresh check-out. -/
def start (c0 c1 : Nat) (m0 m1 : Int) : State :=
  { content := fun v => if v = 0 then some c0 else if v = 1 then some c1 else none, mtime := fun v => if v = 0 then m0 else if v = 1 then m1 else 0,
    db := fun _ => {}, infos := fun _ => {}, recd := fun _ => none, done := fun _ => False, busy := false, began := 0,
    had := fun v τ b => τ = stampOf (if v = 0 then some c0 else if v = 1 then some c1 else none) (if v = 0 then m0 else if v = 1 then m1 else 0) ∧
      b = (if v = 0 then some c0 else if v = 1 then some c1 else none) }

def side0 (c0 c1 : Nat) (m0 m1 : Int) : Side := ⟨[], [(0, m0, some c0), (1, m1, some c1), (2, 0, none), (3, 0, none)]⟩

theorem start_agree (c0 c1 : Nat) (m0 m1 : Int) : Agree (start c0 c1 m0 m1) (side0 c0 c1 m0 m1) := by
  refine ⟨fun x => by simp [start, side0], fun v τ b => ?_⟩
  match v with
  | 0 => simp [start, side0, stampOf]
  | 1 => simp [start, side0, stampOf]
  | 2 => simp [start, side0, stampOf]
  | 3 => simp [start, side0, stampOf]

/-- `FreshTime`, `TLegal` as programs. -/
def freshB (s : Side) (v : N) (b : Option Nat) (m : Int) : Bool := s.had.all fun p => decide (p.1 = v → p.2.1 = stampOf b m → p.2.2 = b)

def legalB (d : Decider) (S : State) (s : Side) : TLab N Nat → Bool
  | .begin now => decide (d = .timestampNewer → ∀ v, (S.content v).isSome = true → S.mtime v < now)
  | .source v => (S.content v).isSome
  | .current _ => true
  | .build t b m => decide (d = .timestampNewer → S.began ≤ m ∧ ∀ v, (S.content v).isSome = true → S.mtime v ≤ m) && (decide (d = .timestampNewer) || freshB s t (some b) m)
  | .fail t => decide (d = .timestampNewer) || freshB s t none 0
  | .finishRun => true
  | .edit v b m => decide (b = none ∨ (S.db v).bactsig = none) && decide (d = .timestampNewer → b.isSome = true → ∀ x, (S.content x).isSome = true → S.mtime x < m) &&
      (decide (d = .timestampNewer) || freshB s v b m)

theorem freshB_sound {S : State} {s : Side} (ha : Agree S s) {v : N} {b : Option Nat} {m : Int} (h : freshB s v b m = true) : FreshTime S v b m := by
  intro b' hb
  have := List.all_eq_true.1 h _ ((ha.2 _ _ _).1 hb)
  exact of_decide_eq_true this rfl rfl

theorem legalB_sound (d : Decider) (S : State) (s : Side) (l : TLab N Nat) (ha : Agree S s) (h : legalB d S s l = true) : TLegal d S l := by
  cases l with
  | begin now => simp only [legalB, decide_eq_true_eq] at h; exact h
  | source v => exact h
  | current t => trivial
  | build t b m =>
    simp only [legalB, Bool.and_eq_true, Bool.or_eq_true, decide_eq_true_eq] at h
    exact ⟨h.1, fun hd => freshB_sound ha (h.2.resolve_left hd)⟩
  | fail t =>
    simp only [legalB, Bool.or_eq_true, decide_eq_true_eq] at h
    exact fun hd => freshB_sound ha (h.resolve_left hd)
  | finishRun => trivial
  | edit v b m =>
    simp only [legalB, Bool.and_eq_true, Bool.or_eq_true, decide_eq_true_eq] at h
    exact ⟨h.1.1, h.1.2, fun hd => freshB_sound ha (h.2.resolve_left hd)⟩

/-! ### An ordinary history -/

/-- Build; nothing to do; 0 comes to include 1; the header changes (and is put back); the command changes. -/
def hist : List (Desc N Nat Nat ⊕ TLab N Nat) :=
  [.inr (.begin 10), .inr (.source 0), .inr (.build 2 705 11), .inr (.build 3 1505 11), .inr .finishRun,
   .inr (.begin 20), .inr (.source 0), .inr (.current 2), .inr (.current 3), .inr .finishRun,
   .inr (.edit 0 (some 15) 30),
   .inr (.begin 40), .inr (.source 0), .inr (.source 1), .inr (.build 2 71506 41), .inr (.build 3 72306 42), .inr .finishRun,
   .inr (.edit 1 (some 9) 50),
   .inr (.begin 60), .inr (.source 1), .inr (.source 0), .inr (.build 2 71509 61), .inr (.fail 3), .inr .finishRun,
   .inl (D 3), .inr (.edit 1 (some 6) 70),
   .inr (.begin 80), .inr (.source 1), .inr (.source 0), .inr (.build 2 31506 81), .inr (.build 3 31906 81), .inr .finishRun,
   .inr (.begin 90), .inr (.source 1), .inr (.source 0), .inr (.current 2), .inr (.current 3)]

theorem runs (d : Decider) (hd : d ≠ .content) : ((execAll d (legalB d) (D 7) (start 5 6 1 2) (side0 5 6 1 2) hist).map fun p =>
    (p.1.busy, decide (3 ∈ p.2.done), p.1.content 3)) = some (true, true, some 31906) := by
  cases d with
  | content => exact absurd rfl hd
  | contentTimestamp => decide +kernel
  | timestampNewer => decide +kernel
  | timestampMatch => decide +kernel

theorem reached (d : Decider) (hd : d ≠ .content) : ∃ S, TReach M d FD (TLegal d) (D 3) S ∧ S.busy = true ∧ S.done 3 ∧ S.content 3 = some 31906 := by
  obtain ⟨⟨S, s⟩, h1, h2⟩ := Option.map_eq_some_iff.1 (runs d hd)
  simp only [Prod.mk.injEq, decide_eq_true_eq] at h2
  obtain ⟨g1, g2⟩ := execAll_sound (F := FD) (legalB_sound d) (by
    intro Y hY
    simp only [hist, List.mem_cons, Sum.inl.injEq, reduceCtorEq, false_or, List.not_mem_nil, or_false] at hY
    exact ⟨3, hY⟩) (.init (D 7) _ _ ⟨7, rfl⟩) (start_agree 5 6 1 2) h1
  exact ⟨S, g1, h2.1, (g2.1 3).2 h2.2.1, h2.2.2⟩

/-- The theorems apply to it. -/
theorem applied (d : Decider) (hd : d ≠ .content) : ∃ S, TReach M d FD (TLegal d) (D 3) S ∧ Clean M (D 3) S.content 3 (some 31906) := by
  obtain ⟨S, h1, h2, h3, h4⟩ := reached d hd
  refine ⟨S, h1, ?_⟩
  rw [← h4]
  cases d with
  | content => exact absurd rfl hd
  | contentTimestamp => exact C83_content_timestamp_partial faithful FD_wf FD_keyed h1 h2 h3
  | timestampNewer => exact C83_timestamp_newer_partial faithful FD_wf FD_keyed h1 h2 h3
  | timestampMatch => exact C83_timestamp_match_partial faithful FD_wf FD_keyed FD_inOrder h1 h2 h3

/-- The run after the first, and what it finds (the hypotheses of `C83_second_run_partial`). -/
theorem second_run_applied (d : Decider) (hd : d ≠ .content) : ∃ S S1 S2 T sc, TReach M d FD (TLegal d) (D 7) S ∧ S.recd 2 = some T ∧ TStep M d (D 7) S .finishRun S1 ∧ Quiet M d (D 7) S1 S2 ∧
    S2.ready (D 7) 2 sc ∧ ((S2.world M).isUpToDate d 2 ((sc.result S2.content).target M) S2.infos).1 = true := by
  have e0 : ((execAll d (legalB d) (D 7) (start 5 6 1 2) (side0 5 6 1 2) [.inr (.begin 10), .inr (.source 0), .inr (.build 2 705 11)]).bind fun p =>
      (exec d (D 7) p.1 p.2 .finishRun).bind fun p1 => if legalB d p1.1 p1.2 (.begin 20) then (exec d (D 7) p1.1 p1.2 (.begin 20)).bind fun p2 =>
        if legalB d p2.1 p2.2 (.source 0) then (exec d (D 7) p2.1 p2.2 (.source 0)).bind fun p3 =>
          (readyB (D 7) p3.1 p3.2 2).map fun _ => (p.1.recd 2).isSome else none else none) = some true := by
    cases d with
    | content => exact absurd rfl hd
    | contentTimestamp => decide +kernel
    | timestampNewer => decide +kernel
    | timestampMatch => decide +kernel
  obtain ⟨⟨S, s⟩, h1, e0⟩ := Option.bind_eq_some_iff.1 e0
  obtain ⟨⟨S1, s1⟩, h2, e0⟩ := Option.bind_eq_some_iff.1 e0
  split at e0
  case isFalse => cases e0
  rename_i l1
  obtain ⟨⟨S2, s2⟩, h3, e0⟩ := Option.bind_eq_some_iff.1 e0
  split at e0
  case isFalse => cases e0
  rename_i l2
  obtain ⟨⟨S3, s3⟩, h4, e0⟩ := Option.bind_eq_some_iff.1 e0
  obtain ⟨sc, h5, e0⟩ := Option.map_eq_some_iff.1 e0
  obtain ⟨T, hT⟩ := Option.isSome_iff_exists.1 e0
  obtain ⟨g1, g2⟩ := execAll_sound (F := FD) (legalB_sound d) (by simp) (.init (D 7) _ _ ⟨7, rfl⟩) (start_agree 5 6 1 2) h1
  obtain ⟨q1, r1⟩ := exec_sound g2 h2
  obtain ⟨q2, r2⟩ := exec_sound r1 h3
  obtain ⟨q3, r3⟩ := exec_sound r2 h4
  have hq : Quiet M d (D 7) S1 S3 := .source 0 (.begin 20 (legalB_sound d _ _ _ r1 l1) q2) (legalB_sound d _ _ _ r2 l2) q3
  have hr := readyB_sound r3 h5
  exact ⟨S, S1, S3, T, sc, g1, hT, q1, hq, hr, C83_second_run_partial faithful hd FD_wf FD_keyed (fun _ => FD_inOrder) g1 hT q1 hq hr⟩

/-! ### What goes wrong without the hypotheses -/

theorem clean_E {deps : List N} (hd : (2 : N) ∉ deps) (fs : Files N Nat) : Clean M (E deps) fs 2 (some (M.run 5 (deps.map fun c => M.see (fs c)))) := by
  have h : Clean M (E deps) fs 2 _ := .target (sc := .found { sources := deps, depends := [], implicit := [], ignore := [], action := 5 }) fs rfl (by
    intro c hc
    have hc : c ∈ deps := by simpa [Scan.result, Leaf.children] using hc
    refine .source ?_
    have : c ≠ 2 := fun e => hd (e ▸ hc)
    simp [E, this])
  have e : (Scan.result fs (Scan.found (V := N) (B := Nat) { sources := deps, depends := [], implicit := [], ignore := [], action := 5 })).children = deps := by
    simp [Scan.result, Leaf.children]
  rw [e] at h
  exact h

/-- A history that ends with a node that is finished but not what a clean build gives. -/
theorem stale {d : Decider} {P : State → TLab N Nat → Prop} {ok : State → Side → TLab N Nat → Bool} (hok : ∀ S s l, Agree S s → ok S s l = true → P S l)
    {c0 c1 : Nat} {m0 m1 : Int} {deps deps' : List N} {ls : List (Desc N Nat Nat ⊕ TLab N Nat)} {x y : Nat} (hn : deps.Nodup) (hn' : deps'.Nodup) (h2 : (2 : N) ∉ deps')
    (hls : ∀ Y, .inl Y ∈ ls → FE Y) (hlast : lastDesc (E deps) ls = E deps') (hxy : x ≠ y)
    (h : ((execAll d ok (E deps) (start c0 c1 m0 m1) (side0 c0 c1 m0 m1) ls).map fun p =>
      (p.1.busy, decide (2 ∈ p.2.done), p.1.content 2, M.run 5 (deps'.map fun c => M.see (p.1.content c)))) = some (true, true, some x, y)) :
    ∃ S, TReach M d FE P (E deps') S ∧ S.busy = true ∧ S.done 2 ∧ S.content 2 = some x ∧ Clean M (E deps') S.content 2 (some y) ∧ ¬ Clean M (E deps') S.content 2 (S.content 2) := by
  obtain ⟨⟨S, s⟩, h1, h2'⟩ := Option.map_eq_some_iff.1 h
  simp only [Prod.mk.injEq, decide_eq_true_eq] at h2'
  obtain ⟨g1, g2⟩ := execAll_sound (F := FE) hok hls (.init (E deps) _ _ ⟨deps, hn, rfl⟩) (start_agree c0 c1 m0 m1) h1
  rw [hlast] at g1
  have hy : Clean M (E deps') S.content 2 (some y) := by rw [← h2'.2.2.2]; exact clean_E h2 S.content
  refine ⟨S, g1, h2'.1, (g2.1 2).2 h2'.2.1, h2'.2.2.1, hy, fun hc => ?_⟩
  have := Clean.unique (FE_wf _ ⟨deps', hn', rfl⟩) hc hy
  rw [h2'.2.2.1] at this
  exact hxy (Option.some.inj this)

/-- `timestamp-newer`: a source replaced by an older version (restored from a backup, moved there): the target is not built again. -/
theorem newer_restored : ∃ S, TReach M .timestampNewer FE (fun S l => match l with | .edit v b _ => b = none ∨ (S.db v).bactsig = none | l => TLegal .timestampNewer S l) (E [0]) S ∧
    S.busy = true ∧ S.done 2 ∧ S.content 2 = some 505 ∧ Clean M (E [0]) S.content 2 (some 506) ∧ ¬ Clean M (E [0]) S.content 2 (S.content 2) := by
  refine stale (ok := fun S s l => match l with | .edit v b _ => decide (b = none ∨ (S.db v).bactsig = none) | l => legalB .timestampNewer S s l) (fun S s l ha h => ?_)
    (c0 := 5) (c1 := 6) (m0 := 1) (m1 := 2) (deps := [0])
    (ls := [.inr (.begin 10), .inr (.source 0), .inr (.build 2 505 11), .inr .finishRun, .inr (.edit 0 (some 6) 4), .inr (.begin 20), .inr (.source 0), .inr (.current 2)])
    (by decide) (by decide) (by decide) (by simp) rfl (by decide) (by decide +kernel)
  cases l with
  | edit v b m => exact of_decide_eq_true h
  | _ => exact legalB_sound .timestampNewer S s _ ha h

/-- `timestamp-newer`: a source that is gone is not noticed. -/
theorem newer_deleted : ∃ S, TReach M .timestampNewer FE (fun S l => match l with | .source _ => True | l => TLegal .timestampNewer S l) (E [0]) S ∧
    S.busy = true ∧ S.done 2 ∧ S.content 2 = some 505 ∧ Clean M (E [0]) S.content 2 (some 500) ∧ ¬ Clean M (E [0]) S.content 2 (S.content 2) := by
  refine stale (ok := fun S s l => match l with | .source _ => true | l => legalB .timestampNewer S s l) (fun S s l ha h => ?_)
    (c0 := 5) (c1 := 6) (m0 := 1) (m1 := 2) (deps := [0])
    (ls := [.inr (.begin 10), .inr (.source 0), .inr (.build 2 505 11), .inr .finishRun, .inr (.edit 0 none 0), .inr (.begin 20), .inr (.source 0), .inr (.current 2)])
    (by decide) (by decide) (by decide) (by simp) rfl (by decide) (by decide +kernel)
  cases l with
  | source v => trivial
  | _ => exact legalB_sound .timestampNewer S s _ ha h

/-- `timestamp-newer`: a target that comes to depend on another file, with the same command, is not built again if that file is older than the target. -/
theorem newer_other_file : ∃ S, TReach M .timestampNewer FE (TLegal .timestampNewer) (E [1]) S ∧
    S.busy = true ∧ S.done 2 ∧ S.content 2 = some 505 ∧ Clean M (E [1]) S.content 2 (some 506) ∧ ¬ Clean M (E [1]) S.content 2 (S.content 2) :=
  stale (legalB_sound .timestampNewer) (c0 := 5) (c1 := 6) (m0 := 1) (m1 := 2) (deps := [0])
    (ls := [.inr (.begin 10), .inr (.source 0), .inr (.build 2 505 11), .inr .finishRun, .inl (E [1]), .inr (.begin 20), .inr (.source 1), .inr (.current 2)])
    (by decide) (by decide) (by decide) (by simp; exact ⟨[1], by decide, rfl⟩) rfl (by decide) (by decide +kernel)

/-- `timestamp-match`: nor is it if that file has the time the other one had (as after unpacking an archive or a check-out). -/
theorem match_other_file : ∃ S, TReach M .timestampMatch FE (TLegal .timestampMatch) (E [1]) S ∧
    S.busy = true ∧ S.done 2 ∧ S.content 2 = some 505 ∧ Clean M (E [1]) S.content 2 (some 506) ∧ ¬ Clean M (E [1]) S.content 2 (S.content 2) :=
  stale (legalB_sound .timestampMatch) (c0 := 5) (c1 := 6) (m0 := 1) (m1 := 1) (deps := [0])
    (ls := [.inr (.begin 10), .inr (.source 0), .inr (.build 2 505 11), .inr .finishRun, .inl (E [1]), .inr (.begin 20), .inr (.source 1), .inr (.current 2)])
    (by decide) (by decide) (by decide) (by simp; exact ⟨[1], by decide, rfl⟩) rfl (by decide) (by decide +kernel)

/-- `content-timestamp`: the sources in another order, with the same command (e.g. a Python function): not built again; with `content` it is. -/
theorem order_changed : (∃ S, TReach M .contentTimestamp FE (TLegal .contentTimestamp) (E [1, 0]) S ∧
    S.busy = true ∧ S.done 2 ∧ S.content 2 = some 50506 ∧ Clean M (E [1, 0]) S.content 2 (some 50605) ∧ ¬ Clean M (E [1, 0]) S.content 2 (S.content 2)) ∧
    (execAll .content (fun _ _ _ => true) (E [0, 1]) (start 5 6 1 2) (side0 5 6 1 2) [.inr (.begin 10), .inr (.source 0), .inr (.source 1), .inr (.build 2 50506 11), .inr .finishRun, .inl (E [1, 0]),
      .inr (.begin 20), .inr (.source 1), .inr (.source 0), .inr (.current 2)]).isNone = true :=
  ⟨stale (legalB_sound .contentTimestamp) (c0 := 5) (c1 := 6) (m0 := 1) (m1 := 1) (deps := [0, 1])
    (ls := [.inr (.begin 10), .inr (.source 0), .inr (.source 1), .inr (.build 2 50506 11), .inr .finishRun, .inl (E [1, 0]), .inr (.begin 20), .inr (.source 1), .inr (.source 0), .inr (.current 2)])
    (by decide) (by decide) (by decide) (by simp; exact ⟨[1, 0], by decide, rfl⟩) rfl (by decide) (by decide +kernel), by decide +kernel⟩

/-- `content-timestamp`: a source that gets another content and keeps its time: not built again. -/
theorem same_time : ∃ S, TReach M .contentTimestamp FE (fun S l => match l with | .edit v b _ => b = none ∨ (S.db v).bactsig = none | l => TLegal .contentTimestamp S l) (E [0]) S ∧
    S.busy = true ∧ S.done 2 ∧ S.content 2 = some 505 ∧ Clean M (E [0]) S.content 2 (some 506) ∧ ¬ Clean M (E [0]) S.content 2 (S.content 2) := by
  refine stale (ok := fun S s l => match l with | .edit v b _ => decide (b = none ∨ (S.db v).bactsig = none) | l => legalB .contentTimestamp S s l) (fun S s l ha h => ?_)
    (c0 := 5) (c1 := 6) (m0 := 1) (m1 := 2) (deps := [0])
    (ls := [.inr (.begin 10), .inr (.source 0), .inr (.build 2 505 11), .inr .finishRun, .inr (.edit 0 (some 6) 1), .inr (.begin 20), .inr (.source 0), .inr (.current 2)])
    (by decide) (by decide) (by decide) (by simp) rfl (by decide) (by decide +kernel)
  cases l with
  | edit v b m => exact of_decide_eq_true h
  | _ => exact legalB_sound .contentTimestamp S s _ ha h

end Verif.Build.TEx
