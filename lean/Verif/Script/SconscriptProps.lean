import Verif.Script.Sconscript

/-! # SConscript files: theorems (C68) -/

namespace Verif.Script.Scons

/-- What running part of a script leaves alone: the frames below, this frame's exports, the current directory of the name space, `sys.path`, the count of scripts being read.  And what is below does not matter. -/
def Good (run : St → Prog → Option (St × Out)) : Prop :=
  ∀ S p S' o fr t, run S p = some (S', o) → S.stack = fr :: t → ∃ fr', S'.stack = fr' :: t ∧ fr'.exports = fr.exports ∧ fr'.prev = fr.prev ∧ S'.cwd = S.cwd ∧ S'.path = S.path ∧ S'.reading = S.reading ∧
    ∀ t2, run { S with stack := fr :: t2 } p = some ({ S' with stack := fr' :: t2 }, o)

theorem chdir_stack (S : St) (d o : Dir) (t : List Frame) : chdir { S with stack := t } d o = { chdir S d o with stack := t } := by
  unfold chdir; dsimp only; split <;> (try split) <;> rfl

theorem chdir_fields (S : St) (d o : Dir) : (chdir S d o).stack = S.stack ∧ (chdir S d o).gexp = S.gexp ∧ (chdir S d o).cwd = d ∧ (chdir S d o).path = S.path ∧ (chdir S d o).reading = S.reading ∧ (chdir S d o).flag = S.flag ∧ (chdir S d o).dirs = S.dirs := by
  unfold chdir; split <;> (try split) <;> exact ⟨rfl, rfl, rfl, rfl, rfl, rfl, rfl⟩

theorem leave_eq {S : St} {fr : Frame} {t : List Frame} (h : S.stack = fr :: t) (P : List Dir) :
    (leave S P).1.stack = t ∧ (leave S P).1.cwd = fr.prev ∧ (leave S P).1.path = P ∧ (leave S P).1.reading = S.reading - 1 ∧ (leave S P).2 = fr.retval ∧ (leave S P).1.gexp = S.gexp ∧ (leave S P).1.flag = S.flag ∧
      ∀ t2, leave { S with stack := fr :: t2 } P = ({ (leave S P).1 with stack := t2 }, fr.retval) := by
  unfold leave
  simp only [h]
  generalize hS1 : ({ S with reading := S.reading - 1, path := P, stack := t } : St) = S1
  obtain ⟨a1, a2, a3, a4, a5, a6, a7⟩ := chdir_fields S1 fr.prev fr.prev
  refine ⟨by rw [a1, ← hS1], a3, by rw [a4, ← hS1], by rw [a5, ← hS1], trivial, by rw [a2, ← hS1], by rw [a6, ← hS1], fun t2 => ?_⟩
  subst hS1
  have e := chdir_stack { S with reading := S.reading - 1, path := P, stack := t } fr.prev fr.prev t2
  simp only at e
  rw [e]

theorem callFile_good {U : Setup} {run : St → Prog → Option (St × Out)} (hg : Good run) {S S' : St} {f : Name} {E : Vars} {o : Out} {v : Val} (h : callFile U run S f E = some (S', o, v)) :
    S'.stack = S.stack ∧ S'.cwd = S.cwd ∧ S'.path = S.path ∧ S'.reading = S.reading ∧ ∀ t2, callFile U run { S with stack := t2 } f E = some ({ S' with stack := t2 }, o, v) := by
  unfold callFile at h ⊢
  dsimp only at h ⊢
  generalize hfr : (⟨U.defaults, E, .none, S.cwd⟩ : Frame) = fr at h ⊢
  have hprev : fr.prev = S.cwd := by rw [← hfr]
  cases hf : U.files f with
  | none =>
    rw [hf] at h
    simp only [Option.some.injEq, Prod.mk.injEq] at h
    obtain ⟨h1, h2, h3⟩ := h
    obtain ⟨b1, b2, b3, b4, b5, b6, b7, b8⟩ := leave_eq (S := { S with stack := fr :: S.stack, reading := S.reading + 1, cwd := U.top, os := U.top }) rfl S.path
    rw [h1] at b1 b2 b3 b4
    refine ⟨b1, by rw [b2, hprev], b3, by rw [b4]; rfl, fun t2 => ?_⟩
    have b9 := b8 t2
    simp only at b9 ⊢
    rw [b9, h1, h2, ← h3, b5]
  | some fl =>
    rw [hf] at h
    dsimp only at h ⊢
    cases hd : fl.dir with
    | none =>
      rw [hd] at h
      dsimp only at h ⊢
      cases hr : run { S with stack := fr :: S.stack, reading := S.reading + 1 } fl.body with
      | none => simp [hr] at h
      | some r =>
        obtain ⟨S2, o2⟩ := r
        rw [hr] at h
        simp only [Option.some.injEq, Prod.mk.injEq] at h
        obtain ⟨h1, h2, h3⟩ := h
        obtain ⟨fr', c1, c2, c3, c4, c5, c6, c7⟩ := hg _ _ _ _ fr S.stack hr rfl
        obtain ⟨b1, b2, b3, b4, b5, b6, b7, b8⟩ := leave_eq c1 S.path
        rw [h1] at b1 b2 b3 b4
        refine ⟨b1, by rw [b2, c3, hprev], b3, by rw [b4, c6]; rfl, fun t2 => ?_⟩
        have b9 := b8 t2
        have c8 := c7 t2
        simp only at b9 c8 ⊢
        rw [c8]
        dsimp only
        rw [b9, h1, h2, ← h3, b5]
    | some ds =>
      obtain ⟨d, src⟩ := ds
      rw [hd] at h
      dsimp only at h ⊢
      obtain ⟨a1, a2, a3, a4, a5, a6, a7⟩ := chdir_fields { S with stack := fr :: S.stack, reading := S.reading + 1, cwd := U.top, os := U.top } d src
      have e := chdir_stack { S with stack := fr :: S.stack, reading := S.reading + 1, cwd := U.top, os := U.top } d src
      generalize hC : chdir { S with stack := fr :: S.stack, reading := S.reading + 1, cwd := U.top, os := U.top } d src = C at h a1 a2 a3 a4 a5 a6 a7 e
      cases hr : run { C with path := d :: C.path } fl.body with
      | none => simp [hr] at h
      | some r =>
        obtain ⟨S2, o2⟩ := r
        rw [hr] at h
        simp only [Option.some.injEq, Prod.mk.injEq] at h
        obtain ⟨h1, h2, h3⟩ := h
        obtain ⟨fr', c1, c2, c3, c4, c5, c6, c7⟩ := hg _ _ _ _ fr S.stack hr a1
        obtain ⟨b1, b2, b3, b4, b5, b6, b7, b8⟩ := leave_eq c1 S.path
        rw [h1] at b1 b2 b3 b4
        refine ⟨b1, by rw [b2, c3, hprev], b3, ?_, fun t2 => ?_⟩
        · rw [b4, c6]; simp only at a5 ⊢; rw [a5]; rfl
        have b9 := b8 t2
        have c8 := c7 t2
        have e2 := e (fr :: t2)
        simp only at b9 c8 e2 ⊢
        rw [e2]
        dsimp only
        rw [c8]
        dsimp only
        rw [b9, h1, h2, ← h3, b5]

theorem callFiles_good {U : Setup} {run : St → Prog → Option (St × Out)} (hg : Good run) {xs fs : List Name} {S S' : St} {acc : List Val} {r : Except Out (List Val)} (h : callFiles U run xs S fs acc = some (S', r)) :
    S'.stack = S.stack ∧ S'.cwd = S.cwd ∧ S'.path = S.path ∧ S'.reading = S.reading ∧
      ∀ t2 : List Frame, t2.head?.map (·.globals) = S.stack.head?.map (·.globals) → callFiles U run xs { S with stack := t2 } fs acc = some ({ S' with stack := t2 }, r) := by
  induction fs generalizing S acc with
  | nil =>
    simp only [callFiles, Option.some.injEq, Prod.mk.injEq] at h
    obtain ⟨rfl, rfl⟩ := h
    exact ⟨rfl, rfl, rfl, rfl, fun _ _ => rfl⟩
  | cons f fs ih =>
    simp only [callFiles] at h ⊢
    cases hE : computeExports ((S.stack.head?.map (·.globals)).getD fun _ => none) xs with
    | error e =>
      rw [hE] at h
      simp only [Option.some.injEq, Prod.mk.injEq] at h
      obtain ⟨rfl, rfl⟩ := h
      exact ⟨rfl, rfl, rfl, rfl, fun t2 ht => by rw [ht, hE]⟩
    | ok E =>
      rw [hE] at h
      dsimp only at h
      cases hc : callFile U run S f E with
      | none => simp [hc] at h
      | some c =>
        obtain ⟨S1, o, v⟩ := c
        obtain ⟨c1, c2, c3, c4, c5⟩ := callFile_good hg hc
        rw [hc] at h
        cases o with
        | ok =>
          obtain ⟨d1, d2, d3, d4, d5⟩ := ih h
          refine ⟨d1.trans c1, d2.trans c2, d3.trans c3, d4.trans c4, fun t2 ht => ?_⟩
          rw [ht, hE]
          dsimp only
          rw [c5 t2]
          dsimp only
          exact d5 t2 (by rw [c1]; exact ht)
        | returned =>
          simp only [Option.some.injEq, Prod.mk.injEq] at h
          obtain ⟨rfl, rfl⟩ := h
          exact ⟨c1, c2, c3, c4, fun t2 ht => by rw [ht, hE]; dsimp only; rw [c5 t2]⟩
        | error e =>
          simp only [Option.some.injEq, Prod.mk.injEq] at h
          obtain ⟨rfl, rfl⟩ := h
          exact ⟨c1, c2, c3, c4, fun t2 ht => by rw [ht, hE]; dsimp only; rw [c5 t2]⟩

theorem op_good {U : Setup} {run : St → Prog → Option (St × Out)} (hg : Good run) {S S' : St} {fr : Frame} {t : List Frame} {s : Op} {o : Out} (hs : S.stack = fr :: t) (h : op U run S fr t s = some (S', o)) :
    ∃ fr', S'.stack = fr' :: t ∧ fr'.exports = fr.exports ∧ fr'.prev = fr.prev ∧ S'.cwd = S.cwd ∧ S'.path = S.path ∧ S'.reading = S.reading ∧
      ∀ t2, op U run { S with stack := fr :: t2 } fr t2 s = some ({ S' with stack := fr' :: t2 }, o) := by
  cases s with
  | assign x f ys =>
    simp only [op] at h ⊢
    split at h <;> (simp only [Option.some.injEq, Prod.mk.injEq] at h; obtain ⟨rfl, rfl⟩ := h)
    · exact ⟨fr, hs, rfl, rfl, rfl, rfl, rfl, fun t2 => by simp_all⟩
    · exact ⟨_, rfl, rfl, rfl, rfl, rfl, rfl, fun t2 => by simp_all⟩
  | «export» xs =>
    simp only [op, Option.some.injEq, Prod.mk.injEq] at h ⊢
    obtain ⟨rfl, rfl⟩ := h
    exact ⟨fr, hs, rfl, rfl, rfl, rfl, rfl, fun t2 => ⟨rfl, rfl⟩⟩
  | exportAs x y =>
    simp only [op] at h ⊢
    split at h <;> (simp only [Option.some.injEq, Prod.mk.injEq] at h; obtain ⟨rfl, rfl⟩ := h)
    · exact ⟨fr, hs, rfl, rfl, rfl, rfl, rfl, fun t2 => by simp_all⟩
    · exact ⟨fr, hs, rfl, rfl, rfl, rfl, rfl, fun t2 => by simp_all⟩
  | «import» xs =>
    simp only [op, Option.some.injEq, Prod.mk.injEq] at h ⊢
    obtain ⟨rfl, rfl⟩ := h
    exact ⟨_, rfl, rfl, rfl, rfl, rfl, rfl, fun t2 => ⟨rfl, rfl⟩⟩
  | importAll =>
    simp only [op, Option.some.injEq, Prod.mk.injEq] at h ⊢
    obtain ⟨rfl, rfl⟩ := h
    exact ⟨_, rfl, rfl, rfl, rfl, rfl, rfl, fun t2 => ⟨rfl, rfl⟩⟩
  | call x files xs =>
    simp only [op] at h ⊢
    cases hc : callFiles U run xs S files [] with
    | none => simp [hc] at h
    | some c =>
      obtain ⟨S1, r⟩ := c
      obtain ⟨c1, c2, c3, c4, c5⟩ := callFiles_good hg hc
      rw [hc] at h
      have c6 : ∀ t2, callFiles U run xs { S with stack := fr :: t2 } files [] = some ({ S1 with stack := fr :: t2 }, r) := fun t2 => c5 (fr :: t2) (by rw [hs]; rfl)
      cases r with
      | error o1 =>
        simp only [Option.some.injEq, Prod.mk.injEq] at h
        obtain ⟨rfl, rfl⟩ := h
        exact ⟨fr, c1.trans hs, rfl, rfl, c2, c3, c4, fun t2 => by rw [c6]⟩
      | ok vs =>
        simp only [Option.some.injEq, Prod.mk.injEq] at h
        obtain ⟨h1, rfl⟩ := h
        cases x with
        | none => dsimp only at h1; subst h1; exact ⟨fr, c1.trans hs, rfl, rfl, c2, c3, c4, fun t2 => by rw [c6]⟩
        | some x =>
          simp only [setTop, c1, hs] at h1
          subst h1
          exact ⟨_, rfl, rfl, rfl, c2, c3, c4, fun t2 => by rw [c6]; rfl⟩
  | ret xs stop =>
    simp only [op] at h ⊢
    split at h <;> (simp only [Option.some.injEq, Prod.mk.injEq] at h; obtain ⟨rfl, rfl⟩ := h)
    · exact ⟨fr, hs, rfl, rfl, rfl, rfl, rfl, fun t2 => by simp_all⟩
    · exact ⟨_, rfl, rfl, rfl, rfl, rfl, rfl, fun t2 => by simp_all⟩
  | raise n =>
    simp only [op, Option.some.injEq, Prod.mk.injEq] at h ⊢
    obtain ⟨rfl, rfl⟩ := h
    exact ⟨fr, hs, rfl, rfl, rfl, rfl, rfl, fun t2 => ⟨rfl, rfl⟩⟩
  | chdirFlag b =>
    simp only [op, Option.some.injEq, Prod.mk.injEq] at h ⊢
    obtain ⟨rfl, rfl⟩ := h
    exact ⟨fr, hs, rfl, rfl, rfl, rfl, rfl, fun t2 => ⟨rfl, rfl⟩⟩

theorem exec_good (U : Setup) (k : Nat) : Good (exec U k) := by
  induction k with
  | zero => intro S p S' o fr t h; cases h
  | succ k ih =>
    intro S p S' o fr t h hs
    -- two pieces one after the other
    have seq2 : ∀ {S1 S2 : St} {fr1 : Frame} {q : Prog} {o2 : Out}, S1.stack = fr1 :: t → fr1.exports = fr.exports → fr1.prev = fr.prev → S1.cwd = S.cwd → S1.path = S.path → S1.reading = S.reading → exec U k S1 q = some (S2, o2) →
        ∃ fr', S2.stack = fr' :: t ∧ fr'.exports = fr.exports ∧ fr'.prev = fr.prev ∧ S2.cwd = S.cwd ∧ S2.path = S.path ∧ S2.reading = S.reading ∧
          ∀ t2, exec U k { S1 with stack := fr1 :: t2 } q = some ({ S2 with stack := fr' :: t2 }, o2) := by
      intro S1 S2 fr1 q o2 h1 h2 h3 h4 h5 h6 h7
      obtain ⟨fr', d1, d2, d3, d4, d5, d6, d7⟩ := ih _ _ _ _ fr1 t h7 h1
      exact ⟨fr', d1, d2.trans h2, d3.trans h3, d4.trans h4, d5.trans h5, d6.trans h6, d7⟩
    cases p with
    | done =>
      simp only [exec, Option.some.injEq, Prod.mk.injEq] at h ⊢
      obtain ⟨rfl, rfl⟩ := h
      exact ⟨fr, hs, rfl, rfl, rfl, rfl, rfl, fun _ => ⟨rfl, rfl⟩⟩
    | seq s p =>
      simp only [exec, hs] at h ⊢
      cases ho : op U (exec U k) S fr t s with
      | none => simp [ho] at h
      | some r =>
        obtain ⟨S1, o1⟩ := r
        obtain ⟨fr1, c1, c2, c3, c4, c5, c6, c7⟩ := op_good ih hs ho
        rw [ho] at h
        cases o1 with
        | ok =>
          obtain ⟨fr', d1, d2, d3, d4, d5, d6, d7⟩ := seq2 c1 c2 c3 c4 c5 c6 h
          exact ⟨fr', d1, d2, d3, d4, d5, d6, fun t2 => by rw [c7]; exact d7 t2⟩
        | returned =>
          simp only [Option.some.injEq, Prod.mk.injEq] at h
          obtain ⟨rfl, rfl⟩ := h
          exact ⟨fr1, c1, c2, c3, c4, c5, c6, fun t2 => by rw [c7]⟩
        | error e =>
          simp only [Option.some.injEq, Prod.mk.injEq] at h
          obtain ⟨rfl, rfl⟩ := h
          exact ⟨fr1, c1, c2, c3, c4, c5, c6, fun t2 => by rw [c7]⟩
    | attempt all b hd r =>
      simp only [exec] at h ⊢
      cases ho : exec U k S b with
      | none => simp [ho] at h
      | some x =>
        obtain ⟨S1, o1⟩ := x
        obtain ⟨fr1, c1, c2, c3, c4, c5, c6, c7⟩ := ih _ _ _ _ fr t ho hs
        rw [ho] at h
        -- the handler, then the rest
        have handler : ∀ {x : Option (St × Out)}, x = some (S', o) → (match exec U k S1 hd with | some (S2, .ok) => exec U k S2 r | x => x) = x →
            ∃ fr', S'.stack = fr' :: t ∧ fr'.exports = fr.exports ∧ fr'.prev = fr.prev ∧ S'.cwd = S.cwd ∧ S'.path = S.path ∧ S'.reading = S.reading ∧
              ∀ t2, (match exec U k { S1 with stack := fr1 :: t2 } hd with | some (S2, .ok) => exec U k S2 r | x => x) = some ({ S' with stack := fr' :: t2 }, o) := by
          intro x hx h
          rw [hx] at h
          cases hh : exec U k S1 hd with
          | none => simp [hh] at h
          | some y =>
            obtain ⟨S2, o2⟩ := y
            obtain ⟨fr2, e1, e2, e3, e4, e5, e6, e7⟩ := seq2 c1 c2 c3 c4 c5 c6 hh
            rw [hh] at h
            cases o2 with
            | ok =>
              obtain ⟨fr', d1, d2, d3, d4, d5, d6, d7⟩ := seq2 e1 e2 e3 e4 e5 e6 h
              exact ⟨fr', d1, d2, d3, d4, d5, d6, fun t2 => by rw [e7]; exact d7 t2⟩
            | returned =>
              simp only [Option.some.injEq, Prod.mk.injEq] at h
              obtain ⟨rfl, rfl⟩ := h
              exact ⟨fr2, e1, e2, e3, e4, e5, e6, fun t2 => by rw [e7]⟩
            | error e =>
              simp only [Option.some.injEq, Prod.mk.injEq] at h
              obtain ⟨rfl, rfl⟩ := h
              exact ⟨fr2, e1, e2, e3, e4, e5, e6, fun t2 => by rw [e7]⟩
        cases o1 with
        | ok =>
          obtain ⟨fr', d1, d2, d3, d4, d5, d6, d7⟩ := seq2 c1 c2 c3 c4 c5 c6 h
          exact ⟨fr', d1, d2, d3, d4, d5, d6, fun t2 => by rw [c7]; exact d7 t2⟩
        | returned =>
          cases all with
          | false =>
            simp only [Bool.false_eq_true, if_false, Option.some.injEq, Prod.mk.injEq] at h
            obtain ⟨rfl, rfl⟩ := h
            exact ⟨fr1, c1, c2, c3, c4, c5, c6, fun t2 => by rw [c7]; simp⟩
          | true =>
            simp only [if_true] at h
            obtain ⟨fr', d1, d2, d3, d4, d5, d6, d7⟩ := handler h rfl
            exact ⟨fr', d1, d2, d3, d4, d5, d6, fun t2 => by rw [c7]; simp only [if_true]; exact d7 t2⟩
        | error e =>
          obtain ⟨fr', d1, d2, d3, d4, d5, d6, d7⟩ := handler h rfl
          exact ⟨fr', d1, d2, d3, d4, d5, d6, fun t2 => by rw [c7]; exact d7 t2⟩

/-! ## The claims -/

/-- **C68** After `SConscript(...)`, however the scripts read ended, and whatever they called themselves: the caller's variables, its exports and those of its callers, the directory names are relative to, `sys.path` and the count of scripts
being read are as before. -/
theorem C68_caller_unchanged {U : Setup} {k : Nat} {S S' : St} {files xs : List Name} {r : Except Out (List Val)} (h : sconscript U k S files xs = some (S', r)) :
    S'.stack = S.stack ∧ S'.cwd = S.cwd ∧ S'.path = S.path ∧ S'.reading = S.reading := by
  obtain ⟨h1, h2, h3, h4, _⟩ := callFiles_good (exec_good U k) h
  exact ⟨h1, h2, h3, h4⟩

/-- **C68** A script sees nothing of its callers but what they export: with the same variables exported, and the same global exports, it ends in the same way, returns the same values, and leaves the same global exports, whatever else the
callers' variables are and however deep the call is. -/
theorem C68_only_exports {U : Setup} {k : Nat} {S S' : St} {f : Name} {E : Vars} {o : Out} {v : Val} (h : callFile U (exec U k) S f E = some (S', o, v)) (stack2 : List Frame) :
    ∃ S2', callFile U (exec U k) { S with stack := stack2 } f E = some (S2', o, v) ∧ S2'.gexp = S'.gexp ∧ S2'.dirs = S'.dirs ∧ S2'.flag = S'.flag ∧ S2'.stack = stack2 := by
  obtain ⟨_, _, _, _, h5⟩ := callFile_good (exec_good U k) h
  exact ⟨_, h5 stack2, rfl, rfl, rfl, rfl⟩

theorem foldl_error {g : Vars} {xs : List Name} (e : Err) :
    xs.foldl (fun (r : Except Err Vars) x => match r with | .error e => .error e | .ok h => match g x with | some v => .ok (h.set x v) | none => .error (.noExport x)) (.error e) = .error e := by
  induction xs with
  | nil => rfl
  | cons x xs ih => exact ih

theorem computeExports_gen (g : Vars) (xs : List Name) (h0 : Vars) :
    xs.foldl (fun (r : Except Err Vars) x => match r with | .error e => .error e | .ok h => match g x with | some v => .ok (h.set x v) | none => .error (.noExport x)) (.ok h0) =
      match xs.find? (fun x => (g x).isNone) with
      | some x => .error (.noExport x)
      | none => .ok fun y => if y ∈ xs then g y else h0 y := by
  induction xs generalizing h0 with
  | nil => simp
  | cons x xs ih =>
    rw [List.foldl_cons]
    cases hx : g x with
    | none => simp only [List.find?_cons, hx, Option.isNone_none]; exact foldl_error _
    | some v =>
      simp only [List.find?_cons, hx, Option.isNone_some]
      rw [ih]
      cases xs.find? (fun x => (g x).isNone) with
      | some y => rfl
      | none =>
        simp only [Except.ok.injEq]
        funext y
        simp only [Vars.set, List.mem_cons]
        by_cases hy : y ∈ xs
        · simp [hy]
        · by_cases hyx : y = x
          · simp [hyx, hx]
          · simp [hy, hyx]

/-- **C68** What a call exports: the values the named variables have at the call; a name that is not defined is refused. -/
theorem C68_exports (g : Vars) (xs : List Name) :
    (∀ x ∈ xs, g x ≠ none) ∧ computeExports g xs = .ok (fun y => if y ∈ xs then g y else none) ∨ ∃ x ∈ xs, g x = none ∧ computeExports g xs = .error (.noExport x) := by
  have key : computeExports g xs = match xs.find? (fun x => (g x).isNone) with | some x => .error (.noExport x) | none => .ok fun y => if y ∈ xs then g y else none := by
    cases xs with
    | nil => simp [computeExports]
    | cons x xs => exact computeExports_gen g (x :: xs) _
  cases hf : xs.find? (fun x => (g x).isNone) with
  | none =>
    left
    have hf2 := hf
    rw [List.find?_eq_none] at hf
    exact ⟨fun x hx e => hf x hx (by simp [e]), by rw [key, hf2]⟩
  | some x =>
    right
    exact ⟨x, List.mem_of_find?_eq_some hf, by simpa using List.find?_some hf, by rw [key, hf]⟩

theorem importAll'_spec (E G : Vars) (g : Vars) (xs : List Name) (h : ∀ x ∈ xs, ((E x).or (G x)).isSome) : (importAll' E G g xs).2 = none ∧ (∀ x ∈ xs, (importAll' E G g xs).1 x = (E x).or (G x)) ∧ ∀ y, y ∉ xs → (importAll' E G g xs).1 y = g y := by
  induction xs generalizing g with
  | nil => exact ⟨rfl, by simp, fun _ _ => rfl⟩
  | cons x xs ih =>
    have hx := h x (by simp)
    rw [Option.isSome_iff_exists] at hx
    obtain ⟨v, hv⟩ := hx
    simp only [importAll', importOne, hv]
    obtain ⟨h1, h2, h3⟩ := ih (g.set x v) fun y hy => h y (by simp [hy])
    refine ⟨h1, fun y hy => ?_, fun y hy => ?_⟩
    · by_cases hyx : y ∈ xs
      · exact h2 y hyx
      · have : y = x := by simpa [hyx] using hy
        subst this
        rw [h3 y hyx, hv]
        simp [Vars.set]
    · simp only [List.mem_cons, not_or] at hy
      rw [h3 y hy.2]
      simp [Vars.set, hy.1]

/-- **C68** `Import` in a script: each variable named gets the value the call exported under that name, or else the value of the last `Export`; the other variables of the script are untouched. -/
theorem C68_import {U : Setup} {k : Nat} {S : St} {fr : Frame} {rest : List Frame} {xs : List Name} (hs : S.stack = fr :: rest) (h : ∀ x ∈ xs, fr.exports x ≠ none ∨ S.gexp x ≠ none) :
    ∃ g, exec U (k + 2) S (.seq (.import xs) .done) = some ({ S with stack := { fr with globals := g } :: rest }, .ok) ∧
      (∀ x ∈ xs, g x = match fr.exports x with | some v => some v | none => S.gexp x) ∧ ∀ y, y ∉ xs → g y = fr.globals y := by
  obtain ⟨h1, h2, h3⟩ := importAll'_spec fr.exports S.gexp fr.globals xs (fun x hx => by
    rcases h x hx with h | h
    · cases he : fr.exports x <;> simp_all
    · cases he : fr.exports x <;> cases hg : S.gexp x <;> simp_all)
  refine ⟨(importAll' fr.exports S.gexp fr.globals xs).1, ?_, fun x hx => ?_, h3⟩
  · simp only [exec, hs, op, h1, ofErr]
  · rw [h2 x hx]; cases fr.exports x <;> rfl

theorem exportAll_spec (g : Vars) (G : Vars) (xs : List Name) (h : ∀ x ∈ xs, g x ≠ none) : (exportAll g G xs).2 = none ∧ ∀ y, (exportAll g G xs).1 y = if y ∈ xs then g y else G y := by
  induction xs generalizing G with
  | nil => exact ⟨rfl, by simp [exportAll]⟩
  | cons x xs ih =>
    cases hx : g x with
    | none => exact absurd hx (h x (by simp))
    | some v =>
      simp only [exportAll, hx]
      obtain ⟨h1, h2⟩ := ih (G.set x v) fun y hy => h y (by simp [hy])
      refine ⟨h1, fun y => ?_⟩
      rw [h2]
      by_cases hy : y ∈ xs
      · simp [hy]
      · by_cases hyx : y = x
        · simp [hyx, Vars.set, hx]
        · simp [hy, hyx, Vars.set]

/-- **C68** `Export('x', ...)`: the global exports of these names become the values the variables have in this script now; the others stay; nothing else changes. -/
theorem C68_export {U : Setup} {k : Nat} {S : St} {fr : Frame} {rest : List Frame} {xs : List Name} (hs : S.stack = fr :: rest) (h : ∀ x ∈ xs, fr.globals x ≠ none) :
    exec U (k + 2) S (.seq (.export xs) .done) = some ({ S with gexp := fun y => if y ∈ xs then fr.globals y else S.gexp y }, .ok) := by
  obtain ⟨h1, h2⟩ := exportAll_spec fr.globals S.gexp xs h
  simp only [exec, hs, op, h1, ofErr]
  rw [funext h2]

/-- **C68** `Import('*')`: every name the call exported has that value, every other name exported globally has the global value, the other variables are untouched. -/
theorem C68_import_all {U : Setup} {k : Nat} {S : St} {fr : Frame} {rest : List Frame} (hs : S.stack = fr :: rest) :
    ∃ g, exec U (k + 2) S (.seq .importAll .done) = some ({ S with stack := { fr with globals := g } :: rest }, .ok) ∧
      ∀ x, (∀ v, fr.exports x = some v → g x = some v) ∧ (∀ v, fr.exports x = none → S.gexp x = some v → g x = some v) ∧ (fr.exports x = none → S.gexp x = none → g x = fr.globals x) := by
  refine ⟨(fr.globals.update S.gexp).update fr.exports, by simp only [exec, hs, op], fun x => ⟨fun v h => ?_, fun v h h' => ?_, fun h h' => ?_⟩⟩ <;> simp_all [Vars.update]

/-- The files are read one after the other, each with the exports computed then; `vs` are their values. -/
inductive Reads (U : Setup) (k : Nat) (xs : List Name) : St → List Name → List Val → St → Prop
  | nil (S) : Reads U k xs S [] [] S
  | cons {S S1 S' f fs v vs fr t E} : S.stack = fr :: t → computeExports fr.globals xs = .ok E → callFile U (exec U k) S f E = some (S1, .ok, v) → Reads U k xs S1 fs vs S' → Reads U k xs S (f :: fs) (v :: vs) S'

theorem callFiles_acc {U : Setup} {k : Nat} {xs fs : List Name} {S : St} {fr : Frame} {t : List Frame} (hs : S.stack = fr :: t) {acc vs : List Val} {S' : St} :
    callFiles U (exec U k) xs S fs acc = some (S', .ok vs) ↔ ∃ ws, vs = acc ++ ws ∧ Reads U k xs S fs ws S' := by
  induction fs generalizing S acc with
  | nil =>
    simp only [callFiles, Option.some.injEq, Prod.mk.injEq, Except.ok.injEq]
    constructor
    · rintro ⟨rfl, rfl⟩; exact ⟨[], by simp, .nil _⟩
    · rintro ⟨ws, rfl, h⟩; cases h; exact ⟨rfl, by simp⟩
  | cons f fs ih =>
    simp only [callFiles, hs, List.head?_cons, Option.map_some, Option.getD_some]
    constructor
    · intro h
      split at h
      · simp at h
      · rename_i E hE
        cases hc : callFile U (exec U k) S f E with
        | none => simp [hc] at h
        | some c =>
          obtain ⟨S1, o, v⟩ := c
          rw [hc] at h
          cases o with
          | ok =>
            have h1 := (callFile_good (exec_good U k) hc).1
            obtain ⟨ws, rfl, hr⟩ := (ih (h1.trans hs)).1 h
            exact ⟨v :: ws, by simp, .cons hs hE hc hr⟩
          | returned => simp at h
          | error e => simp at h
    · rintro ⟨ws, rfl, h⟩
      cases h with
      | @cons _ S1 _ _ _ v vs fr' t' E hs' hE hc hr =>
        rw [hs, List.cons.injEq] at hs'
        rw [hs'.1, hE]
        dsimp only
        rw [hc]
        dsimp only
        have h1 := (callFile_good (exec_good U k) hc).1
        exact (ih (h1.trans hs)).2 ⟨vs, by simp, hr⟩

/-- **C68** `SConscript([f, ...])` succeeds exactly when each file in turn does, and its values are theirs, in the order of the files. -/
theorem C68_files {U : Setup} {k : Nat} {xs fs : List Name} {S S' : St} {fr : Frame} {t : List Frame} (hs : S.stack = fr :: t) {vs : List Val} :
    sconscript U k S fs xs = some (S', .ok vs) ↔ Reads U k xs S fs vs S' := by
  unfold sconscript
  rw [callFiles_acc hs]
  simp

/-- **C68** An exception other than that of `Return` which a script does not catch reaches the caller: the statement that called it raises it, whichever file of the call it was in. -/
theorem C68_error {U : Setup} {k : Nat} {S S1 : St} {xs fs rest : List Name} {f : Name} {vs : List Val} {S' : St} {fr : Frame} {t : List Frame} {E : Vars} {e : Err} {v : Val} (hs : S.stack = fr :: t) (hr : Reads U k xs S fs vs S1)
    (hE : computeExports fr.globals xs = .ok E) (hc : callFile U (exec U k) S1 f E = some (S', .error e, v)) (x : Option Name) (p : Prog) :
    exec U (k + 1) S (.seq (.call x (fs ++ f :: rest) xs) p) = some (S', .error e) := by
  have key : ∀ acc, callFiles U (exec U k) xs S (fs ++ f :: rest) acc = some (S', .error (.error e)) := by
    induction hr with
    | nil S => intro acc; simp [callFiles, hs, hE, hc]
    | @cons S S2 S3 g gs w ws fr' t' E' hs' hE' hc' hr' ih =>
      intro acc
      rw [hs, List.cons.injEq] at hs'
      obtain ⟨rfl, rfl⟩ := hs'
      have h1 := (callFile_good (exec_good U k) hc').1
      simp only [List.cons_append, callFiles, hs, List.head?_cons, Option.map_some, Option.getD_some, hE', hc']
      exact ih (h1.trans hs) hc _
  simp only [exec, hs, op, key]

/-- **C68** A variable neither exported by the call nor by `Export` is refused. -/
theorem C68_import_missing {U : Setup} {k : Nat} {S : St} {fr : Frame} {rest : List Frame} {x : Name} (hs : S.stack = fr :: rest) (h1 : fr.exports x = none) (h2 : S.gexp x = none) :
    exec U (k + 1) S (.seq (.import [x]) .done) = some (S, .error (.noImport x)) := by
  simp only [exec, hs, op, importAll', importOne, h1, h2, Option.or_none, ofErr]
  congr 2
  cases S
  simp_all

/-- **C68** What a script was given stays what it was given: the exports of the running script are those of its call, at every moment, whatever it and the scripts it calls do. -/
theorem C68_exports_fixed {U : Setup} {k : Nat} {S S' : St} {p : Prog} {o : Out} {fr : Frame} {rest : List Frame} (hs : S.stack = fr :: rest) (h : exec U k S p = some (S', o)) :
    ∃ fr', S'.stack = fr' :: rest ∧ fr'.exports = fr.exports := by
  obtain ⟨fr', h1, h2, _⟩ := exec_good U k _ _ _ _ fr rest h hs
  exact ⟨fr', h1, h2⟩

theorem getAll_ok {g : Vars} {xs : List Name} (h : ∀ x ∈ xs, g x ≠ none) : ∃ vs, getAll g xs = .ok vs ∧ vs.map some = xs.map g := by
  induction xs with
  | nil => exact ⟨[], rfl, rfl⟩
  | cons x xs ih =>
    obtain ⟨vs, h1, h2⟩ := ih fun y hy => h y (by simp [hy])
    cases hx : g x with
    | none => exact absurd hx (h x (by simp))
    | some v => exact ⟨v :: vs, by simp [getAll, hx, h1], by simp [h2, hx]⟩

/-- **C68** The value of `SConscript(f)` for a script that ends with `Return('x ...')`: the values the variables have in that script at that moment, the value itself for one variable, a tuple otherwise. -/
theorem C68_return {U : Setup} {k : Nat} {S S1 : St} {f : Name} {E : Vars} {fl : File} {d src : Dir} {p : Prog} {xs : List Name} (hf : U.files f = some fl) (hd : fl.dir = some (d, src))
    (hb : exec U k { chdir { S with stack := ⟨U.defaults, E, .none, S.cwd⟩ :: S.stack, reading := S.reading + 1, cwd := U.top, os := U.top } d src with path := d :: S.path } fl.body = some (S1, .returned))
    {fr : Frame} {rest : List Frame} {S0 : St} (h0 : S0.stack = fr :: rest) (hlast : exec U (k + 1) S0 (.seq (.ret xs true) p) = some (S1, .returned)) (hx : ∀ x ∈ xs, fr.globals x ≠ none) :
    ∃ S' vs, callFile U (exec U k) S f E = some (S', .ok, retVal vs) ∧ vs.map some = xs.map fr.globals := by
  obtain ⟨vs, h1, h2⟩ := getAll_ok hx
  simp only [exec, h0, op, h1, if_true, Option.some.injEq, Prod.mk.injEq, and_true] at hlast
  have hst : S1.stack = { fr with retval := retVal vs } :: rest := by rw [← hlast]
  obtain ⟨b1, b2, b3, b4, b5, b6, b7, b8⟩ := leave_eq hst S.path
  refine ⟨(leave S1 S.path).1, vs, ?_, h2⟩
  unfold callFile
  dsimp only
  rw [hf]
  dsimp only
  rw [hd]
  dsimp only
  have hp : (chdir { S with stack := ⟨U.defaults, E, .none, S.cwd⟩ :: S.stack, reading := S.reading + 1, cwd := U.top, os := U.top } d src).path = S.path := (chdir_fields _ _ _).2.2.2.1
  dsimp only at hb hp
  rw [hp, hb]
  dsimp only
  rw [b5]
  rfl

end Verif.Script.Scons
