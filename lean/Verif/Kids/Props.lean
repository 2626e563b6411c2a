import Verif.Kids.Model

/-!
# C94: theorems

Specification: what has been said about a node, from the history alone: the sources it was
given, the dependencies, the files scanners found, and what to ignore.
-/

namespace Verif.Kids

variable {N X : Type} [DecidableEq N] [DecidableEq X]

/-- A list with every element at its first place only. -/
def firsts : List N → List N
  | [] => []
  | c :: r => c :: (firsts r).filter fun d => decide (d ≠ c)

/-- All sources the targets of `x` were given, for a target `t` of `x`. -/
def saidSources (C : Conf N X) (t : N) (h : List (Op N X)) : List N :=
  h.flatMap fun o => match o with
    | .call x l => if t ∈ C.targets x then l else []
    | _ => []

def saidDepends (t : N) (h : List (Op N X)) : List N :=
  h.flatMap fun o => match o with
    | .depends u l => if u = t then l else []
    | _ => []

def saidIgnore (t : N) (h : List (Op N X)) : List N :=
  h.flatMap fun o => match o with
    | .ignore u l => if u = t then l else []
    | _ => []

/-- What scanners have found for `t`: what the last scan from scratch found, and all later ones. -/
def saidFound (C : Conf N X) (t : N) (h : List (Op N X)) : List N :=
  h.foldl (fun acc o => match o with
    | .found x l => if t ∈ C.targets x then acc ++ l else acc
    | .rescan x l => if t ∈ C.targets x then l else acc
    | _ => acc) []

/-- A node is a target of its executor, and of no other. -/
def Conf.Ok (C : Conf N X) : Prop := ∀ t x, C.exec t = some x ↔ t ∈ C.targets x

/-- Whenever the recorded implicit dependencies were dropped (with `--implicit-cache` only), the
scan that followed found something. -/
def Finds (h : List (Op N X)) : Prop := ∀ x, Op.rescan x [] ∉ h

/-! ### Lists -/

theorem mem_firsts (l : List N) (d : N) : d ∈ firsts l ↔ d ∈ l := by
  induction l with
  | nil => simp [firsts]
  | cons c r ih =>
    simp only [firsts, List.mem_cons, List.mem_filter, ih, decide_eq_true_eq]
    by_cases h : d = c <;> simp [h]

theorem firsts_append (a b : List N) :
    firsts (a ++ b) = firsts a ++ (firsts b).filter fun d => decide (d ∉ a) := by
  induction a with
  | nil => simp only [List.nil_append, firsts, List.not_mem_nil, not_false_eq_true, decide_true]; exact (List.filter_eq_self.2 fun _ _ => rfl).symm
  | cons c a ih =>
    simp only [List.cons_append, firsts, ih, List.filter_append, List.filter_filter]
    congr 2
    apply List.filter_congr
    intro d _
    by_cases h : d = c <;> simp [h]

theorem firsts_filter (p : N → Bool) (l : List N) : firsts (l.filter p) = (firsts l).filter p := by
  induction l with
  | nil => rfl
  | cons c r ih =>
    by_cases hp : p c = true
    · simp only [List.filter_cons, hp, if_true, firsts, ih, List.filter_filter]
      congr 1
      apply List.filter_congr
      intro d _
      rw [Bool.and_comm]
    · simp only [List.filter_cons, hp, Bool.false_eq_true, if_false, firsts]
      rw [ih, List.filter_filter]
      apply List.filter_congr
      intro d _
      by_cases h : d = c
      · simp [h, hp]
      · simp [h]

theorem addNew_fst (l new : List N) :
    (addNew l new).1 = l ++ (firsts new).filter fun d => decide (d ∉ l) := by
  induction new generalizing l with
  | nil => simp [addNew, firsts]
  | cons c r ih =>
    simp only [addNew, firsts]
    by_cases h : c ∈ l
    · simp only [h, if_true, ih, List.filter_cons, List.filter_filter, not_true_eq_false, decide_false,
        Bool.false_eq_true, if_false]
      congr 1
      apply List.filter_congr
      intro d _
      by_cases e : d = c
      · simp [e, h]
      · simp [e]
    · simp only [h, if_false, ih, List.filter_cons, List.filter_filter, not_false_eq_true, decide_true,
        if_true, List.append_assoc, List.cons_append, List.nil_append]
      congr 2
      apply List.filter_congr
      intro d _
      by_cases e : d = c <;> simp [e]

theorem addNew_snd (l new : List N) : (addNew l new).2 = true ↔ ∃ c ∈ new, c ∉ l := by
  induction new generalizing l with
  | nil => simp [addNew]
  | cons c r ih =>
    simp only [addNew]
    by_cases h : c ∈ l
    · simp [h, ih]
    · simp [h]

theorem addNew_none (l new : List N) (h : (addNew l new).2 = false) : (addNew l new).1 = l := by
  rw [addNew_fst]
  have : (firsts new).filter (fun d => decide (d ∉ l)) = [] := by
    rw [List.filter_eq_nil_iff]
    intro d hd
    simp only [decide_eq_true_eq, Classical.not_not]
    rw [mem_firsts] at hd
    refine Classical.not_not.1 fun hc => ?_
    have := (addNew_snd l new).2 ⟨d, hd, hc⟩
    rw [h] at this
    exact absurd this (by simp)
  rw [this]; simp

theorem addNew_firsts (a b : List N) : (addNew (firsts a) b).1 = firsts (a ++ b) := by
  rw [addNew_fst, firsts_append]
  congr 1
  apply List.filter_congr
  intro d _
  simp [mem_firsts]

theorem addNew_twice (a b : List N) : (addNew (addNew a b).1 b).1 = (addNew a b).1 := by
  apply addNew_none
  rw [← Bool.not_eq_true, addNew_snd]
  rintro ⟨c, hc, hn⟩
  rw [addNew_fst] at hn
  simp only [List.mem_append, List.mem_filter, mem_firsts, decide_eq_true_eq, not_or, not_and] at hn
  exact hn.2 hc hn.1

theorem firsts_addBatch (l new : List N) : firsts (addBatch l new) = firsts (l ++ new) := by
  rw [addBatch, firsts_append, firsts_append, firsts_filter, List.filter_filter]
  simp

/-! ### The invariant -/

/-- Every remembered answer of a node is the one it would give now. -/
def MemoOk (s : St N X) : Prop := ∀ t l, s.memo t = some l → l = childrenNow s t

/-- Every remembered answer of an executor is the one it would give now. -/
def ExecOk (C : Conf N X) (s : St N X) : Prop :=
  ∀ x k v, (k, v) ∈ s.ememo x → v = unignoredNow C x k.1 k.2 s

/-- Executors have forgotten something, or nothing has changed. -/
def Forgot (s s' : St N X) : Prop := s'.bsrc = s.bsrc ∧ ∀ x, s'.ememo x = s.ememo x ∨ s'.ememo x = []

theorem Forgot.refl (s : St N X) : Forgot s s := ⟨rfl, fun _ => .inl rfl⟩

theorem Forgot.trans {a b c : St N X} (h : Forgot a b) (h' : Forgot b c) : Forgot a c := by
  refine ⟨h'.1.trans h.1, fun x => ?_⟩
  rcases h'.2 x with e | e
  · rcases h.2 x with e' | e'
    · exact .inl (e.trans e')
    · exact .inr (e.trans e')
  · exact .inr e

theorem Forgot.execOk {C : Conf N X} {s s' : St N X} (h : Forgot s s') (ho : ExecOk C s) : ExecOk C s' := by
  intro x k v hm
  rcases h.2 x with e | e
  · rw [e] at hm
    have := ho x k v hm
    simp only [unignoredNow, h.1] at this ⊢
    exact this
  · rw [e] at hm; simp at hm

theorem reset_forgot (C : Conf N X) (s : St N X) (t : N) : Forgot s (reset C s t) := by
  refine ⟨rfl, fun x => ?_⟩
  simp only [reset]
  cases h : C.exec t with
  | none => exact .inl rfl
  | some y =>
    simp only [set]
    by_cases e : x = y
    · simp [e]
    · simp [e]

theorem resetIf_forgot (C : Conf N X) (b : Bool) (s : St N X) (t : N) : Forgot s (resetIf C b s t) := by
  cases b with
  | false => exact .refl s
  | true => exact reset_forgot C s t

theorem set_self {A B : Type} [DecidableEq A] (f : A → B) (a : A) : set f a (f a) = f := by
  funext x; simp only [set]; split <;> simp_all

/-- After a reset of `t`, what `t` had remembered does not matter. -/
theorem memo_reset (C : Conf N X) (s s' : St N X) (t : N) (h : MemoOk s) (hm : s'.memo = s.memo)
    (hu : ∀ u, u ≠ t → childrenNow s' u = childrenNow s u) : MemoOk (reset C s' t) := by
  intro u l hl
  simp only [reset, set] at hl
  by_cases e : u = t
  · simp [e] at hl
  · simp only [e, if_false, hm] at hl
    rw [h u l hl, ← hu u e]
    rfl

section
variable (C : Conf N X) (l : List N) (s : St N X) (t : N)

theorem childrenNow_congr {s s' : St N X} {u : N} (h1 : s'.src u = s.src u) (h2 : s'.dep u = s.dep u)
    (h3 : s'.imp u = s.imp u) (h4 : s'.ign u = s.ign u) : childrenNow s' u = childrenNow s u := by
  simp [childrenNow, allChildren, h1, h2, h3, h4]

theorem addSource_spec : Forgot s (addSource C l s t) ∧ (MemoOk s → MemoOk (addSource C l s t)) ∧
    (addSource C l s t).dep = s.dep ∧ (addSource C l s t).imp = s.imp ∧ (addSource C l s t).ign = s.ign ∧
    (addSource C l s t).src = set s.src t (addNew (s.src t) l).1 ∧
    (∀ x, C.exec t = some x → (addNew (s.src t) l).2 = true → (addSource C l s t).ememo x = []) := by
  unfold addSource
  cases hb : (addNew (s.src t) l).2 with
  | false =>
    rw [addNew_none _ _ hb, set_self]
    exact ⟨.refl s, id, rfl, rfl, rfl, rfl, by simp⟩
  | true =>
    refine ⟨(reset_forgot C _ t), fun hm => ?_, rfl, rfl, rfl, rfl, fun x hx _ => ?_⟩
    · refine memo_reset C s _ t hm rfl fun u hu => childrenNow_congr ?_ rfl rfl rfl
      simp [set, hu]
    · simp [resetIf, reset, hx, set]

theorem addDepend_spec : Forgot s (addDepend C l s t) ∧ (MemoOk s → MemoOk (addDepend C l s t)) ∧
    (addDepend C l s t).src = s.src ∧ (addDepend C l s t).imp = s.imp ∧ (addDepend C l s t).ign = s.ign ∧
    (addDepend C l s t).dep = set s.dep t (addNew (s.dep t) l).1 := by
  unfold addDepend
  cases hb : (addNew (s.dep t) l).2 with
  | false =>
    rw [addNew_none _ _ hb, set_self]
    exact ⟨.refl s, id, rfl, rfl, rfl, rfl⟩
  | true =>
    refine ⟨(reset_forgot C _ t), fun hm => ?_, rfl, rfl, rfl, rfl⟩
    refine memo_reset C s _ t hm rfl fun u hu => childrenNow_congr rfl ?_ rfl rfl
    simp [set, hu]

theorem addIgnore_spec : Forgot s (addIgnore C l s t) ∧ (MemoOk s → MemoOk (addIgnore C l s t)) ∧
    (addIgnore C l s t).src = s.src ∧ (addIgnore C l s t).imp = s.imp ∧ (addIgnore C l s t).dep = s.dep ∧
    (addIgnore C l s t).ign = set s.ign t (addNew (s.ign t) l).1 := by
  unfold addIgnore
  cases hb : (addNew (s.ign t) l).2 with
  | false =>
    rw [addNew_none _ _ hb, set_self]
    exact ⟨.refl s, id, rfl, rfl, rfl, rfl⟩
  | true =>
    refine ⟨(reset_forgot C _ t), fun hm => ?_, rfl, rfl, rfl, rfl⟩
    refine memo_reset C s _ t hm rfl fun u hu => childrenNow_congr rfl rfl rfl ?_
    simp [set, hu]

theorem openImplicit_spec : Forgot s (openImplicit C s t) ∧ (MemoOk s → MemoOk (openImplicit C s t)) ∧
    (openImplicit C s t).src = s.src ∧ (openImplicit C s t).dep = s.dep ∧ (openImplicit C s t).ign = s.ign ∧
    ∀ u, ((openImplicit C s t).imp u).getD [] = (s.imp u).getD [] := by
  unfold openImplicit
  cases h : s.imp t with
  | some v => exact ⟨.refl s, id, rfl, rfl, rfl, fun _ => rfl⟩
  | none =>
    refine ⟨reset_forgot C _ t, fun hm => ?_, rfl, rfl, rfl, fun u => ?_⟩
    · refine memo_reset C s _ t hm rfl fun u hu => childrenNow_congr rfl rfl ?_ rfl
      simp [set, hu]
    · simp only [reset, set]
      by_cases e : u = t
      · simp [e, h]
      · simp [e]

theorem addImplicit_spec : Forgot s (addImplicit C l s t) ∧ (MemoOk s → MemoOk (addImplicit C l s t)) ∧
    (addImplicit C l s t).src = s.src ∧ (addImplicit C l s t).dep = s.dep ∧ (addImplicit C l s t).ign = s.ign ∧
    ∀ u, ((addImplicit C l s t).imp u).getD [] =
      if u = t then (addNew ((s.imp t).getD []) l).1 else (s.imp u).getD [] := by
  obtain ⟨h1, h2, h3, h4, h5, h6⟩ := openImplicit_spec C s t
  unfold addImplicit
  generalize openImplicit C s t = s1 at h1 h2 h3 h4 h5 h6
  simp only
  rw [← h6 t]
  cases hb : (addNew ((s1.imp t).getD []) l).2 with
  | false =>
    have hs : ∀ u, ((set s1.imp t (some (addNew ((s1.imp t).getD []) l).1)) u).getD []
        = (s1.imp u).getD [] := by
      intro u
      simp only [set]
      by_cases e : u = t
      · simp [e, addNew_none _ _ hb]
      · simp [e]
    refine ⟨h1.trans ⟨rfl, fun _ => .inl rfl⟩, fun hm => ?_, h3, h4, h5, fun u => ?_⟩
    · intro u k hk
      have := h2 hm u k hk
      rw [this]
      simp only [resetIf, Bool.false_eq_true, if_false, childrenNow, allChildren]
      rw [hs u]
    · simp only [resetIf, Bool.false_eq_true, if_false, set]
      by_cases e : u = t
      · simp [e]
      · simp [e, h6]
  | true =>
    refine ⟨h1.trans (reset_forgot C _ t), fun hm => ?_, h3, h4, h5, fun u => ?_⟩
    · refine memo_reset C s1 _ t (h2 hm) rfl fun u hu => childrenNow_congr rfl rfl ?_ rfl
      simp [set, hu]
    · simp only [resetIf, if_true, reset, set]
      by_cases e : u = t
      · simp [e]
      · simp [e, h6]

end

theorem foldSource_spec (C : Conf N X) (l : List N) (ts : List N) (s : St N X) :
    Forgot s (ts.foldl (addSource C l) s) ∧ (MemoOk s → MemoOk (ts.foldl (addSource C l) s)) ∧
    (ts.foldl (addSource C l) s).dep = s.dep ∧ (ts.foldl (addSource C l) s).imp = s.imp ∧
    (ts.foldl (addSource C l) s).ign = s.ign ∧
    (∀ u, (ts.foldl (addSource C l) s).src u = if u ∈ ts then (addNew (s.src u) l).1 else s.src u) := by
  induction ts generalizing s with
  | nil => exact ⟨.refl s, id, rfl, rfl, rfl, by simp⟩
  | cons t ts ih =>
    obtain ⟨a1, a2, a3, a4, a5, a6, _⟩ := addSource_spec C l s t
    obtain ⟨b1, b2, b3, b4, b5, b6⟩ := ih (addSource C l s t)
    rw [List.foldl_cons]
    refine ⟨a1.trans b1, fun h => b2 (a2 h), b3.trans a3, b4.trans a4, b5.trans a5, fun u => ?_⟩
    rw [b6 u, a6]
    simp only [set, List.mem_cons]
    by_cases e : u = t
    · subst e
      simp only [if_true, true_or]
      split
      · exact addNew_twice _ _
      · rfl
    · simp [e]

theorem foldImplicit_spec (C : Conf N X) (l : List N) (ts : List N) (s : St N X) :
    Forgot s (ts.foldl (addImplicit C l) s) ∧ (MemoOk s → MemoOk (ts.foldl (addImplicit C l) s)) ∧
    (ts.foldl (addImplicit C l) s).dep = s.dep ∧ (ts.foldl (addImplicit C l) s).src = s.src ∧
    (ts.foldl (addImplicit C l) s).ign = s.ign ∧
    (∀ u, ((ts.foldl (addImplicit C l) s).imp u).getD []
      = if u ∈ ts then (addNew ((s.imp u).getD []) l).1 else (s.imp u).getD []) := by
  induction ts generalizing s with
  | nil => exact ⟨.refl s, id, rfl, rfl, rfl, by simp⟩
  | cons t ts ih =>
    obtain ⟨a1, a2, a3, a4, a5, a6⟩ := addImplicit_spec C l s t
    obtain ⟨b1, b2, b3, b4, b5, b6⟩ := ih (addImplicit C l s t)
    rw [List.foldl_cons]
    refine ⟨a1.trans b1, fun h => b2 (a2 h), b3.trans a4, b4.trans a3, b5.trans a5, fun u => ?_⟩
    rw [b6 u, a6 u]
    simp only [List.mem_cons]
    by_cases e : u = t
    · subst e
      simp only [if_true, true_or]
      split
      · exact addNew_twice _ _
      · rfl
    · simp [e]

/-- What a node remembers is the answer it would give now. -/
def MemoAt (s : St N X) (u : N) : Prop := ∀ l, s.memo u = some l → l = childrenNow s u

theorem memoAt_reset (C : Conf N X) (s : St N X) (t : N) : MemoAt (reset C s t) t := by
  intro l hl; simp [reset, set] at hl

section
variable (C : Conf N X) (b : Bool) (s : St N X) (t : N)
theorem resetIf_src : (resetIf C b s t).src = s.src := by cases b <;> rfl
theorem resetIf_dep : (resetIf C b s t).dep = s.dep := by cases b <;> rfl
theorem resetIf_imp : (resetIf C b s t).imp = s.imp := by cases b <;> rfl
theorem resetIf_ign : (resetIf C b s t).ign = s.ign := by cases b <;> rfl
theorem resetIf_memo : (resetIf C b s t).memo = if b then set s.memo t none else s.memo := by cases b <;> rfl
end

theorem addImplicit_memoAt (C : Conf N X) (l : List N) (s : St N X) (t u : N) (h : MemoAt s u) :
    MemoAt (addImplicit C l s t) u := by
  -- a state in which only `u` has remembered something
  obtain ⟨_, h2, _⟩ := addImplicit_spec C l { s with memo := fun v => if v = u then s.memo u else none } t
  have hm := h2 (by
    intro v k hk
    dsimp only at hk
    by_cases e : v = u
    · subst e; simp only [if_true] at hk; exact (h k hk).trans (childrenNow_congr rfl rfl rfl rfl)
    · simp [e] at hk) u
  intro k hk
  have e2 : (addImplicit C l { s with memo := fun v => if v = u then s.memo u else none } t).memo u = (addImplicit C l s t).memo u := by
    have hs : ∀ (b : Bool) (f g : N → Option (List N)), f u = g u →
        (if b then set f t none else f) u = (if b then set g t none else g) u := by
      intro b f g e
      cases b <;> simp only [set, Bool.false_eq_true, if_false, if_true, e]
    have hs' : ∀ (f g : N → Option (List N)), f u = g u → set f t none u = set g t none u :=
      fun f g e => hs true f g e
    rcases hx : s.imp t with _ | v
    · simp only [addImplicit, openImplicit, hx, resetIf_memo, reset]
      exact hs _ _ _ (hs' _ _ (by simp))
    · simp only [addImplicit, openImplicit, hx, resetIf_memo]
      exact hs _ _ _ (by simp)
  have e3 : childrenNow (addImplicit C l { s with memo := fun v => if v = u then s.memo u else none } t) u = childrenNow (addImplicit C l s t) u := by
    rcases hx : s.imp t with _ | v <;> apply childrenNow_congr <;>
      simp only [addImplicit, openImplicit, hx, resetIf_src, resetIf_dep, resetIf_imp, resetIf_ign, resetIf_memo, reset, set]
  rw [← e3]
  exact hm k (by rw [e2]; exact hk)

theorem addImplicit_dropped (C : Conf N X) (l : List N) (hl : l ≠ []) (s : St N X) (t : N) (h : s.imp t = some []) :
    MemoAt (addImplicit C l s t) t := by
  have hb : (addNew ([] : List N) l).2 = true := by
    rw [addNew_snd]
    cases l with
    | nil => exact absurd rfl hl
    | cons c r => exact ⟨c, by simp, by simp⟩
  simp only [addImplicit, openImplicit, h, Option.getD_some, hb, resetIf, if_true]
  exact memoAt_reset C _ t

theorem addImplicit_other (C : Conf N X) (l : List N) (s : St N X) (t u : N) (h : u ≠ t) :
    (addImplicit C l s t).imp u = s.imp u := by
  rcases hx : s.imp t with _ | v <;> simp [addImplicit, openImplicit, hx, resetIf_src, resetIf_dep, resetIf_imp, resetIf_ign, resetIf_memo, reset, set, h]

theorem foldRescan_memo (C : Conf N X) (l : List N) (hl : l ≠ []) (ts : List N) (s : St N X)
    (h : ∀ u, (u ∈ ts → s.imp u ≠ some []) → MemoAt s u) : ∀ u, MemoAt (ts.foldl (addImplicit C l) s) u := by
  induction ts generalizing s with
  | nil => intro u; exact h u (by simp)
  | cons t ts ih =>
    rw [List.foldl_cons]
    refine ih _ fun u hu => ?_
    by_cases e : u = t
    · subst e
      by_cases hi : s.imp u = some []
      · exact addImplicit_dropped C l hl s u hi
      · exact addImplicit_memoAt C l s u u (h u fun _ => hi)
    · refine addImplicit_memoAt C l s t u (h u fun hm => ?_)
      rw [← addImplicit_other C l s t u e]
      exact hu (by simpa [e] using hm)

/-- All that is kept during a history. -/
structure Inv (C : Conf N X) (h : List (Op N X)) (s : St N X) : Prop where
  src : ∀ t, s.src t = firsts (saidSources C t h)
  dep : ∀ t, s.dep t = firsts (saidDepends t h)
  imp : ∀ t, (s.imp t).getD [] = firsts (saidFound C t h)
  ign : ∀ t, s.ign t = firsts (saidIgnore t h)
  batch : ∀ x t, t ∈ C.targets x → firsts (s.bsrc x) = s.src t
  memo : MemoOk s
  exec : ExecOk C s

theorem inv_init (C : Conf N X) : Inv C [] (St.init : St N X) where
  src := fun _ => rfl
  dep := fun _ => rfl
  imp := fun _ => rfl
  ign := fun _ => rfl
  batch := fun _ _ _ => rfl
  memo := by intro t l h; simp [St.init] at h
  exec := by intro x k v h; simp [St.init] at h

theorem said_append (f : Op N X → List N) (h : List (Op N X)) (o : Op N X) :
    (h ++ [o]).flatMap f = h.flatMap f ++ f o := by simp

theorem inv_same {C : Conf N X} {h h' : List (Op N X)} {s s' : St N X} (hi : Inv C h s)
    (a1 : ∀ t, saidSources C t h' = saidSources C t h) (a2 : ∀ t, saidDepends t h' = saidDepends t h)
    (a3 : ∀ t, saidFound C t h' = saidFound C t h) (a4 : ∀ t, saidIgnore t h' = saidIgnore t h)
    (b1 : s'.src = s.src) (b2 : s'.dep = s.dep) (b3 : s'.imp = s.imp) (b4 : s'.ign = s.ign)
    (b5 : s'.bsrc = s.bsrc) (m : MemoOk s') (e : ExecOk C s') : Inv C h' s' := by
  refine ⟨?_, ?_, ?_, ?_, ?_, m, e⟩
  · intro t; rw [b1, a1]; exact hi.src t
  · intro t; rw [b2, a2]; exact hi.dep t
  · intro t; rw [b3, a3]; exact hi.imp t
  · intro t; rw [b4, a4]; exact hi.ign t
  · intro x t ht; rw [b1, b5]; exact hi.batch x t ht

theorem inv_step (C : Conf N X) (hC : C.Ok) (h : List (Op N X)) (s : St N X) (hi : Inv C h s) (o : Op N X)
    (hd : ∀ x, o ≠ .rescan x []) : Inv C (h ++ [o]) (step C s o) := by
  have hsrc := hi.src; have hdep := hi.dep; have himp := hi.imp; have hign := hi.ign
  cases o with
  | call x l =>
    obtain ⟨f1, f2, f3, f4, f5, f6⟩ := foldSource_spec C l (C.targets x)
      { s with bsrc := set s.bsrc x (addBatch (s.bsrc x) l) }
    have hsrc' : ∀ t, (step C s (.call x l)).src t = firsts (saidSources C t (h ++ [.call x l])) := by
      intro t
      simp only [step, saidSources, said_append]
      rw [f6 t]
      by_cases e : t ∈ C.targets x
      · simp only [e, if_true]
        rw [hsrc t, addNew_firsts]; rfl
      · simp only [e, if_false, List.append_nil]
        exact hsrc t
    refine ⟨hsrc', ?_, ?_, ?_, ?_, ?_, ?_⟩
    · intro t; simp only [step, f3, saidDepends, said_append, List.append_nil]; exact hdep t
    · intro t; simp only [step, f4, saidFound, List.foldl_append, List.foldl_cons, List.foldl_nil]; exact himp t
    · intro t; simp only [step, f5, saidIgnore, said_append, List.append_nil]; exact hign t
    · intro y t ht
      rw [hsrc' t]
      simp only [step, f1.1, set, saidSources, said_append]
      by_cases e : y = x
      · subst e
        simp only [if_true, ht]
        rw [firsts_addBatch, firsts_append, firsts_append, hi.batch y t ht, hsrc t]
        congr 1
        apply List.filter_congr
        intro d _
        have h1 : d ∈ s.bsrc y ↔ d ∈ saidSources C t h := by
          rw [← mem_firsts (s.bsrc y), hi.batch y t ht, hsrc t, mem_firsts]
        simp only [h1]
        rfl
      · have hn : t ∉ C.targets x := by
          intro hm
          have a := (hC t y).2 ht
          have b := (hC t x).2 hm
          rw [a] at b
          exact e (Option.some.inj b)
        simp only [e, if_false, hn, List.append_nil]
        rw [hi.batch y t ht, hsrc t]; rfl
    · exact f2 hi.memo
    · -- the answers of executors
      by_cases hch : addBatch (s.bsrc x) l = s.bsrc x
      · refine f1.execOk ?_
        intro y k v hm
        have := hi.exec y k v hm
        simp only [unignoredNow, set, hch] at this ⊢
        by_cases e : y = x
        · subst e; simpa using this
        · simpa [e] using this
      · intro y k v hm
        simp only [step] at hm ⊢
        by_cases e : y = x
        · subst e
          by_cases hk : k.1 ∈ C.targets y
          · exfalso
            obtain ⟨c, hc, hcn⟩ : ∃ c ∈ l, c ∉ s.bsrc y := by
              refine Classical.not_not.1 fun hno => hch ?_
              rw [addBatch, List.append_right_eq_self, List.filter_eq_nil_iff]
              intro d hd'
              simp only [decide_eq_true_eq, Classical.not_not]
              exact Classical.not_not.1 fun hcc => hno ⟨d, hd', hcc⟩
            have hem : ((C.targets y).foldl (addSource C l)
                { s with bsrc := set s.bsrc y (addBatch (s.bsrc y) l) }).ememo y = [] := by
              cases htg : C.targets y with
              | nil => rw [htg] at hk; simp at hk
              | cons t ts =>
                have htm : t ∈ C.targets y := by rw [htg]; simp
                rw [List.foldl_cons]
                obtain ⟨_, _, _, _, _, _, a7⟩ := addSource_spec C l
                  { s with bsrc := set s.bsrc y (addBatch (s.bsrc y) l) } t
                have := a7 y ((hC t y).2 htm) (by
                  rw [addNew_snd]
                  refine ⟨c, hc, ?_⟩
                  show c ∉ s.src t
                  rw [← hi.batch y t htm, mem_firsts]
                  exact hcn)
                rcases (foldSource_spec C l ts (addSource C l
                  { s with bsrc := set s.bsrc y (addBatch (s.bsrc y) l) } t)).1.2 y with e | e
                · rw [e, this]
                · exact e
            rw [hem] at hm
            simp at hm
          · rcases f1.2 y with e | e
            · rw [e] at hm
              have := hi.exec y k v hm
              simpa only [unignoredNow, hk, if_false] using this
            · rw [e] at hm; simp at hm
        · rcases f1.2 y with e' | e'
          · rw [e'] at hm
            have := hi.exec y k v hm
            simp only [unignoredNow, f1.1, set, e, if_false] at this ⊢
            exact this
          · rw [e'] at hm; simp at hm
  | depends t l =>
    obtain ⟨f1, f2, f3, f4, f5, f6⟩ := addDepend_spec C l s t
    refine ⟨?_, ?_, ?_, ?_, ?_, f2 hi.memo, f1.execOk hi.exec⟩
    · intro u; simp only [step, f3, saidSources, said_append, List.append_nil]; exact hsrc u
    · intro u
      simp only [step, f6, saidDepends, said_append, set]
      by_cases e : u = t
      · subst e; simp only [if_true]; rw [hdep u, addNew_firsts]; rfl
      · simp only [e, Ne.symm e, if_false, List.append_nil]; exact hdep u
    · intro u; simp only [step, f4, saidFound, List.foldl_append, List.foldl_cons, List.foldl_nil]; exact himp u
    · intro u; simp only [step, f5, saidIgnore, said_append, List.append_nil]; exact hign u
    · intro y u hu; simp only [step, f1.1, f3]; exact hi.batch y u hu
  | ignore t l =>
    obtain ⟨f1, f2, f3, f4, f5, f6⟩ := addIgnore_spec C l s t
    refine ⟨?_, ?_, ?_, ?_, ?_, f2 hi.memo, f1.execOk hi.exec⟩
    · intro u; simp only [step, f3, saidSources, said_append, List.append_nil]; exact hsrc u
    · intro u; simp only [step, f5, saidDepends, said_append, List.append_nil]; exact hdep u
    · intro u; simp only [step, f4, saidFound, List.foldl_append, List.foldl_cons, List.foldl_nil]; exact himp u
    · intro u
      simp only [step, f6, saidIgnore, said_append, set]
      by_cases e : u = t
      · subst e; simp only [if_true]; rw [hign u, addNew_firsts]; rfl
      · simp only [e, Ne.symm e, if_false, List.append_nil]; exact hign u
    · intro y u hu; simp only [step, f1.1, f3]; exact hi.batch y u hu
  | scan t =>
    obtain ⟨f1, f2, f3, f4, f5, f6⟩ := openImplicit_spec C s t
    refine ⟨?_, ?_, ?_, ?_, ?_, f2 hi.memo, f1.execOk hi.exec⟩
    · intro u; simp only [step, f3, saidSources, said_append, List.append_nil]; exact hsrc u
    · intro u; simp only [step, f4, saidDepends, said_append, List.append_nil]; exact hdep u
    · intro u; simp only [step, f6, saidFound, List.foldl_append, List.foldl_cons, List.foldl_nil]; exact himp u
    · intro u; simp only [step, f5, saidIgnore, said_append, List.append_nil]; exact hign u
    · intro y u hu; simp only [step, f1.1, f3]; exact hi.batch y u hu
  | found x l =>
    obtain ⟨f1, f2, f3, f4, f5, f6⟩ := foldImplicit_spec C l (C.targets x) s
    refine ⟨?_, ?_, ?_, ?_, ?_, f2 hi.memo, f1.execOk hi.exec⟩
    · intro u; simp only [step, f4, saidSources, said_append, List.append_nil]; exact hsrc u
    · intro u; simp only [step, f3, saidDepends, said_append, List.append_nil]; exact hdep u
    · intro u
      simp only [step, f6, saidFound, List.foldl_append, List.foldl_cons, List.foldl_nil]
      by_cases e : u ∈ C.targets x
      · simp only [e, if_true]; rw [himp u, addNew_firsts]; rfl
      · simp only [e, if_false]; exact himp u
    · intro u; simp only [step, f5, saidIgnore, said_append, List.append_nil]; exact hign u
    · intro y u hu; simp only [step, f1.1, f4]; exact hi.batch y u hu
  | children t =>
    have e : step C s (.children t) = s ∨
        step C s (.children t) = { s with memo := set s.memo t (some (childrenNow s t)) } := by
      simp only [step, childrenGet]
      split
      · exact .inl rfl
      · exact .inr rfl
    refine inv_same hi (by simp [saidSources]) (by simp [saidDepends]) (by simp [saidFound]) (by simp [saidIgnore]) ?_ ?_ ?_ ?_ ?_ ?_ ?_ <;>
      rcases e with e | e <;> rw [e]
    · exact hi.memo
    · intro u l hl
      simp only [set] at hl
      by_cases eu : u = t
      · subst eu; simp only [if_true, Option.some.injEq] at hl; exact hl.symm
      · simp only [eu, if_false] at hl; exact hi.memo u l hl
    · exact hi.exec
    · exact hi.exec
  | sources t =>
    have e : step C s (.sources t) = s ∨ ∃ x, step C s (.sources t) = { s with ememo := set s.ememo x (((t, s.ign t), unignoredNow C x t (s.ign t) s) :: s.ememo x) } := by
      simp only [step, unignored]
      split
      · split
        · exact .inl rfl
        · exact .inr ⟨_, rfl⟩
      · exact .inl rfl
    refine inv_same hi (by simp [saidSources]) (by simp [saidDepends]) (by simp [saidFound]) (by simp [saidIgnore]) ?_ ?_ ?_ ?_ ?_ ?_ ?_ <;>
      rcases e with e | ⟨x, e⟩ <;> rw [e]
    · exact hi.memo
    · exact hi.memo
    · exact hi.exec
    · intro y k v hm
      simp only [set] at hm
      by_cases ey : y = x
      · subst ey
        simp only [if_true, List.mem_cons] at hm
        rcases hm with hm | hm
        · cases hm; rfl
        · exact hi.exec y k v hm
      · simp only [ey, if_false] at hm; exact hi.exec y k v hm
  | rescan x l =>
    have hl : l ≠ [] := fun e => hd x (by rw [e])
    obtain ⟨f1, _, f3, f4, f5, f6⟩ := foldImplicit_spec C l (C.targets x)
      { s with imp := fun t => if t ∈ C.targets x then some [] else s.imp t }
    refine ⟨?_, ?_, ?_, ?_, ?_, ?_, f1.execOk hi.exec⟩
    · intro u; simp only [step, f4, saidSources, said_append, List.append_nil]; exact hsrc u
    · intro u; simp only [step, f3, saidDepends, said_append, List.append_nil]; exact hdep u
    · intro u
      simp only [step, f6, saidFound, List.foldl_append, List.foldl_cons, List.foldl_nil]
      by_cases e : u ∈ C.targets x
      · simp only [e, if_true, Option.getD_some]
        exact addNew_firsts [] l
      · simp only [e, if_false]; exact himp u
    · intro u; simp only [step, f5, saidIgnore, said_append, List.append_nil]; exact hign u
    · intro y u hu; simp only [step, f1.1, f4]; exact hi.batch y u hu
    · intro u
      refine foldRescan_memo C l hl (C.targets x) _ (fun u hu => ?_) u
      by_cases e : u ∈ C.targets x
      · exact absurd (by simp [e]) (hu e)
      · intro k hk
        rw [hi.memo u k hk]
        exact childrenNow_congr rfl rfl (by simp [e]) rfl

theorem inv_run (C : Conf N X) (hC : C.Ok) (h : List (Op N X)) (hd : Finds h) :
    Inv C h (run C St.init h) := by
  have : ∀ (b a : List (Op N X)) (s : St N X), Inv C a s → Finds b → Inv C (a ++ b) (run C s b) := by
    intro b
    induction b with
    | nil => intro a s hi _; simpa [run] using hi
    | cons o b ih =>
      intro a s hi hb
      have h1 := inv_step C hC a s hi o (fun x e => hb x (by rw [← e]; simp))
      have h2 := ih (a ++ [o]) (step C s o) h1 (fun x hx => hb x (List.mem_cons_of_mem _ hx))
      simpa [run] using h2
  simpa using this h [] St.init (inv_init C) hd

/-! ### C94 -/

/-- **C94.** Whatever was said about nodes, asked and found before, in any order, the children of a
node are the sources it was given, then what it was said to depend on, then what scanners
found, each of them once and without what is ignored; an answer that was remembered is
never an old one. -/
theorem C94_children_partial (C : Conf N X) (hC : C.Ok) (h : List (Op N X)) (hd : Finds h) (t : N) :
    (childrenGet (run C St.init h) t).1
      = (firsts (saidSources C t h) ++ firsts (saidDepends t h) ++ firsts (saidFound C t h)).filter
          fun i => decide (i ∉ saidIgnore t h) := by
  have hi := inv_run C hC h hd
  generalize run C St.init h = s at hi
  have hn : childrenNow s t = (firsts (saidSources C t h) ++ firsts (saidDepends t h) ++ firsts (saidFound C t h)).filter
          fun i => decide (i ∉ saidIgnore t h) := by
    have hg : ∀ i, i ∈ s.ign t ↔ i ∈ saidIgnore t h := fun i => by rw [hi.ign t, mem_firsts]
    simp only [childrenNow, allChildren]
    rw [hi.src, hi.dep, hi.imp]
    split
    · rename_i e
      symm
      rw [List.filter_eq_self]
      intro i _
      rw [decide_eq_true_eq, ← hg i, e]
      simp
    · simp only [hg]
  simp only [childrenGet]
  split
  · rename_i l hl
    rw [← hn]; exact hi.memo t l hl
  · exact hn

/-- **C94.** And the sources that are recorded for a target: those it was given, without what is
ignored. -/
theorem C94_sources_partial (C : Conf N X) (hC : C.Ok) (h : List (Op N X)) (hd : Finds h) (t : N) (x : X)
    (hx : C.exec t = some x) :
    firsts (unignored C (run C St.init h) x t).1
      = (firsts (saidSources C t h)).filter fun i => decide (i ∉ saidIgnore t h) := by
  have hi := inv_run C hC h hd
  generalize run C St.init h = s at hi
  have ht := (hC t x).1 hx
  have hg : ∀ i, i ∈ s.ign t ↔ i ∈ saidIgnore t h := fun i => by rw [hi.ign t, mem_firsts]
  have hn : firsts ((unignoredNow C x t (s.ign t) s).list (s.bsrc x))
      = (firsts (saidSources C t h)).filter fun i => decide (i ∉ saidIgnore t h) := by
    simp only [unignoredNow, ht, if_true]
    split
    · rename_i e
      simp only [Src.list]
      rw [hi.batch x t ht, hi.src]
      symm
      rw [List.filter_eq_self]
      intro i _
      rw [decide_eq_true_eq, ← hg i, e]
      simp
    · simp only [Src.list, firsts_filter, hg]
      rw [hi.batch x t ht, hi.src]
  simp only [unignored]
  split
  · rename_i v hv
    have hm : ((t, s.ign t), v) ∈ s.ememo x := by
      obtain ⟨l1, l2, e, _⟩ := List.lookup_eq_some_iff.1 hv
      rw [e]; simp
    rw [hi.exec x _ v hm]
    exact hn
  · exact hn

end Verif.Kids
