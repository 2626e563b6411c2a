import Verif.FS.LookupProps

/-!
# C56: one node for each file, over any history of lookups
-/

set_option linter.unusedSimpArgs false

namespace Verif.FS

/-- What is needed of `_my_normcase`: it works character by character, and leaves slashes alone.  The identity (POSIX) and upper case (Windows) are such. -/
structure NormCase (nc : Str → Str) : Prop where
  hom : ∀ a b, nc (a ++ b) = nc a ++ nc b
  slash : nc ['/'] = ['/']
  char : ∀ c, c ≠ '/' → nc [c] ≠ [] ∧ '/' ∉ nc [c]

variable {nc : Str → Str} {disk : Str → Kind → Bool}

theorem NormCase.nil (h : NormCase nc) : nc [] = [] := by
  have := h.hom [] []
  simp only [List.append_nil] at this
  have := congrArg List.length this
  simp only [List.length_append] at this
  exact List.length_eq_zero_iff.1 (by omega)

theorem NormCase.cons (h : NormCase nc) (s : Str) : nc ('/' :: s) = '/' :: nc s := by
  have := h.hom ['/'] s
  rw [h.slash] at this; simpa using this

theorem NormCase.lab (h : NormCase nc) (cs : List Str) : nc (lab cs) = lab (cs.map nc) := by
  induction cs with
  | nil => simpa [FS.lab] using h.nil
  | cons c cs ih =>
    have : FS.lab (c :: cs) = '/' :: (c ++ FS.lab cs) := by simp [FS.lab]
    rw [this, h.cons, h.hom, ih]; simp [FS.lab]

theorem NormCase.noSlash (h : NormCase nc) (s : Str) (hs : '/' ∉ s) : '/' ∉ nc s := by
  induction s with
  | nil => rw [h.nil]; simp
  | cons c s ih =>
    simp only [List.mem_cons, not_or] at hs
    have := h.hom [c] s
    rw [show c :: s = [c] ++ s from rfl, this]
    simp only [List.mem_append, not_or]
    exact ⟨(h.char c (Ne.symm hs.1)).2, ih hs.2⟩

theorem NormCase.ne_nil (h : NormCase nc) (s : Str) (hs : s ≠ []) : nc s ≠ [] := by
  cases s with
  | nil => exact absurd rfl hs
  | cons c s =>
    rw [show c :: s = [c] ++ s from rfl, h.hom]
    by_cases hc : c = '/'
    · subst hc; rw [h.slash]; simp
    · simp [(h.char c hc).1]

theorem lab_inj {xs ys : List Str} (hx : ∀ c ∈ xs, '/' ∉ c) (hy : ∀ c ∈ ys, '/' ∉ c) (h : lab xs = lab ys) : xs = ys := by
  have h1 := split_lab xs hx []
  have h2 := split_lab ys hy []
  rw [h, h2] at h1
  simpa using h1.symm

theorem lab_ne {cs : List Str} (hg : ∀ c ∈ cs, c ≠ [] ∧ '/' ∉ c) : lab cs ≠ ['/'] ∧ lab cs ≠ ['/', '/'] := by
  cases cs with
  | nil => simp [lab]
  | cons c cs =>
    obtain ⟨h1, h2⟩ := hg c List.mem_cons_self
    cases c with
    | nil => exact absurd rfl h1
    | cons a c => simp at h2; simp [lab]; intro e; exact absurd e.symm h2.1

theorem rsplit_lab (cs : List Str) (f : Str) (hf : '/' ∉ f) : rsplit (lab (cs ++ [f])) = some (lab cs, f) := by
  have e : lab (cs ++ [f]) = lab cs ++ '/' :: f := by simp [lab]
  have hr : (lab cs ++ '/' :: f).reverse = f.reverse ++ '/' :: (lab cs).reverse := by simp
  have hall : ∀ c ∈ f.reverse, (decide (c ≠ '/')) = true := by
    intro c hc; simp; rintro rfl; exact hf (List.mem_reverse.1 hc)
  rw [e]; unfold rsplit
  rw [if_pos (by simp), hr, List.dropWhile_append_of_pos hall, List.takeWhile_append_of_pos hall]
  simp [List.dropWhile_cons, List.takeWhile_cons]

/-! ## Invariant -/

def RootKey (k : Str) : Prop := k = [] ∨ k = ['/'] ∨ k = ['/', '/']

structure Inv (nc : Str → Str) (S : St) : Prop where
  pos : 0 < S.next
  root : S.node 0 = ⟨[], .dir⟩
  rootKey : ∀ k, RootKey k → S.dict k = some 0
  sound : ∀ k n, S.dict k = some n → n < S.next ∧ (k = nc (lab (S.node n).comps) ∨ (n = 0 ∧ RootKey k))
  complete : ∀ n, n < S.next → S.dict (nc (lab (S.node n).comps)) = some n
  good : ∀ n, n < S.next → ∀ c ∈ (S.node n).comps, GoodName c
  cwd : S.cwd < S.next ∧ (S.node S.cwd).kind = .dir
  top : S.top < S.next ∧ (S.node S.top).kind = .dir
  parent : ∀ n, n < S.next → n ≠ 0 → ∃ m, m < n ∧ (S.node m).kind = .dir ∧ ∃ f, (S.node n).comps = (S.node m).comps ++ [f]

/-- What a lookup may change: new nodes, and the class of an Entry. -/
structure Ext (S S' : St) : Prop where
  le : S.next ≤ S'.next
  comps : ∀ n, n < S.next → (S'.node n).comps = (S.node n).comps
  kind : ∀ n, n < S.next → (S'.node n).kind = (S.node n).kind ∨ (S.node n).kind = .entry
  top : S'.top = S.top
  dict : ∀ k n, S.dict k = some n → S'.dict k = some n

theorem Ext.refl (S : St) : Ext S S := ⟨Nat.le_refl _, fun _ _ => rfl, fun _ _ => .inl rfl, rfl, fun _ _ h => h⟩

theorem Ext.trans {A B C : St} (h1 : Ext A B) (h2 : Ext B C) : Ext A C := by
  refine ⟨Nat.le_trans h1.le h2.le, fun n hn => ?_, fun n hn => ?_, h2.top.trans h1.top, fun k n h => h2.dict k n (h1.dict k n h)⟩
  · rw [h2.comps n (Nat.lt_of_lt_of_le hn h1.le), h1.comps n hn]
  · rcases h2.kind n (Nat.lt_of_lt_of_le hn h1.le) with h | h
    · rw [h]; exact h1.kind n hn
    · rcases h1.kind n hn with h' | h'
      · right; rw [← h', h]
      · exact .inr h'

theorem Ext.dir {S S' : St} (h : Ext S S') {n : Nat} (hn : n < S.next) (hd : (S.node n).kind = .dir) : (S'.node n).kind = .dir := by
  rcases h.kind n hn with h | h
  · rw [h, hd]
  · rw [hd] at h; cases h

theorem Inv.unique (hnc : NormCase nc) {S : St} (hI : Inv nc S) {m n : Nat} (hm : m < S.next) (hn : n < S.next)
    (h : (S.node m).comps.map nc = (S.node n).comps.map nc) : m = n := by
  have h1 := hI.complete m hm
  have h2 := hI.complete n hn
  rw [hnc.lab] at h1 h2
  rw [h, h2] at h1
  exact (Option.some.inj h1).symm

theorem mustBeSame_spec {S : St} (hI : Inv nc S) (n : Nat) (hn : n < S.next) (k : Kind) {S' : St} {r : Option Nat} (h : mustBeSame S n k = (S', r)) :
    Inv nc S' ∧ Ext S S' ∧ S'.cwd = S.cwd ∧ (∀ m, r = some m → m = n ∧ (k ≠ .entry → (S'.node n).kind = k)) ∧
      (r = none → S' = S ∧ k ≠ .entry ∧ (S.node n).kind ≠ .entry ∧ (S.node n).kind ≠ k) := by
  unfold mustBeSame at h
  split at h
  · rename_i hk
    simp only [Prod.mk.injEq] at h
    obtain ⟨rfl, rfl⟩ := h
    have hc : ∀ m, (if m = n then ({ S.node n with kind := k } : Node) else S.node m).comps = (S.node m).comps := by
      intro m; by_cases e : m = n
      · subst e; simp
      · simp [e]
    have hd : ∀ m, (S.node m).kind = .dir → (if m = n then ({ S.node n with kind := k } : Node) else S.node m).kind = .dir := by
      intro m hm; by_cases e : m = n
      · subst e; rw [hk] at hm; cases hm
      · simp [e, hm]
    have h0 : n ≠ 0 := by rintro rfl; rw [hI.root] at hk; cases hk
    refine ⟨⟨hI.pos, ?_, hI.rootKey, ?_, ?_, ?_, ⟨hI.cwd.1, hd _ hI.cwd.2⟩, ⟨hI.top.1, hd _ hI.top.2⟩, ?_⟩, ⟨Nat.le_refl _, fun m _ => hc m, ?_, rfl, fun _ _ h => h⟩, rfl, ?_, ?_⟩
    · show (if 0 = n then _ else S.node 0) = _
      rw [if_neg (Ne.symm h0)]; exact hI.root
    · intro key m h; have := hI.sound key m h; simpa [hc] using this
    · intro m hm; have := hI.complete m hm; simpa [hc] using this
    · intro m hm; have := hI.good m hm; simpa [hc] using this
    · intro m hm hm0
      obtain ⟨q, h1, h2, f, h3⟩ := hI.parent m hm hm0
      exact ⟨q, h1, hd q h2, f, by simpa [hc] using h3⟩
    · intro m _
      by_cases e : m = n
      · subst e; exact .inr hk
      · left; simp [e]
    · rintro m h; cases h; exact ⟨rfl, fun _ => by simp⟩
    · intro h; cases h
  · split at h
    · rename_i k' hk' hor
      simp only [Prod.mk.injEq] at h
      obtain ⟨rfl, rfl⟩ := h
      refine ⟨hI, Ext.refl _, rfl, ?_, by intro h; cases h⟩
      rintro m h; cases h
      exact ⟨rfl, fun hne => by exact (hor.resolve_left hne).symm⟩
    · rename_i k' hk' hor
      simp only [Prod.mk.injEq] at h
      obtain ⟨rfl, rfl⟩ := h
      refine ⟨hI, Ext.refl _, rfl, (by intro m h; cases h), fun _ => ⟨rfl, fun e => hor (.inl e), hk', fun e => hor (.inr e.symm)⟩⟩

theorem mustBeSame_next {S : St} {n : Nat} {k : Kind} {S' : St} {r : Option Nat} (h : mustBeSame S n k = (S', r)) : S'.next = S.next := by
  unfold mustBeSame at h
  split at h
  · cases h; rfl
  · split at h <;> cases h <;> rfl

/-- Why a lookup may fail: a node on the way is a File, the node is of another class, or the disk disagrees. -/
def Conflict (nc : Str → Str) (disk : Str → Kind → Bool) (S : St) (cs : List Str) (k : Kind) : Prop :=
  (∃ n, n < S.next ∧ ∃ ps, ps <+: cs ∧ ps ≠ cs ∧ (S.node n).comps.map nc = ps.map nc ∧ (S.node n).kind = .file) ∨
  (∃ n, n < S.next ∧ (S.node n).comps.map nc = cs.map nc ∧ k ≠ .entry ∧ (S.node n).kind ≠ .entry ∧ (S.node n).kind ≠ k) ∨
  (∃ ps ds kd, ps <+: cs ∧ ps.map nc = ds.map nc ∧ disk (lab ds) kd = false)

theorem dict_lab (hnc : NormCase nc) {S : St} (hI : Inv nc S) {cs : List Str} (hg : ∀ c ∈ cs, GoodName c) {n : Nat} (h : S.dict (nc (lab cs)) = some n) :
    n < S.next ∧ (S.node n).comps.map nc = cs.map nc := by
  obtain ⟨h1, h2⟩ := hI.sound _ _ h
  refine ⟨h1, ?_⟩
  have hsl : ∀ xs : List Str, (∀ c ∈ xs, GoodName c) → ∀ c ∈ xs.map nc, c ≠ [] ∧ '/' ∉ c := by
    intro xs hx c hc
    obtain ⟨d, hd, rfl⟩ := List.mem_map.1 hc
    exact ⟨hnc.ne_nil _ (hx d hd).1, hnc.noSlash _ (hx d hd).2.2.2⟩
  rw [hnc.lab] at h2
  rcases h2 with h2 | ⟨rfl, h2⟩
  · rw [hnc.lab] at h2
    exact (lab_inj (fun c hc => (hsl _ hg c hc).2) (fun c hc => (hsl _ (hI.good n h1) c hc).2) h2).symm
  · rw [hI.root]
    rcases h2 with h2 | h2 | h2
    · cases cs with
      | nil => rfl
      | cons c cs => simp [lab] at h2
    · exact absurd h2 (lab_ne (hsl _ hg)).1
    · exact absurd h2 (lab_ne (hsl _ hg)).2

theorem lookupAbs_lab (S : St) (cs : List Str) (f : Str) (hf : '/' ∉ f) (k : Kind) (h : S.dict (nc (lab (cs ++ [f]))) = none) :
    lookupAbs nc disk S (lab (cs ++ [f])) k =
      (match lookupAbs nc disk S (lab cs) .dir with
      | (S1, none) => (S1, none)
      | (S1, some dn) =>
        if disk (lab ((S1.node dn).comps ++ [f])) k then (S1.add (nc (lab (cs ++ [f]))) ⟨(S1.node dn).comps ++ [f], k⟩, some S1.next) else (S1, none)) := by
  rw [lookupAbs.eq_def, h]
  simp only
  split
  · rename_i hr; rw [rsplit_lab cs f hf] at hr; cases hr
  · rename_i d f' hr
    rw [rsplit_lab cs f hf] at hr
    cases hr
    rfl

theorem lookupAbs_spec (hnc : NormCase nc) (cs : List Str) : ∀ {S : St}, Inv nc S → (∀ c ∈ cs, GoodName c) → ∀ (k : Kind) {S' : St} {r : Option Nat},
    lookupAbs nc disk S (lab cs) k = (S', r) →
    Inv nc S' ∧ Ext S S' ∧ S'.cwd = S.cwd ∧
      (∀ n, r = some n → n < S'.next ∧ (S'.node n).comps.map nc = cs.map nc ∧ (k ≠ .entry → (S'.node n).kind = k)) ∧
      (r = none → Conflict nc disk S cs k) ∧
      (∀ n, S.next ≤ n → n < S'.next → (S'.node n).comps.length ≤ cs.length) := by
  induction cs using List.reverseRecOn with
  | nil =>
    intro S hI _ k S' r h
    rw [lookupAbs.eq_def] at h
    have h0 : S.dict (nc (lab [])) = some 0 := by
      rw [show lab [] = [] from rfl, hnc.nil]; exact hI.rootKey [] (.inl rfl)
    rw [h0] at h
    obtain ⟨h1, h2, h3, h4, h5⟩ := mustBeSame_spec hI 0 hI.pos k h
    refine ⟨h1, h2, h3, fun n hn => ?_, fun hn => ?_, ?_⟩
    rotate_left 2
    · intro n a b; rw [mustBeSame_next h] at b; omega
    · obtain ⟨rfl, h6⟩ := h4 n hn
      exact ⟨h1.pos, by rw [h1.root], h6⟩
    · obtain ⟨-, a, b, c⟩ := h5 hn
      exact .inr (.inl ⟨0, hI.pos, by rw [hI.root], a, b, c⟩)
  | append_singleton cs f ih =>
    intro S hI hg k S' r h
    have hgf := hg f (by simp)
    have hgc : ∀ c ∈ cs, GoodName c := fun c hc => hg c (by simp [hc])
    cases hd : S.dict (nc (lab (cs ++ [f]))) with
    | some n =>
      rw [lookupAbs.eq_def, hd] at h
      obtain ⟨hn, hcm⟩ := dict_lab hnc hI hg hd
      obtain ⟨h1, h2, h3, h4, h5⟩ := mustBeSame_spec hI n hn k h
      refine ⟨h1, h2, h3, fun m hm => ?_, fun hm => ?_, ?_⟩
      rotate_left 2
      · intro n a b; rw [mustBeSame_next h] at b; omega
      · obtain ⟨rfl, h6⟩ := h4 m hm
        exact ⟨Nat.lt_of_lt_of_le hn h2.le, by rw [h2.comps m hn, hcm], h6⟩
      · obtain ⟨-, a, b, c⟩ := h5 hm
        exact .inr (.inl ⟨n, hn, hcm, a, b, c⟩)
    | none =>
      rw [lookupAbs_lab S cs f hgf.2.2.2 k hd] at h
      cases hl : lookupAbs nc disk S (lab cs) .dir with
      | mk S1 r1 =>
      rw [hl] at h
      obtain ⟨h1, h2, h3, h4, h5, hlen⟩ := ih hI hgc .dir hl
      cases r1 with
      | none =>
        simp only [Prod.mk.injEq] at h
        obtain ⟨rfl, rfl⟩ := h
        refine ⟨h1, h2, h3, (by intro n h; cases h), fun _ => ?_, fun n a b => by have := hlen n a b; simp; omega⟩
        have hpre : cs <+: cs ++ [f] := ⟨[f], rfl⟩
        rcases h5 rfl with ⟨n, hn, ps, hp, hpc, hc, hkk⟩ | ⟨n, hn, hc, -, hk2, hk3⟩ | ⟨ps, ds, kd, hp, hdd, hdk⟩
        · refine .inl ⟨n, hn, ps, hp.trans hpre, ?_, hc, hkk⟩
          intro e; have := hp.length_le; rw [e] at this; simp only [List.length_append, List.length_singleton] at this; omega
        · refine .inl ⟨n, hn, cs, hpre, by simp, hc, ?_⟩
          cases hkn : (S.node n).kind <;> simp_all
        · exact .inr (.inr ⟨ps, ds, kd, hp.trans hpre, hdd, hdk⟩)
      | some dn =>
        obtain ⟨g1, g2, g3⟩ := h4 dn rfl
        have g3 := g3 (by simp)
        simp only at h
        split at h
        · -- a new node
          rename_i hdisk
          simp only [Prod.mk.injEq] at h
          obtain ⟨rfl, rfl⟩ := h
          have hkey : nc (lab (cs ++ [f])) = nc (lab ((S1.node dn).comps ++ [f])) := by
            rw [hnc.lab, hnc.lab, List.map_append, List.map_append, g2]
          have hnone : S1.dict (nc (lab (cs ++ [f]))) = none := by
            cases hx : S1.dict (nc (lab (cs ++ [f]))) with
            | none => rfl
            | some m =>
              exfalso
              obtain ⟨hm, hmc⟩ := dict_lab hnc h1 hg hx
              have hml := congrArg List.length hmc
              simp only [List.length_map, List.length_append, List.length_singleton] at hml
              by_cases hmn : m < S.next
              · have := hI.complete m hmn
                rw [← h2.comps m hmn, hnc.lab, hmc, ← hnc.lab, hd] at this
                cases this
              · have := hlen m (by omega) hm
                omega
          have hold : ∀ m, m < S1.next → (S1.add (nc (lab (cs ++ [f]))) ⟨(S1.node dn).comps ++ [f], k⟩).node m = S1.node m := by
            intro m hm; show (if m = S1.next then _ else _) = _; rw [if_neg (by omega)]
          have hnew : (S1.add (nc (lab (cs ++ [f]))) ⟨(S1.node dn).comps ++ [f], k⟩).node S1.next = ⟨(S1.node dn).comps ++ [f], k⟩ := by
            show (if S1.next = S1.next then _ else _) = _; rw [if_pos rfl]
          have hdict : ∀ key, key ≠ nc (lab (cs ++ [f])) → (S1.add (nc (lab (cs ++ [f]))) ⟨(S1.node dn).comps ++ [f], k⟩).dict key = S1.dict key := by
            intro key hk; show (if key = _ then _ else _) = _; rw [if_neg hk]
          have hdict' : (S1.add (nc (lab (cs ++ [f]))) ⟨(S1.node dn).comps ++ [f], k⟩).dict (nc (lab (cs ++ [f]))) = some S1.next := by
            show (if _ = _ then _ else _) = _; rw [if_pos rfl]
          have hext : Ext S1 (S1.add (nc (lab (cs ++ [f]))) ⟨(S1.node dn).comps ++ [f], k⟩) := by
            refine ⟨Nat.le_succ _, fun m hm => by rw [hold m hm], fun m hm => .inl (by rw [hold m hm]), rfl, fun key m h => ?_⟩
            rw [hdict key (by rintro rfl; rw [hnone] at h; cases h)]; exact h
          have hnext : (S1.add (nc (lab (cs ++ [f]))) ⟨(S1.node dn).comps ++ [f], k⟩).next = S1.next + 1 := rfl
          have hgood : ∀ c ∈ (S1.node dn).comps ++ [f], GoodName c := by
            intro c hc
            rcases List.mem_append.1 hc with hc | hc
            · exact h1.good dn g1 c hc
            · rw [List.mem_singleton] at hc; subst hc; exact hgf
          refine ⟨⟨by rw [hnext]; omega, ?_, ?_, ?_, ?_, ?_, ?_, ?_, ?_⟩, h2.trans hext, h3, ?_, (by intro h; cases h), ?_⟩
          · rw [hold 0 h1.pos]; exact h1.root
          · intro key hk; exact hext.dict _ _ (h1.rootKey key hk)
          · intro key m hm
            by_cases e : key = nc (lab (cs ++ [f]))
            · subst e
              rw [hdict'] at hm; cases hm
              rw [hnew]; exact ⟨by rw [hnext]; omega, .inl hkey⟩
            · rw [hdict key e] at hm
              obtain ⟨a, b⟩ := h1.sound key m hm
              rw [hold m a]; exact ⟨by rw [hnext]; omega, b⟩
          · intro m hm
            rw [hnext] at hm
            by_cases e : m = S1.next
            · subst e; rw [hnew, ← hkey]; exact hdict'
            · have hm' : m < S1.next := by omega
              rw [hold m hm']; exact hext.dict _ _ (h1.complete m hm')
          · intro m hm
            rw [hnext] at hm
            by_cases e : m = S1.next
            · subst e; rw [hnew]; exact hgood
            · have hm' : m < S1.next := by omega
              rw [hold m hm']; exact h1.good m hm'
          · exact ⟨Nat.lt_of_lt_of_le h1.cwd.1 hext.le, by show ((S1.add _ _).node S1.cwd).kind = _; rw [hold _ h1.cwd.1]; exact h1.cwd.2⟩
          · exact ⟨Nat.lt_of_lt_of_le h1.top.1 hext.le, by show ((S1.add _ _).node S1.top).kind = _; rw [hold _ h1.top.1]; exact h1.top.2⟩
          · intro m hm hm0
            rw [hnext] at hm
            by_cases e : m = S1.next
            · subst e; rw [hnew]
              exact ⟨dn, g1, by rw [hold dn g1]; exact g3, f, by rw [hold dn g1]⟩
            · have hm' : m < S1.next := by omega
              obtain ⟨q, a, b, f', c⟩ := h1.parent m hm' hm0
              refine ⟨q, a, ?_, f', ?_⟩
              · rw [hold q (by omega)]; exact b
              · rw [hold q (by omega), hold m hm']; exact c
          · rintro n h; cases h
            rw [hnew]
            exact ⟨by rw [hnext]; omega, by simp [g2], fun _ => rfl⟩
          · intro n a b
            rw [hnext] at b
            by_cases e : n = S1.next
            · subst e; rw [hnew]
              have := congrArg List.length g2
              simp at this; simp [this]
            · have hm' : n < S1.next := by omega
              rw [hold n hm']; have := hlen n a hm'; simp; omega
        · rename_i hdisk
          simp only [Prod.mk.injEq] at h
          obtain ⟨rfl, rfl⟩ := h
          refine ⟨h1, h2, h3, (by intro n h; cases h), fun _ => ?_, fun n a b => by have := hlen n a b; simp; omega⟩
          exact .inr (.inr ⟨cs ++ [f], (S1.node dn).comps ++ [f], k, List.prefix_refl _, by simp [g2], by simpa using hdisk⟩)

/-! ## Histories -/

/-- The file system object as the program begins: `FS(path)` looks up the top-level directory (FS.py 1262-1278, 1286-1291). -/
def boot (nc : Str → Str) (disk : Str → Kind → Bool) (path : Str) : Option St :=
  match lookup nc disk init path none .dir true with
  | (S, some n) => some { S with cwd := n, top := n }
  | (_, none) => none

/-- A program in progress. -/
def Reached (nc : Str → Str) (disk : Str → Kind → Bool) (S : St) : Prop :=
  ∃ path S0 ops, Sensible path ∧ boot nc disk path = some S0 ∧ Runs nc disk S0 ops S ∧ ∀ p d k c r, (Op.lookup p d k c, r) ∈ ops → Sensible p

theorem lookup_spec (hnc : NormCase nc) {S : St} (hI : Inv nc S) {p : Str} (hp : Sensible p) {dir : Option Nat}
    (hdir : ∀ d, dir = some d → d < S.next ∧ (S.node d).kind = .dir) {k : Kind} {create : Bool} {S' : St} {r : Option Nat}
    (h : lookup nc disk S p dir k create = (S', r)) :
    Inv nc S' ∧ Ext S S' ∧ S'.cwd = S.cwd ∧
      (∀ n, r = some n → n < S'.next ∧
        (S'.node n).comps.map nc = (resolve (S.node S.top).comps (S.node (dir.getD S.cwd)).comps p).map nc ∧ (k ≠ .entry → (S'.node n).kind = k)) ∧
      (r = none → create = true → Conflict nc disk S (resolve (S.node S.top).comps (S.node (dir.getD S.cwd)).comps p) k) := by
  have hd : dir.getD S.cwd < S.next := by
    cases dir with
    | none => exact hI.cwd.1
    | some d => exact (hdir d rfl).1
  have hsp := absolute_spells _ _ (hI.good _ hI.top.1) (hI.good _ hd) p hp
  have hg : ∀ c ∈ resolve (S.node S.top).comps (S.node (dir.getD S.cwd)).comps p, GoodName c := by
    unfold resolve
    split
    · exact good_walk _ _ (hI.good _ hI.top.1) (fun c hc => not_mem_splitOn _ _ hc)
    · exact good_walk _ _ (by simp) (fun c hc => not_mem_splitOn _ _ hc)
    · exact good_walk _ _ (hI.good _ hd) (fun c hc => not_mem_splitOn _ _ hc)
  unfold lookup at h
  generalize absolute _ _ p = a at h hsp
  generalize resolve _ _ p = cs at hsp hg ⊢
  simp only at h
  split at h
  · rename_i hc
    cases h
    refine ⟨hI, Ext.refl _, rfl, (by intro n h; cases h), fun _ hc' => ?_⟩
    simp [hc'] at hc
  · have h' : lookupAbs nc disk S (lab cs) k = (S', r) := by
      rcases hsp with rfl | ⟨rfl, rfl⟩
      · exact h
      · rw [lookupAbs.eq_def, show nc ['/'] = ['/'] from hnc.slash, hI.rootKey _ (.inr (.inl rfl))] at h
        rw [lookupAbs.eq_def, show lab [] = [] from rfl, hnc.nil, hI.rootKey _ (.inl rfl)]
        exact h
    obtain ⟨h1, h2, h3, h4, h5, -⟩ := lookupAbs_spec hnc cs hI hg k h'
    exact ⟨h1, h2, h3, h4, fun h _ => h5 h⟩

theorem inv_init (hnc : NormCase nc) : Inv nc init := by
  refine ⟨by decide, rfl, ?_, ?_, ?_, ?_, ⟨by decide, rfl⟩, ⟨by decide, rfl⟩, ?_⟩
  · intro k hk; simp only [init]; exact if_pos hk
  · intro k n h
    simp only [init] at h ⊢
    split at h
    · rename_i hk; cases h; exact ⟨by decide, .inr ⟨rfl, hk⟩⟩
    · cases h
  · intro n hn
    have : n = 0 := by simp only [init] at hn; omega
    subst this
    show init.dict (nc (lab [])) = some 0
    rw [show lab [] = [] from rfl, hnc.nil]; rfl
  · intro n _ c hc; cases hc
  · intro n hn h0; simp only [init] at hn; omega

theorem inv_boot (hnc : NormCase nc) {path : Str} (hp : Sensible path) {S : St} (h : boot nc disk path = some S) : Inv nc S := by
  unfold boot at h
  split at h
  · rename_i S1 n hl
    cases h
    obtain ⟨h1, h2, h3, h4, -⟩ := lookup_spec hnc (inv_init hnc) hp (by intro d h; cases h) hl
    obtain ⟨g1, -, g3⟩ := h4 n rfl
    exact { h1 with cwd := ⟨g1, g3 (by simp)⟩, top := ⟨g1, g3 (by simp)⟩ }
  · cases h

theorem Ext.ofCwd {S S' : St} {n : Nat} (h : Ext S S') : Ext S { S' with cwd := n } := ⟨h.le, h.comps, h.kind, h.top, h.dict⟩

theorem runs_spec (hnc : NormCase nc) {S S' : St} {ops : List (Op × Option Nat)} (h : Runs nc disk S ops S') (hI : Inv nc S)
    (hs : ∀ p d k c r, (Op.lookup p d k c, r) ∈ ops → Sensible p) : Inv nc S' ∧ Ext S S' := by
  induction h with
  | nil S => exact ⟨hI, Ext.refl _⟩
  | @cons S op S1 r ops S2 hst hd hc _ ih =>
    have h1 : Inv nc S1 ∧ Ext S S1 := by
      cases op with
      | lookup p dir k create =>
        obtain ⟨a, b, -⟩ := lookup_spec hnc hI (hs p dir k create r List.mem_cons_self) (fun d hd' => hd p d k create (by rw [hd'])) hst
        exact ⟨a, b⟩
      | chdir n =>
        simp only [step, Prod.mk.injEq] at hst
        obtain ⟨rfl, rfl⟩ := hst
        exact ⟨{ hI with cwd := hc n rfl }, (Ext.refl S).ofCwd⟩
    obtain ⟨h2, h3⟩ := ih h1.1 (fun p d k c r hm => hs p d k c r (List.mem_cons_of_mem _ hm))
    exact ⟨h2, h1.2.trans h3⟩

theorem reached_inv (hnc : NormCase nc) {S : St} (h : Reached nc disk S) : Inv nc S := by
  obtain ⟨path, S0, ops, hp, hb, hr, hs⟩ := h
  exact (runs_spec hnc hr (inv_boot hnc hp hb) hs).1

/-- **C56, the node is the file.**  A lookup that returns a node returns one for the path its name stands for, of the class asked for; names of existing nodes never change, and a node only changes its class from Entry. -/
theorem C56_lookup_resolves_partial (hnc : NormCase nc) {S : St} (hS : Reached nc disk S) {p : Str} (hp : Sensible p) {dir : Option Nat}
    (hdir : ∀ d, dir = some d → d < S.next ∧ (S.node d).kind = .dir) {k : Kind} {create : Bool} {S' : St} {n : Nat}
    (h : lookup nc disk S p dir k create = (S', some n)) :
    (S'.node n).comps.map nc = (resolve (S.node S.top).comps (S.node (dir.getD S.cwd)).comps p).map nc ∧
    (k ≠ .entry → (S'.node n).kind = k) ∧ S'.cwd = S.cwd ∧ S'.top = S.top ∧
    (∀ m, m < S.next → (S'.node m).comps = (S.node m).comps ∧ ((S'.node m).kind = (S.node m).kind ∨ (S.node m).kind = .entry)) := by
  obtain ⟨-, h2, h3, h4, -⟩ := lookup_spec hnc (reached_inv hnc hS) hp hdir h
  obtain ⟨-, g2, g3⟩ := h4 n rfl
  exact ⟨g2, g3, h3, h2.top, fun m hm => ⟨h2.comps m hm, h2.kind m hm⟩⟩

/-- **C56, one node for each file.**  Two lookups, at any two moments of a program and from any directories, return the same node exactly when the two names stand for the same path
(up to case where the system ignores case). -/
theorem C56_same_node_partial (hnc : NormCase nc) {S1 S1' S2 S2' : St} (hS : Reached nc disk S1) {p1 p2 : Str} (hp1 : Sensible p1) (hp2 : Sensible p2) {dir1 dir2 : Option Nat}
    (hd1 : ∀ d, dir1 = some d → d < S1.next ∧ (S1.node d).kind = .dir) (hd2 : ∀ d, dir2 = some d → d < S2.next ∧ (S2.node d).kind = .dir)
    {k1 k2 : Kind} {c1 c2 : Bool} {n1 n2 : Nat} {ops : List (Op × Option Nat)}
    (h1 : lookup nc disk S1 p1 dir1 k1 c1 = (S1', some n1)) (hops : Runs nc disk S1' ops S2) (hs : ∀ p d k c r, (Op.lookup p d k c, r) ∈ ops → Sensible p)
    (h2 : lookup nc disk S2 p2 dir2 k2 c2 = (S2', some n2)) :
    n1 = n2 ↔ (resolve (S1.node S1.top).comps (S1.node (dir1.getD S1.cwd)).comps p1).map nc = (resolve (S2.node S2.top).comps (S2.node (dir2.getD S2.cwd)).comps p2).map nc := by
  obtain ⟨a1, a2, a3, a4, -⟩ := lookup_spec hnc (reached_inv hnc hS) hp1 hd1 h1
  obtain ⟨b1, b2⟩ := runs_spec hnc hops a1 hs
  obtain ⟨e1, e2, e3, e4, -⟩ := lookup_spec hnc b1 hp2 hd2 h2
  obtain ⟨x1, x2, -⟩ := a4 n1 rfl
  obtain ⟨y1, y2, -⟩ := e4 n2 rfl
  have hb := b2.trans e2
  have hn1 : n1 < S2'.next := Nat.lt_of_lt_of_le x1 hb.le
  rw [← hb.comps n1 x1] at x2
  rw [← x2, ← y2]
  exact ⟨fun e => by rw [e], fun e => e1.unique hnc hn1 y1 e⟩

/-- **C56, lookups fail for a reason.**  A lookup that may create nodes returns one, unless a File is on the way, the node is of another class than the one asked for, or the disk has something of another class. -/
theorem C56_lookup_total_partial (hnc : NormCase nc) {S : St} (hS : Reached nc disk S) {p : Str} (hp : Sensible p) {dir : Option Nat}
    (hdir : ∀ d, dir = some d → d < S.next ∧ (S.node d).kind = .dir) {k : Kind}
    (hno : ¬ Conflict nc disk S (resolve (S.node S.top).comps (S.node (dir.getD S.cwd)).comps p) k) :
    ∃ S' n, lookup nc disk S p dir k true = (S', some n) := by
  cases h : lookup nc disk S p dir k true with
  | mk S' r =>
    obtain ⟨-, -, -, -, h5⟩ := lookup_spec hnc (reached_inv hnc hS) hp hdir h
    cases r with
    | some n => exact ⟨S', n, rfl⟩
    | none => exact absurd (h5 rfl rfl) hno

theorem ancestor_dir {S : St} (hI : Inv nc S) : ∀ n, n < S.next → ∀ ps, ps <+: (S.node n).comps → ps ≠ (S.node n).comps →
    ∃ m, m < n ∧ (S.node m).comps = ps ∧ (S.node m).kind = .dir := by
  intro n
  induction n using Nat.strongRecOn with
  | ind n ih =>
    intro hn ps hp hne
    by_cases h0 : n = 0
    · subst h0; rw [hI.root] at hp hne; exact absurd (List.prefix_nil.1 hp) hne
    · obtain ⟨m, hm, hk, f, hc⟩ := hI.parent n hn h0
      rw [hc] at hp hne
      rcases List.prefix_concat_iff.1 hp with h | h
      · exact absurd h hne
      · by_cases e : ps = (S.node m).comps
        · exact ⟨m, hm, e.symm, hk⟩
        · obtain ⟨q, a, b, c⟩ := ih m hm (by omega) ps h e
          exact ⟨q, by omega, b, c⟩

/-- **C56, the nodes form a tree.**  Every directory on the way to a node has a node, which is a Dir: nothing is ever below a File. -/
theorem C56_ancestors_are_directories (hnc : NormCase nc) {S : St} (hS : Reached nc disk S) {n : Nat} (hn : n < S.next) {ps : List Str}
    (hp : ps <+: (S.node n).comps) (hne : ps ≠ (S.node n).comps) : ∃ m, m < S.next ∧ (S.node m).comps = ps ∧ (S.node m).kind = .dir := by
  obtain ⟨m, a, b, c⟩ := ancestor_dir (reached_inv hnc hS) n hn ps hp hne
  exact ⟨m, by omega, b, c⟩

/-! ## Paths from one directory to another -/

theorem walk_up (k : Nat) : ∀ acc : List Str, walk acc (List.replicate k ['.', '.']) = acc.take (acc.length - k) := by
  induction k with
  | zero => intro acc; simp [walk]
  | succ k ih =>
    intro acc
    rw [List.replicate_succ, walk]
    simp only [List.cons_ne_nil, List.cons.injEq, and_false, or_self, if_false, if_true, ih]
    rw [List.dropLast_eq_take, List.take_take, List.length_take]
    congr 1; omega

/-- **C56, relative paths.**  Following the path `dir.rel_path(other)` from `dir` leads to `other`. -/
theorem C56_rel_path (self : List Str) : ∀ (other : List Str), (∀ c ∈ other, GoodName c) → walk self (relPath self other) = other := by
  intro other
  induction other using List.reverseRecOn with
  | nil =>
    intro _
    rw [relPath.eq_def]
    split
    · rename_i e; rw [← e]; simp [walk]
    · rw [if_pos (List.nil_prefix), walk_up]; simp
  | append_singleton o f ih =>
    intro hg
    have hgf := hg f (by simp)
    have ih := ih (fun c hc => hg c (by simp [hc]))
    rw [relPath.eq_def]
    split
    · rename_i e; rw [e]; simp [walk]
    · split
      · rename_i h
        rw [walk_up]
        obtain ⟨t, ht⟩ := h
        rw [← ht, show (o ++ [f] ++ t).length - ((o ++ [f] ++ t).length - (o ++ [f]).length) = (o ++ [f]).length by simp only [List.length_append]; omega,
          List.take_left]
      · split
        · rename_i h; simp at h
        · rename_i name h
          simp only [List.getLast?_append, List.getLast?_singleton, Option.some_or, Option.some.injEq] at h
          subst h
          simp only [List.dropLast_concat]
          have hw : ∀ acc, walk acc [f] = acc ++ [f] := fun acc => walk_good [f] acc (by simpa using hgf)
          split
          · rename_i h
            rw [h] at ih
            simp only [walk, List.cons_ne_nil, or_true, if_true] at ih
            rw [hw, ih]
          · rw [walk_append, ih, hw]

/-! ## Examples, and the names left out -/

theorem normCase_id : NormCase (fun s => s) := ⟨fun _ _ => rfl, rfl, fun c hc => ⟨by simp, by simp [Ne.symm hc]⟩⟩

def okDisk : Str → Kind → Bool := fun _ _ => true

def st0 : St := (boot (fun s => s) okDisk "/home/u".toList).getD init

theorem st0_reached : Reached (fun s => s) okDisk st0 := by
  refine ⟨"/home/u".toList, st0, [], ⟨by decide, by decide⟩, ?_, .nil _, by simp⟩
  have : (boot (fun s => s) okDisk "/home/u".toList).isSome = true := by decide +kernel
  unfold st0
  cases h : boot (fun s => s) okDisk "/home/u".toList with
  | none => rw [h] at this; cases this
  | some S => rfl

/-- The hypotheses can be met, and the results are as expected: three names of one file, and a fourth that fails because the file is not a directory. -/
theorem C56_nonvacuous :
    let a := lookup (fun s => s) okDisk st0 "#/src//a.c".toList none .file true
    let b := lookup (fun s => s) okDisk a.1 "./src/x/../a.c".toList none .entry true
    let c := lookup (fun s => s) okDisk b.1 "/home/u/src/a.c".toList (some 1) .file false
    let d := lookup (fun s => s) okDisk c.1 "src/a.c/b".toList none .file true
    Reached (fun s => s) okDisk st0 ∧ a.2.isSome = true ∧ a.2 = b.2 ∧ b.2 = c.2 ∧ d.2 = none ∧ Sensible "./src/x/../a.c".toList ∧
      relPath ["a".toList, "b".toList] ["a".toList, "c".toList, "d".toList] = ["..".toList, "c".toList, "d".toList] := by
  refine ⟨st0_reached, ?_⟩
  refine ⟨by decide +kernel, by decide +kernel, by decide +kernel, by decide +kernel, ⟨by decide, by decide⟩, by decide +kernel⟩

/-- Why names made of slashes only are left out: `Dir('//')` is the current directory, not the root. -/
theorem C56_slashes_counterexample :
    (lookup (fun s => s) okDisk st0 "//".toList none .dir true).2 = some st0.cwd ∧ resolve (st0.node st0.top).comps (st0.node st0.cwd).comps "//".toList = [] ∧ st0.cwd ≠ 0 := by
  refine ⟨by decide +kernel, by decide +kernel, by decide +kernel⟩

/-- Why names with a new line are left out: the regular expression does not look past it, so `a<newline>/../b` is not normalised, and gets a node of its own, besides that of `b`. -/
theorem C56_newline_counterexample :
    let a := lookup (fun s => s) okDisk st0 "a\n/../b".toList none .file true
    let b := lookup (fun s => s) okDisk a.1 "b".toList none .file true
    a.2.isSome = true ∧ b.2.isSome = true ∧ a.2 ≠ b.2 ∧
      resolve (st0.node st0.top).comps (st0.node st0.cwd).comps "a\n/../b".toList = resolve (st0.node st0.top).comps (st0.node st0.cwd).comps "b".toList := by
  refine ⟨by decide +kernel, by decide +kernel, by decide +kernel, by decide +kernel⟩

end Verif.FS
