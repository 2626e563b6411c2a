import Verif.Vars.Props

/-! # C61: `Save` and loading the saved file give the values back -/

namespace Verif.Vars

/-- The same value; for `ListVariable` in any order (`Save` itself sorts the list, `ListVariable.py:95`). -/
inductive Same : Val → Val → Prop
  | refl (v : Val) : Same v v
  | list {d d' : List Str} (a : List Str) : d.Perm d' → Same (.list d a) (.list d' a)

/-- What the raw value becomes when `Update` converts it (values without `$`). -/
def back (o : Opt) (raw : Val) : Option Val :=
  match o.conv with
  | none => some raw
  | some f => f (if o.doSubst then .str raw.expand else raw)

/-! ## The standard kinds of options -/

/-- A name that may be in a list variable: not empty, no comma, no blank, not one of the two words with a meaning. -/
def Clean (x : Str) : Prop := x ≠ [] ∧ ',' ∉ x ∧ ' ' ∉ x ∧ x ≠ "all".toList ∧ x ≠ "none".toList

/-- A declared variable of one of the kinds `Variables` offers, with a value of that kind. -/
inductive Fits : Opt → Val → Prop
  | plain (o : Opt) (s : Str) : o.conv = none → (∀ d, o.default = some d → ∃ t, d = .str t) → Fits o (.str s)
  | bool (o : Opt) (b : Bool) : o.conv = some text2bool → (∀ d, o.default = some d → (∃ t, d = .str t) ∨ ∃ b, d = .bool b) → Fits o (.bool b)
  /-- `EnumVariable` whose value the converter leaves alone -/
  | enum (o : Opt) (map : Str → Option Str) (ic : Nat) (s : Str) : o.conv = some (enumConv map ic) → (∀ d, o.default = some d → ∃ t, d = .str t) →
      enumConv map ic (.str s) = some (.str s) → Fits o (.str s)
  /-- `ListVariable` whose values and default values are names the variable may have -/
  | list (o : Opt) (names : List Str) (map : Str → Option Str) (data : List Str) : o.conv = some (listConv names map) →
      (∀ d, o.default = some d → ∃ t, d = .str t ∧ ∀ dd a, listConv names map (.str t) = some (.list dd a) → ∀ x ∈ dd, x ∈ names) →
      (∀ x ∈ names, Clean x ∧ (map x = none ∨ map x = some x)) → (∀ x ∈ data, x ∈ names) → Fits o (.list data (sort names))

/-! ## Lists written and read -/

theorem splitComma_ne (s : Str) : splitComma s ≠ [] := by
  cases s with
  | nil => simp [splitComma]
  | cons c cs => unfold splitComma; split
                 · simp
                 · split <;> simp

theorem splitComma_append (x s : Str) (h : ',' ∉ x) : splitComma (x ++ ',' :: s) = x :: splitComma s := by
  induction x with
  | nil => simp [splitComma]
  | cons c cs ih =>
    have hc : c ≠ ',' := fun e => h (by simp [e])
    rw [List.cons_append, splitComma, if_neg hc, ih (fun hm => h (by simp [hm]))]

theorem splitComma_one (x : Str) (h : ',' ∉ x) : splitComma x = [x] := by
  induction x with
  | nil => rfl
  | cons c cs ih =>
    have hc : c ≠ ',' := fun e => h (by simp [e])
    unfold splitComma; rw [if_neg hc, ih (fun hm => h (by simp [hm]))]

theorem splitComma_join (l : List Str) (hne : l ≠ []) (h : ∀ x ∈ l, ',' ∉ x) : splitComma (join [','] l) = l := by
  induction l with
  | nil => exact absurd rfl hne
  | cons x l ih =>
    cases l with
    | nil => exact splitComma_one x (h x (by simp))
    | cons y ys =>
      unfold join
      rw [List.append_assoc, List.singleton_append, splitComma_append x _ (h x (by simp)), ih (by simp) (fun z hz => h z (by simp [hz]))]

theorem sort_perm (l : List Str) : (sort l).Perm l := List.perm_insertionSort _ l

theorem join_mem (sep : Str) (l : List Str) (c : Char) (h : c ∈ join sep l) : c ∈ sep ∨ ∃ x ∈ l, c ∈ x := by
  induction l with
  | nil => simp [join] at h
  | cons x l ih =>
    cases l with
    | nil => exact .inr ⟨x, by simp, h⟩
    | cons y ys =>
      unfold join at h
      rw [List.mem_append, List.mem_append] at h
      rcases h with (h | h) | h
      · exact .inr ⟨x, by simp, h⟩
      · exact .inl h
      · rcases ih h with h | ⟨z, hz, hc⟩
        · exact .inl h
        · exact .inr ⟨z, by simp [hz], hc⟩

theorem show_list (d a : List Str) : Val.show (.list d a) = if d = [] then "none".toList else if sort d = a then "all".toList else join [','] (sort d) := rfl

theorem listConv_show (names : List Str) (map : Str → Option Str) (data : List Str) (hn : ∀ x ∈ names, Clean x ∧ (map x = none ∨ map x = some x))
    (hd : ∀ x ∈ data, x ∈ names) : ∃ d, listConv names map (.str (Val.show (.list data (sort names)))) = some (.list d (sort names)) ∧ data.Perm d := by
  have nofilter : ∀ l : List Str, (∀ x ∈ l, x ∈ names) → l.filter (fun x => decide (x ≠ [])) = l := by
    intro l hl; rw [List.filter_eq_self]; intro x hx; simpa using (hn x (hl x hx)).1.1
  have nomap : ∀ l : List Str, (∀ x ∈ l, x ∈ names) → l.map (fun x => (map x).getD x) = l := by
    intro l hl; conv_rhs => rw [← List.map_id l]
    refine List.map_congr_left (fun x hx => ?_)
    rcases (hn x (hl x hx)).2 with h | h <;> simp [h]
  rw [show_list]
  by_cases h0 : data = []
  · subst h0; exact ⟨[], by simp [listConv], .refl _⟩
  · rw [if_neg h0]
    by_cases h1 : sort data = sort names
    · rw [if_pos h1]
      refine ⟨names, ?_, ((sort_perm data).symm.trans (h1 ▸ .refl _)).trans (sort_perm names)⟩
      have : "all".toList ≠ "none".toList := by decide
      simp only [listConv, if_neg this, if_true]
      rw [nofilter names (fun _ h => h)]
    · rw [if_neg h1]
      have hs : ∀ x ∈ sort data, x ∈ names := fun x hx => hd x ((sort_perm data).mem_iff.1 hx)
      have hne : sort data ≠ [] := fun e => h0 ((List.perm_nil.1 (e ▸ (sort_perm data).symm)))
      have hj := splitComma_join (sort data) hne (fun x hx => (hn x (hs x hx)).1.2.1)
      have key : ∀ w : Str, ',' ∉ w → (∀ x ∈ names, x ≠ w) → join [','] (sort data) ≠ w := by
        intro w hw hx e
        rw [e, splitComma_one w hw] at hj
        exact hx w (hs w (hj ▸ by simp)) rfl
      have k1 := key "none".toList (by decide) (fun x hx => (hn x hx).1.2.2.2.2)
      have k2 := key "all".toList (by decide) (fun x hx => (hn x hx).1.2.2.2.1)
      refine ⟨sort data, ?_, (sort_perm data).symm⟩
      simp only [listConv, if_neg k1, if_neg k2]
      rw [hj, nofilter _ hs, nomap _ hs, nofilter _ hs]

/-- The text `env.subst('$key')` of a list variable equals `str` of the converted default only if it is the same list. -/
theorem expand_eq_show (names data dd : List Str) (hn : ∀ x ∈ names, Clean x) (hd : ∀ x ∈ data, x ∈ names) (hdd : ∀ x ∈ dd, x ∈ names)
    (h : Val.expand (.list data (sort names)) = Val.show (.list dd (sort names))) : data = dd := by
  unfold Val.expand at h
  dsimp only at h
  have nosp : ∀ c, c = ' ' → c ∉ Val.show (.list dd (sort names)) := by
    rintro c rfl hc
    rw [show_list] at hc
    split at hc
    · exact absurd hc (by decide)
    · split at hc
      · exact absurd hc (by decide)
      · rcases join_mem _ _ _ hc with h | ⟨x, hx, hc⟩
        · exact absurd h (by decide)
        · exact (hn x (hdd x ((sort_perm dd).mem_iff.1 hx))).2.2.1 hc
  cases data with
  | nil =>
    exfalso
    have h' : Val.show (.list dd (sort names)) = [] := h.symm
    rw [show_list] at h'
    split at h'
    · exact absurd h' (by decide)
    · rename_i h0
      split at h'
      · exact absurd h' (by decide)
      · cases hs : sort dd with
        | nil => exact h0 (List.perm_nil.1 (hs ▸ (sort_perm dd).symm))
        | cons x l =>
          have hx := (hn x (hdd x ((sort_perm dd).mem_iff.1 (hs ▸ by simp)))).1
          rw [hs] at h'
          cases l with
          | nil => exact hx h'
          | cons y ys => unfold join at h'; exact hx (by simpa using h')
  | cons x l =>
    cases l with
    | cons y ys => exact absurd (h ▸ (by unfold join; simp) : ' ' ∈ Val.show (.list dd (sort names))) (nosp ' ' rfl)
    | nil =>
      have hx := hn x (hd x (by simp))
      have h' : x = Val.show (.list dd (sort names)) := h
      rw [show_list] at h'
      split at h'
      · exact absurd h' hx.2.2.2.2
      · rename_i h0
        split at h'
        · exact absurd h' hx.2.2.2.1
        · have hj := splitComma_join (sort dd) (fun e => h0 (List.perm_nil.1 (e ▸ (sort_perm dd).symm)))
            (fun z hz => (hn z (hdd z ((sort_perm dd).mem_iff.1 hz))).2.1)
          rw [← h', splitComma_one x hx.2.1] at hj
          exact (List.singleton_perm.1 (hj ▸ sort_perm dd : [x].Perm dd)).symm ▸ rfl

/-! ## One option -/

theorem text2bool_show (b : Bool) : text2bool (.str (Val.show (.bool b))) = some (.bool b) := by cases b <;> decide +kernel

/-- What is written for the value is read back as the value. -/
theorem Fits.saved {o : Opt} {v : Val} (h : Fits o v) : ∃ w, back o v.store = some w ∧ Same v w := by
  cases h with
  | plain s hc _ => exact ⟨_, by simp [back, hc, Val.store], .refl _⟩
  | bool b hc _ =>
    refine ⟨.bool b, ?_, .refl _⟩
    simp only [back, hc, Val.store]
    split
    · exact text2bool_show b
    · rfl
  | enum map ic s hc _ hf =>
    refine ⟨.str s, ?_, .refl _⟩
    simp only [back, hc, Val.store, Val.expand, Val.show]
    split <;> exact hf
  | list names map data hc _ hn hd =>
    obtain ⟨d, h1, h2⟩ := listConv_show names map data hn hd
    refine ⟨.list d (sort names), ?_, .list _ h2⟩
    simp only [back, hc, Val.store, Val.expand]
    split <;> exact h1

/-- If nothing is written for the value, the default is that value. -/
theorem Fits.unsaved {o : Opt} {v : Val} (h : Fits o v) {d dv : Val} (hd : o.default = some d) (hdv : defaultVal o = some dv) (he : v.expand = dv.show) :
    ∃ w, back o d = some w ∧ Same v w := by
  cases h with
  | plain s hc hdef =>
    obtain ⟨t, rfl⟩ := hdef d hd
    simp only [defaultVal, hc, defaultText, hd, Option.some.injEq] at hdv
    subst hdv
    simp only [Val.expand, Val.show] at he
    subst he
    exact ⟨.str s, by simp [back, hc], .refl _⟩
  | bool b hc hdef =>
    simp only [defaultVal, hc, defaultText, hd] at hdv
    have hb : back o d = some dv := by
      rcases hdef d hd with ⟨t, rfl⟩ | ⟨b', rfl⟩
      · simp only [back, hc, Val.expand]; split <;> exact hdv
      · simp only [back, hc, Val.expand]; split
        · exact hdv
        · rw [text2bool_show] at hdv; exact hdv
    refine ⟨dv, hb, ?_⟩
    have : dv = .bool b := by
      cases dv with
      | bool b' => cases b <;> cases b' <;> first | rfl | exact absurd he (by decide)
      | str s =>
        exfalso
        generalize Val.str d.show = x at hdv
        unfold text2bool at hdv
        split at hdv
        · cases hdv
        · split at hdv
          · cases hdv
          · split at hdv <;> cases hdv
        · cases hdv
      | list l a =>
        exfalso
        generalize Val.str d.show = x at hdv
        unfold text2bool at hdv
        split at hdv
        · cases hdv
        · split at hdv
          · cases hdv
          · split at hdv <;> cases hdv
        · cases hdv
    rw [this]; exact .refl _
  | enum map ic s hc hdef hf =>
    obtain ⟨t, rfl⟩ := hdef d hd
    simp only [defaultVal, hc, defaultText, hd, Val.show] at hdv
    have hb : back o (.str t) = some dv := by simp only [back, hc, Val.expand, Val.show]; split <;> exact hdv
    have : ∃ u, dv = .str u := by
      unfold enumConv at hdv; dsimp only at hdv
      split at hdv
      · exact ⟨_, (Option.some.inj hdv).symm⟩
      · split at hdv <;> exact ⟨_, (Option.some.inj hdv).symm⟩
    obtain ⟨u, rfl⟩ := this
    simp only [Val.expand, Val.show] at he
    subst he
    exact ⟨_, hb, .refl _⟩
  | list names map data hc hdef hn hdat =>
    obtain ⟨t, rfl, hdd⟩ := hdef d hd
    simp only [defaultVal, hc, defaultText, hd, Val.show] at hdv
    have hb : back o (.str t) = some dv := by simp only [back, hc, Val.expand, Val.show]; split <;> exact hdv
    have hl : ∃ dd, dv = .list dd (sort names) := by
      unfold listConv at hdv; exact ⟨_, (Option.some.inj hdv).symm⟩
    obtain ⟨dd, rfl⟩ := hl
    have := expand_eq_show names data dd (fun x hx => (hn x hx).1) hdat (hdd dd _ hdv) he
    subst this
    exact ⟨_, hb, .refl _⟩

/-! ## The file -/

/-- The value is written. -/
def Written (e : Env) (o : Opt) (v : Val) : Prop := e o.key = some v ∧ ∃ dv, defaultVal o = some dv ∧ v.expand ≠ dv.show

theorem save_mem (e : Env) (opts : List Opt) (f : List (Str × Val)) (h : save e opts = some f) (p : Str × Val) :
    p ∈ f ↔ ∃ o ∈ opts, ∃ v, Written e o v ∧ p = (o.key, v.store) := by
  induction opts generalizing f with
  | nil => cases h; simp
  | cons o os ih =>
    unfold save at h
    split at h
    · rename_i hn
      rw [ih f h]
      constructor
      · rintro ⟨o', ho', r⟩; exact ⟨o', by simp [ho'], r⟩
      · rintro ⟨o', ho', v, ⟨hv, x⟩, r⟩
        rcases List.mem_cons.1 ho' with rfl | ho'
        · rw [hn] at hv; cases hv
        · exact ⟨o', ho', v, ⟨hv, x⟩, r⟩
    · rename_i v hv
      split at h
      · cases h
      · rename_i dv hdv
        rw [Option.map_eq_some_iff] at h
        obtain ⟨g, hg, rfl⟩ := h
        by_cases hw : v.expand ≠ dv.show
        · rw [if_pos hw, List.mem_cons, ih g hg]
          constructor
          · rintro (rfl | ⟨o', ho', r⟩)
            · exact ⟨o, by simp, v, ⟨hv, dv, hdv, hw⟩, rfl⟩
            · exact ⟨o', by simp [ho'], r⟩
          · rintro ⟨o', ho', v', ⟨hv', x⟩, rfl⟩
            rcases List.mem_cons.1 ho' with rfl | ho'
            · rw [hv] at hv'; cases hv'; exact .inl rfl
            · exact .inr ⟨o', ho', v', ⟨hv', x⟩, rfl⟩
        · rw [if_neg hw, ih g hg]
          constructor
          · rintro ⟨o', ho', r⟩; exact ⟨o', by simp [ho'], r⟩
          · rintro ⟨o', ho', v', ⟨hv', dv', hdv', x⟩, rfl⟩
            rcases List.mem_cons.1 ho' with rfl | ho'
            · rw [hv] at hv'; cases hv'; rw [hdv] at hdv'; cases hdv'; exact absurd x hw
            · exact ⟨o', ho', v', ⟨hv', dv', hdv', x⟩, rfl⟩

theorem save_default (e : Env) (opts : List Opt) (f : List (Str × Val)) (h : save e opts = some f) (o : Opt) (ho : o ∈ opts) (hv : e o.key ≠ none) :
    defaultVal o ≠ none := by
  induction opts generalizing f with
  | nil => simp at ho
  | cons p os ih =>
    unfold save at h
    split at h
    · rename_i hn
      rcases List.mem_cons.1 ho with rfl | ho
      · exact absurd hn hv
      · exact ih f h ho
    · split at h
      · cases h
      · rename_i dv hdv
        rw [Option.map_eq_some_iff] at h
        obtain ⟨g, hg, _⟩ := h
        rcases List.mem_cons.1 ho with rfl | ho
        · rw [hdv]; simp
        · exact ih g hg ho

theorem said_saved (e : Env) (opts : List Opt) (f : List (Str × Val)) (h : save e opts = some f) (hd : Declared opts) (o : Opt) (ho : o ∈ opts) :
    OneName o f ∧ (∀ v, Written e o v → said o [f] [] = some v.store) ∧ ((∀ v, ¬ Written e o v) → said o [f] [] = none) := by
  have key : ∀ p ∈ f, p.1 ∈ o.names → ∃ v, Written e o v ∧ p = (o.key, v.store) := by
    intro p hp hn
    obtain ⟨o', ho', v, hw, rfl⟩ := (save_mem e opts f h p).1 hp
    have := hd.eq ho' ho (n := o'.key) o'.key_mem hn
    subst this; exact ⟨v, hw, rfl⟩
  refine ⟨fun p hp q hq a b => ?_, fun v hw => ?_, fun hno => ?_⟩
  · obtain ⟨_, _, rfl⟩ := key p hp a; obtain ⟨_, _, rfl⟩ := key q hq b; rfl
  · unfold said
    simp only [List.flatten_cons, List.flatten_nil, List.append_nil]
    have hm : (o.key, v.store) ∈ f.filter (fun p => decide (p.1 ∈ o.names)) := by
      rw [List.mem_filter]; exact ⟨(save_mem e opts f h _).2 ⟨o, ho, v, hw, rfl⟩, by simpa using o.key_mem⟩
    have ne := List.ne_nil_of_mem hm
    rw [List.getLast?_eq_getLast_of_ne_nil ne]
    have := List.getLast_mem ne
    rw [List.mem_filter] at this
    obtain ⟨v', hw', e'⟩ := key _ this.1 (by simpa using this.2)
    have : v' = v := by have := hw.1; rw [hw'.1] at this; exact Option.some.inj this
    rw [e', this]; rfl
  · unfold said
    simp only [List.flatten_cons, List.flatten_nil, List.append_nil]
    rw [List.filter_eq_nil_iff.2]
    · rfl
    · intro p hp hn
      obtain ⟨v, hw, _⟩ := key p hp (by simpa using hn)
      exact hno v hw

/-! ## The theorem -/

/-- The value option `o` is loaded with from the saved file (or its default). -/
theorem raw_back (e : Env) (V : Vars) (f : List (Str × Val)) (h : save e V.options = some f) (hd : Declared V.options) (o : Opt) (ho : o ∈ V.options) (v : Val)
    (hv : e o.key = some v) (hf : Fits o v) (hnone : o.default = none → Written e o v) :
    ∃ raw w, (gather V [f] []).values o.key = some raw ∧ back o raw = some w ∧ Same v w := by
  obtain ⟨h1, h2, h3⟩ := said_saved e V.options f h hd o ho
  have hg := gather_value V [f] [] hd ho (by simpa using h1) (fun p hp => by simp at hp)
  by_cases hw : Written e o v
  · rw [h2 v hw] at hg
    obtain ⟨w, a, b⟩ := hf.saved
    exact ⟨v.store, w, hg, a, b⟩
  · have : ∀ v', ¬ Written e o v' := by
      intro v' hw'; have := hw'.1; rw [hv] at this; cases this; exact hw hw'
    rw [h3 this] at hg
    cases hdef : o.default with
    | none => exact absurd (hnone hdef) hw
    | some d =>
      rw [hdef] at hg
      obtain ⟨dv, hdv⟩ := Option.ne_none_iff_exists'.1 (save_default e V.options f h o ho (by rw [hv]; simp))
      have he : v.expand = dv.show := by by_contra hne; exact hw ⟨hv, dv, hdv, hne⟩
      obtain ⟨w, a, b⟩ := hf.unsaved hdef hdv he
      exact ⟨d, w, hg, a, b⟩

theorem convertAll_some (vals : Str → Option Val) (opts : List Opt) (e : Env) (hd : Declared opts)
    (h : ∀ o ∈ opts, ∃ raw, e o.key = some raw ∧ vals o.key = some raw ∧ back o raw ≠ none) :
    ∃ e', convertAll litSub vals opts e = some e' ∧ ∀ o ∈ opts, ∀ raw, vals o.key = some raw → e' o.key = back o raw := by
  induction opts generalizing e with
  | nil => exact ⟨e, rfl, by simp⟩
  | cons o os ih =>
    obtain ⟨raw, h1, h2, h3⟩ := h o (by simp)
    have hk : ∀ x ∈ os, x.key ≠ o.key := fun x hx ek => (List.pairwise_cons.1 hd).1 x hx o.key o.key_mem (ek ▸ x.key_mem)
    cases hc : o.conv with
    | none =>
      obtain ⟨e', a, b⟩ := ih e (List.pairwise_cons.1 hd).2 (fun x hx => h x (by simp [hx]))
      refine ⟨e', by unfold convertAll; rw [hc]; exact a, fun x hx r hr => ?_⟩
      rcases List.mem_cons.1 hx with rfl | hx
      · rw [convertAll_other _ _ _ _ _ a _ hk, h1]; rw [hr] at h2; cases h2; simp [back, hc]
      · exact b x hx r hr
    | some f =>
      obtain ⟨w, hw⟩ := Option.ne_none_iff_exists'.1 h3
      have hb : f (if o.doSubst then .str (litSub e o.key) else raw) = some w := by
        have : litSub e o.key = raw.expand := by simp [litSub, h1]
        rw [this]; simp only [back, hc] at hw; exact hw
      obtain ⟨e', a, b⟩ := ih (e.set o.key w) (List.pairwise_cons.1 hd).2 (fun x hx => by
        obtain ⟨r, r1, r2⟩ := h x (by simp [hx])
        exact ⟨r, by rw [← r1]; exact if_neg (hk x hx), r2⟩)
      refine ⟨e', by unfold convertAll; rw [hc, h2, h1]; dsimp only; rw [hb]; exact a, fun x hx r hr => ?_⟩
      rcases List.mem_cons.1 hx with rfl | hx
      · rw [convertAll_other _ _ _ _ _ a _ hk]; rw [hr] at h2; cases h2; rw [hw]; simp [Env.set]
      · exact b x hx r hr

/-- A validator that looks at the value only, and at a list only as a set. -/
def ByValue (f : Val → Env → Bool) : Prop := ∀ v w e e', Same v w → f v e = f w e'

/-- **C61** (partial: values and defaults without `$`; declared variables of the kinds `Variables` offers; and see the counterexamples): if the values of all
declared variables are valid, and a variable without default does not have the value `None`, then the file `Save` writes can be loaded into any environment, and
every variable has its value again (list variables up to the order of their elements). -/
theorem C61_save_load_partial (V : Vars) (e e0 : Env) (f : List (Str × Val)) (hd : Declared V.options)
    (hfit : ∀ o ∈ V.options, ∃ v, e o.key = some v ∧ Fits o v ∧ (o.default = none → o.conv = none ∧ v ≠ .str "None".toList))
    (hval : ∀ o ∈ V.options, ∀ g, o.valid = some g → ByValue g ∧ ∀ v, e o.key = some v → g v e = true)
    (h : save e V.options = some f) :
    ∃ e' V', Updated litSub V [f] [] e0 e' V' ∧ ∀ o ∈ V.options, ∀ v, e o.key = some v → ∃ w, e' o.key = some w ∧ Same v w := by
  have hraw : ∀ o ∈ V.options, ∃ v raw w, e o.key = some v ∧ (gather V [f] []).values o.key = some raw ∧ back o raw = some w ∧ Same v w := by
    intro o ho
    obtain ⟨v, hv, hf, hn⟩ := hfit o ho
    obtain ⟨raw, w, a, b, c⟩ := raw_back e V f h hd o ho v hv hf (fun hnd => by
      obtain ⟨hc, hne⟩ := hn hnd
      refine ⟨hv, .str "None".toList, by simp [defaultVal, hc, defaultText, hnd], fun he => hne ?_⟩
      cases hf with
      | plain s _ _ => simp only [Val.expand, Val.show] at he; rw [he]
      | bool b hc' _ => rw [hc] at hc'; cases hc'
      | enum m ic s hc' _ _ => rw [hc] at hc'; cases hc'
      | list n m d hc' _ _ _ => rw [hc] at hc'; cases hc')
    exact ⟨v, raw, w, hv, a, b, c⟩
  obtain ⟨e', he', hback⟩ := convertAll_some (gather V [f] []).values V.options (putAll V.options (gather V [f] []).values e0) hd (fun o ho => by
    obtain ⟨v, raw, w, _, a, b, _⟩ := hraw o ho
    exact ⟨raw, by rw [putAll_key _ _ _ _ ho, a]; rfl, a, by rw [b]; simp⟩)
  have hfinal : ∀ o ∈ V.options, ∀ v, e o.key = some v → ∃ w, e' o.key = some w ∧ Same v w := by
    intro o ho v hv
    obtain ⟨v', raw, w, hv', a, b, c⟩ := hraw o ho
    rw [hv] at hv'; cases hv'
    exact ⟨w, by rw [hback o ho raw a, b], c⟩
  refine ⟨e', { V with unknown := (gather V [f] []).unknown, defaulted := (gather V [f] []).defaulted }, ?_, hfinal⟩
  unfold Updated Vars.update
  dsimp only
  rw [he', Option.bind_some, if_pos]
  unfold validateAll
  rw [List.all_eq_true]
  intro o ho
  obtain ⟨v, raw, w, hv, a, b, c⟩ := hraw o ho
  have hw : e' o.key = some w := by rw [hback o ho raw a, b]
  cases hg : o.valid with
  | none => rfl
  | some g =>
    rw [a, hw]
    dsimp only
    obtain ⟨hby, hok⟩ := hval o ho g hg
    have : g w e' = true := by rw [← hby v w e e' c]; exact hok v hv
    cases w with
    | bool _ => exact this
    | list _ _ => exact this
    | str s =>
      dsimp only
      split
      · rw [show litSub e' o.key = s by simp [litSub, hw, Val.expand, Val.show]]; exact this
      · exact this

/-- The validator of `BoolVariable` looks at the value only (`BoolVariable.py:71-84`). -/
def boolValid : Val → Env → Bool := fun v _ => match v with | .bool _ => true | _ => false

theorem boolValid_byValue : ByValue boolValid := by
  intro v w e e' h; cases h <;> rfl

theorem enumValid_byValue (allowed : List Str) (ic : Nat) : ByValue (enumValid allowed ic) := by
  intro v w e e' h; cases h with
  | refl => cases v <;> rfl
  | list a hp => rfl

theorem listValid_byValue : ByValue listValid := by
  intro v w e e' h; cases h with
  | refl => cases v <;> rfl
  | list a hp =>
    simp only [listValid]
    rw [Bool.eq_iff_iff, List.all_eq_true, List.all_eq_true]
    exact ⟨fun hh x hx => hh x (hp.mem_iff.2 hx), fun hh x hx => hh x (hp.mem_iff.1 hx)⟩

theorem toLower_toLower (c : Char) : c.toLower.toLower = c.toLower := by
  unfold Char.toLower
  split
  · rename_i h
    rw [dif_neg]
    intro h2
    have e := h2.2
    have e2 := h.1
    have e3 := h.2
    simp only [UInt32.le_iff_toNat_le, UInt32.toNat_add, ge_iff_le] at e e2 e3
    simp at e e2 e3
    omega
  · rfl

theorem lower_lower (s : Str) : lower (lower s) = lower s := by
  unfold lower; rw [List.map_map]; exact List.map_congr_left (fun c _ => toLower_toLower c)

/-- A validated enumeration value is one the converter leaves alone, if the map leaves alone what it gives. -/
theorem enum_fixed (map : Str → Option Str) (ic : Nat) (hm : ∀ x y, map x = some y → map y = none ∨ map y = some y)
    (hl : ic ≠ 0 → ∀ x y, map x = some y → map (lower y) = none ∨ map (lower y) = some y) (hlow : ic = 2 → ∀ x y, map x = some y → lower y = y)
    (v : Val) (s : Str) (h : enumConv map ic v = some (.str s)) : enumConv map ic (.str s) = some (.str s) := by
  cases v with
  | bool _ => cases h
  | list _ _ => cases h
  | str t =>
    unfold enumConv at h ⊢
    dsimp only at h ⊢
    by_cases h2 : ic = 2
    · rw [if_pos h2] at h ⊢
      cases hmt : map (lower t) with
      | none =>
        rw [hmt] at h; simp only [Option.getD_none, Option.some.injEq, Val.str.injEq] at h
        subst h; rw [lower_lower, hmt]; simp [lower_lower]
      | some y =>
        rw [hmt] at h; simp only [Option.getD_some, Option.some.injEq, Val.str.injEq] at h
        have hy := hlow h2 _ _ hmt
        rw [hy] at h; subst h
        rcases hm _ _ hmt with e | e <;> simp [hy, e]
    · rw [if_neg h2] at h ⊢
      by_cases h1 : ic = 1
      · rw [if_pos h1] at h ⊢
        cases hmt : map (lower t) with
        | none =>
          rw [hmt] at h; simp only [Option.getD_none, Option.some.injEq, Val.str.injEq] at h
          subst h; rw [hmt]; simp
        | some y =>
          rw [hmt] at h; simp only [Option.getD_some, Option.some.injEq, Val.str.injEq] at h
          subst h
          rcases hl (by omega) _ _ hmt with e | e <;> simp [e]
      · rw [if_neg h1] at h ⊢
        cases hmt : map t with
        | none =>
          rw [hmt] at h; simp only [Option.getD_none, Option.some.injEq, Val.str.injEq] at h
          subst h; rw [hmt]; simp
        | some y =>
          rw [hmt] at h; simp only [Option.getD_some, Option.some.injEq, Val.str.injEq] at h
          subst h
          rcases hm _ _ hmt with e | e <;> simp [e]

/-! ## What the standard kinds accept -/

/-- **C61, `BoolVariable`**: the words that mean true, the words that mean false (in any case), and nothing else. -/
theorem C61_bool_words (s : Str) :
    (text2bool (.str s) = some (.bool true) ↔ lower s ∈ ["y", "yes", "true", "t", "1", "on", "all"].map String.toList) ∧
    (text2bool (.str s) = some (.bool false) ↔ lower s ∈ ["n", "no", "false", "f", "0", "off", "none"].map String.toList) ∧
    (text2bool (.str s) = none ↔ lower s ∉ ["y", "yes", "true", "t", "1", "on", "all", "n", "no", "false", "f", "0", "off", "none"].map String.toList) := by
  have ht : trueStrings = ["y", "yes", "true", "t", "1", "on", "all"].map String.toList := rfl
  have hf : falseStrings = ["n", "no", "false", "f", "0", "off", "none"].map String.toList := rfl
  have hdis : ∀ w ∈ trueStrings, w ∉ falseStrings := by decide +kernel
  have happ : ["y", "yes", "true", "t", "1", "on", "all", "n", "no", "false", "f", "0", "off", "none"].map String.toList = trueStrings ++ falseStrings := rfl
  rw [happ, ← ht, ← hf, List.mem_append]
  unfold text2bool; dsimp only
  by_cases h1 : lower s ∈ trueStrings
  · have h2 := hdis _ h1
    simp [h1, h2]
  · by_cases h2 : lower s ∈ falseStrings <;> simp [h1, h2]

/-- **C61, `EnumVariable`**: after `Update` the value is one of the allowed values (its lower case is, if `ignorecase`). -/
theorem C61_enum_allowed (V : Vars) (files : List (List (Str × Val))) (args : List (Str × Val)) (e e' : Env) (V' : Vars)
    (h : Updated litSub V files args e e' V') (o : Opt) (ho : o ∈ V.options) (allowed : List Str) (ic : Nat) (hv : o.valid = some (enumValid allowed ic)) (hs : o.doSubst = true)
    (hg : o.default ≠ none ∨ ∃ p ∈ files.flatten ++ args, p.1 ∈ o.names) (cur : Val) (hcur : e' o.key = some cur) :
    ∃ s, cur = .str s ∧ (ic = 0 → s ∈ allowed) ∧ (ic ≠ 0 → lower s ∈ allowed) := by
  obtain ⟨_, h2, h3⟩ := C61_validated litSub V files args e e' V' h o ho _ hv cur hcur hg
  cases cur with
  | bool b => exact absurd (h2 (by simp)) (by simp [enumValid])
  | list d a => exact absurd (h2 (by simp)) (by simp [enumValid])
  | str s =>
    have := h3 s rfl hs
    have e1 : litSub e' o.key = s := by simp [litSub, hcur, Val.expand, Val.show]
    rw [e1] at this
    refine ⟨s, rfl, fun h0 => ?_, fun h0 => ?_⟩
    · simpa [enumValid, h0] using this
    · simpa [enumValid, h0] using this

/-- **C61, `ListVariable`**: after `Update` the elements are among the allowed names. -/
theorem C61_list_allowed (sub : Env → Str → Str) (V : Vars) (files : List (List (Str × Val))) (args : List (Str × Val)) (e e' : Env) (V' : Vars)
    (h : Updated sub V files args e e' V') (o : Opt) (ho : o ∈ V.options) (hv : o.valid = some listValid)
    (hg : o.default ≠ none ∨ ∃ p ∈ files.flatten ++ args, p.1 ∈ o.names) (d a : List Str) (hcur : e' o.key = some (.list d a)) : ∀ x ∈ d, x ∈ a := by
  have h2 := (C61_validated sub V files args e e' V' h o ho _ hv _ hcur hg).2.1 (by simp)
  simpa [listValid] using h2

/-! ## Example and counterexamples -/

def exNames : List Str := ["x11".toList, "qt".toList, "gtk".toList]
def exList : Opt := { key := "gui".toList, default := some (.str "all".toList), conv := some (listConv exNames (fun _ => none)), valid := some listValid }
def exEnum : Opt := { key := "lvl".toList, default := some (.str "lo".toList), conv := some (enumConv (fun x => if x = "2".toList then some "hi".toList else none) 0),
                      valid := some (enumValid ["lo".toList, "hi".toList] 0) }
def exPlain : Opt := { key := "CC".toList }
def exB : Opt := { key := "opt".toList, default := some (.bool true), conv := some text2bool, valid := some boolValid }
def exS : Vars := { options := [exList, exEnum, exPlain, exB] }
def exE : Env := fun k => if k = "gui".toList then some (.list ["x11".toList, "gtk".toList] (sort exNames)) else if k = "lvl".toList then some (.str "hi".toList)
  else if k = "CC".toList then some (.str "gcc".toList) else if k = "opt".toList then some (.bool true) else none

/-- The hypotheses of `C61_save_load_partial` are met: a list, an enumeration, a plain and a boolean variable; the file has three lines. -/
theorem exS_ok : Declared exS.options ∧
    (∀ o ∈ exS.options, ∃ v, exE o.key = some v ∧ Fits o v ∧ (o.default = none → o.conv = none ∧ v ≠ .str "None".toList)) ∧
    (∀ o ∈ exS.options, ∀ g, o.valid = some g → ByValue g ∧ ∀ v, exE o.key = some v → g v exE = true) ∧
    save exE exS.options = some [("gui".toList, .str "gtk,x11".toList), ("lvl".toList, .str "hi".toList), ("CC".toList, .str "gcc".toList)] := by
  refine ⟨by unfold Declared; decide +kernel, ?_, ?_, by decide +kernel⟩
  · intro o ho
    simp only [exS, List.mem_cons, List.not_mem_nil, or_false] at ho
    rcases ho with rfl | rfl | rfl | rfl
    · refine ⟨.list ["x11".toList, "gtk".toList] (sort exNames), by decide +kernel, .list _ exNames (fun _ => none) _ rfl ?_ ?_ (by decide +kernel), fun h => by cases h⟩
      · intro d hd; refine ⟨"all".toList, by cases hd; rfl, fun dd a h => ?_⟩
        have : dd = exNames := by
          have : listConv exNames (fun _ => none) (.str "all".toList) = some (.list exNames (sort exNames)) := by decide +kernel
          rw [this] at h; cases h; rfl
        rw [this]; exact fun _ h => h
      · intro x hx; refine ⟨?_, .inl rfl⟩
        unfold Clean
        have : ∀ x ∈ exNames, (x ≠ [] ∧ ',' ∉ x ∧ ' ' ∉ x ∧ x ≠ "all".toList ∧ x ≠ "none".toList) := by decide +kernel
        exact this x hx
    · exact ⟨.str "hi".toList, by decide +kernel, .enum _ _ 0 _ rfl (fun d hd => ⟨"lo".toList, by cases hd; rfl⟩) (by decide +kernel), fun h => by cases h⟩
    · exact ⟨.str "gcc".toList, by decide +kernel, .plain _ _ rfl (fun d hd => by cases hd), fun _ => ⟨rfl, by decide⟩⟩
    · exact ⟨.bool true, by decide +kernel, .bool _ _ rfl (fun d hd => .inr ⟨true, by cases hd; rfl⟩), fun h => by cases h⟩
  · intro o ho g hg
    simp only [exS, List.mem_cons, List.not_mem_nil, or_false] at ho
    rcases ho with rfl | rfl | rfl | rfl
    · cases hg; refine ⟨listValid_byValue, fun v hv => ?_⟩
      have : exE exList.key = some (.list ["x11".toList, "gtk".toList] (sort exNames)) := by decide +kernel
      rw [this] at hv; cases hv; decide +kernel
    · cases hg; refine ⟨enumValid_byValue _ _, fun v hv => ?_⟩
      have : exE exEnum.key = some (.str "hi".toList) := by decide +kernel
      rw [this] at hv; cases hv; decide +kernel
    · cases hg
    · cases hg; refine ⟨boolValid_byValue, fun v hv => ?_⟩
      have : exE exB.key = some (.bool true) := by decide +kernel
      rw [this] at hv; cases hv; decide +kernel

/-- **C61** counterexample: a variable without default that has the value `'None'` is not saved. -/
theorem C61_counterexample_none : save (fun k => if k = "CC".toList then some (.str "None".toList) else none) [exPlain] = some [] := by decide +kernel

/-- **C61** counterexample: a list variable at its default is saved all the same (`subst` joins with blanks, `str` with commas, or gives `all`), so a later change of
the default in the SConscript file is not picked up. -/
theorem C61_counterexample_default_saved : ∃ e' V', Updated litSub { options := [exList] } [] [] (fun _ => none) e' V' ∧ V'.defaulted = ["gui".toList] ∧
    save e' [exList] = some [("gui".toList, .str "all".toList)] := by
  refine ⟨_, _, rfl, ?_⟩; decide +kernel

def exChain : Opt := { key := "lvl".toList, default := some (.str "x".toList),
                       conv := some (enumConv (fun x => if x = "a".toList then some "b".toList else if x = "b".toList then some "c".toList else none) 0),
                       valid := some (enumValid ["a".toList, "b".toList, "c".toList, "x".toList] 0) }

/-- **C61** counterexample: with an enumeration map `a → b → c`, the command line `lvl=a` gives `b`, `Save` writes `b`, and loading the file gives `c`. -/
theorem C61_counterexample_map : ∃ e1 V1 f e2 V2, Updated litSub { options := [exChain] } [] [("lvl".toList, .str "a".toList)] (fun _ => none) e1 V1 ∧
    e1 "lvl".toList = some (.str "b".toList) ∧ save e1 [exChain] = some f ∧ Updated litSub { options := [exChain] } [f] [] (fun _ => none) e2 V2 ∧
    e2 "lvl".toList = some (.str "c".toList) := by
  refine ⟨_, _, [("lvl".toList, .str "b".toList)], _, _, rfl, by decide +kernel, by decide +kernel, rfl, by decide +kernel⟩

end Verif.Vars
