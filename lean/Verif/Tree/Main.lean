import Verif.Tree.More

/-!
# C112: the theorems
-/

namespace Verif.Tree
variable {ν : Type} (kids : ν → List ν) (str : ν → Str)

theorem display_grow (prune : Bool) (f : Nat) (n : ν) (ls : List (Line ν)) (h : display kids str prune f n = some ls) :
    ∃ t v', growPrint kids str prune f n [] = some (t, v') ∧ ls = t.lines kids [false] true := by
  rw [display, printTree_grow] at h
  rcases hg : growPrint kids str prune f n [] with _ | ⟨t, v'⟩ <;> rw [hg] at h
  · simp at h
  · exact ⟨t, v', rfl, by simpa using h.symm⟩

theorem render_grow (prune : Bool) (f : Nat) (n : ν) (ls : List (Line ν)) (h : render kids str prune f n = some ls) :
    ∃ t v', growRender kids str prune f n [] = some (t, v') ∧ ls = t.lines kids [false] true := by
  rw [render, renderTree_grow] at h
  rcases hg : growRender kids str prune f n [] with _ | ⟨t, v'⟩ <;> rw [hg] at h
  · simp at h
  · exact ⟨t, v', rfl, by simpa using h.symm⟩

/-- **C112**: the lines of `--tree` can be read as a tree, which begins with the target and is true: below each name are exactly the node's children, in order, and below a name in brackets nothing.
Brackets stand only where pruning was asked for, only around nodes that have children, and only around a name that stands elsewhere in the tree without them. -/
theorem C112_tree_true (prune : Bool) (f : Nat) (n : ν) (ls : List (Line ν)) (h : display kids str prune f n = some ls) :
    ∃ t : T ν, readTree readLine (ls.map (Line.ascii str)) = some (t.text str) ∧ (NoBox str → readTree readBoxes (ls.map (Line.boxes str)) = some (t.text str)) ∧ t.root = n ∧ True' kids t ∧
      ∀ m bs, (m, true, bs) ∈ t.all → prune = true ∧ kids m ≠ [] ∧ ∃ m' bs', (m', false, bs') ∈ t.all ∧ str m' = str m := by
  obtain ⟨t, v', hg, rfl⟩ := display_grow kids str prune f n ls h
  have C := growPrint_call kids str prune f n [] t v' hg
  refine ⟨t, readTree_lines kids str readLine _ (readLine_ascii str) t true, fun hb => readTree_lines kids str readBoxes _ (readBoxes_boxes str hb) t true, C.root, C.truth, ?_⟩
  intro m bs hm
  obtain ⟨h1, h2⟩ := growPrint_stops kids str prune f n [] t v' hg m bs hm
  refine ⟨h1, h2, ?_⟩
  rcases (C.seen _).1 (C.stops m bs hm) with hx | hx
  · simp at hx
  · exact hx

theorem root_open {n : ν} {t : T ν} (hroot : t.root = n) (h : ∀ m bs, (m, true, bs) ∈ t.all → ∃ m' bs', (m', false, bs') ∈ t.all ∧ str m' = str m) (hn : ∀ ts, t ≠ .node n true ts) :
    ∃ bs, (t.root, false, bs) ∈ t.all := by
  cases t with
  | node k s ts =>
    cases s with
    | false => exact ⟨ts.map T.root, by simp [T.all, T.root]⟩
    | true => simp only [T.root] at hroot; subst hroot; exact absurd rfl (hn ts)

/-- **C112**: the tree is complete: if no two nodes have the same name, everything the target depends on is in it, with all its children below it at one place at least. -/
theorem C112_tree_complete (prune : Bool) (f : Nat) (n : ν) (ls : List (Line ν)) (h : display kids str prune f n = some ls)
    (hi : ∀ a b, Reach kids n a → Reach kids n b → str a = str b → a = b) :
    ∃ t : T ν, readTree readLine (ls.map (Line.ascii str)) = some (t.text str) ∧ ∀ x, Reach kids n x ↔ (x, false, kids x) ∈ t.all := by
  obtain ⟨t, v', hg, rfl⟩ := display_grow kids str prune f n ls h
  have C := growPrint_call kids str prune f n [] t v' hg
  refine ⟨t, readTree_lines kids str readLine _ (readLine_ascii str) t true, fun x => ⟨fun hx => ?_, fun hx => ?_⟩⟩
  · have hs : ∀ m bs, (m, true, bs) ∈ t.all → ∃ m' bs', (m', false, bs') ∈ t.all ∧ str m' = str m := by
      intro m bs hm
      rcases (C.seen _).1 (C.stops m bs hm) with hx | hx
      · simp at hx
      · exact hx
    have hr := root_open str C.root hs (by
      rintro ts rfl
      have hm : (n, true, ts.map T.root) ∈ (T.node n true ts).all := by simp [T.all]
      cases f with
      | zero => simp [growPrint] at hg
      | succ f =>
        rw [growPrint] at hg
        simp only [List.contains_nil, Bool.and_false, Bool.false_and, Bool.false_eq_true, ↓reduceIte] at hg
        rcases hr : growLoop (growPrint kids str prune f) (kids n) [str n] with _ | ⟨ts', v2⟩ <;> rw [hr] at hg <;> simp at hg)
    have := complete kids str C.truth hs hr (by rw [C.root]; exact hi) x (by rw [C.root]; exact hx)
    exact this
  · have := reach_all kids t C.truth _ _ _ hx
    rw [C.root] at this; exact this

/-- **C112**: with pruning, the children of a node are shown once only. -/
theorem C112_tree_pruned (f : Nat) (n : ν) (ls : List (Line ν)) (h : display kids str true f n = some ls) :
    ∃ t : T ν, readTree readLine (ls.map (Line.ascii str)) = some (t.text str) ∧ ((t.all.filter fun p => !p.2.1 && !(kids p.1).isEmpty).map fun p => str p.1).Nodup := by
  obtain ⟨t, v', hg, rfl⟩ := display_grow kids str true f n ls h
  refine ⟨t, readTree_lines kids str readLine _ (readLine_ascii str) t true, ?_⟩
  have := (growPrint_pruned kids str f n [] t v' hg).once
  simpa [opened, Function.comp_def] using this

/-! ## render_tree -/

theorem growRender_call (f : Nat) (n : ν) (v : List Str) (t : T ν) (v' : List Str) (h : growRender kids str true f n v = some (t, v')) : Call kids str n v t v' := by
  induction f generalizing n v t v' with
  | zero => simp [growRender] at h
  | succ f ih =>
    rw [growRender] at h
    split at h
    · rename_i hc
      simp only [Option.some.injEq, Prod.mk.injEq] at h
      obtain ⟨rfl, rfl⟩ := h
      exact call_stop kids str (by simpa using hc)
    · rcases hr : growLoop (growRender kids str true f) (kids n) (str n :: v) with _ | ⟨ts, v2⟩ <;> rw [hr] at h
      · simp at h
      · simp only [Option.some.injEq, Prod.mk.injEq, ↓reduceIte] at h
        obtain ⟨rfl, rfl⟩ := h
        exact call_node kids str (growLoop_calls kids str _ ih _ _ _ _ hr)

/-- **C112**: the include tree of `--debug=includes` can be read as a tree, is true, and complete: every file that is included, directly or not, stands in it with all that it includes, unless two have the same name. -/
theorem C112_includes (f : Nat) (n : ν) (ls : List (Line ν)) (h : render kids str true f n = some ls) (hi : ∀ a b, Reach kids n a → Reach kids n b → str a = str b → a = b) :
    ∃ t : T ν, readTree readLine (ls.map (Line.ascii str)) = some (t.text str) ∧ t.root = n ∧ True' kids t ∧ ∀ x, Reach kids n x ↔ (x, false, kids x) ∈ t.all := by
  obtain ⟨t, v', hg, rfl⟩ := render_grow kids str true f n ls h
  have C := growRender_call kids str f n [] t v' hg
  refine ⟨t, readTree_lines kids str readLine _ (readLine_ascii str) t true, C.root, C.truth, fun x => ⟨fun hx => ?_, fun hx => ?_⟩⟩
  · have hs : ∀ m bs, (m, true, bs) ∈ t.all → ∃ m' bs', (m', false, bs') ∈ t.all ∧ str m' = str m := by
      intro m bs hm
      rcases (C.seen _).1 (C.stops m bs hm) with hx | hx
      · simp at hx
      · exact hx
    have hr := root_open str C.root hs (by
      rintro ts rfl
      cases f with
      | zero => simp [growRender] at hg
      | succ f =>
        rw [growRender] at hg
        simp only [List.contains_nil, Bool.false_eq_true, ↓reduceIte] at hg
        rcases hr : growLoop (growRender kids str true f) (kids n) [str n] with _ | ⟨ts', v2⟩ <;> rw [hr] at hg <;> simp at hg)
    exact complete kids str C.truth hs hr (by rw [C.root]; exact hi) x (by rw [C.root]; exact hx)
  · have := reach_all kids t C.truth _ _ _ hx
    rw [C.root] at this; exact this

/-! ## Ending -/

/-- How many of the names have not been seen. -/
def unseen (names v : List Str) : Nat := (names.filter fun s => !v.contains s).length

theorem unseen_mono (names v w : List Str) (h : ∀ x ∈ v, x ∈ w) : unseen names w ≤ unseen names v := by
  refine List.Sublist.length_le ?_
  refine List.monotone_filter_right names fun x hx => ?_
  simp only [Bool.not_eq_true', List.contains_eq_mem, decide_eq_false_iff_not] at hx ⊢
  exact fun hv => hx (h x hv)

theorem unseen_lt (names v : List Str) (s : Str) (h1 : s ∈ names) (h2 : s ∉ v) : unseen names (s :: v) < unseen names v := by
  induction names with
  | nil => simp at h1
  | cons x names ih =>
    by_cases hx : x = s
    · subst hx
      have := unseen_mono names v (x :: v) (fun y hy => List.mem_cons_of_mem _ hy)
      simp only [unseen] at this ⊢
      simp [h2]; simp at this; omega
    · have h1' : s ∈ names := by simpa [Ne.symm hx] using h1
      have := ih h1'
      simp only [unseen] at this ⊢
      by_cases hv : x ∈ v
      · simp only [List.filter_cons]
        simpa [hv] using this
      · simp only [List.filter_cons]
        simpa [hv, hx] using this

theorem growLoop_ends (L : List ν) (f : Nat) (g : ν → List Str → Option (T ν × List Str))
    (h : ∀ n ∈ L, ∀ v, unseen (L.map str) v < f → ∃ t v', g n v = some (t, v') ∧ ∀ x ∈ v, x ∈ v') (cs : List ν) (hc : ∀ c ∈ cs, c ∈ L) (v : List Str) (hv : unseen (L.map str) v < f) :
    ∃ ts v', growLoop g cs v = some (ts, v') ∧ ∀ x ∈ v, x ∈ v' := by
  induction cs generalizing v with
  | nil => exact ⟨[], v, rfl, fun _ h => h⟩
  | cons c cs ih =>
    obtain ⟨t, v1, h1, h2⟩ := h c (hc c List.mem_cons_self) v hv
    obtain ⟨ts, v', h3, h4⟩ := ih (fun c' hc' => hc c' (List.mem_cons_of_mem _ hc')) v1 (Nat.lt_of_le_of_lt (unseen_mono _ _ _ h2) hv)
    exact ⟨t :: ts, v', (growLoop_cons g c cs v _ _).2 ⟨t, v1, ts, h1, h3, rfl⟩, fun x hx => h4 x (h2 x hx)⟩

theorem growPrint_ends (L : List ν) (hL : ∀ a ∈ L, ∀ c ∈ kids a, c ∈ L) (f : Nat) : ∀ n ∈ L, ∀ v, unseen (L.map str) v < f → ∃ t v', growPrint kids str true f n v = some (t, v') ∧ ∀ x ∈ v, x ∈ v' := by
  induction f with
  | zero => intro n _ v h; omega
  | succ f ih =>
    intro n hn v hv
    rw [growPrint]
    split
    · exact ⟨_, _, rfl, fun _ h => h⟩
    · rename_i hc
      by_cases hk : kids n = []
      · rw [hk]; exact ⟨_, _, rfl, fun x hx => List.mem_cons_of_mem _ hx⟩
      · have hs : str n ∉ v := by intro hs; simp [hs, hk] at hc
        have hlt := unseen_lt (L.map str) v (str n) (List.mem_map_of_mem hn) hs
        obtain ⟨ts, v', h1, h2⟩ := growLoop_ends str L f _ ih (kids n) (hL n hn) (str n :: v) (by omega)
        rw [h1]
        exact ⟨_, _, rfl, fun x hx => h2 x (List.mem_cons_of_mem _ hx)⟩

theorem growRender_ends (prune : Bool) (L : List ν) (hL : ∀ a ∈ L, ∀ c ∈ kids a, c ∈ L) (f : Nat) :
    ∀ n ∈ L, ∀ v, unseen (L.map str) v < f → ∃ t v', growRender kids str prune f n v = some (t, v') ∧ ∀ x ∈ v, x ∈ v' := by
  induction f with
  | zero => intro n _ v h; omega
  | succ f ih =>
    intro n hn v hv
    rw [growRender]
    split
    · exact ⟨_, _, rfl, fun _ h => h⟩
    · rename_i hc
      have hs : str n ∉ v := by simpa using hc
      have hlt := unseen_lt (L.map str) v (str n) (List.mem_map_of_mem hn) hs
      obtain ⟨ts, v', h1, h2⟩ := growLoop_ends str L f _ ih (kids n) (hL n hn) (str n :: v) (by omega)
      rw [h1]
      cases prune with
      | true => exact ⟨_, _, rfl, fun x hx => h2 x (List.mem_cons_of_mem _ hx)⟩
      | false => exact ⟨_, _, rfl, fun _ h => h⟩

theorem unseen_le (names : List Str) : unseen names [] ≤ names.length := List.length_filter_le _ _

/-- **C112**: with pruning the tree of a finite graph is printed, cycles or not. -/
theorem C112_pruned_ends (L : List ν) (hL : ∀ a ∈ L, ∀ c ∈ kids a, c ∈ L) (n : ν) (hn : n ∈ L) : ∃ ls, display kids str true (L.length + 1) n = some ls := by
  obtain ⟨t, v', h, -⟩ := growPrint_ends kids str L hL (L.length + 1) n hn [] (by have := unseen_le (L.map str); simp at this; omega)
  rw [display, printTree_grow, h]; exact ⟨_, rfl⟩

/-- **C112**: the include tree of a finite graph is printed, cycles (of includes) or not. -/
theorem C112_includes_ends (prune : Bool) (L : List ν) (hL : ∀ a ∈ L, ∀ c ∈ kids a, c ∈ L) (n : ν) (hn : n ∈ L) : ∃ ls, render kids str prune (L.length + 1) n = some ls := by
  obtain ⟨t, v', h, -⟩ := growRender_ends kids str prune L hL (L.length + 1) n hn [] (by have := unseen_le (L.map str); simp at this; omega)
  rw [render, renderTree_grow, h]; exact ⟨_, rfl⟩

/-- **C112**: without cycles (there is a rank which the children have less of) the whole tree is printed. -/
theorem C112_tree_ends (rank : ν → Nat) (hr : ∀ a, ∀ c ∈ kids a, rank c < rank a) (prune : Bool) (n : ν) : ∃ ls, display kids str prune (rank n + 1) n = some ls := by
  have key : ∀ f n v, rank n < f → ∃ r, growPrint kids str prune f n v = some r := by
    intro f
    induction f with
    | zero => intro n v h; omega
    | succ f ih =>
      intro n v h
      rw [growPrint]
      split
      · exact ⟨_, rfl⟩
      · have hk := hr n
        have : ∀ cs, (∀ c ∈ cs, rank c < rank n) → ∀ w, ∃ r, growLoop (growPrint kids str prune f) cs w = some r := by
          intro cs hcs
          induction cs with
          | nil => intro w; exact ⟨_, rfl⟩
          | cons c cs ih2 =>
            intro w
            obtain ⟨⟨t, v1⟩, h1⟩ := ih c w (by have := hcs c List.mem_cons_self; omega)
            obtain ⟨⟨ts, v2⟩, h2⟩ := ih2 (fun c' hc' => hcs c' (List.mem_cons_of_mem _ hc')) v1
            exact ⟨(t :: ts, v2), (growLoop_cons _ c cs w _ _).2 ⟨t, v1, ts, h1, h2, rfl⟩⟩
        obtain ⟨⟨ts, v2⟩, h1⟩ := this (kids n) hk (str n :: v)
        rw [h1]; exact ⟨_, rfl⟩
  obtain ⟨⟨t, v⟩, h⟩ := key (rank n + 1) n [] (by omega)
  rw [display, printTree_grow, h]; exact ⟨_, rfl⟩

theorem growPrint_kid (f : Nat) (n : ν) (v : List Str) (r : T ν × List Str) (h : growPrint kids str false f n v = some r) (c : ν) (hc : c ∈ kids n) :
    ∃ f' v' r', f' < f ∧ growPrint kids str false f' c v' = some r' := by
  cases f with
  | zero => simp [growPrint] at h
  | succ f =>
    rw [growPrint] at h
    simp only [Bool.false_and, Bool.false_eq_true, ↓reduceIte] at h
    rcases hr : growLoop (growPrint kids str false f) (kids n) (str n :: v) with _ | ⟨ts, v2⟩ <;> rw [hr] at h
    · simp at h
    · clear h
      generalize kids n = cs at hr hc
      generalize str n :: v = w at hr
      induction cs generalizing w ts with
      | nil => simp at hc
      | cons d cs ih =>
        obtain ⟨t, v1, ts', h1, h2, -⟩ := (growLoop_cons _ d cs w ts v2).1 hr
        rcases List.mem_cons.1 hc with rfl | hc
        · exact ⟨f, w, _, by omega, h1⟩
        · exact ih ts' hc v1 h2

theorem growPrint_reach {a b : ν} (hab : Reach kids a b) : ∀ (f : Nat) (v : List Str) (r : T ν × List Str), growPrint kids str false f a v = some r → ∃ f' v' r', f' ≤ f ∧ growPrint kids str false f' b v' = some r' := by
  induction hab with
  | refl => intro f v r h; exact ⟨f, v, r, Nat.le_refl _, h⟩
  | step hb _ ih =>
    intro f v r h
    obtain ⟨f1, v1, r1, h1, h2⟩ := growPrint_kid kids str f _ v r h _ hb
    obtain ⟨f2, v2, r2, h3, h4⟩ := ih f1 v1 r1 h2
    exact ⟨f2, v2, r2, by omega, h4⟩

/-- **C112** (against): without pruning the tree of a target from which a cycle is reached is never printed, however much room there is for nested calls. -/
theorem C112_cycle_fails (n c b : ν) (hn : Reach kids n c) (hb : b ∈ kids c) (hc : Reach kids b c) (f : Nat) : display kids str false f n = none := by
  have key : ∀ f v r, growPrint kids str false f c v ≠ some r := by
    intro f
    induction f using Nat.strongRecOn with
    | _ f ih =>
      intro v r h
      obtain ⟨f1, v1, r1, h1, h2⟩ := growPrint_kid kids str f c v r h b hb
      obtain ⟨f2, v2, r2, h3, h4⟩ := growPrint_reach kids str hc f1 v1 r1 h2
      exact ih f2 (by omega) v2 r2 h4
  rw [display, printTree_grow]
  rcases hg : growPrint kids str false f n [] with _ | r
  · rfl
  · obtain ⟨f', v', r', -, h⟩ := growPrint_reach kids str hn f [] r hg
    exact absurd h (key f' v' r')

/-! ## FindSourceFiles -/

variable [DecidableEq ν]

theorem buildSource_spec (G : Nodes ν) (f : Nat) (ss l : List ν) (h : buildSource G f ss = some l) (x : ν) : x ∈ l ↔ ∃ s ∈ ss, Source G s x := by
  induction f generalizing ss l with
  | zero => simp [buildSource] at h
  | succ f ih =>
    cases ss with
    | nil => simp [buildSource] at h; simp [h]
    | cons s ss =>
      rw [buildSource] at h
      generalize hh : (if G.isDir s = true then buildSource G f (G.allChildren s) else if G.hasBuilder s = true then buildSource G f (G.sources s) else if G.isFile s = true then some [s] else some []) = o at h
      rcases o with _ | l1
      · simp at h
      · simp only at h
        rcases hr : buildSource G f ss with _ | l2 <;> rw [hr] at h
        · simp at h
        · simp only [Option.some.injEq] at h
          subst h
          have h2 := ih _ _ hr
          have h1 : x ∈ l1 ↔ Source G s x := by
            by_cases hd : G.isDir s = true
            · rw [if_pos hd] at hh
              rw [ih _ _ hh]
              constructor
              · rintro ⟨c, hc, hx⟩; exact .dir hd hc hx
              · intro hx
                cases hx with
                | file h1 => simp [hd] at h1
                | dir _ hc hx => exact ⟨_, hc, hx⟩
                | built h1 => simp [hd] at h1
            · rw [if_neg hd] at hh
              have hd' : G.isDir s = false := by simpa using hd
              by_cases hb : G.hasBuilder s = true
              · rw [if_pos hb] at hh
                rw [ih _ _ hh]
                constructor
                · rintro ⟨c, hc, hx⟩; exact .built hd' hb hc hx
                · intro hx
                  cases hx with
                  | file _ h1 => simp [hb] at h1
                  | dir h1 => exact absurd h1 hd
                  | built _ _ hc hx => exact ⟨_, hc, hx⟩
              · rw [if_neg hb] at hh
                have hb' : G.hasBuilder s = false := by simpa using hb
                have hno : Source G s x → x = s ∧ G.isFile s = true := by
                  intro hx
                  cases hx with
                  | file _ _ h => exact ⟨rfl, h⟩
                  | dir h1 => exact absurd h1 hd
                  | built _ h1 => exact absurd h1 hb
                by_cases hf : G.isFile s = true
                · rw [if_pos hf] at hh
                  simp only [Option.some.injEq] at hh
                  subst hh
                  simp only [List.mem_singleton]
                  exact ⟨fun e => by subst e; exact .file hd' hb' hf, fun h => (hno h).1⟩
                · rw [if_neg hf] at hh
                  simp only [Option.some.injEq] at hh
                  subst hh
                  simp only [List.not_mem_nil, false_iff]
                  exact fun h => hf (hno h).2
          simp [h1, h2]

theorem finalSource_spec (G : Nodes ν) (f : Nat) (x y : ν) (h : finalSource G f x = some y) : Final G x y := by
  induction f generalizing x with
  | zero => simp [finalSource] at h
  | succ f ih =>
    rw [finalSource] at h
    split at h
    · rename_i hx; exact .step (Ne.symm hx) (ih _ h)
    · rename_i hx
      simp only [Option.some.injEq] at h
      subst h
      exact .stop (by simpa using (not_not.1 hx).symm)

omit [DecidableEq ν] in
theorem Final.unique {G : Nodes ν} {x y z : ν} (h : Final G x y) (h' : Final G x z) : y = z := by
  induction h with
  | stop h =>
    cases h' with
    | stop _ => rfl
    | step h1 _ => exact absurd h h1
  | step h _ ih =>
    cases h' with
    | stop h1 => exact absurd h1 h
    | step _ h2 => exact ih h2

theorem mapM_mem {α β : Type} (g : α → Option β) (l : List α) (r : List β) (h : l.mapM g = some r) (y : β) : y ∈ r ↔ ∃ x ∈ l, g x = some y := by
  induction l generalizing r with
  | nil => simp at h; simp [h]
  | cons a l ih =>
    rw [List.mapM_cons] at h
    rcases ha : g a with _ | b
    · simp [ha] at h
    · rcases hl : l.mapM g with _ | r'
      · simp [ha, hl] at h
      · simp [ha, hl] at h
        subst h
        have := ih _ hl
        simp [this, ha, eq_comm]

theorem mapM_some {α β : Type} (g : α → Option β) (l : List α) (r : List β) (h : l.mapM g = some r) (x : α) (hx : x ∈ l) : ∃ y, g x = some y := by
  induction l generalizing r with
  | nil => simp at hx
  | cons a l ih =>
    rw [List.mapM_cons] at h
    rcases ha : g a with _ | b
    · simp [ha] at h
    · rcases hl : l.mapM g with _ | r'
      · simp [ha, hl] at h
      · rcases List.mem_cons.1 hx with rfl | hx
        · exact ⟨b, ha⟩
        · exact ih _ hl hx

/-- **C112**: `FindSourceFiles` returns exactly the source files found from the children of the node — below directories and among the sources of what is built —, each as the file it is taken from, and each once. -/
theorem C112_sources (G : Nodes ν) (f : Nat) (n : ν) (l : List ν) (h : findSourceFiles G f n = some l) :
    l.Nodup ∧ ∀ y, y ∈ l ↔ ∃ c ∈ G.allChildren n, ∃ x, Source G c x ∧ Final G x y := by
  rw [findSourceFiles] at h
  rcases hb : buildSource G f (G.allChildren n) with _ | l1 <;> rw [hb] at h
  · simp at h
  · simp only [Option.map_eq_some_iff] at h
    obtain ⟨r, hr, rfl⟩ := h
    refine ⟨List.nodup_dedup r, fun y => ?_⟩
    rw [List.mem_dedup, mapM_mem _ _ _ hr]
    constructor
    · rintro ⟨x, hx, hy⟩
      obtain ⟨c, hc, hs⟩ := (buildSource_spec G f _ _ hb x).1 hx
      exact ⟨c, hc, x, hs, finalSource_spec G f x y hy⟩
    · rintro ⟨c, hc, x, hs, hy⟩
      have hx := (buildSource_spec G f _ _ hb x).2 ⟨c, hc, hs⟩
      obtain ⟨z, hz⟩ := mapM_some _ _ _ hr x hx
      exact ⟨x, hx, by rw [hz, (finalSource_spec G f x z hz).unique hy]⟩

end Verif.Tree
