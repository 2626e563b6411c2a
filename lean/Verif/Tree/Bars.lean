import Verif.Tree.Main

/-!
# C112: the bars lead to something
-/

namespace Verif.Tree
variable {ν : Type} (kids : ν → List ν) (str : ν → Str)

/-- The depth of a line. -/
def Line.d (l : Line ν) : Nat := l.margins.length

/-- The bars, corners and tees of a line, with the depths of the lines below it. -/
structure Good (l : Line ν) (ds : List Nat) : Prop where
  bars : ∀ j (h : j < l.margins.length), l.margins[j] = comesTo j ds
  last : l.last = !comesTo l.d ds
  more : (l.more && !l.stop) = (ds.head? == some (l.d + 1))

/-- All lines are good. -/
def Goods : List (Line ν) → Prop
  | [] => True
  | l :: ls => Good l (ls.map Line.d) ∧ Goods ls

theorem Goods.split {ls : List (Line ν)} (h : Goods ls) : ∀ pre l post, ls = pre ++ l :: post → Good l (post.map Line.d) := by
  induction ls with
  | nil => intro pre l post e; simp at e
  | cons a ls ih =>
    intro pre l post e
    cases pre with
    | nil => simp at e; obtain ⟨rfl, rfl⟩ := e; exact h.1
    | cons p pre => simp at e; exact ih h.2 pre l post e.2

theorem comesTo_append (j : Nat) (a b : List Nat) (h : ∀ x ∈ a, j < x) : comesTo j (a ++ b) = comesTo j b := by
  induction a with
  | nil => rfl
  | cons x a ih =>
    have hx := h x List.mem_cons_self
    have := ih fun y hy => h y (List.mem_cons_of_mem _ hy)
    simp only [comesTo] at this ⊢
    rw [List.cons_append, List.dropWhile_cons_of_pos (by simpa using hx), this]

theorem comesTo_head (j : Nat) (a : List Nat) : comesTo j (j :: a) = true := by simp [comesTo]

theorem comesTo_low (j : Nat) (a : List Nat) (h : ∀ x, a.head? = some x → x < j) : comesTo j a = false := by
  cases a with
  | nil => rfl
  | cons x a =>
    have := h x rfl
    simp [comesTo, Nat.not_lt.2 (Nat.le_of_lt this)]; omega

/-- What the margin says about the lines that follow. -/
structure Ctx (m : List Bool) (ds : List Nat) : Prop where
  bars : ∀ j (h : j < m.length), m[j] = comesTo j ds
  low : ∀ x, ds.head? = some x → x < m.length

/-- The tree is true, with the brackets at the end only. -/
def Fits (t : T ν) : Prop := ∀ n s bs, (n, s, bs) ∈ t.all → if s then bs = [] else bs = kids n

mutual
theorem ds_lines : ∀ (t : T ν) (m : List Bool) (b : Bool), m ≠ [] → (∀ x ∈ (t.lines kids m b).map Line.d, m.length - 1 ≤ x) ∧ ((t.lines kids m b).map Line.d).head? = some (m.length - 1)
  | .node n s ts, m, b, hm => by
    rw [T.lines]
    refine ⟨?_, by simp [Line.d]⟩
    intro x hx
    rw [List.map_cons, List.mem_cons] at hx
    rcases hx with rfl | hx
    · simp [Line.d]
    · have := ds_kids ts m x hx; omega
theorem ds_kids : ∀ (ts : List (T ν)) (m : List Bool), ∀ x ∈ (T.linesKids kids ts m).map Line.d, m.length ≤ x
  | [], m, x, hx => by simp [T.linesKids] at hx
  | [t], m, x, hx => by
    rw [T.linesKids] at hx
    have := (ds_lines t (m ++ [false]) true (by simp)).1 x hx
    simpa using this
  | t :: t' :: ts, m, x, hx => by
    rw [T.linesKids, List.map_append, List.mem_append] at hx
    rcases hx with hx | hx
    · have := (ds_lines t (m ++ [true]) false (by simp)).1 x hx
      simpa using this
    · exact ds_kids (t' :: ts) m x hx
end

theorem head_kids (t : T ν) (ts : List (T ν)) (m : List Bool) : ((T.linesKids kids (t :: ts) m).map Line.d).head? = some m.length := by
  cases ts with
  | nil => rw [T.linesKids, (ds_lines kids t _ _ (by simp)).2]; simp
  | cons t' ts => rw [T.linesKids, List.map_append, List.head?_append, (ds_lines kids t _ _ (by simp)).2]; simp

mutual
theorem goods_lines : ∀ (t : T ν) (m : List Bool) (rest : List (Line ν)), Fits kids t → (hm : m ≠ []) → Ctx m (rest.map Line.d) → Goods rest →
    Goods (t.lines kids m (!m.getLast hm) ++ rest)
  | .node n s ts, m, rest, hf, hm, hc, hr => by
    have hp := List.length_pos_iff.2 hm
    have hk := ds_kids kids ts m
    rw [T.lines, List.cons_append]
    refine ⟨⟨?_, ?_, ?_⟩, goods_kids ts m rest (fun n s bs h => hf n s bs (by simp [T.all, h])) hc hr⟩
    · intro j hj
      simp only [List.length_dropLast] at hj
      rw [List.map_append, comesTo_append]
      · rw [← hc.bars j (by omega)]; simp
      · intro x hx; have := hk x hx; omega
    · simp only [Line.d, List.length_dropLast]
      rw [List.map_append, comesTo_append]
      · have := hc.bars (m.length - 1) (by omega)
        have e : List.map (fun l : Line ν => l.margins.length) rest = rest.map Line.d := rfl
        try rw [e]
        rw [← this, List.getLast_eq_getElem]
      · intro x hx; have := hk x hx; omega
    · have h0 := hf n s (ts.map T.root) (by simp [T.all])
      have hd : (⟨m.dropLast, n, s, !m.getLast hm, !(kids n).isEmpty⟩ : Line ν).d + 1 = m.length := by simp [Line.d]; omega
      rw [hd]
      simp only
      cases ts with
      | nil =>
        have hl : ((T.linesKids kids ([] : List (T ν)) m ++ rest).map Line.d).head? ≠ some m.length := by
          simp only [T.linesKids, List.nil_append]
          intro e; have := hc.low _ e; omega
        have : (!(kids n).isEmpty && !s) = false := by
          cases s with
          | true => simp
          | false => simp at h0; simp [← h0]
        rw [this]; symm; simpa using hl
      | cons t ts =>
        have hl : ((T.linesKids kids (t :: ts) m ++ rest).map Line.d).head? = some m.length := by
          rw [List.map_append, List.head?_append, head_kids]; rfl
        rw [hl]
        cases s with
        | true => simp at h0
        | false => simp at h0; simp [← h0]
theorem goods_kids : ∀ (ts : List (T ν)) (m : List Bool) (rest : List (Line ν)), (∀ n s bs, (n, s, bs) ∈ T.alls ts → if s then bs = [] else bs = kids n) → Ctx m (rest.map Line.d) → Goods rest →
    Goods (T.linesKids kids ts m ++ rest)
  | [], m, rest, _, _, hr => by simpa [T.linesKids] using hr
  | [t], m, rest, hf, hc, hr => by
    rw [T.linesKids]
    have := goods_lines t (m ++ [false]) rest (fun n s bs h => hf n s bs (by simp [T.alls, h])) (by simp) ⟨by
      intro j hj
      simp only [List.length_append, List.length_singleton] at hj
      by_cases e : j < m.length
      · rw [List.getElem_append_left e]; exact hc.bars j e
      · have : j = m.length := by omega
        subst this
        rw [comesTo_low _ _ hc.low]; simp, by intro x hx; have := hc.low x hx; simp; omega⟩ hr
    simpa using this
  | t :: t' :: ts, m, rest, hf, hc, hr => by
    rw [T.linesKids, List.append_assoc]
    have hk := ds_kids kids (t' :: ts) m
    have hh := head_kids kids t' ts m
    have := goods_lines t (m ++ [true]) (T.linesKids kids (t' :: ts) m ++ rest) (fun n s bs h => hf n s bs (by rw [T.alls]; simp [h])) (by simp) ⟨by
      intro j hj
      simp only [List.length_append, List.length_singleton] at hj
      by_cases e : j < m.length
      · rw [List.getElem_append_left e, List.map_append, comesTo_append]
        · exact hc.bars j e
        · intro x hx; have := hk x hx; omega
      · have : j = m.length := by omega
        subst this
        rw [List.map_append]
        rcases hl : (T.linesKids kids (t' :: ts) m).map Line.d with _ | ⟨y, ys⟩ <;> rw [hl] at hh
        · simp at hh
        · simp at hh; subst hh
          rw [List.cons_append, comesTo_head]; simp, by
      intro x hx
      rw [List.map_append, List.head?_append, hh] at hx
      simp at hx; simp; omega⟩ (goods_kids (t' :: ts) m rest (fun n s bs h => hf n s bs (by rw [T.alls]; simp [h])) hc hr)
    simpa using this
end

/-! ## In the text -/

theorem depths_map (read : Str → Option (Nat × Str)) (f : Line ν → Str) (h : ∀ l, read (f l) = some (l.look str)) (ls : List (Line ν)) : depths read (ls.map f) = ls.map Line.d := by
  induction ls with
  | nil => rfl
  | cons l ls ih =>
    simp only [depths] at ih
    rw [List.map_cons, depths, List.filterMap_cons, h, List.map_cons]
    simp only [Option.map_some]
    rw [ih]; rfl

theorem margin_get (on : Char) (ms : List Bool) (r : Str) (j : Nat) (h : j < ms.length) : ((ms.flatMap fun m => if m then [on, ' '] else [' ', ' ']) ++ r)[2 * j]? = some (if ms[j] then on else ' ') := by
  induction ms generalizing j with
  | nil => simp at h
  | cons a ms ih =>
    cases j with
    | zero => cases a <;> simp
    | succ j =>
      have := ih j (by simpa using h)
      cases a <;> simpa [Nat.mul_add] using this

theorem margin_after (on : Char) (ms : List Bool) (r : Str) (k : Nat) : ((ms.flatMap fun m => if m then [on, ' '] else [' ', ' ']) ++ r)[2 * ms.length + k]? = r[k]? := by
  induction ms with
  | nil => simp
  | cons a ms ih =>
    have e : 2 * (ms.length + 1) + k = 2 * ms.length + k + 1 + 1 := by omega
    cases a <;> simpa [e] using ih

theorem split_map {α β : Type} (f : α → β) (ls : List α) (pre : List β) (l : β) (post : List β) (h : ls.map f = pre ++ l :: post) : ∃ p a q, ls = p ++ a :: q ∧ l = f a ∧ post = q.map f := by
  obtain ⟨p, q, rfl, _, h2⟩ := List.map_eq_append_iff.1 h
  cases q with
  | nil => simp at h2
  | cons a q => simp at h2; exact ⟨p, a, q, rfl, h2.1.symm, h2.2.symm⟩

theorem bars_ascii (ls : List (Line ν)) (h : Goods ls) : BarsTrue readLine '|' (ls.map (Line.ascii str)) := by
  intro pre l post e
  obtain ⟨p, a, q, rfl, rfl, rfl⟩ := split_map _ _ _ _ _ e
  have G := h.split p a q rfl
  refine ⟨_, _, readLine_ascii str a, fun j hj => ?_⟩
  rw [depths_map str readLine _ (readLine_ascii str), ← G.bars j hj, Line.ascii, List.append_assoc, margin_get '|' _ _ _ hj]

theorem bars_boxes (hb : NoBox str) (ls : List (Line ν)) (h : Goods ls) : BarsTrue readBoxes '│' (ls.map (Line.boxes str)) := by
  intro pre l post e
  obtain ⟨p, a, q, rfl, rfl, rfl⟩ := split_map _ _ _ _ _ e
  have G := h.split p a q rfl
  refine ⟨_, _, readBoxes_boxes str hb a, fun j hj => ?_⟩
  rw [depths_map str readBoxes _ (readBoxes_boxes str hb), ← G.bars j hj, Line.boxes, List.append_assoc, List.append_assoc, margin_get '│' _ _ _ hj]

theorem corners_boxes (hb : NoBox str) (ls : List (Line ν)) (h : Goods ls) : CornersTrue (ls.map (Line.boxes str)) := by
  intro pre l post e
  obtain ⟨p, a, q, rfl, rfl, rfl⟩ := split_map _ _ _ _ _ e
  have G := h.split p a q rfl
  refine ⟨_, _, readBoxes_boxes str hb a, ?_, ?_⟩
  · rw [depths_map str readBoxes _ (readBoxes_boxes str hb)]
    have hl := G.last
    have := margin_after '│' a.margins ((if a.last then ['└', '─'] else ['├', '─']) ++ ((if a.more then (if a.stop then ['─'] else ['┬']) else []) ++ (if a.stop then '[' :: str a.node ++ [']'] else str a.node))) 0
    rw [Line.boxes, List.append_assoc, List.append_assoc]
    rw [Nat.add_zero] at this
    rw [this, hl]
    simp only [Line.d]
    by_cases hc : comesTo a.margins.length (q.map fun l : Line ν => l.margins.length) = true
    · have hc' : comesTo a.margins.length (q.map Line.d) = true := hc
      simp [hc, hc']
    · have hc' : ¬ comesTo a.margins.length (q.map Line.d) = true := hc
      simp [hc, hc']
  · rw [depths_map str readBoxes _ (readBoxes_boxes str hb)]
    have hm := G.more
    have := margin_after '│' a.margins ((if a.last then ['└', '─'] else ['├', '─']) ++ ((if a.more then (if a.stop then ['─'] else ['┬']) else []) ++ (if a.stop then '[' :: str a.node ++ [']'] else str a.node))) 2
    rw [Line.boxes, List.append_assoc, List.append_assoc]
    rw [this]
    have e : ((q.map Line.d).head? = some (a.margins.length + 1)) ↔ (a.more && !a.stop) = true := by
      rw [hm]; simp [Line.d]
    rw [e]
    have h0 := (hb a.node).1
    cases a.last <;> cases a.more <;> cases a.stop <;> simp <;> simpa [List.head?_eq_getElem?] using h0

theorem goods_tree (t : T ν) (hf : Fits kids t) : Goods (t.lines kids [false] true) := by
  have := goods_lines kids t [false] [] hf (by simp) ⟨by
    intro j hj; simp at hj; subst hj; rfl, by simp⟩ trivial
  simpa using this

/-- **C112**: the bars in the margins of `--tree` lead down to the next child of the same node, and there are no others; with line drawing characters a corner is the last child, and a tee has children below it. -/
theorem C112_tree_bars (prune : Bool) (f : Nat) (n : ν) (ls : List (Line ν)) (h : display kids str prune f n = some ls) :
    BarsTrue readLine '|' (ls.map (Line.ascii str)) ∧ (NoBox str → BarsTrue readBoxes '│' (ls.map (Line.boxes str)) ∧ CornersTrue (ls.map (Line.boxes str))) := by
  obtain ⟨t, v', hg, rfl⟩ := display_grow kids str prune f n ls h
  have G := goods_tree kids t (growPrint_call kids str prune f n [] t v' hg).truth
  exact ⟨bars_ascii str _ G, fun hb => ⟨bars_boxes str hb _ G, corners_boxes str hb _ G⟩⟩

/-- **C112**: the same for the include tree. -/
theorem C112_includes_bars (f : Nat) (n : ν) (ls : List (Line ν)) (h : render kids str true f n = some ls) : BarsTrue readLine '|' (ls.map (Line.ascii str)) := by
  obtain ⟨t, v', hg, rfl⟩ := render_grow kids str true f n ls h
  exact bars_ascii str _ (goods_tree kids t (growRender_call kids str f n [] t v' hg).truth)

end Verif.Tree
