import Verif.Tex.Model

/-!
# C98: theorems

Specification: what LaTeX reads, and what it means that the index and the bibliography are those of the document.
-/

namespace Verif.Tex

variable {C : Type} [DecidableEq C]

/-! ### Specification -/

/-- MakeIndex is run for these. -/
inductive Indexed (ng : Nat) : Suf → Prop
  | idx : Indexed ng .idx
  | nlo : Indexed ng .nlo
  | glo : Indexed ng .glo
  | acn : Indexed ng .acn
  | ng (i : Nat) : i < ng → Indexed ng (.ng i)

/-- The files LaTeX reads: tables of contents and the like, what MakeIndex made, auxiliary files, bibliographies. -/
inductive Reads (ng : Nat) : Name → Prop
  | toc : Reads ng (.suf .toc)
  | lof : Reads ng (.suf .lof)
  | lot : Reads ng (.suf .lot)
  | out : Reads ng (.suf .out)
  | nav : Reads ng (.suf .nav)
  | snm : Reads ng (.suf .snm)
  | bbl : Reads ng (.suf .bbl)
  | made (s : Suf) : Indexed ng s → Reads ng (.made s)
  | aux (n : Nat) : Reads ng (.aux n)
  | bblOf (n : Nat) : Reads ng (.bblOf n)

/-- An index is what MakeIndex makes of its input. -/
def UpToDate (D : Doc C) (F : Files C) (s : Suf) : Prop := ∀ c, D.mkOut s (F (.suf s)) = some c → F (.made s) = some c

/-- The bibliography is what BibTeX makes of the auxiliary file. -/
def BibUpToDate (D : Doc C) (F : Files C) (n : Nat) : Prop :=
  D.bibdata n (F (.aux n)) = true → F (bblName n) = D.bibOut n (F (.aux n))

/-- What is assumed of the programs: LaTeX says in its log when auxiliary files have changed, only the main file has a
bibliography, and what BibTeX reads is the same in every run of LaTeX. -/
structure Programs (D : Doc C) : Prop where
  honest : ∀ F, D.log F = false → ∀ n, D.latexOut F (.aux n) = F (.aux n)
  single : ∀ F n, D.bibdata (n + 1) (D.latexOut F (.aux (n + 1))) = false
  bib : ∀ F F' n, D.bibOut n (D.latexOut F (.aux n)) = D.bibOut n (D.latexOut F' (.aux n))
  data : ∀ F F' n, D.bibdata n (D.latexOut F (.aux n)) = D.bibdata n (D.latexOut F' (.aux n))

/-! ### Simple facts -/

theorem set_same (F : Files C) (x : Name) (c : Option C) : F.set x c x = c := by simp [Files.set]

theorem set_other (F : Files C) {x y : Name} (h : y ≠ x) (c : Option C) : F.set x c y = F y := by simp [Files.set, h]

theorem check_files (l : L C) (f : Bool) (s : Suf) : (check l f s).2.1.files = l.files := by
  unfold check; split <;> rfl

theorem check_already (l : L C) (f : Bool) (s : Suf) : (check l f s).2.1.already = l.already := by
  unfold check; split <;> rfl

theorem check_count (l : L C) (f : Bool) (s : Suf) : (check l f s).2.1.count = l.count := by
  unfold check; split <;> rfl

theorem check_log (l : L C) (f : Bool) (s : Suf) : (check l f s).2.1.log = l.log := by
  unfold check; split <;> rfl

theorem check_exhausted (l : L C) (f : Bool) (s : Suf) : (check l f s).2.1.exhausted = l.exhausted := by
  unfold check; split <;> rfl

theorem check_before (l : L C) (f : Bool) (s : Suf) : (check l f s).2.1.before = l.before := by
  unfold check; split <;> rfl

theorem check_first (l : L C) (f : Bool) (s : Suf) : (check l f s).2.1.first = l.first := by
  unfold check; split <;> rfl

theorem check_saved_same (l : L C) (f : Bool) (s : Suf) : (check l f s).2.1.saved s = l.files (.suf s) := by
  unfold check; split
  · assumption
  · simp

theorem check_saved_other (l : L C) (f : Bool) {s t : Suf} (h : t ≠ s) : (check l f s).2.1.saved t = l.saved t := by
  unfold check; split
  · rfl
  · simp [h]

theorem check_flag (l : L C) (f : Bool) (s : Suf) (h : (check l f s).2.2 = false) :
    f = false ∧ l.saved s = l.files (.suf s) := by
  unfold check at h; split at h
  · exact ⟨h, by assumption⟩
  · simp at h

theorem check_fst (l : L C) (f : Bool) (s : Suf) (h : (check l f s).1 = false) :
    l.saved s = l.files (.suf s) := by
  unfold check at h; split at h
  · assumption
  · simp at h

theorem check_fst_true (l : L C) (f : Bool) (s : Suf) (h : (check l f s).1 = true) :
    (check l f s).2.2 = true := by
  unfold check at h ⊢; split at h
  · simp at h
  · rename_i h'; simp [h']

/-! ### Invariants of a call that runs alone -/

/-- The suffixes whose contents are compared. -/
def Watched (ng : Nat) (s : Suf) : Prop := s = .bbl ∨ s ∈ checkSuffixes ∨ Indexed ng s

/-- Known at the head of the loop. -/
structure HeadInv (D : Doc C) (ng : Nat) (flag : Bool) (l : L C) : Prop where
  saved : ∀ s, Watched ng s → l.saved s = l.files (.suf s)
  made : ∀ s, Indexed ng s → UpToDate D l.files s
  bib : ∀ F, ∀ n ∈ l.already, D.bibdata n (D.latexOut F (.aux n)) = true → l.files (bblName n) = D.bibOut n (D.latexOut F (.aux n))
  start : l.count = 0 → flag = true
  settled : 0 < l.count → flag = false → ∀ x, Reads ng x → l.before x = l.files x
  all : 0 < l.count → ∀ n ∈ D.fls l.before, n ∈ l.already
  aux : 0 < l.count → ∀ n, l.files (.aux n) = D.latexOut l.before (.aux n)
  more : 0 < l.count → l.exhausted = false → flag = true → l.count < D.retries

/-- A suffix that is still to be looked at. -/
def Pending (os : List Op) (s : Suf) : Prop := .check s ∈ os ∨ .index s ∈ os

/-- Known during a pass. -/
structure OpsInv (D : Doc C) (ng : Nat) (flag : Bool) (os : List Op) (l : L C) : Prop where
  tex : ∀ x, x.byLatex = true → l.files x = D.latexOut l.before x
  bblOf : ∀ n, l.files (.bblOf n) = l.before (.bblOf n)
  bbl : l.saved .bbl = l.files (.suf .bbl)
  bblSame : flag = false → l.files (.suf .bbl) = l.before (.suf .bbl)
  savedSame : flag = false → ∀ s, Watched ng s → l.saved s = l.before (.suf s)
  checked : ∀ s, Watched ng s → ¬ Pending os s → l.saved s = l.files (.suf s)
  madeSame : flag = false → ∀ s, Indexed ng s → l.files (.made s) = l.before (.made s)
  made : ∀ s, Indexed ng s → .index s ∉ os → UpToDate D l.files s
  made' : ∀ s, Indexed ng s → (l.files (.made s) = l.before (.made s) ∧ l.saved s = l.before (.suf s)) ∨ UpToDate D l.files s
  wasMade : ∀ s, Indexed ng s → UpToDate D l.before s
  bib : ∀ F, ∀ n ∈ l.already, D.bibdata n (D.latexOut F (.aux n)) = true → l.files (bblName n) = D.bibOut n (D.latexOut F (.aux n))
  all : ∀ n ∈ D.fls l.before, .bib n ∈ os ∨ n ∈ l.already
  log : l.log = D.log l.before
  pos : 0 < l.count
  plain : ∀ s, .check s ∈ os → s ∈ checkSuffixes
  last : (∃ pre, os = pre ++ [.logs]) ∨ (os = [] ∧ (l.exhausted = false → flag = true → l.count < D.retries) ∧ (flag = false → l.log = false))

theorem watched_pending {ng : Nat} {s : Suf} (h : Watched ng s) (hb : s ≠ .bbl) (auxs : List Nat) :
    Pending (ops ng auxs) s := by
  rcases h with h | h | h
  · exact (hb h).elim
  · left; simp [ops, h]
  · right
    cases h <;> simp_all [ops]

theorem indexed_pending {ng : Nat} {s : Suf} (h : Indexed ng s) (auxs : List Nat) : .index s ∈ ops ng auxs := by
  cases h <;> simp_all [ops]

theorem indexed_watched {ng : Nat} {s : Suf} (h : Indexed ng s) : Watched ng s := .inr (.inr h)

theorem indexed_ne {ng : Nat} {s : Suf} (h : Indexed ng s) : s ≠ .bbl := by cases h <;> simp

/-- From the head of the loop into the pass. -/
theorem ops_of_head {D : Doc C} {ng : Nat} {flag : Bool} {l : L C} (h : HeadInv D ng flag l) :
    OpsInv D ng false (ops ng (D.fls l.files))
      { l with files := D.latex l.files, log := D.log l.files, before := l.files, count := l.count + 1 } where
  tex x hx := by simp [Doc.latex, hx]
  bblOf n := rfl
  bbl := h.saved .bbl (.inl rfl)
  bblSame _ := rfl
  savedSame _ s hs := h.saved s hs
  checked s hs hp := by
    by_cases hb : s = .bbl
    · subst hb; exact h.saved .bbl (.inl rfl)
    · exact (hp (watched_pending hs hb _)).elim
  madeSame _ s hs := rfl
  made s hs hp := (hp (indexed_pending hs _)).elim
  made' s hs := .inl ⟨rfl, h.saved s (indexed_watched hs)⟩
  wasMade s hs := h.made s hs
  bib F n hn hd := by
    rw [← h.bib F n hn hd]
    cases n <;> rfl
  all n hn := .inl (by simp only [ops, List.mem_append, List.mem_map]; simp_all)
  log := rfl
  pos := Nat.succ_pos _
  plain s hs := by simpa [ops] using hs
  last := .inl ⟨_, rfl⟩

/-- From the pass back to the head. -/
theorem head_of_ops {D : Doc C} (hP : Programs D) {ng : Nat} {flag : Bool} {l : L C} (h : OpsInv D ng flag [] l) :
    HeadInv D ng flag l where
  saved s hs := h.checked s hs (by simp [Pending])
  made s hs := h.made s hs (by simp)
  bib := h.bib
  start hc := absurd h.pos (by omega)
  settled _ hf x hx := by
    have key : ∀ s, Watched ng s → l.before (.suf s) = l.files (.suf s) := fun s hs => by
      rw [← h.savedSame hf s hs, h.checked s hs (by simp [Pending])]
    cases hx with
    | toc => exact key _ (.inr (.inl (by simp [checkSuffixes])))
    | lof => exact key _ (.inr (.inl (by simp [checkSuffixes])))
    | lot => exact key _ (.inr (.inl (by simp [checkSuffixes])))
    | out => exact key _ (.inr (.inl (by simp [checkSuffixes])))
    | nav => exact key _ (.inr (.inl (by simp [checkSuffixes])))
    | snm => exact key _ (.inr (.inl (by simp [checkSuffixes])))
    | bbl => exact key _ (.inl rfl)
    | made s hs => exact (h.madeSame hf s hs).symm
    | aux n =>
      rw [h.tex (.aux n) rfl]
      have : D.log l.before = false := by
        rcases h.last with ⟨pre, hp⟩ | ⟨_, _, h3⟩
        · simp at hp
        · rw [← h.log]; exact h3 hf
      exact (hP.honest _ this n).symm
    | bblOf n => exact (h.bblOf n).symm
  all _ n hn := by simpa using h.all n hn
  aux _ n := h.tex (.aux n) rfl
  more _ he hf := by
    rcases h.last with ⟨pre, hp⟩ | ⟨_, h2, _⟩
    · simp at hp
    · exact h2 he hf

theorem tail_pre {o : Op} {os : List Op} (ho : o ≠ .logs) (h : ∃ pre, o :: os = pre ++ [Op.logs]) :
    ∃ pre, os = pre ++ [Op.logs] := by
  obtain ⟨pre, hp⟩ := h
  cases pre with
  | nil => simp at hp; exact (ho hp.1).elim
  | cons a pre => simp at hp; exact ⟨pre, hp.2⟩

theorem plain_not_indexed {ng : Nat} {s : Suf} (h : s ∈ checkSuffixes) : ¬ Indexed ng s := by
  intro hi
  cases hi <;> simp [checkSuffixes] at h

theorem made_ne_suf (s t : Suf) : Name.suf t ≠ .made s := by simp

theorem byLatex_ne_made {x : Name} (h : x.byLatex = true) (s : Suf) : x ≠ .made s := by
  rintro rfl; simp [Name.byLatex] at h

/-- Looking at a suffix, and perhaps running MakeIndex. -/
theorem inv_look {D : Doc C} {ng : Nat} {flag : Bool} {o : Op} {os : List Op} {l : L C} {s : Suf}
    (ho : o = .check s ∨ o = .index s) (G : Files C)
    (hG : ∀ x, x ≠ .made s → G x = l.files x)
    (hu : Indexed ng s → UpToDate D G s)
    (hsame : (check l flag s).2.2 = false → Indexed ng s → G (.made s) = l.files (.made s))
    (h : OpsInv D ng flag (o :: os) l) :
    OpsInv D ng (check l flag s).2.2 os { (check l flag s).2.1 with files := G } := by
  have hne : o ≠ .logs := by rcases ho with rfl | rfl <;> simp
  have hpre : ∃ pre, os = pre ++ [Op.logs] := by
    rcases h.last with hp | ⟨hp, _⟩
    · exact tail_pre hne hp
    · simp at hp
  have hup : ∀ t, t ≠ s → UpToDate D l.files t → UpToDate D G t := by
    intro t ht hu c
    rw [hG _ (by simp), hG _ (by simp [ht])]
    exact hu c
  constructor
  · intro x hx
    show G x = D.latexOut (check l flag s).2.1.before x
    rw [check_before, hG x (byLatex_ne_made hx s)]; exact h.tex x hx
  · intro n
    show G _ = (check l flag s).2.1.before _
    rw [check_before, hG _ (by simp)]; exact h.bblOf n
  · show (check l flag s).2.1.saved .bbl = G _
    rw [hG _ (by simp)]
    by_cases hs : s = .bbl
    · subst hs; rw [check_saved_same]
    · rw [check_saved_other l flag (fun e => hs e.symm)]; exact h.bbl
  · intro hf
    show G _ = (check l flag s).2.1.before _
    rw [check_before, hG _ (by simp)]; exact h.bblSame (check_flag l flag s hf).1
  · intro hf t ht
    show (check l flag s).2.1.saved t = (check l flag s).2.1.before _
    obtain ⟨h1, h2⟩ := check_flag l flag s hf
    rw [check_before]
    by_cases hs : t = s
    · subst hs; rw [check_saved_same, ← h2]; exact h.savedSame h1 t ht
    · rw [check_saved_other l flag hs]; exact h.savedSame h1 t ht
  · intro t ht hp
    show (check l flag s).2.1.saved t = G _
    rw [hG _ (by simp)]
    by_cases hs : t = s
    · subst hs; rw [check_saved_same]
    · rw [check_saved_other l flag hs]
      apply h.checked t ht
      rintro (hq | hq)
      · rcases ho with rfl | rfl
        · simp only [List.mem_cons, Op.check.injEq] at hq
          rcases hq with hq | hq
          · exact hs hq
          · exact hp (.inl hq)
        · simp only [List.mem_cons, reduceCtorEq, false_or] at hq; exact hp (.inl hq)
      · rcases ho with rfl | rfl
        · simp only [List.mem_cons, reduceCtorEq, false_or] at hq; exact hp (.inr hq)
        · simp only [List.mem_cons, Op.index.injEq] at hq
          rcases hq with hq | hq
          · exact hs hq
          · exact hp (.inr hq)
  · intro hf t ht
    show G _ = (check l flag s).2.1.before _
    rw [check_before, ← h.madeSame (check_flag l flag s hf).1 t ht]
    by_cases hs : t = s
    · subst hs; exact hsame hf ht
    · exact hG _ (by simp [hs])
  · intro t ht hp
    show UpToDate D G t
    by_cases hs : t = s
    · subst hs; exact hu ht
    · apply hup t hs
      rcases ho with rfl | rfl
      · exact h.made t ht (by simp [hp])
      · exact h.made t ht (by simp [hp, hs])
  · intro t ht
    show (G _ = (check l flag s).2.1.before _ ∧ (check l flag s).2.1.saved t = (check l flag s).2.1.before _) ∨ UpToDate D G t
    by_cases hs : t = s
    · subst hs; exact .inr (hu ht)
    · rw [check_before, check_saved_other l flag hs, hG _ (by simp [hs])]
      rcases h.made' t ht with h1 | h1
      · exact .inl h1
      · exact .inr (hup t hs h1)
  · show ∀ t, Indexed ng t → UpToDate D (check l flag s).2.1.before t
    rw [check_before]; exact h.wasMade
  · intro F n
    show n ∈ (check l flag s).2.1.already → _ → G _ = _
    rw [check_already]
    intro hn hd
    rw [hG _ (by cases n <;> simp [bblName])]
    exact h.bib F n hn hd
  · show ∀ n ∈ D.fls (check l flag s).2.1.before, .bib n ∈ os ∨ n ∈ (check l flag s).2.1.already
    rw [check_before, check_already]
    intro n hn
    rcases h.all n hn with hq | hq
    · left; rcases ho with rfl | rfl <;> simpa using hq
    · exact .inr hq
  · show (check l flag s).2.1.log = D.log (check l flag s).2.1.before
    rw [check_log, check_before]; exact h.log
  · show 0 < (check l flag s).2.1.count
    rw [check_count]; exact h.pos
  · intro t ht; exact h.plain t (by simp [ht])
  · exact .inl hpre

/-- Files set to what they are. -/
theorem with_files (l : L C) : { l with files := l.files } = l := rfl

/-- One part of a pass. -/
theorem inv_exec {D : Doc C} (hP : Programs D) {ng : Nat} {flag : Bool} {o : Op} {os : List Op} {l : L C}
    (h : OpsInv D ng flag (o :: os) l) (hok : (exec D l flag o).2.2 = true) :
    OpsInv D ng (exec D l flag o).2.1 os (exec D l flag o).1 := by
  cases o with
  | check s =>
    have hs : ¬ Indexed ng s := plain_not_indexed (h.plain s (by simp))
    have := inv_look (.inl rfl) l.files (fun _ _ => rfl) (fun hi => (hs hi).elim) (fun _ _ => rfl) h
    simp only [exec]
    have e : { (check l flag s).2.1 with files := l.files } = (check l flag s).2.1 := by
      rw [← check_files l flag s]
    rw [e] at this
    exact this
  | index s =>
    simp only [exec]
    -- before MakeIndex: if nothing changed, the index is the one of the input
    have hold : l.saved s = l.files (.suf s) → Indexed ng s → UpToDate D l.files s := by
      intro h1 hi
      rcases h.made' s hi with ⟨h2, h3⟩ | h2
      · intro c hc
        rw [h2]
        rw [← h1, h3] at hc
        exact h.wasMade s hi c hc
      · exact h2
    have e : { (check l flag s).2.1 with files := l.files } = (check l flag s).2.1 := by
      rw [← check_files l flag s]
    split
    · rcases hm : D.mkOut s ((check l flag s).2.1.files (.suf s)) with _ | c
      · simp only
        have := inv_look (.inr rfl) l.files (fun _ _ => rfl)
          (fun hi c hc => by rw [check_files] at hm; rw [hm] at hc; simp at hc) (fun _ _ => rfl) h
        rw [e] at this; exact this
      · simp only
        rw [check_files] at hm ⊢
        refine inv_look (.inr rfl) (l.files.set (.made s) (some c)) (fun x hx => set_other _ hx _) ?_ ?_ h
        · intro hi c' hc'
          rw [set_other _ (by simp), hm] at hc'
          rw [set_same]; exact hc'
        · intro hf hi
          rw [set_same]
          exact (hold (check_flag l flag s hf).2 hi c hm).symm
    · rename_i hc
      have h1 : (check l flag s).1 = false := by
        cases hx : (check l flag s).1 with
        | false => rfl
        | true => exact (hc (.inl hx)).elim
      have := inv_look (.inr rfl) l.files (fun _ _ => rfl) (hold (check_fst l flag s h1)) (fun _ _ => rfl) h
      rw [e] at this; exact this
  | bib n =>
    have hpre : ∃ pre, os = pre ++ [Op.logs] := by
      rcases h.last with hp | ⟨hp, _⟩
      · exact tail_pre (by simp) hp
      · simp at hp
    have hall : ∀ m ∈ D.fls l.before, .bib m ∈ os ∨ m ∈ l.already ∨ m = n := by
      intro m hm
      rcases h.all m hm with hq | hq
      · simp only [List.mem_cons, Op.bib.injEq] at hq
        rcases hq with hq | hq
        · exact .inr (.inr hq)
        · exact .inl hq
      · exact .inr (.inl hq)
    have hchk : ∀ s, ¬ Pending os s → ¬ Pending (Op.bib n :: os) s := by
      intro s hp hq; apply hp; simpa [Pending] using hq
    simp only [exec]
    split
    · rename_i hn
      exact { h with
        checked := fun s hs hp => h.checked s hs (hchk s hp)
        made := fun s hs hp => h.made s hs (by simpa using hp)
        all := fun m hm => by
          rcases hall m hm with hq | hq | rfl
          · exact .inl hq
          · exact .inr hq
          · exact .inr hn
        plain := fun s hs => h.plain s (by simp [hs])
        last := .inl hpre }
    · rename_i hn
      have haux : l.files (.aux n) = D.latexOut l.before (.aux n) := h.tex _ rfl
      split
      · rename_i hd
        rw [haux] at hd
        have hn0 : n = 0 := by
          cases n with
          | zero => rfl
          | succ n => rw [hP.single] at hd; simp at hd
        subst hn0
        -- only the bibliography of the main file changes
        generalize hl1 : ({ l with already := l.already ++ [0], files := l.files.set (bblName 0) (D.bibOut 0 (l.files (.aux 0))) } : L C) = l1
        have f1 : ∀ x, x ≠ .suf .bbl → l1.files x = l.files x := by
          intro x hx; rw [← hl1]; exact set_other _ hx _
        have f2 : l1.files (.suf .bbl) = D.bibOut 0 (D.latexOut l.before (.aux 0)) := by
          rw [← hl1, ← haux]; exact set_same l.files (bblName 0) _
        have g1 : l1.before = l.before := by rw [← hl1]
        have g2 : l1.already = l.already ++ [0] := by rw [← hl1]
        have g3 : l1.saved = l.saved := by rw [← hl1]
        have g4 : l1.log = l.log := by rw [← hl1]
        have g5 : l1.count = l.count := by rw [← hl1]
        have hsv : ∀ t, t ≠ .bbl → (check l1 flag .bbl).2.1.saved t = l.saved t := by
          intro t ht; rw [check_saved_other l1 flag ht, g3]
        have hup : ∀ t, t ≠ .bbl → UpToDate D l.files t → UpToDate D l1.files t := by
          intro t ht hu c
          rw [f1 _ (by simp [ht]), f1 _ (by simp)]
          exact hu c
        constructor
        · intro x hx
          rw [check_files, check_before, g1, f1 x (by rintro rfl; simp [Name.byLatex] at hx)]
          exact h.tex x hx
        · intro m; rw [check_files, check_before, g1, f1 _ (by simp)]; exact h.bblOf m
        · rw [check_saved_same, check_files]
        · intro hf
          obtain ⟨h1, h2⟩ := check_flag l1 flag .bbl hf
          rw [check_files, check_before, g1, ← h2, g3, h.bbl]; exact h.bblSame h1
        · intro hf t ht
          obtain ⟨h1, h2⟩ := check_flag l1 flag .bbl hf
          rw [check_before, g1]
          by_cases hb : t = .bbl
          · subst hb; rw [check_saved_same, ← h2, g3]; exact h.savedSame h1 _ ht
          · rw [hsv t hb]; exact h.savedSame h1 t ht
        · intro t ht hp
          by_cases hb : t = .bbl
          · subst hb; rw [check_saved_same, check_files]
          · rw [hsv t hb, check_files, f1 _ (by simp [hb])]; exact h.checked t ht (hchk t hp)
        · intro hf t ht
          rw [check_files, check_before, g1, f1 _ (by simp)]
          exact h.madeSame (check_flag l1 flag .bbl hf).1 t ht
        · intro t ht hp
          rw [check_files]
          exact hup t (indexed_ne ht) (h.made t ht (by simpa using hp))
        · intro t ht
          rw [check_files, check_before, g1, hsv t (indexed_ne ht), f1 _ (by simp)]
          rcases h.made' t ht with h1 | h1
          · exact .inl h1
          · exact .inr (hup t (indexed_ne ht) h1)
        · rw [check_before, g1]; exact h.wasMade
        · intro F m
          rw [check_already, check_files, g2]
          intro hm hdm
          cases m with
          | zero => rw [bblName, f2]; exact hP.bib _ _ _
          | succ m => rw [hP.single] at hdm; simp at hdm
        · rw [check_before, g1, check_already, g2]
          intro m hm
          rcases hall m hm with hq | hq | rfl
          · exact .inl hq
          · exact .inr (by simp [hq])
          · exact .inr (by simp)
        · rw [check_log, check_before, g1, g4]; exact h.log
        · rw [check_count, g5]; exact h.pos
        · intro s hs; exact h.plain s (by simp [hs])
        · exact .inl hpre
      · rename_i hd
        rw [haux] at hd
        exact { h with
          checked := fun s hs hp => h.checked s hs (hchk s hp)
          made := fun s hs hp => h.made s hs (by simpa using hp)
          bib := fun F m hm hdm => by
            simp only [List.mem_append, List.mem_singleton] at hm
            rcases hm with hm | rfl
            · exact h.bib F m hm hdm
            · rw [hP.data _ l.before] at hdm; exact (hd hdm).elim
          all := fun m hm => by
            rcases hall m hm with hq | hq | rfl
            · exact .inl hq
            · exact .inr (by simp [hq])
            · exact .inr (by simp)
          plain := fun s hs => h.plain s (by simp [hs])
          last := .inl hpre }
  | logs =>
    simp only [exec]
    have hp : ∀ s, ¬ Pending os s → ¬ Pending (Op.logs :: os) s := by
      intro s hp hq; apply hp; simpa [Pending] using hq
    have hfl : (flag || l.log) = false → flag = false ∧ l.log = false := by
      cases flag <;> cases l.log <;> simp
    exact { h with
      bblSame := fun hf => h.bblSame (hfl hf).1
      savedSame := fun hf => h.savedSame (hfl hf).1
      checked := fun s hs hq => h.checked s hs (hp s hq)
      madeSame := fun hf => h.madeSame (hfl hf).1
      made := fun s hs hq => h.made s hs (by simpa using hq)
      all := fun m hm => by
        rcases h.all m hm with hq | hq
        · exact .inl (by simpa using hq)
        · exact .inr hq
      plain := fun s hs => h.plain s (by simp [hs])
      last := by
        rcases h.last with ⟨pre, hp⟩ | ⟨hp, _⟩
        · cases pre with
          | nil =>
            simp at hp
            right
            refine ⟨hp, ?_, fun hf => (hfl hf).2⟩
            intro he hf
            simp only [Bool.or_eq_false_iff, Bool.and_eq_false_iff, decide_eq_false_iff_not] at he
            rcases he.2 with he | he
            · exact Nat.lt_of_not_le he
            · rw [he.1, he.2] at hf; simp at hf
          | cons a pre => simp at hp; exact .inl ⟨pre, hp.2⟩
        · simp at hp }

/-! ### A call that runs alone -/

/-- What is known of a call, by where it is. -/
def ThInv (ng : Nat) (flag : Bool) (t : Th C) : Prop :=
  match t.pc with
  | .init => ∀ s, Indexed ng s → UpToDate t.doc t.loc.files s
  | .head => HeadInv t.doc ng flag t.loc
  | .clear => OpsInv t.doc ng false (ops ng (t.doc.fls t.loc.before)) t.loc
  | .doing os => OpsInv t.doc ng flag os t.loc
  | .done ok => ok = true → t.loc.exhausted = false →
      0 < t.loc.count ∧ (∀ x, Reads ng x → t.loc.before x = t.loc.files x) ∧
      (∀ s, Indexed ng s → UpToDate t.doc t.loc.files s) ∧
      (∀ n ∈ t.doc.fls t.loc.before, BibUpToDate t.doc t.loc.files n)

theorem step_doc (ng : Nat) (flag : Bool) (t : Th C) : (step ng flag t).2.doc = t.doc := by
  unfold step
  split
  · rfl
  · split
    · split <;> rfl
    · rfl
  · rfl
  · rfl
  · rfl
  · rfl

theorem inv_step {ng : Nat} {flag : Bool} {t : Th C} (hP : Programs t.doc) (h : ThInv ng flag t) :
    ThInv ng (step ng flag t).1 (step ng flag t).2 := by
  obtain ⟨D, pc, l⟩ := t
  cases pc with
  | init =>
    simp only [ThInv, step] at h ⊢
    exact { saved := fun s _ => rfl, made := h, bib := by simp, start := fun _ => rfl,
            settled := by simp, all := by simp, aux := by simp, more := by simp }
  | head =>
    simp only [ThInv] at h
    by_cases hc : flag = true ∧ l.count < D.retries
    · by_cases hk : D.latexOk l.files = true
      · simp only [step, if_pos hc, if_pos hk, ThInv]
        exact ops_of_head h
      · simp [step, if_pos hc, if_neg hk, ThInv]
    · simp only [step, if_neg hc, ThInv]
      intro ok he
      simp only [decide_eq_true_eq] at ok
      have hf : flag = false := by
        cases hf : flag with
        | false => rfl
        | true => exact (hc ⟨hf, h.more ok he hf⟩).elim
      refine ⟨ok, h.settled ok hf, h.made, fun n hn hd => ?_⟩
      rw [h.aux ok n] at hd ⊢
      exact h.bib _ n (h.all ok n hn) hd
  | clear => simpa only [ThInv, step] using h
  | doing os =>
    cases os with
    | nil =>
      simp only [ThInv, step] at h ⊢
      exact head_of_ops hP h
    | cons o os =>
      simp only [ThInv] at h
      by_cases hok : (exec D l flag o).2.2 = true
      · simp only [step, if_pos hok, ThInv]
        exact inv_exec hP h hok
      · simp [step, if_neg hok, ThInv]
  | done ok =>
    simp only [ThInv, step] at h ⊢
    exact h

/-! ### All calls -/

theorem run_cons (s : St C) (i : Nat) (r : List Nat) : run s (i :: r) = run (stepAt s i) r := rfl

theorem run_append (s : St C) (a b : List Nat) : run s (a ++ b) = run (run s a) b := by
  simp [run, List.foldl_append]

theorem run_ng (s : St C) (sched : List Nat) : (run s sched).ng = s.ng := by
  induction sched generalizing s with
  | nil => rfl
  | cons i r ih => rw [run_cons, ih]; rfl

/-- Steps of others do not change a call. -/
theorem run_others (s : St C) (sched : List Nat) (i : Nat) (h : i ∉ sched) : (run s sched).ths i = s.ths i := by
  induction sched generalizing s with
  | nil => rfl
  | cons j r ih =>
    simp only [List.mem_cons, not_or] at h
    rw [run_cons, ih _ h.2]
    simp [stepAt, h.1]

theorem inv_alone {s : St C} {i : Nat} (hP : Programs (s.ths i).doc) (n : Nat) (h : ThInv s.ng s.flag (s.ths i)) :
    ThInv s.ng (run s (List.replicate n i)).flag ((run s (List.replicate n i)).ths i) := by
  induction n generalizing s with
  | zero => exact h
  | succ n ih =>
    rw [List.replicate_succ, run_cons]
    have h1 : (stepAt s i).ths i = (step s.ng s.flag (s.ths i)).2 := by simp [stepAt]
    have := ih (s := stepAt s i) (by rw [h1, step_doc]; exact hP) (by rw [h1]; exact inv_step hP h)
    exact this

/-! ### Theorems -/

/-- C98: a document that is not disturbed by another one (its steps follow each other) is finished when the action succeeds
without reaching the limit: LaTeX ran, it would find the same files again, indices and bibliographies are those of the
document.  The indices found at the start must belong to their inputs. -/
theorem C98_finished_partial (s : St C) (i n : Nat) (a b : List Nat) (ha : i ∉ a) (hb : i ∉ b)
    (hP : Programs (s.ths i).doc) (hpc : (s.ths i).pc = .init)
    (hu : ∀ x, Indexed s.ng x → UpToDate (s.ths i).doc (s.ths i).loc.files x)
    (t : Th C) (ht : (run s (a ++ List.replicate n i ++ b)).ths i = t)
    (hok : t.pc = .done true) (hex : t.loc.exhausted = false) :
    0 < t.loc.count ∧ (∀ x, Reads s.ng x → t.loc.before x = t.loc.files x) ∧
      (∀ x, Indexed s.ng x → UpToDate t.doc t.loc.files x) ∧
      (∀ m ∈ t.doc.fls t.loc.before, BibUpToDate t.doc t.loc.files m) := by
  rw [run_append, run_others _ b i hb, run_append] at ht
  have h1 : (run s a).ths i = s.ths i := run_others s a i ha
  have h2 : (run s a).ng = s.ng := run_ng s a
  have := inv_alone (s := run s a) (i := i) (by rw [h1]; exact hP) n (by
    rw [h1, h2]
    unfold ThInv
    rw [hpc]
    exact hu)
  rw [ht, h2] at this
  unfold ThInv at this
  rw [hok] at this
  exact this rfl hex

/-- C98: and so another run of LaTeX would give the same document, whatever it makes of the files it reads. -/
theorem C98_same_document_partial {T : Type} (typeset : Files C → T) (s : St C) (i n : Nat) (a b : List Nat) (ha : i ∉ a)
    (hb : i ∉ b) (hP : Programs (s.ths i).doc) (hpc : (s.ths i).pc = .init)
    (hread : ∀ F G : Files C, (∀ x, Reads s.ng x → F x = G x) → typeset F = typeset G)
    (hu : ∀ x, Indexed s.ng x → UpToDate (s.ths i).doc (s.ths i).loc.files x)
    (t : Th C) (ht : (run s (a ++ List.replicate n i ++ b)).ths i = t)
    (hok : t.pc = .done true) (hex : t.loc.exhausted = false) :
    typeset t.loc.before = typeset t.loc.files :=
  hread _ _ (C98_finished_partial s i n a b ha hb hP hpc hu t ht hok hex).2.1

/-! ### The number of runs -/

theorem exec_count (D : Doc C) (l : L C) (flag : Bool) (o : Op) : (exec D l flag o).1.count = l.count := by
  cases o with
  | bib n =>
    simp only [exec]
    split
    · rfl
    · split
      · exact check_count _ _ _
      · rfl
  | index s =>
    simp only [exec]
    split
    · split <;> exact check_count _ _ _
    · exact check_count _ _ _
  | check s => exact check_count _ _ _
  | logs => rfl

theorem step_count (ng : Nat) (flag : Bool) (t : Th C) (h : t.pc ≠ .init → t.loc.count ≤ t.doc.retries) :
    (step ng flag t).2.loc.count ≤ t.doc.retries ∨ (step ng flag t).2.pc = .init := by
  obtain ⟨D, pc, l⟩ := t
  cases pc with
  | init => simp [step]
  | head =>
    simp only [step]
    split
    · rename_i hc
      split
      · left; simp only at hc ⊢; omega
      · left; exact h (by simp)
    · left; exact h (by simp)
  | clear => left; exact h (by simp)
  | doing os =>
    cases os with
    | nil => left; exact h (by simp)
    | cons o os => left; simp only [step]; rw [exec_count]; exact h (by simp)
  | done ok => left; exact h (by simp)

/-- C98: whatever else is running, LaTeX is never run more often than `$LATEXRETRIES` says. -/
theorem C98_bounded (s : St C) (hs : ∀ i, (s.ths i).pc = .init) (sched : List Nat) (i : Nat)
    (h : ((run s sched).ths i).pc ≠ .init) :
    ((run s sched).ths i).loc.count ≤ ((run s sched).ths i).doc.retries := by
  have key : ∀ (sched : List Nat) (s : St C), ((s.ths i).pc ≠ .init → (s.ths i).loc.count ≤ (s.ths i).doc.retries) →
      (((run s sched).ths i).pc ≠ .init → ((run s sched).ths i).loc.count ≤ ((run s sched).ths i).doc.retries) := by
    intro sched
    induction sched with
    | nil => intro s h; exact h
    | cons j r ih =>
      intro s h
      rw [run_cons]
      apply ih
      by_cases hj : j = i
      · subst hj
        have h1 : (stepAt s j).ths j = (step s.ng s.flag (s.ths j)).2 := by simp [stepAt]
        rw [h1]
        intro hpc
        rw [step_doc]
        rcases step_count s.ng s.flag (s.ths j) h with h2 | h2
        · exact h2
        · exact (hpc h2).elim
      · have h1 : (stepAt s j).ths i = s.ths i := by simp [stepAt, Ne.symm hj]
        rw [h1]; exact h
  exact key sched s (fun h => (h (hs i)).elim) h

/-! ### Every call ends -/

/-- Steps left, at most: runs of LaTeX left, then the parts of the pass. -/
def Left (t : Th C) : Nat × Nat :=
  match t.pc with
  | .init => (t.doc.retries + 1, 1)
  | .head => (t.doc.retries - t.loc.count, 1)
  | .clear => (t.doc.retries - t.loc.count + 1, 0)
  | .doing os => (t.doc.retries - t.loc.count, os.length + 2)
  | .done _ => (0, 0)

theorem left_step (ng : Nat) (flag : Bool) (t : Th C) (h : ∀ ok, t.pc ≠ .done ok) :
    Prod.Lex (· < ·) (· < ·) (Left (step ng flag t).2) (Left t) := by
  obtain ⟨D, pc, l⟩ := t
  cases pc with
  | init => exact .left _ _ (by simp [step])
  | head =>
    by_cases hc : flag = true ∧ l.count < D.retries
    · by_cases hk : D.latexOk l.files = true
      · simp only [step, if_pos hc, if_pos hk, Left]
        have : D.retries - (l.count + 1) + 1 = D.retries - l.count := by omega
        rw [this]
        exact .right _ (by omega)
      · simp only [step, if_pos hc, if_neg hk, Left]
        exact .left _ _ (by omega)
    · simp only [step, if_neg hc, Left]
      by_cases h0 : D.retries - l.count = 0
      · rw [h0]; exact .right _ (by omega)
      · exact .left _ _ (by omega)
  | clear => exact .left _ _ (by simp [step])
  | doing os =>
    cases os with
    | nil => exact .right _ (by simp)
    | cons o os =>
      by_cases hok : (exec D l flag o).2.2 = true
      · simp only [step, if_pos hok, Left, exec_count]
        exact .right _ (by simp)
      · simp only [step, if_neg hok, Left]
        by_cases h0 : D.retries - l.count = 0
        · rw [h0]; exact .right _ (by simp)
        · exact .left _ _ (by omega)
  | done ok => exact (h ok rfl).elim

/-- C98: every call comes to an end, if it gets its turns. -/
theorem C98_ends (s : St C) (i : Nat) :
    ∃ n ok, ((run s (List.replicate n i)).ths i).pc = .done ok := by
  by_cases h : ∃ ok, (s.ths i).pc = .done ok
  · obtain ⟨ok, h⟩ := h
    exact ⟨0, ok, h⟩
  · have hlt := left_step s.ng s.flag (s.ths i) (fun ok hk => h ⟨ok, hk⟩)
    have h1 : (stepAt s i).ths i = (step s.ng s.flag (s.ths i)).2 := by simp [stepAt]
    rw [← h1] at hlt
    obtain ⟨n, ok, hn⟩ := C98_ends (stepAt s i) i
    exact ⟨n + 1, ok, by rw [List.replicate_succ, run_cons]; exact hn⟩
termination_by Left (s.ths i)
decreasing_by rw [h1]; exact hlt

end Verif.Tex
