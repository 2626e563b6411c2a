import Verif.Attrs.Props

/-!
# C111: the special attributes, their signatures, and targets named after sources
-/

namespace Verif.Attrs
open Verif.FS (Str walk GoodName lab intercalate_cons walk_good walk_append)

/-! ## Base, suffix, directory and file -/

theorem dirname_end (n : Path) : ∃ t, dirname n = t ++ ['/'] := by
  unfold dirname
  split
  · exact ⟨_, rfl⟩
  · exact ⟨[], rfl⟩

theorem flat_end (l : List Path) : l.flatMap dirname = [] ∨ ∃ t, l.flatMap dirname = t ++ ['/'] := by
  rcases List.eq_nil_or_concat l with rfl | ⟨s, y, rfl⟩
  · exact .inl rfl
  · obtain ⟨t, ht⟩ := dirname_end y
    exact .inr ⟨s.flatMap dirname ++ t, by simp [ht]⟩

/-- The path of a node is its name behind nothing or behind something that ends with a slash. -/
theorem getPath_name (cwd n : Path) (h : n ≠ cwd) : ∃ pre, getPath cwd n = pre ++ name n ∧ (pre = [] ∨ ∃ t, pre = t ++ ['/']) := by
  rw [getPath, if_neg h]
  simp only
  split
  · exact ⟨_, rfl, flat_end _⟩
  · exact ⟨_, rfl, flat_end _⟩

theorem splitext_dir (digit : Char → Bool) (pre x : Str) (h : pre = [] ∨ ∃ t, pre = t ++ ['/']) :
    splitext digit (pre ++ x) = (pre ++ (splitext digit x).1, (splitext digit x).2) := by
  have hx := C111_splitext digit x
  rcases hx.ext with he | he
  · have := splitext_ext digit (pre ++ (splitext digit x).1) _ he
    rw [List.append_assoc, hx.whole] at this
    exact this
  · have hb : (splitext digit x).1 = x := by have := hx.whole; rw [he] at this; simpa using this
    rw [he, hb]
    refine splitext_none digit _ fun b e hbe hE => ?_
    rcases List.append_eq_append_iff.1 hbe with ⟨as, ha, hb'⟩ | ⟨bs, ha, hb'⟩
    · rcases h with rfl | ⟨t, rfl⟩
      · have : as = [] := by simp at ha; exact ha.2
        subst this
        exact hx.none he b e (by simp at ha; simp [ha, hb']) hE
      · rcases List.eq_nil_or_concat as with rfl | ⟨as', y, rfl⟩
        · exact hx.none he [] e (by simpa using hb') hE
        · have hy : y = '/' := by
            have := congrArg List.getLast? ha
            simpa using this.symm
          obtain ⟨u, rfl, -, hs, -⟩ := hE.shape
          subst hy
          have : '/' ∈ ('.' :: u) := by rw [hb']; simp
          simp at this
          exact hs this
    · exact hx.none he bs e hb'.symm hE

/-- **C111**: base and suffix together are the path of the node, and filebase and suffix together its name; for every node but the current directory itself. -/
theorem C111_base_suffix (digit : Char → Bool) (W : World) (n : Path) (hc : n ≠ W.cwd) :
    (attr digit W n .base).show W ++ (attr digit W n .suffix).show W = getPath W.cwd n ∧
    (attr digit W n .filebase).show W ++ (attr digit W n .suffix).show W = (attr digit W n .file).show W := by
  obtain ⟨pre, h1, h2⟩ := getPath_name W.cwd n hc
  have hx := (C111_splitext digit (name n)).whole
  refine ⟨?_, hx⟩
  simp only [attr, wrap, Val.show]
  rw [h1, splitext_dir digit pre _ h2]
  simp [hx]

/-- **C111**: a command that puts base and suffix together opens the node's own file. -/
theorem C111_base_suffix_opens (digit : Char → Bool) (W : World) (n : Path) (hn : Proper n) (hc : n ≠ W.cwd) :
    opens W.cwd ((attr digit W n .base).show W ++ (attr digit W n .suffix).show W) = some n := by
  rw [(C111_base_suffix digit W n hc).1]
  exact C111_path W.cwd n hn

/-- **C111**: the suffix is the suffix of the path as well as of the name: nothing, or a dot and something that is no number and has no slash and no dot in it. -/
theorem C111_suffix (digit : Char → Bool) (W : World) (n : Path) (hc : n ≠ W.cwd) :
    Splits digit (name n) ((attr digit W n .filebase).show W) ((attr digit W n .suffix).show W) ∧
    Splits digit (getPath W.cwd n) ((attr digit W n .base).show W) ((attr digit W n .suffix).show W) := by
  refine ⟨C111_splitext digit (name n), ?_⟩
  obtain ⟨pre, h1, h2⟩ := getPath_name W.cwd n hc
  have := C111_splitext digit (getPath W.cwd n)
  simp only [attr, wrap, Val.show]
  have e : (splitext digit (name n)).2 = (splitext digit (getPath W.cwd n)).2 := by rw [h1, splitext_dir digit pre _ h2]
  rw [e]; exact this

/-- **C111**: two nodes with the same base and the same suffix are the same node. -/
theorem C111_base_suffix_injective (digit : Char → Bool) (W : World) (n m : Path) (hn : Proper n) (hm : Proper m) (hc : n ≠ W.cwd) (hc' : m ≠ W.cwd)
    (hb : (attr digit W n .base).show W = (attr digit W m .base).show W) (hs : (attr digit W n .suffix).show W = (attr digit W m .suffix).show W) : n = m := by
  have h1 := C111_base_suffix_opens digit W n hn hc
  have h2 := C111_base_suffix_opens digit W m hm hc'
  rw [hb, hs, h2] at h1
  exact (Option.some.inj h1).symm

theorem opens_below (cwd : Path) (s f : Str) (d : Path) (hf : GoodName f) (h : opens cwd s = some d) : opens cwd (s ++ '/' :: f) = some (d ++ [f]) := by
  have hf' : f.splitOn '/' = [f] := by
    have := List.splitOn_intercalate '/' (ls := [f]) (by simpa using hf.2.2.2) (by simp)
    simpa using this
  have hw : ∀ a, walk a [f] = a ++ [f] := fun a => walk_good [f] a (by simpa using hf)
  cases s with
  | nil => simp [opens] at h
  | cons c s =>
    by_cases hc : c = '/'
    · subst hc
      rw [List.cons_append, opens_abs, List.splitOn_append_cons_self, walk_append, hf', hw]
      rw [opens_abs] at h
      rw [Option.some.inj h]
    · rw [opens_rel cwd (List.cons_append) hc, List.splitOn_append_cons_self, walk_append, hf', hw]
      rw [opens_rel cwd rfl hc] at h
      rw [Option.some.inj h]

theorem climb_plain (sd : Path → Option Path) (up : Path) (rel : List Str) (h : ∀ p, p <+: up.reverse → sd p = none) : climb sd up rel = [] := by
  induction up generalizing rel with
  | nil => simp [climb, h [] (by simp)]
  | cons x up ih =>
    rw [climb, h _ (List.prefix_refl _), ih _ fun p hp => h p (hp.trans (by simp))]
    rfl

theorem srcnode_plain (W : World) (n : Path) (h : Plain W n) : srcnode W n = n := by
  have h1 : srcdirList W (dir n) = [] := climb_plain _ _ _ fun p hp => h p ((by simpa using hp : p <+: dir n).trans (List.dropLast_prefix n))
  have h2 : srcnodeBase W n = n := by rw [srcnodeBase, h1]
  rw [srcnode, h n (List.prefix_refl _), h2]
  simp

theorem climb_near (sd : Path → Option Path) (v s : Path) (hs : sd v = some s) : ∀ (rr : List Str) (rel : List Str),
    (∀ p, p <+: rr.reverse → p ≠ [] → sd (v ++ p) = none) → ∃ l, climb sd (rr ++ v.reverse) rel = (s ++ rr.reverse ++ rel) :: l := by
  intro rr
  induction rr with
  | nil =>
    intro rel _
    rcases hv : v.reverse with _ | ⟨x, up⟩
    · have : v = [] := by simpa using hv
      subst this
      exact ⟨[], by simp [climb, hs]⟩
    · have hv' : (x :: up).reverse = v := by rw [← hv]; simp
      exact ⟨climb sd up (x :: rel), by simp only [List.nil_append, climb, hv', hs]; simp⟩
  | cons x rr ih =>
    intro rel h
    have h0 : sd (x :: rr ++ v.reverse).reverse = none := by
      have := h _ (List.prefix_refl _) (by simp)
      simpa using this
    obtain ⟨l, hl⟩ := ih (x :: rel) fun p hp hne => h p (hp.trans (by simp)) hne
    refine ⟨l, ?_⟩
    rw [List.cons_append, climb, ← List.cons_append, h0, hl]
    simp

/-- **C111**: the source node of a file below a variant directory is the file of the same name at the same place below the source directory, however deep it is, where no variant directory is nearer. -/
theorem C111_srcnode (W : World) (v s rel : Path) (x : Str) (hv : W.srcdir v = some s) (hn : ∀ p, p <+: rel → p ≠ [] → W.srcdir (v ++ p) = none)
    (hd : W.srcdir (v ++ rel ++ [x]) = none) : srcnode W (v ++ rel ++ [x]) = s ++ rel ++ [x] := by
  obtain ⟨l, hl⟩ := climb_near W.srcdir v s hv rel.reverse [] (by simpa using hn)
  have h1 : srcdirList W (dir (v ++ rel ++ [x])) = (s ++ rel) :: l := by
    rw [srcdirList, dir, List.dropLast_concat, List.reverse_append, hl]
    simp
  have h2 : srcnodeBase W (v ++ rel ++ [x]) = s ++ rel ++ [x] := by
    rw [srcnodeBase, h1]
    simp [name]
  rw [srcnode, hd, h2]
  simp

/-- **C111**: what `str()` shows names the node itself or its source node; where no variant directory is above the node, or the node is duplicated or built, the node itself. -/
theorem C111_str (W : World) (n : Path) (hn : Proper n) (hs : Proper (srcnode W n)) :
    (opens W.cwd (str W n) = some n ∨ opens W.cwd (str W n) = some (srcnode W n)) ∧
    (Plain W n ∨ W.duplicate n = true ∨ W.derived n = true → opens W.cwd (str W n) = some n) := by
  have hp := C111_path W.cwd n hn
  have hq := C111_path W.cwd _ hs
  constructor
  · rw [str]
    split
    · exact .inl hp
    · split
      · exact .inl hp
      · exact .inr hq
  · intro h
    rw [str]
    split
    · exact hp
    · rename_i h1
      rcases h with h | h | h
      · rw [srcnode_plain W n h]; split <;> exact hp
      · simp [h] at h1
      · simp [h] at h1

/-- **C111**: directory and file put together with a slash name the node — whether the directory is shown as `.`, as `/`, relative or absolute —, where no variant directory is above it or the directory is duplicated. -/
theorem C111_dir_file (digit : Char → Bool) (W : World) (n : Path) (hn : Proper n) (h0 : n ≠ []) (hd : Plain W (dir n) ∨ W.duplicate (dir n) = true) :
    opens W.cwd ((attr digit W n .dir).show W ++ '/' :: (attr digit W n .file).show W) = some n := by
  obtain ⟨d, f, rfl⟩ : ∃ s y, n = s ++ [y] := by
    rcases List.eq_nil_or_concat n with h | ⟨s, y, h⟩
    · exact absurd h h0
    · exact ⟨s, y, by simpa using h⟩
  have hf : name (d ++ [f]) = f := by simp [name]
  have hd' : dir (d ++ [f]) = d := by simp [dir]
  have hpd : Proper d := fun c hc => hn c (List.mem_append_left _ hc)
  simp only [attr, wrap, Val.show, hf, hd'] at hd ⊢
  refine opens_below W.cwd _ f d (hn f (by simp)) ?_
  have hp := C111_path W.cwd d hpd
  rcases hd with hd | hd
  · have : str W d = getPath W.cwd d := by rw [str, srcnode_plain W d hd]; simp
    rw [this]; exact hp
  · have : str W d = getPath W.cwd d := by rw [str, hd]; simp
    rw [this]; exact hp

theorem name_append (d : Path) (x : Str) : name (d ++ [x]) = x := by simp [name]

theorem name_srcnodeBase (W : World) (n : Path) : name (srcnodeBase W n) = name n := by
  rw [srcnodeBase]
  split
  · exact name_append _ _
  · rfl

/-- **C111**: `srcdir` and `file` put together name the source file of a file in a variant directory, when the source directory is in no variant directory itself. -/
theorem C111_srcdir_file (digit : Char → Bool) (W : World) (n : Path) (hf : W.isDir n = false) (h0 : n ≠ []) (hs : Proper (srcnode W n)) (hd : Plain W (dir (srcnode W n))) :
    opens W.cwd ((attr digit W n .srcdir).show W ++ '/' :: (attr digit W n .file).show W) = some (srcnode W n) := by
  have hname : name (srcnode W n) = name n := by rw [srcnode, hf]; exact name_srcnodeBase W n
  have h1 : srcnode W n ≠ [] := by
    rw [srcnode, hf]
    simp only [Bool.false_eq_true, ↓reduceIte]
    rw [srcnodeBase]
    split
    · simp
    · exact h0
  have := C111_dir_file digit W (srcnode W n) hs h1 (.inl hd)
  simp only [attr, wrap, Val.show, hname] at this ⊢
  exact this

/-- **C111**: `rsrcpath` names the file that the source node was found as in a repository, and `rsrcdir` its directory, where that place is in no variant directory. -/
theorem C111_repository (digit : Char → Bool) (W : World) (n r : Path) (hr : W.rfile (srcnode W n) = r) (hp : Proper r) (hv : Plain W r) :
    opens W.cwd ((attr digit W n .rsrcpath).show W) = some r ∧ opens W.cwd ((attr digit W n .rsrcdir).show W) = some r.dropLast := by
  subst hr
  have hd : Plain W (dir (W.rfile (srcnode W n))) := fun p hp' => hv p (hp'.trans (List.dropLast_prefix _))
  have hpd : Proper (dir (W.rfile (srcnode W n))) := fun c hc => hp c ((List.dropLast_sublist _).mem hc)
  have key : ∀ m, Plain W m → Proper m → opens W.cwd (str W m) = some m := by
    intro m hm hpm
    have : str W m = getPath W.cwd m := by rw [str, srcnode_plain W m hm]; simp
    rw [this]
    exact C111_path W.cwd m hpm
  exact ⟨key _ hv hp, key _ hd hpd⟩

/-- **C111**: with backslashes, the same names stand in the same order (where no name has a backslash in it). -/
theorem C111_windows (digit : Char → Bool) (W : World) (n : Path) (hb : ∀ c ∈ n, '\\' ∉ c) :
    ((attr digit W n .windows).show W).map (fun c => if c = '\\' then '/' else c) = getPath W.cwd n ∧ '/' ∉ (attr digit W n .windows).show W ∧
      (attr digit W n .win32).show W = (attr digit W n .windows).show W := by
  have hname : '\\' ∉ name n := by
    unfold name
    split
    · rename_i x hx; exact hb x (List.mem_of_getLast? hx)
    · decide
  have hdir : ∀ m : Path, m <+: n → '\\' ∉ dirname m := by
    intro m hm
    unfold dirname
    split
    · rename_i x hx
      have := hb x (hm.subset (List.mem_of_getLast? hx))
      simp [this]
    · decide
  have hp : '\\' ∉ getPath W.cwd n := by
    rw [getPath]
    split
    · decide
    · have hl : ∀ l : List Path, (∀ m ∈ l, m <+: n) → '\\' ∉ l.flatMap dirname ++ name n := by
        intro l hl hx
        rcases List.mem_append.1 hx with hx | hx
        · obtain ⟨m, hm, hx⟩ := List.mem_flatMap.1 hx
          exact hdir m (hl m hm) hx
        · exact hname hx
      simp only
      split
      · exact hl _ fun m hm => by
          have := List.mem_of_mem_dropLast hm
          simpa [elements] using this
      · exact hl _ fun m hm => by
          have := List.mem_of_mem_drop (List.mem_of_mem_dropLast hm)
          simpa [elements] using this
  simp only [attr, wrap, Val.show]
  refine ⟨?_, ?_, trivial⟩
  · rw [List.map_map]
    conv_rhs => rw [← List.map_id (getPath W.cwd n)]
    refine List.map_congr_left fun c hc => ?_
    by_cases h : c = '/'
    · subst h; rfl
    · have : c ≠ '\\' := fun e => hp (e ▸ hc)
      simp [h, this]
  · intro h
    obtain ⟨c, -, hc⟩ := List.mem_map.1 h
    by_cases h : c = '/'
    · subst h; simp at hc
    · simp [h] at hc

/-- **C111**: `.dir.dir. …` climbs one directory each time and stays at the root; nothing can be asked of a text. -/
theorem C111_chains (digit : Char → Bool) (W : World) (n : Path) (k : Nat) :
    attrs digit W (.node n) (List.replicate k .dir) = some (.node (n.take (n.length - k))) ∧ ∀ t s a as, attrs digit W (.text t s) (a :: as) = none := by
  refine ⟨?_, fun t s a as => rfl⟩
  induction k generalizing n with
  | zero => simp [attrs]
  | succ k ih =>
    rw [List.replicate_succ, attrs, attr, ih, dir, List.dropLast_eq_take, List.take_take]
    congr 3
    simp; omega

/-! ## Signatures -/

/-- What is put behind the name in the signature. -/
def tag : Attr → Str
  | .abspath => "_abspath".toList
  | .relpath => "_relpath".toList
  | .filebase => "_filebase".toList
  | .suffix => "_suffix".toList
  | .file => "_file".toList
  | .base => "_base".toList
  | .windows | .win32 => "_windows".toList
  | _ => []

theorem wrap_eq (t n s : Str) (h : s ≠ []) : wrap t (n ++ s) = .text t (n ++ s) := by
  cases s with
  | nil => exact absurd rfl h
  | cons c s => simp [wrap]

theorem attr_tag (digit : Char → Bool) (W : World) (n : Path) (a : Attr) : (∃ m, attr digit W n a = .node m) ∧ tag a = [] ∨ (∃ t, attr digit W n a = .text t (name n ++ tag a)) ∧ tag a ≠ [] := by
  cases a <;> first
    | exact .inl ⟨⟨_, rfl⟩, rfl⟩
    | exact .inr ⟨⟨_, wrap_eq _ _ _ (by decide)⟩, by decide⟩

/-- **C111**: what stands for an attribute's text in the command's signature depends on the node's own name alone: not on its directory, not on the current directory, not on what is on disk. -/
theorem C111_signature_name_only (digit : Char → Bool) (W W' : World) (n m : Path) (h : name n = name m) (a : Attr) (t s : Str) (ha : attr digit W n a = .text t s) :
    (attr digit W' m a).sig = s := by
  rcases attr_tag digit W n a with ⟨⟨k, h1⟩, h1'⟩ | ⟨⟨k, h1⟩, h1'⟩
  · rw [h1] at ha; simp at ha
  · rcases attr_tag digit W' m a with ⟨⟨k, h2⟩, h2'⟩ | ⟨⟨k, h2⟩, h2'⟩
    · exact absurd h2' h1'
    · rw [h1] at ha
      rw [h2, Val.sig, ← h]
      exact (Val.text.inj ha).2

/-- **C111**: among the attributes of one node that are texts, those with the same signature have the same text: changing the command from one to another that shows something else changes its signature. -/
theorem C111_signature_separates (digit : Char → Bool) (W : World) (n : Path) (a b : Attr) (t t' s : Str) (ha : attr digit W n a = .text t s) (hb : attr digit W n b = .text t' s) : t = t' := by
  have hab : tag a = tag b := by
    rcases attr_tag digit W n a with ⟨⟨k, h1⟩, -⟩ | ⟨⟨k, h1⟩, -⟩
    · rw [h1] at ha; simp at ha
    · rcases attr_tag digit W n b with ⟨⟨k, h2⟩, -⟩ | ⟨⟨k, h2⟩, -⟩
      · rw [h2] at hb; simp at hb
      · rw [h1] at ha; rw [h2] at hb
        have e1 := (Val.text.inj ha).2
        have e2 := (Val.text.inj hb).2
        rw [← e2] at e1
        exact List.append_cancel_left e1
  have key : attr digit W n a = attr digit W n b ∨ tag a = [] := by
    revert hab
    cases a <;> cases b <;> intro hab <;> first
      | exact .inl rfl
      | exact .inr rfl
      | exact absurd hab (by decide)
  rcases key with h | h
  · rw [ha, hb] at h; exact (Val.text.inj h).1
  · rcases attr_tag digit W n a with ⟨⟨k, h1⟩, -⟩ | ⟨-, h1'⟩
    · rw [h1] at ha; simp at ha
    · exact absurd h h1'

/-- **C111** (against): the source node of a file has the node's own signature, although it is another file. -/
theorem C111_srcpath_signature (digit : Char → Bool) (W : World) (n : Path) (hf : W.isDir n = false) : (attr digit W n .srcpath).sig = (Val.node n).sig := by
  simp only [attr, Val.sig]
  rw [srcnode, hf]; exact name_srcnodeBase W n

/-! ## Targets named after sources -/

/-- **C111**: the target is in the directory of the source and is named after it, whenever the name is a proper one and does not begin with `#`. -/
theorem C111_target_place (digit : Char → Bool) (top : Path) (pre suf : Str) (n : Path) (hg : GoodName (pre ++ (splitext digit (name n)).1 ++ suf))
    (hh : (pre ++ (splitext digit (name n)).1 ++ suf).head? ≠ some '#') : targetFromSource digit top pre suf n = dir n ++ [pre ++ (splitext digit (name n)).1 ++ suf] := by
  rw [targetFromSource]
  generalize pre ++ (splitext digit (name n)).1 ++ suf = x at *
  obtain ⟨h1, h2, h3, h4⟩ := hg
  have hx : x.splitOn '/' = [x] := by
    have := List.splitOn_intercalate '/' (ls := [x]) (by simpa using h4) (by simp)
    simpa using this
  unfold Verif.FS.resolve
  split
  · simp at hh
  · simp at h4
  · rw [hx, walk_good _ _ (by simpa using ⟨h1, h2, h3, h4⟩)]

/-- **C111**: two sources in one directory get the same target exactly if they have the same filebase. -/
theorem C111_target_collision (digit : Char → Bool) (top : Path) (pre suf : Str) (n m : Path) (hd : dir n = dir m)
    (hg : GoodName (pre ++ (splitext digit (name n)).1 ++ suf)) (hh : (pre ++ (splitext digit (name n)).1 ++ suf).head? ≠ some '#')
    (hg' : GoodName (pre ++ (splitext digit (name m)).1 ++ suf)) (hh' : (pre ++ (splitext digit (name m)).1 ++ suf).head? ≠ some '#') :
    targetFromSource digit top pre suf n = targetFromSource digit top pre suf m ↔ (splitext digit (name n)).1 = (splitext digit (name m)).1 := by
  rw [C111_target_place digit top pre suf n hg hh, C111_target_place digit top pre suf m hg' hh', hd]
  simp

/-- **C111**: the target's own pieces: its suffix is the builder's suffix and its filebase the builder's prefix and the source's filebase, when the builder's suffix is a suffix (and no number). -/
theorem C111_target_pieces (digit : Char → Bool) (W : World) (top : Path) (pre suf : Str) (n : Path) (he : IsExt digit suf) (hg : GoodName (pre ++ (splitext digit (name n)).1 ++ suf))
    (hh : (pre ++ (splitext digit (name n)).1 ++ suf).head? ≠ some '#') :
    (attr digit W (targetFromSource digit top pre suf n) .suffix).show W = suf ∧
    (attr digit W (targetFromSource digit top pre suf n) .filebase).show W = pre ++ (attr digit W n .filebase).show W ∧ dir (targetFromSource digit top pre suf n) = dir n := by
  rw [C111_target_place digit top pre suf n hg hh]
  simp only [attr, wrap, Val.show, name_append, splitext_ext digit _ suf he, true_and]
  simp [dir]

end Verif.Attrs
