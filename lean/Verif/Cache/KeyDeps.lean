import Verif.Cache.Key

/-!
# C27: the cache key down to the contents of the files

`Key.lean` takes the signatures of the dependencies as given.  Here they are computed: files
(`FS.py:2775-2787, 3248-3280`), aliases (`Node/Alias.py:99-103, 138-155`), directories
(`FS.py:1953-1965`, `Node/__init__.py` `get_contents_dir`).  `H` is `hash_signature`: any function
with values of a fixed length `L`; nothing is assumed about collisions.  If two targets share a
key, either they have the same inputs or two different strings *that were hashed for them* have
the same hash.
-/

namespace Verif.Cache.Key

mutual
/-- A dependency. A missing file counts as a file that contains `NOFILE` (`FS.py:2777-2779`). -/
inductive Dep where
  | file (contents : Str)
  | alias (l : Deps)
  /-- entries sorted by name -/
  | dir (l : Deps)
/-- Named dependencies: the sources of an alias, the entries of a directory. -/
inductive Deps where
  | nil
  | cons (name : Str) (d : Dep) (l : Deps)
end

mutual
/-- What is hashed for a dependency: the contents of a file, the signatures of the sources of an alias, the
signatures and names of the entries of a directory. -/
def text (H : Str → Str) : Dep → Str
  | .file c => c
  | .alias l => sigs H l
  | .dir l => listing H l
/-- `Alias.get_contents`, `Node/Alias.py:99-103`. -/
def sigs (H : Str → Str) : Deps → Str
  | .nil => []
  | .cons _ d l => H (text H d) ++ sigs H l
/-- `get_contents_dir`, `Node/__init__.py`: a line for each entry. -/
def listing (H : Str → Str) : Deps → Str
  | .nil => []
  | .cons n d l => H (text H d) ++ ([' '] ++ n ++ ['\n']) ++ listing H l
end

/-- `get_cachedir_csig`, `get_csig`. -/
def csig (H : Str → Str) (d : Dep) : Str := H (text H d)

/-- The key of a target: `FS.py:3674-3721`. -/
def targetKey (H : Str → Str) (deps : List Dep) (actionText path : Str) : Str :=
  cacheKey H (deps.map (csig H)) (H actionText) path

mutual
/-- The strings that are hashed for a dependency. -/
def hashed (H : Str → Str) : Dep → List Str
  | .file c => [c]
  | .alias l => sigs H l :: hashedAll H l
  | .dir l => listing H l :: hashedAll H l
def hashedAll (H : Str → Str) : Deps → List Str
  | .nil => []
  | .cons _ d l => hashed H d ++ hashedAll H l
end

/-- The strings that are hashed for the key of a target. -/
def hashedFor (H : Str → Str) (deps : List Dep) (actionText path : Str) : List Str :=
  joinComma (deps.map (csig H) ++ [H actionText] ++ [path]) :: actionText :: deps.flatMap (hashed H)

/-- Two different strings, one of each list, with the same hash. -/
def Collision (H : Str → Str) (S S' : List Str) : Prop := ∃ x ∈ S, ∃ y ∈ S', x ≠ y ∧ H x = H y

/-- 0: a file, 1: an alias, 2: a directory. -/
def kind : Dep → Nat
  | .file _ => 0
  | .alias _ => 1
  | .dir _ => 2

mutual
/-- Two dependencies with the same contents, all the way down. -/
inductive Alike (H : Str → Str) : Dep → Dep → Prop
  | file (c : Str) : Alike H (.file c) (.file c)
  | alias {l l' : Deps} : AlikeAll H false l l' → Alike H (.alias l) (.alias l')
  | dir {l l' : Deps} : AlikeAll H true l l' → Alike H (.dir l) (.dir l')
  /-- a file that contains what would be hashed for an alias or a directory, and the like -/
  | mixed {d d' : Dep} : kind d ≠ kind d' → text H d = text H d' → Alike H d d'
/-- The same, one by one; `named`: with the same names. -/
inductive AlikeAll (H : Str → Str) : Bool → Deps → Deps → Prop
  | nil (named : Bool) : AlikeAll H named .nil .nil
  | cons {named : Bool} {n n' : Str} {d d' : Dep} {l l' : Deps} : (named = true → n = n') → Alike H d d' →
      AlikeAll H named l l' → AlikeAll H named (.cons n d l) (.cons n' d' l')
end

mutual
/-- No name of an entry of a directory has a line end in it. -/
def NamesOK : Dep → Prop
  | .file _ => True
  | .alias l => NamesOKAll l
  | .dir l => NamesOKAll l
def NamesOKAll : Deps → Prop
  | .nil => True
  | .cons n d l => '\n' ∉ n ∧ NamesOK d ∧ NamesOKAll l
end

/-! ## Proofs -/

theorem Collision.mono {H : Str → Str} {S S' T T' : List Str} (h : Collision H S S') (h1 : ∀ x ∈ S, x ∈ T)
    (h2 : ∀ x ∈ S', x ∈ T') : Collision H T T' := by
  obtain ⟨x, hx, y, hy, h⟩ := h
  exact ⟨x, h1 x hx, y, h2 y hy, h⟩

theorem text_mem_hashed (H : Str → Str) (d : Dep) : text H d ∈ hashed H d := by
  cases d <;> simp [text, hashed]

theorem upto_newline {a b r s : Str} (ha : '\n' ∉ a) (hb : '\n' ∉ b) (h : a ++ '\n' :: r = b ++ '\n' :: s) :
    a = b ∧ r = s := by
  induction a generalizing b with
  | nil =>
    cases b with
    | nil => simpa using h
    | cons y b =>
      simp only [List.nil_append, List.cons_append, List.cons.injEq] at h
      simp [← h.1] at hb
  | cons x a ih =>
    cases b with
    | nil =>
      simp only [List.nil_append, List.cons_append, List.cons.injEq] at h
      simp [h.1] at ha
    | cons y b =>
      simp only [List.cons_append, List.cons.injEq] at h
      simp only [List.mem_cons, not_or] at ha hb
      obtain ⟨h1, h2⟩ := ih ha.2 hb.2 h.2
      exact ⟨by rw [h.1, h1], h2⟩

section
variable {H : Str → Str} {L : Nat}

mutual
theorem alike_of_csig (hH : ∀ s, (H s).length = L) (hL : 0 < L) : ∀ (d d' : Dep), NamesOK d → NamesOK d' →
    csig H d = csig H d' → Alike H d d' ∨ Collision H (hashed H d) (hashed H d')
  | d, d', hn, hn', h => by
    by_cases ht : text H d = text H d'
    · cases d with
      | file c =>
        cases d' with
        | file c' => simp only [text] at ht; subst ht; exact Or.inl (.file c)
        | alias l => exact Or.inl (.mixed (by simp [kind]) ht)
        | dir l => exact Or.inl (.mixed (by simp [kind]) ht)
      | «alias» l =>
        cases d' with
        | file c' => exact Or.inl (.mixed (by simp [kind]) ht)
        | «alias» l' =>
          rcases alike_of_sigs hH hL l l' hn hn' (by simpa [text] using ht) with h1 | h1
          · exact Or.inl (.alias h1)
          · exact Or.inr (h1.mono (fun x hx => by simp [hashed, hx]) (fun x hx => by simp [hashed, hx]))
        | dir l => exact Or.inl (.mixed (by simp [kind]) ht)
      | dir l =>
        cases d' with
        | file c' => exact Or.inl (.mixed (by simp [kind]) ht)
        | «alias» l' => exact Or.inl (.mixed (by simp [kind]) ht)
        | dir l' =>
          rcases alike_of_listing hH hL l l' hn hn' (by simpa [text] using ht) with h1 | h1
          · exact Or.inl (.dir h1)
          · exact Or.inr (h1.mono (fun x hx => by simp [hashed, hx]) (fun x hx => by simp [hashed, hx]))
    · exact Or.inr ⟨_, text_mem_hashed H d, _, text_mem_hashed H d', ht, h⟩
theorem alike_of_sigs (hH : ∀ s, (H s).length = L) (hL : 0 < L) : ∀ (l l' : Deps), NamesOKAll l → NamesOKAll l' →
    sigs H l = sigs H l' → AlikeAll H false l l' ∨ Collision H (hashedAll H l) (hashedAll H l')
  | .nil, .nil, _, _, _ => Or.inl (.nil false)
  | .nil, .cons n d l, _, _, h => by
    have := congrArg List.length h
    simp [sigs, hH] at this
    omega
  | .cons n d l, .nil, _, _, h => by
    have := congrArg List.length h
    simp [sigs, hH] at this
    omega
  | .cons n d l, .cons n' d' l', hn, hn', h => by
    simp only [sigs] at h
    obtain ⟨h1, h2⟩ := List.append_inj h (by simp [hH])
    simp only [NamesOKAll] at hn hn'
    rcases alike_of_csig hH hL d d' hn.2.1 hn'.2.1 h1 with a | a
    · rcases alike_of_sigs hH hL l l' hn.2.2 hn'.2.2 h2 with b | b
      · exact Or.inl (.cons (by simp) a b)
      · exact Or.inr (b.mono (fun x hx => by simp [hashedAll, hx]) (fun x hx => by simp [hashedAll, hx]))
    · exact Or.inr (a.mono (fun x hx => by simp [hashedAll, hx]) (fun x hx => by simp [hashedAll, hx]))
theorem alike_of_listing (hH : ∀ s, (H s).length = L) (hL : 0 < L) : ∀ (l l' : Deps), NamesOKAll l → NamesOKAll l' →
    listing H l = listing H l' → AlikeAll H true l l' ∨ Collision H (hashedAll H l) (hashedAll H l')
  | .nil, .nil, _, _, _ => Or.inl (.nil true)
  | .nil, .cons n d l, _, _, h => by
    have := congrArg List.length h
    simp [listing] at this
  | .cons n d l, .nil, _, _, h => by
    have := congrArg List.length h
    simp [listing] at this
  | .cons n d l, .cons n' d' l', hn, hn', h => by
    simp only [listing, List.append_assoc] at h
    obtain ⟨h1, h2⟩ := List.append_inj h (by simp [hH])
    simp only [NamesOKAll] at hn hn'
    simp only [List.cons_append, List.nil_append, List.cons.injEq, true_and] at h2
    obtain ⟨h3, h4⟩ := upto_newline hn.1 hn'.1 h2
    rcases alike_of_csig hH hL d d' hn.2.1 hn'.2.1 h1 with a | a
    · rcases alike_of_listing hH hL l l' hn.2.2 hn'.2.2 h4 with b | b
      · exact Or.inl (.cons (fun _ => h3) a b)
      · exact Or.inr (b.mono (fun x hx => by simp [hashedAll, hx]) (fun x hx => by simp [hashedAll, hx]))
    · exact Or.inr (a.mono (fun x hx => by simp [hashedAll, hx]) (fun x hx => by simp [hashedAll, hx]))
end

theorem alike_all (hH : ∀ s, (H s).length = L) (hL : 0 < L) : ∀ (l l' : List Dep), (∀ d ∈ l, NamesOK d) →
    (∀ d ∈ l', NamesOK d) → l.map (csig H) = l'.map (csig H) →
    (l.length = l'.length ∧ ∀ p ∈ l.zip l', Alike H p.1 p.2) ∨ Collision H (l.flatMap (hashed H)) (l'.flatMap (hashed H)) := by
  intro l
  induction l with
  | nil =>
    intro l' _ _ h
    cases l' with
    | nil => exact Or.inl ⟨rfl, by simp⟩
    | cons d l => simp at h
  | cons d l ih =>
    intro l' hn hn' h
    cases l' with
    | nil => simp at h
    | cons d' l' =>
      simp only [List.map_cons, List.cons.injEq] at h
      rcases alike_of_csig hH hL d d' (hn d (by simp)) (hn' d' (by simp)) h.1 with a | a
      · rcases ih l' (fun x hx => hn x (by simp [hx])) (fun x hx => hn' x (by simp [hx])) h.2 with ⟨b1, b2⟩ | b
        · refine Or.inl ⟨by simp [b1], ?_⟩
          intro p hp
          rw [List.zip_cons_cons] at hp
          rcases List.mem_cons.1 hp with hp | hp
          · rw [hp]; exact a
          · exact b2 p hp
        · exact Or.inr (b.mono (by intro x hx; simp only [List.flatMap_cons, List.mem_append]; exact Or.inr hx)
            (by intro x hx; simp only [List.flatMap_cons, List.mem_append]; exact Or.inr hx))
      · exact Or.inr (a.mono (by intro x hx; simp only [List.flatMap_cons, List.mem_append]; exact Or.inl hx)
            (by intro x hx; simp only [List.flatMap_cons, List.mem_append]; exact Or.inl hx))

/-- **C27** (partial: dependencies are files, aliases and directories, not values; paths do not look like lists of
signatures). If two targets have the same cache key, they have the same path, the same text of
the action and, one by one, dependencies with the same contents — or the hash function has a
collision between strings that were hashed for them. -/
theorem C27_key_covers_contents_partial (hH : ∀ s, IsSig L (H s)) (hL : 0 < L) {deps deps' : List Dep}
    {action action' path path' : Str} (hn : ∀ d ∈ deps, NamesOK d) (hn' : ∀ d ∈ deps', NamesOK d)
    (hp : PathOK L path) (hp' : PathOK L path')
    (h : targetKey H deps action path = targetKey H deps' action' path') :
    (path = path' ∧ action = action' ∧ deps.length = deps'.length ∧ ∀ p ∈ deps.zip deps', Alike H p.1 p.2) ∨
    Collision H (hashedFor H deps action path) (hashedFor H deps' action' path') := by
  have hlen : ∀ s, (H s).length = L := fun s => (hH s).1
  have e : ∀ (c : List Str) a p, cacheKey H c a p = H (joinComma (c ++ [a] ++ [p])) := by
    intro c a p
    unfold cacheKey hashCollect
    split
    · rename_i s hs
      have := congrArg List.length hs
      simp at this
    · rfl
  unfold targetKey at h
  rw [e, e] at h
  by_cases hj : joinComma (deps.map (csig H) ++ [H action] ++ [path]) = joinComma (deps'.map (csig H) ++ [H action'] ++ [path'])
  · have hs : ∀ (l : List Dep) (a : Str), ∀ s ∈ l.map (csig H) ++ [H a], IsSig L s := by
      intro l a s hs
      rcases List.mem_append.1 hs with hs | hs
      · obtain ⟨d, _, rfl⟩ := List.mem_map.1 hs
        exact hH _
      · simp only [List.mem_singleton] at hs; rw [hs]; exact hH _
    obtain ⟨h1, h2⟩ := joinComma_inj (L := L) (hs deps action) (hs deps' action') hp hp' hj
    obtain ⟨h3, h4⟩ := List.append_inj' h1 rfl
    simp only [List.cons.injEq, and_true] at h4
    by_cases ha : action = action'
    · rcases alike_all hlen hL deps deps' hn hn' h3 with ⟨b1, b2⟩ | b
      · exact Or.inl ⟨h2, ha, b1, b2⟩
      · exact Or.inr (b.mono (by intro x hx; simp only [hashedFor, List.mem_cons]; exact Or.inr (Or.inr hx))
          (by intro x hx; simp only [hashedFor, List.mem_cons]; exact Or.inr (Or.inr hx)))
    · exact Or.inr ⟨action, by simp [hashedFor], action', by simp [hashedFor], ha, h4⟩
  · exact Or.inr ⟨_, by simp [hashedFor], _, by simp [hashedFor], hj, h⟩

end

/-- For files only, without the word `Alike`: the contents are the same. -/
theorem C27_files_partial {H : Str → Str} {L : Nat} (hH : ∀ s, IsSig L (H s)) (hL : 0 < L) {files files' : List Str}
    {action action' path path' : Str} (hp : PathOK L path) (hp' : PathOK L path')
    (h : targetKey H (files.map .file) action path = targetKey H (files'.map .file) action' path') :
    (path = path' ∧ action = action' ∧ files = files') ∨
    Collision H (hashedFor H (files.map .file) action path) (hashedFor H (files'.map .file) action' path') := by
  rcases C27_key_covers_contents_partial hH hL (by simp [NamesOK]) (by simp [NamesOK]) hp hp' h with ⟨h1, h2, h3, h4⟩ | h1
  · refine Or.inl ⟨h1, h2, ?_⟩
    simp only [List.length_map] at h3
    clear h h1 h2 hp hp'
    induction files generalizing files' with
    | nil => cases files' with
      | nil => rfl
      | cons _ _ => simp at h3
    | cons f files ih => cases files' with
      | nil => simp at h3
      | cons f' files' =>
        have h5 := h4 (.file f, .file f') (by simp)
        have : f = f' := by
          cases h5 with
          | file => rfl
          | mixed hk _ => simp [kind] at hk
        rw [this, ih (by intro p hp; exact h4 p (by simp only [List.map_cons, List.zip_cons_cons, List.mem_cons]; exact Or.inr hp)) (by simpa using h3)]
  · exact Or.inr h1

/-- FOUND: an alias without sources and an empty file have the same signature; so have an alias and a file
that contains the signatures of its sources; so have a missing file and one that contains
`SCONS_MAGIC_MISSING_FILE_STRING`. -/
theorem C27_counterexample_kinds (H : Str → Str) (a p : Str) (f : Str) :
    targetKey H [.alias .nil] a p = targetKey H [.file []] a p ∧
    targetKey H [.alias (.cons "f".toList (.file f) .nil)] a p = targetKey H [.file (H f)] a p := by
  constructor
  · rfl
  · simp [targetKey, csig, text, sigs]

/-- FOUND: without the condition on paths it is false, for every hash: a target below a directory whose name is the
signature of an action, a comma and a blank, has the key of a target with one dependency more. -/
theorem C27_counterexample_path (H : Str → Str) (c a p : Str) :
    targetKey H [.file c] a p = targetKey H [] c (H a ++ [',', ' '] ++ p) := by
  simp [targetKey, cacheKey, hashCollect, csig, text, joinComma]

/-- Non-vacuity: a hash with values of two digits, for which two targets have different keys, and two that share
one because of a collision. -/
def tinyHash (s : Str) : Str := if s.length % 2 = 0 then "0a".toList else "f1".toList

example : (∀ s, IsSig 2 (tinyHash s)) ∧ PathOK 2 "obj, x".toList ∧
    targetKey tinyHash [.file "int x;".toList, .dir (.cons "h".toList (.file []) .nil)] "cc".toList "x.o".toList ≠
      targetKey tinyHash [.file "int x;".toList, .dir (.cons "h".toList (.file []) .nil)] "cc".toList "xy.o".toList ∧
    targetKey tinyHash [.file "ab".toList] [] "x".toList = targetKey tinyHash [.file "cd".toList] [] "x".toList := by
  refine ⟨?_, ?_, by decide +kernel, by decide +kernel⟩
  · intro s
    unfold tinyHash
    split <;> exact ⟨by decide, by decide⟩
  · rintro s rest ⟨hl, _⟩ h
    match s, hl with
    | [x, y], _ => simp at h

end Verif.Cache.Key
