import Verif.Act.Chmod
import Mathlib.Data.Nat.Bitwise
import Mathlib.Data.List.Basic

/-!
# `Chmod` (C82): proofs
-/

namespace Verif.Chmod

theorem split_plain (c : Char) (s : Text) (h : c ∉ s) : split c s = [s] := by
  induction s with
  | nil => rfl
  | cons x xs ih =>
    simp only [List.mem_cons, not_or] at h
    rw [split, if_neg (fun e => h.1 e.symm), ih h.2]

theorem split_append (c : Char) (s r : Text) (h : c ∉ s) : split c (s ++ c :: r) = s :: split c r := by
  induction s with
  | nil => simp [split]
  | cons x xs ih =>
    simp only [List.mem_cons, not_or] at h
    rw [List.cons_append, split, if_neg (fun e => h.1 e.symm), ih h.2]

theorem strip_plain (s : Text) (h : ∀ c ∈ s, c.isWhitespace = false) : strip s = s := by
  have h1 : ∀ l : Text, (∀ c ∈ l, c.isWhitespace = false) → l.dropWhile Char.isWhitespace = l := by
    intro l hl
    cases l with
    | nil => rfl
    | cons x xs => rw [List.dropWhile_cons_of_neg (by simp [hl x List.mem_cons_self])]
  unfold strip
  rw [h1 s h, h1 s.reverse (fun c hc => h c (List.mem_reverse.1 hc)), List.reverse_reverse]

/-- A well-formed clause: someone is named. -/
def Clause.ok (c : Clause) : Prop := c.who ≠ [] ∧ ∀ x ∈ c.who, x = 'u' ∨ x = 'g' ∨ x = 'o' ∨ x = 'a'

theorem who_facts {c : Clause} (h : c.ok) : ∀ x ∈ c.who, x.isWhitespace = false ∧ x ≠ '=' ∧ x ≠ '+' ∧ x ≠ '-' ∧ x ≠ ',' ∧ x.isDigit = false := by
  intro x hx
  rcases h.2 x hx with rfl | rfl | rfl | rfl <;> decide

theorem perm_facts (l : List Perm) : ∀ x ∈ l.map Perm.char, x.isWhitespace = false ∧ x ≠ '=' ∧ x ≠ '+' ∧ x ≠ '-' ∧ x ≠ ',' ∧ x.isDigit = false := by
  intro x hx
  obtain ⟨p, -, rfl⟩ := List.mem_map.1 hx
  cases p <;> decide

theorem op_facts (o : Op) : o.char ≠ ',' ∧ o.char.isDigit = false := by cases o <;> decide

theorem text_comma {c : Clause} (h : c.ok) : ',' ∉ c.text := by
  intro hm
  simp only [Clause.text, List.mem_append, List.mem_cons] at hm
  rcases hm with hm | hm | hm
  · exact (who_facts h _ hm).2.2.2.2.1 rfl
  · exact (op_facts c.op).1 hm.symm
  · exact (perm_facts c.perms _ hm).2.2.2.2.1 rfl

theorem split_modeText : ∀ (cs : List Clause), cs ≠ [] → (∀ c ∈ cs, c.ok) → split ',' (modeText cs) = cs.map Clause.text := by
  intro cs
  induction cs with
  | nil => intro h; exact absurd rfl h
  | cons c cs ih =>
    intro _ hok
    cases cs with
    | nil => exact split_plain _ _ (text_comma (hok c List.mem_cons_self))
    | cons c' cs =>
      rw [modeText, split_append _ _ _ (text_comma (hok c List.mem_cons_self)), ih (by simp) (fun x hx => hok x (List.mem_cons_of_mem _ hx))]
      · rfl
      · simp

theorem operator_text {c : Clause} (h : c.ok) : operator c.text = some c.op.char := by
  have hw : ∀ x, (x = '=' ∨ x = '+' ∨ x = '-') → x ∉ c.who := by
    intro x hx hm
    obtain ⟨-, h1, h2, h3, -⟩ := who_facts h x hm
    rcases hx with rfl | rfl | rfl
    · exact h1 rfl
    · exact h2 rfl
    · exact h3 rfl
  have hp : ∀ x, (x = '=' ∨ x = '+' ∨ x = '-') → x ∉ c.perms.map Perm.char := by
    intro x hx hm
    obtain ⟨-, h1, h2, h3, -⟩ := perm_facts c.perms x hm
    rcases hx with rfl | rfl | rfl
    · exact h1 rfl
    · exact h2 rfl
    · exact h3 rfl
  have hmem : ∀ x, (x = '=' ∨ x = '+' ∨ x = '-') → (x ∈ c.text ↔ x = c.op.char) := by
    intro x hx
    simp only [Clause.text, List.mem_append, List.mem_cons]
    constructor
    · rintro (h | h | h)
      · exact absurd h (hw x hx)
      · exact h
      · exact absurd h (hp x hx)
    · exact fun h => .inr (.inl h)
  unfold operator
  rw [if_congr (hmem '=' (by simp)) rfl rfl, if_congr (hmem '+' (by simp)) rfl rfl, if_congr (hmem '-' (by simp)) rfl rfl]
  cases c.op <;> rfl

theorem split_text {c : Clause} (h : c.ok) : split c.op.char c.text = [c.who, c.perms.map Perm.char] := by
  have hw : c.op.char ∉ c.who := by
    intro hm
    obtain ⟨-, h1, h2, h3, -⟩ := who_facts h _ hm
    cases ho : c.op <;> rw [ho] at h1 h2 h3 <;> simp_all [Op.char]
  have hp : c.op.char ∉ c.perms.map Perm.char := by
    intro hm
    obtain ⟨-, h1, h2, h3, -⟩ := perm_facts _ _ hm
    cases ho : c.op <;> rw [ho] at h1 h2 h3 <;> simp_all [Op.char]
  rw [Clause.text, split_append _ _ _ hw, split_plain _ _ hp]

/-- The loops collect the bits. -/
theorem inner_spec (u : Char) (b : Perm → Nat) (hb : ∀ p, permission u p.char = some (2 ^ b p)) :
    ∀ (ps : List Perm) (acc : Nat), ∃ n, (ps.map Perm.char).foldlM (fun acc p => (permission u p).map fun b => acc ||| b) acc = some n ∧
      ∀ i, n.testBit i = true ↔ acc.testBit i = true ∨ ∃ p ∈ ps, b p = i := by
  intro ps
  induction ps with
  | nil => intro acc; exact ⟨acc, rfl, by simp⟩
  | cons p ps ih =>
    intro acc
    obtain ⟨n, h1, h2⟩ := ih (acc ||| 2 ^ b p)
    refine ⟨n, ?_, fun i => ?_⟩
    · rw [List.map_cons, List.foldlM_cons, hb p]; exact h1
    · rw [h2, Nat.testBit_or, Nat.testBit_two_pow, Bool.or_eq_true, decide_eq_true_eq]
      simp only [List.mem_cons, exists_eq_or_imp, or_assoc]

theorem classBits (k : Class) (p : Perm) : permission k.char p.char = some (2 ^ bitOf k p) := by
  cases k <;> cases p <;> rfl

theorem newPerm_spec (ps : List Perm) : ∀ (us : List Char), (∀ x ∈ us, ∃ k : Class, x = k.char) → ∀ (acc : Nat),
    ∃ n, us.foldlM (fun acc u => (ps.map Perm.char).foldlM (fun acc p => (permission u p).map fun b => acc ||| b) acc) acc = some n ∧
      ∀ i, n.testBit i = true ↔ acc.testBit i = true ∨ ∃ k : Class, k.char ∈ us ∧ ∃ p ∈ ps, bitOf k p = i := by
  intro us
  induction us with
  | nil => intro _ acc; exact ⟨acc, rfl, by simp⟩
  | cons u us ih =>
    intro hu acc
    obtain ⟨k, rfl⟩ := hu u List.mem_cons_self
    obtain ⟨n, h1, h2⟩ := inner_spec k.char (bitOf k) (classBits k) ps acc
    obtain ⟨n', h3, h4⟩ := ih (fun x hx => hu x (List.mem_cons_of_mem _ hx)) n
    refine ⟨n', ?_, fun i => ?_⟩
    · rw [List.foldlM_cons, h1]; exact h3
    · rw [h4, h2, or_assoc]
      refine or_congr_right ?_
      constructor
      · rintro (⟨p, hp, hi⟩ | ⟨k', hk, r⟩)
        · exact ⟨k, List.mem_cons_self, p, hp, hi⟩
        · exact ⟨k', List.mem_cons_of_mem _ hk, r⟩
      · rintro ⟨k', hk, r⟩
        rcases List.mem_cons.1 hk with e | hk
        · left
          have : k' = k := by cases k <;> cases k' <;> simp_all [Class.char]
          rw [this] at r; exact r
        · exact .inr ⟨k', hk, r⟩

theorem expand_spec {c : Clause} (h : c.ok) : (∀ x ∈ expand c.who, ∃ k : Class, x = k.char) ∧ ∀ k : Class, k.char ∈ expand c.who ↔ c.for k := by
  refine ⟨fun x hx => ?_, fun k => ?_⟩
  · obtain ⟨y, hy, hx⟩ := List.mem_flatMap.1 hx
    rcases h.2 y hy with rfl | rfl | rfl | rfl
    · exact ⟨.user, by simpa [Class.char] using hx⟩
    · exact ⟨.group, by simpa [Class.char] using hx⟩
    · exact ⟨.other, by simpa [Class.char] using hx⟩
    · have hx' : x = 'u' ∨ x = 'g' ∨ x = 'o' := by simpa using hx
      rcases hx' with rfl | rfl | rfl
      · exact ⟨.user, rfl⟩
      · exact ⟨.group, rfl⟩
      · exact ⟨.other, rfl⟩
  · unfold expand Clause.for
    rw [List.mem_flatMap]
    constructor
    · rintro ⟨y, hy, hk⟩
      split at hk
      · rename_i e; subst e; exact .inr hy
      · rw [List.mem_singleton] at hk; rw [hk]; exact .inl hy
    · rintro (hk | ha)
      · refine ⟨k.char, hk, ?_⟩
        cases k <;> simp [Class.char]
      · refine ⟨'a', ha, ?_⟩
        cases k <;> simp [Class.char]

theorem bitOf_inj {k k' : Class} {p p' : Perm} (h : bitOf k p = bitOf k' p') : k = k' ∧ p = p' := by
  cases k <;> cases k' <;> cases p <;> cases p' <;> simp_all [bitOf]

theorem bitOf_lt (k : Class) (p : Perm) : bitOf k p < 12 := by cases k <;> cases p <;> simp [bitOf]

/-- One clause. -/
theorem operation_spec {c : Clause} (h : c.ok) (hset : c.op = .set → ∀ k, c.for k) (cur : Nat) :
    ∃ m, operation c.text cur = some m ∧ perms m = c.posix (perms cur) ∧ (c.op ≠ .set → ∀ i, 9 ≤ i → i < 12 → m.testBit i = cur.testBit i) := by
  obtain ⟨hex, hfor⟩ := expand_spec h
  obtain ⟨n, h1, h2⟩ := newPerm_spec c.perms (expand c.who) hex 0
  have hn : ∀ i, n.testBit i = true ↔ ∃ k : Class, c.for k ∧ ∃ p ∈ c.perms, bitOf k p = i := by
    intro i
    rw [h2]
    simp only [Nat.zero_testBit, Bool.false_eq_true, false_or, hfor]
  have hkp : ∀ k p, n.testBit (bitOf k p) = (decide (c.for k) && decide (p ∈ c.perms)) := by
    intro k p
    rw [Bool.eq_iff_iff, hn]
    simp only [Bool.and_eq_true, decide_eq_true_eq]
    constructor
    · rintro ⟨k', hk, p', hp, e⟩
      obtain ⟨rfl, rfl⟩ := bitOf_inj e
      exact ⟨hk, hp⟩
    · rintro ⟨hk, hp⟩
      exact ⟨k, hk, p, hp, rfl⟩
  have hhigh : ∀ i, 9 ≤ i → n.testBit i = false := by
    intro i hi
    rw [Bool.eq_false_iff]
    intro e
    obtain ⟨k, -, p, -, rfl⟩ := (hn i).1 e
    revert hi
    cases k <;> cases p <;> simp [bitOf]
  have hop : operation c.text cur = some (apply c.op.char cur n) := by
    unfold operation
    rw [operator_text h]
    dsimp only
    rw [split_text h]
    dsimp only
    rw [strip_plain _ fun x hx => (who_facts h x hx).1, strip_plain _ fun x hx => (perm_facts _ x hx).1]
    unfold newPerm
    rw [h1]; rfl
  refine ⟨_, hop, ?_, ?_⟩
  · funext k p
    unfold Clause.posix perms
    cases ho : c.op with
    | set =>
      have := hset ho k
      simp [apply, Op.char, hkp, this]
    | add =>
      by_cases hk : c.for k <;> simp [apply, Op.char, hkp, hk, Nat.testBit_or]
    | remove =>
      have h4 : Nat.testBit 4095 (bitOf k p) = true := by cases k <;> cases p <;> decide
      by_cases hk : c.for k <;> simp [apply, Op.char, hkp, hk, Nat.testBit_and, Nat.testBit_xor, h4]
  · intro hne i hi hi2
    have h4 : Nat.testBit 4095 i = true := by
      have : i = 9 ∨ i = 10 ∨ i = 11 := by omega
      rcases this with rfl | rfl | rfl <;> decide
    cases ho : c.op with
    | set => exact absurd ho hne
    | add => simp [apply, Op.char, Nat.testBit_or, hhigh i hi]
    | remove => simp [apply, Op.char, Nat.testBit_and, Nat.testBit_xor, hhigh i hi, h4]

theorem not_digits {cs : List Clause} (hne : cs ≠ []) (hok : ∀ c ∈ cs, c.ok) : (modeText cs).all Char.isDigit = false := by
  cases cs with
  | nil => exact absurd rfl hne
  | cons c cs =>
    rw [List.all_eq_false]
    refine ⟨c.op.char, ?_, by simp [(op_facts c.op).2]⟩
    cases cs with
    | nil => simp [modeText, Clause.text]
    | cons c' cs => simp [modeText, Clause.text]

/-- **C82** `Chmod` with a symbolic mode does what POSIX `chmod` does: the clauses one after the other.  Partial: a clause with `=` must be for all classes (`Ex.set_for_one_class`),
and a clause must name its classes (`Ex.nobody_named`). -/
theorem C82_chmod_partial (cs : List Clause) (hne : cs ≠ []) (hok : ∀ c ∈ cs, c.ok) (hset : ∀ c ∈ cs, c.op = .set → ∀ k, c.for k) (cur : Nat) :
    (chmod (modeText cs) cur).2 = true ∧ perms (chmod (modeText cs) cur).1 = cs.foldl (fun f c => c.posix f) (perms cur) ∧
    ((∀ c ∈ cs, c.op ≠ .set) → ∀ i, 9 ≤ i → i < 12 → (chmod (modeText cs) cur).1.testBit i = cur.testBit i) := by
  unfold chmod
  rw [not_digits hne hok, if_neg (by simp), split_modeText cs hne hok]
  clear hne
  induction cs generalizing cur with
  | nil => exact ⟨rfl, rfl, fun _ _ _ _ => rfl⟩
  | cons c cs ih =>
    obtain ⟨m, h1, h2, h3⟩ := operation_spec (hok c List.mem_cons_self) (hset c List.mem_cons_self) cur
    obtain ⟨i1, i2, i3⟩ := ih (fun x hx => hok x (List.mem_cons_of_mem _ hx)) (fun x hx => hset x (List.mem_cons_of_mem _ hx)) m
    have e : List.foldl step (cur, true) (List.map Clause.text (c :: cs)) = List.foldl step (m, true) (List.map Clause.text cs) := by
      rw [List.map_cons, List.foldl_cons]
      simp only [step, if_true, h1]
    rw [e]
    refine ⟨i1, ?_, fun hs i hi hi2 => ?_⟩
    · rw [i2, h2]; rfl
    · rw [i3 (fun x hx => hs x (List.mem_cons_of_mem _ hx)) i hi hi2]
      exact h3 (hs c List.mem_cons_self) i hi hi2

/-- The octal digits of a mode. -/
def digits (ds : List (Fin 8)) : Text := ds.map fun d => Char.ofNat (48 + d.val)

/-- **C82** A text of octal digits is that number. -/
theorem C82_octal (ds : List (Fin 8)) (hne : ds ≠ []) (cur : Nat) :
    chmod (digits ds) cur = (ds.foldl (fun acc (d : Fin 8) => acc * 8 + d.val) 0, true) := by
  have hd : ∀ d : Fin 8, (Char.ofNat (48 + d.val)).isDigit = true ∧ ('0' ≤ Char.ofNat (48 + d.val) ∧ Char.ofNat (48 + d.val) ≤ '7') ∧ (Char.ofNat (48 + d.val)).toNat - 48 = d.val := by decide
  have h1 : (digits ds).all Char.isDigit = true := by
    rw [List.all_eq_true]
    intro x hx
    obtain ⟨d, -, rfl⟩ := List.mem_map.1 hx
    exact (hd d).1
  have h2 : ∀ (l : List (Fin 8)) acc, (digits l).foldlM (fun acc c => if '0' ≤ c ∧ c ≤ '7' then some (acc * 8 + (c.toNat - 48)) else none) acc =
      some (l.foldl (fun acc (d : Fin 8) => acc * 8 + d.val) acc) := by
    intro l
    induction l with
    | nil => intro acc; rfl
    | cons d l ih =>
      intro acc
      have : digits (d :: l) = Char.ofNat (48 + d.val) :: digits l := rfl
      rw [this, List.foldlM_cons, if_pos (hd d).2.1, (hd d).2.2]
      exact ih _
  unfold chmod
  rw [if_pos h1]
  have h3 : octal (digits ds) = some (ds.foldl (fun acc (d : Fin 8) => acc * 8 + d.val) 0) := by
    unfold octal
    rw [if_neg (by cases ds with | nil => exact absurd rfl hne | cons => simp [digits])]
    exact h2 ds 0
  rw [h3]

namespace Ex

/-- `ug+rw,o-x,a-w` on 0o4751. -/
def cs : List Clause := [⟨['u', 'g'], .add, [.read, .write]⟩, ⟨['o'], .remove, [.exec]⟩, ⟨['a'], .remove, [.write]⟩]

theorem nonvacuous : modeText cs = "ug+rw,o-x,a-w".toList ∧ chmod (modeText cs) 0o4751 = (0o4550, true) := by decide +kernel

theorem applied : perms (chmod (modeText cs) 0o4751).1 .group .read = true ∧ (chmod (modeText cs) 0o4751).1.testBit 11 = true := by
  have hok : ∀ c ∈ cs, c.ok := by unfold Clause.ok; decide
  have hns : ∀ c ∈ cs, c.op ≠ .set := by decide
  obtain ⟨-, h2, h3⟩ := C82_chmod_partial cs (by decide) hok (fun c hc h => absurd h (hns c hc)) 0o4751
  exact ⟨by rw [h2]; decide, by rw [h3 hns 11 (by decide) (by decide)]; decide⟩

theorem octal_applied : chmod "755".toList 0 = (0o755, true) := C82_octal [7, 5, 5] (by simp) 0

/-- `u=rwx,g=rx` on 0o640: the owner is left with nothing (POSIX: 0o750), since each `=` sets the whole mode. -/
theorem set_for_one_class : chmod "u=rwx,g=rx".toList 0o640 = (0o050, true) ∧ chmod "u=rw".toList 0o755 = (0o600, true) ∧
    ([⟨['u'], .set, [.read, .write, .exec]⟩, ⟨['g'], .set, [.read, .exec]⟩] : List Clause).foldl (fun f c => c.posix f) (perms 0o640) .user .exec = true := by decide +kernel

/-- `+x` does nothing (POSIX: for all). -/
theorem nobody_named : chmod "+x".toList 0o644 = (0o644, true) := by decide +kernel

/-- A wrong clause is an error, but the clauses before it have been done. -/
theorem half_done : chmod "u+x,g+q".toList 0o644 = (0o744, false) := by decide +kernel

end Ex

end Verif.Chmod
