/-!
# `Install` (C81)

Models `copyFunc` (/repo/SCons/Tool/install.py 139-161) and `scons_copytree` (46-133) with `shutil.copy2` and `shutil.copystat`.

A file system object is a tree.  Simplifications: no links (with `symlinks=False` a link in the source is copied as what it points to), no special files, the source is readable,
source and destination are different places of which none contains the other; a mode is a number as of `st_mode` without the type, only the
write bit of the owner has an effect; times are left out.
-/

namespace Verif.Install

abbrev Name := String

/-- A file with its content and its mode, or a directory with its mode and its entries: `names` as listed by `os.listdir`, `sub n` what `n` is. -/
inductive Tree (B : Type)
  | file (c : B) (m : Nat)
  | dir (m : Nat) (names : List Name) (sub : Name → Tree B)

variable {B : Type}

/-- `S_IWRITE` is set, or nobody asks (`su`: the superuser). -/
def canWrite (su : Bool) (m : Nat) : Bool := su || m.testBit 7

/-- What is under a name. -/
def Tree.entry : Tree B → Name → Option (Tree B)
  | .file _ _, _ => none
  | .dir _ names sub, n => if n ∈ names then some (sub n) else none

/-- An entry is made or replaced. -/
def Tree.put : Tree B → Name → Tree B → Tree B
  | .file c m, _, _ => .file c m
  | .dir m names sub, n, x => .dir m (if n ∈ names then names else names ++ [n]) (fun k => if k = n then x else sub k)

def Tree.mode : Tree B → Nat
  | .file _ m => m
  | .dir m _ _ => m

/-- `os.chmod`. -/
def Tree.chmod (m : Nat) : Tree B → Tree B
  | .file c _ => .file c m
  | .dir _ names sub => .dir m names sub

/-- Opening a file for writing and copying content and mode: what is there is a file, or nothing in a directory with the mode `dm`; a directory cannot be opened. -/
def write (su : Bool) (dm : Nat) (c : B) (m : Nat) : Option (Tree B) → Option (Tree B) × Bool
  | none => if canWrite su dm then (some (.file c m), true) else (none, false)
  | some (.file c' m') => if canWrite su m' then (some (.file c m), true) else (some (.file c' m'), false)
  | some (.dir m' names sub) => (some (.dir m' names sub), false)

/-- An entry of a directory becomes what an operation has made of it. -/
def Tree.after (d : Tree B) (n : Name) (r : Option (Tree B)) : Tree B :=
  match r with
  | some x => d.put n x
  | none => d

/-- `shutil.copy2(src, dst)` of a file named `n` in a directory with mode `dm`: if `dst` is a directory, the copy is made in it, under the name of the source. The `Bool`: no error. -/
def copy2 (su : Bool) (dm : Nat) (n : Name) (c : B) (m : Nat) (d : Option (Tree B)) : Option (Tree B) × Bool :=
  match d with
  | some (.dir m' names sub) =>
    (some ((Tree.dir m' names sub).after n (write su m' c m ((Tree.dir m' names sub).entry n)).1), (write su m' c m ((Tree.dir m' names sub).entry n)).2)
  | d => write su dm c m d

/-- The directory that `os.makedirs(dst, exist_ok=True)` makes (its mode will be replaced). -/
def newDir : Tree B → Tree B := fun s => .dir 493 [] (fun _ => s)

/-- One round of the loop of `scons_copytree` (install.py 97-124), from what a copy of the source entry named `n` gives. `acc`: the destination directory so far, and whether there was no error so far. -/
def round (copy : Nat → Option (Tree B) → Option (Tree B) × Bool) (n : Name) (acc : Tree B × Bool) : Tree B × Bool :=
  (acc.1.after n (copy acc.1.mode (acc.1.entry n)).1, acc.2 && (copy acc.1.mode (acc.1.entry n)).2)

/-- The copy of a tree named `n` to a place in a directory with mode `dm` where `d` is: `copy_function` or `scons_copytree` (install.py 46-133).  An error does not stop the loop. -/
def copyTree (su : Bool) : Tree B → Nat → Name → Option (Tree B) → Option (Tree B) × Bool
  | .file c m, dm, n, d => copy2 su dm n c m d
  | .dir m names sub, dm, _, d =>
    match d with
    | some (.file c' m') => (some (.file c' m'), false)
    | some (.dir m' names' sub') =>
      let r := names.foldl (fun acc k => round (fun dm' x => copyTree su (sub k) dm' k x) k acc) (.dir m' names' sub', true)
      (some (r.1.chmod m), r.2)
    | none =>
      if canWrite su dm then
        let r := names.foldl (fun acc k => round (fun dm' x => copyTree su (sub k) dm' k x) k acc) (newDir (.dir m names sub), true)
        (some (r.1.chmod m), r.2)
      else (none, false)

/-- `copyFunc` (install.py 139-161): a directory is copied, a file is copied and made writable.  (`dm`: mode of the directory where `dest` is.) -/
def copyFunc (su : Bool) (dm : Nat) (n : Name) (s : Tree B) (d : Option (Tree B)) : Option (Tree B) × Bool :=
  match s with
  | .dir m names sub => copyTree su (.dir m names sub) dm n d
  | .file c m =>
    match copy2 su dm n c m d with
    | (some r, true) => (some (r.chmod (m ||| 128)), true)
    | e => e

/-! ### Specification -/

/-- What is under a path. -/
def look : Tree B → List Name → Option (Tree B)
  | t, [] => some t
  | t, n :: p => (t.entry n).bind fun x => look x p

/-- A file of the source meets no directory, and a directory of the source meets no file, in the destination. -/
def Fits (s d : Tree B) : Prop :=
  ∀ p, (∀ c m, look s p = some (.file c m) → ∀ m' ns f, look d p ≠ some (.dir m' ns f)) ∧
    ∀ m ns f, look s p = some (.dir m ns f) → ∀ c' m', look d p ≠ some (.file c' m')

/-- What is in the destination under a path of the source can be written. -/
def Writable (s d : Tree B) : Prop := ∀ p x y, look s p = some x → look d p = some y → y.mode.testBit 7 = true

/-- Names occur once in a directory. -/
inductive Listed : Tree B → Prop
  | file (c : B) (m : Nat) : Listed (.file c m)
  | dir (m : Nat) (names : List Name) (sub : Name → Tree B) (h : names.Nodup) (hs : ∀ n ∈ names, Listed (sub n)) : Listed (.dir m names sub)

/-- `r` holds a copy of `s`: the same files with the same modes, the same directories with the same modes. -/
def HasCopy (s r : Tree B) : Prop :=
  ∀ p, (∀ c m, look s p = some (.file c m) → look r p = some (.file c m)) ∧
    ∀ m ns f, look s p = some (.dir m ns f) → ∃ ns' f', look r p = some (.dir m ns' f')

end Verif.Install
