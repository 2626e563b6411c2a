/-!
# `scons-configure-cache --prefix-len`

`rearrange_cache_entries` (`SCons/Utilities/ConfigureCache.py` 41–67) and where a cached file is looked for
(`CacheDir.cachepath`, `SCons/CacheDir.py` 335–350).

The cache directory is a list of files in directories, one level deep.  `order` is the order in which
`glob` lists the files (it lists a directory before anything in it is moved); names that begin with a point do
not occur.  Sets are lists here; their order makes no difference to the result.
-/

namespace Verif.Cache.Convert

abbrev Str := List Char

structure Entry where
  dir : Str
  name : Str
  content : Nat
deriving DecidableEq, Repr

structure St where
  files : List Entry
  dirs : List Str
  /-- the prefix length in the file `config` -/
  prefixLen : Nat
deriving DecidableEq, Repr

/-- `sig[:n].upper()`, `CacheDir.py` 346: the directory in which a signature is looked for. -/
def subdir (n : Nat) (sig : Str) : Str := (sig.take n).map Char.toUpper

/-- `name[:n].upper()`, `ConfigureCache.py` 53, 57: the directory to and from which the tool moves a file. -/
def dirName (n : Nat) (name : Str) : Str := (name.take n).map Char.toUpper

/-- `cachepath` and reading the file, `CacheDir.py` 346–350: what is found for a signature. -/
def St.find (st : St) (sig : Str) : Option Nat :=
  (st.files.find? fun e => decide (e.dir = subdir st.prefixLen sig ∧ e.name = sig)).map Entry.content

/-- `os.mkdir` -/
def St.mkdir (st : St) (d : Str) : St × Bool :=
  if d ∈ st.dirs then (st, false) else ({ st with dirs := d :: st.dirs }, true)

/-- `os.rename(d/n, d2/n)` -/
def St.rename (st : St) (d n d2 : Str) : St × Bool :=
  if d = d2 then (st, true)
  else if st.files.all fun e => decide (¬ (e.dir = d ∧ e.name = n)) then (st, false)
  else ({ st with files := (st.files.filter fun e => decide (¬ (e.dir = d2 ∧ e.name = n))).map fun e =>
            if e.dir = d ∧ e.name = n then { e with dir := d2 } else e }, true)

/-- `os.rmdir` -/
def St.rmdir (st : St) (d : Str) : St × Bool :=
  if d ∉ st.dirs ∨ st.files.any (fun e => decide (e.dir = d)) then (st, false)
  else ({ st with dirs := st.dirs.filter fun x => decide (x ≠ d) }, true)

/-- One round of the loop, 51–62: `dirs` and `old_dirs`, and whether there was an exception. -/
structure Loop where
  st : St
  made : List Str
  old : List Str
  ok : Bool
deriving DecidableEq, Repr

def move (cur new : Nat) (l : Loop) (x : Str × Str) : Loop :=
  if l.ok then
    let o := dirName cur x.2
    let old := if o ∈ l.old then l.old else l.old ++ [o]
    let d := dirName new x.2
    let m : St × Bool := if d ∈ l.made then (l.st, true) else l.st.mkdir d
    if m.2 then
      let r := m.1.rename x.1 x.2 d
      ⟨r.1, if d ∈ l.made then l.made else l.made ++ [d], old, r.2⟩
    else ⟨m.1, l.made, old, false⟩
  else l

/-- 64–66 -/
def rmdirs : List Str → St → St × Bool
  | [], st => (st, true)
  | d :: l, st => if (st.rmdir d).2 then rmdirs l (st.rmdir d).1 else st.rmdir d

/-- The loop over the files listed. -/
def moves (cur new : Nat) (order : List (Str × Str)) (st : St) : Loop :=
  order.foldl (move cur new) ⟨st, [], [], true⟩

/-- The whole conversion, and the new configuration written at the end (155–157); `false`: there was an
exception, and the configuration is not written. -/
def convert (new : Nat) (order : List (Str × Str)) (st : St) : St × Bool :=
  if new = st.prefixLen then (st, true)
  else
    let l := moves st.prefixLen new order st
    if l.ok then
      let r := rmdirs l.old l.st
      if r.2 then ({ r.1 with prefixLen := new }, true) else r
    else (l.st, false)

end Verif.Cache.Convert
