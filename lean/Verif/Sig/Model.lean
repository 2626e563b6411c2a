/-!
# Model of the signature / decision subsystem

`SCons/Node/__init__.py` (`get_binfo`, `_children_get`, `changed`) and `SCons/Node/FS.py`
(`get_max_drift_csig`, `get_csig`, the `changed_*` deciders, `_build_dependency_map`, `is_up_to_date`).

`V` = nodes, `B` = file contents, `K` = content signatures (hash values).  A Python attribute that may be absent is an
`Option` field.  The hash function and the file system are parameters (`World`).
-/

namespace Verif.Sig

/-- `FileNodeInfo`, `FS.py:2543-2576`: slots `csig`, `timestamp`, `size`, each of which may be unset. -/
structure NInfo (K : Type) where
  csig : Option K := none
  timestamp : Option Int := none
  size : Option Int := none
  deriving DecidableEq

/-- `BuildInfoBase` / `FileBuildInfo` (`Node/__init__.py:449-530`, `FS.py:2579-2700`): names and infos of the three dependency
lists, the signature of the action.  (`bact`, the printable command, is used only for `--debug=explain`; left out.) -/
structure BInfo (V K : Type) where
  bsources : List V := []
  bdepends : List V := []
  bimplicit : List V := []
  bsourcesigs : List (NInfo K) := []
  bdependsigs : List (NInfo K) := []
  bimplicitsigs : List (NInfo K) := []
  bactsig : Option K := none

/-- A `.sconsign` entry, `SConsign.py:138-190`. -/
structure Entry (V K : Type) where
  ninfo : NInfo K := {}
  binfo : BInfo V K := {}

/-- The part of a target node the decision depends on: `sources`, `depends`, `implicit`, `ignore_set`, whether it has a builder and the hash
of `executor.get_contents()`.  `sources` are what `_specific_sources`/`executor.get_unignored_sources` start from (before removal of
ignored nodes). -/
structure Target (V K : Type) where
  sources : List V
  depends : List V
  implicit : List V
  ignore : List V
  hasBuilder : Bool
  actsig : K

/-- What the deciders read from the machine: contents (`none`: no such file), modification times, the clock, `fs.max_drift`, the stored
`.sconsign` entries, and the hash with the marker string `Util.NOFILE`. -/
structure World (V B K : Type) where
  content : V → Option B
  mtime : V → Int
  now : Int
  maxDrift : Int
  stored : V → Entry V K
  hash : B → K
  nofile : B
  /-- `len` of a content -/
  size : B → Int

variable {V B K : Type}

/-- Node infos of the running process: `node.ninfo`. -/
abbrev Infos (V K : Type) := V → NInfo K

variable [DecidableEq V] [DecidableEq K]

/-- `setattr(ninfo, 'csig', k)`. -/
def setCsig (I : Infos V K) (v : V) (k : K) : Infos V K :=
  fun x => if x = v then { I x with csig := some k } else I x

/-- `get_timestamp`, `FS.py:2806-2820`: the mtime, 0 if there is no file. -/
def World.timestamp (W : World V B K) (v : V) : Int := if (W.content v).isSome then W.mtime v else 0

/-- `get_size`, `FS.py:2790-2804`: −1 if there is no file. -/
def World.getSize (W : World V B K) (v : V) : Int := match W.content v with | some b => W.size b | none => -1

/-- `get_max_drift_csig`, `FS.py:3222-3246`.  `none` = the empty string.
(`n.timestamp and …` tests truth: a zero timestamp counts as missing.  An empty stored csig counts as missing too; no hash is empty.) -/
def World.driftCsig (W : World V B K) (v : V) : Option K :=
  if W.maxDrift > 0 then
    if W.now - W.timestamp v > W.maxDrift then
      match (W.stored v).ninfo.timestamp, (W.stored v).ninfo.csig with
      | some t, some k => if t ≠ 0 ∧ t = W.timestamp v then some k else none
      | _, _ => none
    else none
  else if W.maxDrift = 0 then (W.stored v).ninfo.csig
  else none

/-- Hash of what is on disk: `FS.py:3258-3275` (`get_contents` / `get_content_hash` in chunks give the same digest; the `OSError` case —
a directory in place of the file — is not modelled). -/
def World.diskCsig (W : World V B K) (v : V) : K := W.hash ((W.content v).getD W.nofile)

/-- `get_csig`, `FS.py:3248-3278`: the value cached in `ninfo`, else the drift-cached one, else computed; the result is cached. -/
def World.getCsig (W : World V B K) (I : Infos V K) (v : V) : K × Infos V K :=
  match (I v).csig with
  | some k => (k, I)
  | none =>
    let k := (W.driftCsig v).getD (W.diskCsig v)
    (k, setCsig I v k)

/-- `changed_content`, `FS.py:3334-3339`. -/
def World.changedContent (W : World V B K) (I : Infos V K) (v : V) (prev : Option (NInfo K)) : Bool × Infos V K :=
  let (cur, I') := W.getCsig I v
  match prev with
  | some { csig := some k, .. } => (decide (cur ≠ k), I')
  | _ => (true, I')

/-- `changed_timestamp_match`, `FS.py:3539-3551`. -/
def World.changedTimestampMatch (W : World V B K) (v : V) (prev : Option (NInfo K)) : Bool :=
  match prev with
  | some { timestamp := some t, .. } => decide (W.timestamp v ≠ t)
  | _ => true

/-- `changed_timestamp_newer`, `FS.py:3533-3537`. -/
def World.changedTimestampNewer (W : World V B K) (v target : V) : Bool := decide (W.timestamp v > W.timestamp target)

/-- `_build_dependency_map`, `FS.py:3350-3374`: `dict(zip(names, sigs))`, empty if nothing is recorded. -/
def dependencyMap (b : BInfo V K) : List (V × NInfo K) :=
  (b.bsources ++ b.bdepends ++ b.bimplicit).zip (b.bsourcesigs ++ b.bdependsigs ++ b.bimplicitsigs)

/-- `dict.get` on the `dict` built from a list of pairs: the *last* pair with the key wins. -/
def dictGet (m : List (V × NInfo K)) (v : V) : Option (NInfo K) :=
  (m.reverse.find? (fun p => decide (p.1 = v))).map (·.2)

/-- `changed_timestamp_then_content`, `FS.py:3472-3531`.  `bi` is the build info stored for the target.  `_get_previous_signatures` is
modelled as one lookup by the name of the dependency (the stored names are `str(node)`: `FS.py:2611-2636`); repositories, where the name may
be that of the repository's copy, are not modelled. -/
def World.changedTimestampThenContent (W : World V B K) (I : Infos V K) (v : V) (bi : BInfo V K) : Bool × Infos V K :=
  match dependencyMap bi with
  | [] => (true, (W.getCsig I v).2)
  | m =>
    let prev := dictGet m v
    if W.changedTimestampMatch v prev then W.changedContent I v prev
    else
      match prev with
      | some { csig := some k, .. } => (false, setCsig I v k)
      | _ => (false, I)

/-- The built-in `Decider()` choices, `Environment.py:1843-1906`, as `File` nodes see them (`decide_source`/`decide_target`). -/
inductive Decider | content | contentTimestamp | timestampNewer | timestampMatch
  deriving DecidableEq

/-- The call `_decider_map[child.changed_since_last_build](child, self, prev_ni, node)`. -/
def World.ask (W : World V B K) (d : Decider) (I : Infos V K) (child target : V) (prev : Option (NInfo K)) (bi : BInfo V K) :
    Bool × Infos V K :=
  match d with
  | .content => W.changedContent I child prev
  | .contentTimestamp => W.changedTimestampThenContent I child bi
  | .timestampNewer => (W.changedTimestampNewer child target, I)
  | .timestampMatch => (W.changedTimestampMatch child prev, I)

/-- `_children_get`, `Node/__init__.py:1368-1402`. -/
def Target.children (T : Target V K) : List V :=
  (T.sources ++ T.depends ++ T.implicit).filter (fun c => decide (c ∉ T.ignore))

/-- Order-preserving removal of duplicates with the `seen` set, `Node/__init__.py:1205-1206`. -/
def dedup (seen : List V) : List V → List V
  | [] => []
  | x :: xs => if x ∈ seen then dedup seen xs else x :: dedup (x :: seen) xs

/-- `get_binfo`, `Node/__init__.py:1174-1223`; the `…sigs` hold references to the `ninfo` objects, read when the entry is pickled: `I`
must be the infos at the end of the run.  Note that `bdependsigs` ranges over *all* of `self.depends`. -/
def Target.binfo (T : Target V K) (I : Infos V K) : BInfo V K :=
  let keep := fun l : List V => l.filter (fun c => decide (c ∉ T.ignore))
  let src := dedup [] (keep T.sources)
  { bsources := src
    bsourcesigs := src.map I
    bdepends := keep T.depends
    bdependsigs := T.depends.map I
    bimplicit := keep T.implicit
    bimplicitsigs := (keep T.implicit).map I
    bactsig := if T.hasBuilder then some T.actsig else none }

/-- `bi.bsourcesigs + bi.bdependsigs + bi.bimplicitsigs`. -/
def BInfo.sigs (b : BInfo V K) : List (NInfo K) := b.bsourcesigs ++ b.bdependsigs ++ b.bimplicitsigs

/-- The loop over `zip(children, then)`: every child is asked, results are or-ed, node infos are threaded through. -/
def World.changedLoop (W : World V B K) (d : Decider) (target : V) (bi : BInfo V K) :
    Infos V K → List V → List (Option (NInfo K)) → Bool × Infos V K
  | I, [], _ => (false, I)
  | I, _ :: _, [] => (false, I)
  | I, c :: cs, p :: ps =>
    let (r, I1) := W.ask d I c target p bi
    let (rs, I2) := W.changedLoop d target bi I1 cs ps
    (r || rs, I2)

/-- `changed`, `Node/__init__.py:1471-1532`, with `bi` the stored build info. -/
def World.changed (W : World V B K) (d : Decider) (target : V) (T : Target V K) (bi : BInfo V K) (I : Infos V K) : Bool × Infos V K :=
  let children := T.children
  let then_ := bi.sigs.map some ++ List.replicate (children.length - bi.sigs.length) none
  let (r, I') := W.changedLoop d target bi I children then_
  (decide (children.length ≠ bi.sigs.length) || r || (T.hasBuilder && decide (bi.bactsig ≠ some T.actsig)), I')

/-- `is_up_to_date`, `FS.py:3553-3585`, without repositories. -/
def World.isUpToDate (W : World V B K) (d : Decider) (target : V) (T : Target V K) (I : Infos V K) : Bool × Infos V K :=
  let (r, I') := W.changed d target T (W.stored target).binfo I
  ((W.content target).isSome && !r, I')

/-- What `visited()` (`FS.py:3031-3051`) / `built()` + `ninfo.update` (`Node/__init__.py:814`, `:340-356`) leave in the info of a node whose
content signature is `k`: timestamp and size from the disk. -/
def World.freshInfo (W : World V B K) (v : V) (k : Option K) : NInfo K :=
  { csig := k, timestamp := some (W.timestamp v), size := some (W.getSize v) }

end Verif.Sig
