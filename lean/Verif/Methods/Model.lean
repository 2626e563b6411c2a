/-!
# Builders and methods of environments

`MethodWrapper` (`SCons/Util/envs.py` 274–310), `BuilderWrapper` and `BuilderDict`
(`SCons/Environment.py` 437–540), `AddMethod`, `RemoveMethod` (941–959), the parts of `Clone` that
rebind them (1797–1811), and attribute access through an override (3065–3088).

What is modelled: which attributes (builders, added methods, plain values) an environment has, and on
which environment a call acts.  Construction variables other than `BUILDERS` are in
`Verif.Env` (C49–C52).  Names of methods of the class itself (`Append`, `Command`, …) are left out: they
are always called on the object they are looked up on.  Left out too: `Clone()` of an override,
deleting an attribute by hand, and plain values that have an attribute called `method`.
-/

namespace Verif.Methods

/-- A `MethodWrapper` object: identity, environment, function or builder, name, and whether it is a
`BuilderWrapper`. `SCons/Util/envs.py` 290–299. -/
structure Wrapper where
  id : Nat
  obj : Nat
  fn : Nat
  name : String
  bld : Bool
deriving DecidableEq, Repr

/-- The value of an attribute. -/
inductive Attr where
  | wrap (w : Wrapper)
  | plain (v : Nat)
deriving DecidableEq, Repr

/-- A construction environment (`SCons.Environment.Base`): its attributes, `added_methods`,
and the dictionary `env['BUILDERS']`. -/
structure Base where
  attrs : String → Option Attr
  added : List Wrapper
  builders : List (String × Nat)

/-- An environment, or an override of another one (3055–3061). -/
inductive EnvObj where
  | base (b : Base)
  | over (subject : Nat)

structure State where
  envs : Nat → Option EnvObj
  /-- number of the next environment -/
  next : Nat
  /-- number of the next wrapper -/
  nextW : Nat

def State.init : State := ⟨fun _ => none, 0, 0⟩

def State.put (st : State) (e : Nat) (o : EnvObj) : State :=
  { st with envs := fun x => if x = e then some o else st.envs x }

/-- `dict.__setitem__`: the order of a dictionary is that of the first insertion. -/
def dictSet (l : List (String × Nat)) (k : String) (v : Nat) : List (String × Nat) :=
  if (l.lookup k).isSome then l.map fun p => if p.1 = k then (k, v) else p else l ++ [(k, v)]

/-- `dict.__delitem__`. -/
def dictDel (l : List (String × Nat)) (k : String) : List (String × Nat) :=
  l.filter fun p => p.1 ≠ k

/-- `setattr(env, name, value)` on an environment. -/
def Base.setAttr (b : Base) (n : String) (a : Attr) : Base :=
  { b with attrs := fun x => if x = n then some a else b.attrs x }

/-- `setattr(x, name, value)`: an override sets it on its subject
(`SCons/Environment.py` 3087–3088). An override is always younger than its subject. -/
def setAttr (st : State) (e : Nat) (n : String) (a : Attr) : State :=
  match st.envs e with
  | none => st
  | some (.base b) => st.put e (.base (b.setAttr n a))
  | some (.over s) => if s < e then setAttr st s n a else st
termination_by e

/-- `getattr(x, name)`: an override makes a copy of a wrapper that is bound to itself
(3075–3085); making it sets the attribute (`MethodWrapper.__init__`,
`SCons/Util/envs.py` 299), which for an override means: on the subject. -/
def getAttr (st : State) (e : Nat) (n : String) : State × Option Attr :=
  match st.envs e with
  | none => (st, none)
  | some (.base b) => (st, b.attrs n)
  | some (.over s) =>
    if s < e then
      let r := getAttr st s n
      match r.2 with
      | some (.wrap w) =>
        let w' : Wrapper := ⟨r.1.nextW, e, w.fn, w.name, w.bld⟩
        (setAttr { r.1 with nextW := r.1.nextW + 1 } e n (.wrap w'), some (.wrap w'))
      | a => (r.1, a)
    else (st, none)
termination_by e

/-- `env.added_methods.append(w)`: the list of an override is that of its subject (3075). -/
def addAdded (st : State) (e : Nat) (w : Wrapper) : State :=
  match st.envs e with
  | none => st
  | some (.base b) => st.put e (.base { b with added := b.added ++ [w] })
  | some (.over s) => if s < e then addAdded st s w else st
termination_by e

/-- `env.AddMethod(function, name)`: 941–950. -/
def addMethod (st : State) (e : Nat) (f : Nat) (n : String) : State :=
  let w : Wrapper := ⟨st.nextW, e, f, n, false⟩
  addAdded (setAttr { st with nextW := st.nextW + 1 } e n (.wrap w)) e w

/-- `env.RemoveMethod(function)`: 952–959. -/
def Base.removeMethod (b : Base) (f : Nat) : Base :=
  { b with added := b.added.filter fun w => w.fn ≠ f }

/-- The first part of `BuilderDict.__setitem__`: forget a method of that name (511–516). -/
def Base.forget (b : Base) (n : String) : Base :=
  match b.attrs n with
  | some (.wrap w) => b.removeMethod w.fn
  | _ => b

/-- `BuilderDict.__setitem__`, 511–518, for the environment `e`: `BuilderWrapper(self.env, item, key)`
sets the attribute. -/
def Base.setBuilder (b : Base) (id e : Nat) (n : String) (f : Nat) : Base :=
  let b := b.forget n
  { b with builders := dictSet b.builders n f }.setAttr n (.wrap ⟨id, e, f, n, true⟩)

/-- `env['BUILDERS'][name] = builder`. -/
def setBuilder (st : State) (e : Nat) (n : String) (f : Nat) : State :=
  match st.envs e with
  | some (.base b) =>
    { st.put e (.base (b.setBuilder st.nextW e n f)) with nextW := st.nextW + 1 }
  | _ => st

/-- `del env['BUILDERS'][name]`: 520–522. -/
def delBuilder (st : State) (e : Nat) (n : String) : State :=
  match st.envs e with
  | some (.base b) =>
    if (b.builders.lookup n).isSome then
      st.put e (.base { b with
        builders := dictDel b.builders n
        attrs := fun x => if x = n then none else b.attrs x })
    else st
  | _ => st

/-- `BuilderDict(builders, clone)`, 1802: each builder of the original is set in the clone. -/
def bindBuilders (c : Nat) : List (String × Nat) → Base → Nat → Base × Nat
  | [], b, i => (b, i)
  | (k, f) :: l, b, i => bindBuilders c l (b.setBuilder i c k f) (i + 1)

/-- 1808–1811: added methods that are still there under their name are bound to the clone.
`getattr(self, mw.name)` raises `AttributeError` if there is nothing of that name: `none`. -/
def bindMethods (c : Nat) (src : String → Option Attr) : List Wrapper → Base → Nat → Option (Base × Nat)
  | [], b, i => some (b, i)
  | mw :: l, b, i =>
    match src mw.name with
    | none => none
    | some (.wrap w) =>
      if w.id = mw.id then
        let w' : Wrapper := ⟨i, c, mw.fn, mw.name, mw.bld⟩
        let b' := b.setAttr mw.name (.wrap w')
        bindMethods c src l { b' with added := b'.added ++ [w'] } (i + 1)
      else bindMethods c src l b i
    | some (.plain _) => bindMethods c src l b i

/-- `env.Clone()`, 1797–1811: `copy.copy` copies the attributes; then builders, then methods. The
result is the number of the clone; `none`: an exception. (What `Clone` does with `tools` and keyword
arguments are further steps.) -/
def clone (st : State) (e : Nat) : State :=
  match st.envs e with
  | some (.base b) =>
    let c := st.next
    let r := bindBuilders c b.builders { b with builders := [] } st.nextW
    match bindMethods c b.attrs b.added { r.1 with added := [] } r.2 with
    | none => st
    | some (b', i) => { (st.put c (.base b')) with next := c + 1, nextW := i }
  | _ => st

/-- `Environment()` without tools. -/
def newEnv (st : State) : State :=
  { st.put st.next (.base ⟨fun _ => none, [], []⟩) with next := st.next + 1 }

/-- `env.Override({...})` with something to override: 995–1003. -/
def override (st : State) (e : Nat) : State :=
  match st.envs e with
  | some _ => { st.put st.next (.over e) with next := st.next + 1 }
  | none => st

/-- What happens when `x.name(...)` is evaluated. -/
inductive Seen where
  /-- `fn` is called as a method, or builder, of the environment `env` -/
  | call (bld : Bool) (fn env : Nat)
  | plain (v : Nat)
  /-- `AttributeError` -/
  | missing
deriving DecidableEq, Repr

/-- `MethodWrapper.__call__`, `SCons/Util/envs.py` 301–303. -/
def seen : Option Attr → Seen
  | none => .missing
  | some (.plain v) => .plain v
  | some (.wrap w) => .call w.bld w.fn w.obj

/-- What a user does. -/
inductive Op where
  | newEnv
  | addMethod (e f : Nat) (n : String)
  | setBuilder (e : Nat) (n : String) (f : Nat)
  | delBuilder (e : Nat) (n : String)
  /-- `env.name = value` -/
  | setPlain (e : Nat) (n : String) (v : Nat)
  | clone (e : Nat)
  | override (e : Nat)
  /-- `x.name` is looked up, and called -/
  | look (e : Nat) (n : String)
deriving DecidableEq, Repr

def step (st : State) : Op → State
  | .newEnv => newEnv st
  | .addMethod e f n => addMethod st e f n
  | .setBuilder e n f => setBuilder st e n f
  | .delBuilder e n => delBuilder st e n
  | .setPlain e n v => setAttr st e n (.plain v)
  | .clone e => clone st e
  | .override e => override st e
  | .look e n => (getAttr st e n).1

def run (ops : List Op) : State := ops.foldl step .init

/-- What `x.name(...)` does after a history. -/
def observe (ops : List Op) (e : Nat) (n : String) : Seen := seen (getAttr (run ops) e n).2

end Verif.Methods
