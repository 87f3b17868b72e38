import Verif.Model.Value

/-
Model of `ctx.py` (contexts), `modifiers/modifier.py`, `modifiers/chained_modifier.py`
and `vmsgcollector.py`.
-/
namespace JC

/-- `CtxCfg`: ctx.py:14-36. `fill_dest_blanks`, `ignore_writeonly` and
`reverse_relationship` are only tested for truth, so `None` and `False` are merged. -/
structure Cfg where
  allFields : Option Bool := none
  ignoreWriteonly : Bool := false
  reverseRel : Bool := false
  fillBlanks : Bool := false
  outputNull : Option Bool := none
  deriving Inhabited, Repr, DecidableEq

/-- `Ctx`: ctx.py:37-57.  `owner`, `holder`, `original` are heap indices of JSON
class objects (or `none`); `parent` is the heap index when the parent is a JSON
class object and `none` when it is a list or dict (the only use of `parent` in the
modelled code is chained_modifier.py:80, which tests for a JSON class object).
`fid` identifies the field definition object `ctx.fdef` when it is the definition of
a class field (class name, field name); what the modifiers read from `ctx.fdef` is
stored in the modifiers themselves.  `mgraph` is part of the state, not of the
context (it is one mutable object shared by all contexts of a call). The unused
paths `fkeypatho`, `fkeypathp`, `fkeypathh` are left out. -/
structure Ctx where
  root : Nat := 0
  owner : Option Nat := none
  parent : Option Nat := none
  holder : Option Nat := none
  val : Val := .none
  original : Option Nat := none
  cfg : Cfg := {}
  keypathr : List Key := []
  fkeypathr : List Key := []
  keypatho : List Key := []
  keypathp : List Key := []
  keypathh : List Key := []
  fid : Option (String × String) := none
  operator : Val := .none
  idchain : List String := []
  passin : Val := .none
  deriving Inhabited, Repr

/-- `Ctx.nval`: ctx.py:154-164. -/
def Ctx.nval (c : Ctx) (v : Val) : Ctx := { c with val := v }

/-- `Ctx.sfkeypathr`: ctx.py:103-105. -/
def Ctx.sfkeypathr (c : Ctx) : String := dotJoin (c.fkeypathr.map Key.str)

/-- `Ctx.raise_vexc`: ctx.py:278-281. -/
def Ctx.vexc (c : Ctx) (msg : String) : Exc := .validation [(c.sfkeypathr, msg)]

/-- A modifier seen from the outside: modifier.py:11-60 (the four runtime methods)
plus whether it is an `EagerModifier` / `PreserializeModifier` mark. The methods are
arbitrary effectful functions, so theorems about chains hold for all modifiers. -/
structure Ops (σ : Type) where
  isEager : Bool := false
  isPre : Bool := false
  validate : Ctx → Py σ Unit := fun _ => pure ()
  transform : Ctx → Py σ Val := fun c => pure c.val
  tojson : Ctx → Py σ Val := fun c => pure c.val
  serialize : Ctx → Py σ Val := fun c => pure c.val

/-- `_first_vidx`: chained_modifier.py:25-32 (list search is by identity, and a mark
object occurs once, so it is the first position holding such a mark). -/
def firstIdx {α : Type} (p : α → Bool) : List α → Option Nat
  | [] => none
  | x :: xs => if p x then some 0 else (firstIdx p xs).map (· + 1)

/-- `_last_vidx`: chained_modifier.py:34-36. -/
def lastIdx {α : Type} (p : α → Bool) : List α → Option Nat
  | [] => none
  | x :: xs => match lastIdx p xs with
    | some i => some (i + 1)
    | none => if p x then some 0 else none

variable {σ : Type}

/-- `_tvs`: chained_modifier.py:46-54. -/
def tvs (vs : List (Ops σ)) : List (Ops σ) :=
  match lastIdx (·.isEager) vs with
  | some i => vs.take i
  | none => []

/-- `_pvs`: chained_modifier.py:56-60. -/
def pvs (vs : List (Ops σ)) : List (Ops σ) :=
  match firstIdx (·.isPre) vs with
  | some i => vs.drop i
  | none => []

/-- `vs[:fp]` (part of the slice in chained_modifier.py:68). -/
def uptoPre (vs : List (Ops σ)) : List (Ops σ) :=
  match firstIdx (·.isPre) vs with
  | some j => vs.take j
  | none => vs

/-- `_nvs`: chained_modifier.py:62-68, Python slice `vs[lev:fp]`. -/
def nvs (vs : List (Ops σ)) : List (Ops σ) :=
  match lastIdx (·.isEager) vs with
  | some i => (uptoPre vs).drop i
  | none => uptoPre vs

/-- Python's `reduce(lambda val, v: f(v, val), vs, init)` with effects. -/
def reduceM (f : Ops σ → Val → Py σ Val) : List (Ops σ) → Val → Py σ Val
  | [], v => pure v
  | m :: ms, v => do
    let v' ← f m v
    reduceM f ms v'

/-- `_vt`: chained_modifier.py:70-74. -/
def vt (m : Ops σ) (c : Ctx) : Py σ Val := do
  let r ← m.transform c
  m.validate (c.nval r)
  pure r

/-- `_sv`: chained_modifier.py:76-82. `setParent c v` stands for
`if isjsonobject(ctx.parent): setattr(ctx.parent, ctx.keypathp[0], val)`. -/
def sv (setParent : Ctx → Val → Py σ Unit) (m : Ops σ) (c : Ctx) : Py σ Val := do
  let v ← m.serialize c
  m.validate (c.nval v)
  setParent c v
  pure v

/-- The loop of `ChainedModifier.validate`: chained_modifier.py:85-92; returns the
collected messages (vmsgcollector.py:12-13). `all_fields` counts as false when `None`. -/
def validateLoop (c : Ctx) : List (Ops σ) → List (String × String) → Py σ (List (String × String))
  | [], acc => pure acc
  | m :: ms, acc => fun s =>
    match m.validate c s with
    | (.ok _, s') => validateLoop c ms acc s'
    | (.error (.validation msgs), s') =>
      if c.cfg.allFields = some true then validateLoop c ms (dictUpdate acc msgs) s'
      else (.ok (dictUpdate acc msgs), s')
    | (.error e, s') => (.error e, s')

/-- `if ctor.has_msgs: ctx.raise_mvexc(ctor.messages)`: chained_modifier.py:93-94. -/
def raiseMsgs (msgs : List (String × String)) : Py σ Unit :=
  match msgs with
  | [] => pure ()
  | _ => Py.raise (.validation msgs)

/-- `ChainedModifier.validate`: chained_modifier.py:84-94. -/
def chainValidate (vs : List (Ops σ)) (c : Ctx) : Py σ Unit := do
  let msgs ← validateLoop c (nvs vs) []
  raiseMsgs msgs

/-- `ChainedModifier.transform`: chained_modifier.py:96-100. -/
def chainTransform (vs : List (Ops σ)) (c : Ctx) : Py σ Val := do
  let v ← reduceM (fun m v => vt m (c.nval v)) (tvs vs) c.val
  reduceM (fun m v => m.transform (c.nval v)) (nvs vs) v

/-- `ChainedModifier.tojson`: chained_modifier.py:102-103. -/
def chainTojson (vs : List (Ops σ)) (c : Ctx) : Py σ Val :=
  reduceM (fun m v => m.tojson (c.nval v)) vs c.val

/-- `ChainedModifier.serialize`: chained_modifier.py:105-110. -/
def chainSerialize (setParent : Ctx → Val → Py σ Unit) (vs : List (Ops σ)) (c : Ctx) : Py σ Val := do
  let v ← reduceM (fun m v => m.serialize (c.nval v)) (tvs vs) c.val
  let v ← reduceM (fun m v => m.serialize (c.nval v)) (nvs vs) v
  reduceM (fun m v => sv setParent m (c.nval v)) (pvs vs) v

/-- A whole chain as one modifier (item types and union alternatives are chains). -/
def chainOps (setParent : Ctx → Val → Py σ Unit) (vs : List (Ops σ)) : Ops σ where
  validate := chainValidate vs
  transform := chainTransform vs
  tojson := chainTojson vs
  serialize := chainSerialize setParent vs

end JC
