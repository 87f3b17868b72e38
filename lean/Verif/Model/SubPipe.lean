import Verif.Model.Instance

/-
Modifiers that run a nested pipeline or a callable: `validate`, `oneisvalid`, `transform`,
`fmt`, `compare`, the field permissions `canc`, `canu`, `cancu`, `canr`, and the modifiers
they are usually written with: `this`, `getop`, `passin`, `fval`, `isobj`, `isobjof`, `isthis`.

All of them are `Leaf`s: nested pipelines consist of effect free modifiers, callables read
objects and the context and may raise. The number of parameters of a callable only decides
which of the arguments it gets; it is kept where the code depends on it otherwise.
-/
namespace JC

/-! ### Nested pipelines -/

/-- A modifier of a nested pipeline. -/
inductive LMod where
  | eager
  | pre
  | leaf (l : Leaf)

/-- A nested pipeline (`types.…` as an argument): the `vs` of its `ChainedModifier`. -/
abbrev Pipe := List LMod

/-- The modifier in a state of the objects. -/
def LMod.ops (h : Heap) : LMod → Ops Unit
  | .eager => { isEager := true }
  | .pre => { isPre := true }
  | .leaf l => { validate := fun c s => (l.validate h c, s), transform := fun c s => (l.transform h c, s),
                 tojson := fun c s => (l.tojson h c, s), serialize := fun c s => (l.serialize h c, s) }

/-- `types.modifier.transform(ctx)`: chained_modifier.py:96-100. -/
def Pipe.transform (p : Pipe) (h : Heap) (c : Ctx) : Except Exc Val := (chainTransform (p.map (LMod.ops h)) c ()).1

/-- `types.modifier.validate(ctx)`: chained_modifier.py:84-94. -/
def Pipe.validate (p : Pipe) (h : Heap) (c : Ctx) : Except Exc Unit := (chainValidate (p.map (LMod.ops h)) c ()).1

/-- An argument that is a pipeline, or a callable with so many parameters. The result of the
callable is a Python value. -/
inductive Check where
  | types (p : Pipe)
  | fn (params : Nat) (f : Heap → Ctx → Except Exc Val)

/-- `tval = types.modifier.transform(ctx)`, then
`try: types.modifier.validate(ctx.nval(tval)) except ValidationException: …`: the idiom of
validate_modifier.py:26-32, oneisvalid_modifier.py:27-33, cancu_modifier.py:43-47. -/
def tryPipe (p : Pipe) (h : Heap) (c : Ctx) (rejected : Except Exc Unit) : Except Exc Unit :=
  match p.transform h c with
  | .error e => .error e
  | .ok t => match p.validate h (c.nval t) with
    | .error (.validation _) => rejected
    | .error e => .error e
    | .ok _ => .ok ()

/-! ### Validators -/

/-- What `ValidateModifier.validate` does with the result of a callable:
validate_modifier.py:40-47 (anything that is not `None`, a bool or a text is accepted). -/
def judge (c : Ctx) (msg : Option String) : Val → Except Exc Unit
  | .bool false => .error (c.vexc (msg.getD "invalid value"))
  | .str s => .error (c.vexc (msg.getD s))
  | _ => .ok ()

/-- `ValidateModifier`: validate_modifier.py:12-47. -/
def validateLeaf (chk : Check) (msg : Option String) : Leaf where
  validate := fun h c => match chk with
    | .types p => tryPipe p h c (.error (c.vexc (msg.getD "invalid value")))
    | .fn _ f =>
      if c.val.isNone then .ok ()
      else match f h c with
        | .error e => .error e
        | .ok r => judge c msg r

/-- The loop of `OneIsValidModifier.validate`: oneisvalid_modifier.py:24-44. For a callable the
code calls the builtin `callable`, which takes one argument and tells whether the value can be
called (`isCallable`); with two arguments it raises TypeError. -/
def oneIsValidLoop (isCallable : Val → Bool) (h : Heap) (c : Ctx) : List Check → Except Exc Unit
  | [] => .error (c.vexc "none is valid")
  | .types p :: cs => tryPipe p h c (oneIsValidLoop isCallable h c cs)
  | .fn n _ :: cs =>
    if n = 1 then (if isCallable c.val then .ok () else oneIsValidLoop isCallable h c cs)
    else .error .typeError

/-- `OneIsValidModifier`: oneisvalid_modifier.py:13-44. -/
def oneIsValidLeaf (isCallable : Val → Bool) (items : List Check) : Leaf where
  validate := fun h c => oneIsValidLoop isCallable h c items

/-- What `CompareModifier.validate` does with the result: compare_modifier.py:34-39. A result
that is no bool, text or `None` becomes the message itself; the model writes an empty text. -/
def compareJudge (c : Ctx) : Val → Except Exc Unit
  | .bool true => .ok ()
  | .bool false => .error (c.vexc "compare failed")
  | .none => .ok ()
  | .str s => .error (c.vexc s)
  | _ => .error (c.vexc "")

/-- `CompareModifier`: compare_modifier.py:10-39; `f h prev c` is the callable applied to the
previous value and the value. A parent that is no JSON class object has no `previous_values`. -/
def compareLeaf (f : Heap → Val → Ctx → Except Exc Val) : Leaf where
  validate := fun h c => match c.keypathp.getLast? with
    | none => .error .indexError
    | some k => match c.parent with
      | none => .error .attributeError
      | some p => match k with
        | .i _ => .ok ()
        | .s n => match dictGet (h p).prev n with
          | none => .ok ()
          | some prev => match f h prev c with
            | .error e => .error e
            | .ok r => compareJudge c r

/-! ### Transforms and output -/

/-- A pipeline or callable applied to the value: transform_modifier.py:26-36,
fmt_modifier.py:22-32. -/
def Check.apply (chk : Check) (h : Heap) (c : Ctx) : Except Exc Val :=
  match chk with
  | .types p => p.transform h c
  | .fn _ f => if c.val.isNone then .ok .none else f h c

/-- `TransformModifier`: transform_modifier.py:11-36. -/
def transformLeaf (chk : Check) : Leaf where
  transform := fun h c => chk.apply h c

/-- `FmtModifier`: fmt_modifier.py:11-32. -/
def fmtLeaf (chk : Check) : Leaf where
  tojson := fun h c => chk.apply h c

/-! ### Field permissions -/

/-- `CanCUModifier.validate`: cancu_modifier.py:20-47. For a callable the code reads the
attribute `op_callable`, which does not exist. -/
def cancuCheck (chk : Check) (h : Heap) (c : Ctx) : Except Exc Unit :=
  if c.operator.isNone then .error (c.vexc "operator not present")
  else match chk with
    | .fn _ _ => .error .attributeError
    | .types p => tryPipe p h c (.error (c.vexc "operation is not permitted"))

/-- `CanCUModifier`: cancu_modifier.py:13-47. -/
def cancuLeaf (chk : Check) : Leaf where
  validate := fun h c => cancuCheck chk h c

/-- `CanCModifier`: canc_modifier.py:11-17. -/
def cancLeaf (chk : Check) : Leaf where
  validate := fun h c => match c.owner with
    | none => .error .attributeError
    | some o => if (h o).isNew then cancuCheck chk h c else .ok ()

/-- `CanUModifier`: canu_modifier.py:11-17. -/
def canuLeaf (chk : Check) : Leaf where
  validate := fun h c => match c.owner with
    | none => .error .attributeError
    | some o => if (h o).isNew then .ok () else cancuCheck chk h c

/-- `CanRModifier`: canr_modifier.py:13-49. -/
def canrLeaf (chk : Check) : Leaf where
  tojson := fun h c =>
    if c.operator.isNone then .ok .none
    else match chk with
      | .fn _ _ => .error .attributeError
      | .types p => match p.transform h c with
        | .error e => .error e
        | .ok t => match p.validate h (c.nval t) with
          | .error (.validation _) => .ok .none
          | .error e => .error e
          | .ok _ => .ok c.val

/-! ### Objects in pipelines -/

/-- The object `ObjRef(cls=…, id=…)` (objref.py) is an opaque value; `make` builds one, `get`
reads its attributes `cls` and `id`. -/
structure RefTable where
  make : String → Val → Nat
  get : Nat → Option (String × Val)

/-- index of an object as a value -/
def objVal : Option Nat → Val
  | some i => .obj i
  | none => .none

/-- `ThisModifier`: this_modifier.py:9-14. -/
def thisLeaf : Leaf where
  transform := fun _ c => .ok (objVal c.owner)

/-- `GetOpModifier`: getop_modifier.py:9-14. -/
def getopLeaf : Leaf where
  transform := fun _ c => .ok c.operator

/-- `PassinModifier`: passin_modifier.py:9-13. -/
def passinLeaf : Leaf where
  transform := fun _ c => .ok c.passin

/-- `fdef.inst_cls` as set by the last `InstanceOfModifier`: instanceof_modifier.py:23-25. -/
def instOfChain : List Mod → Option String
  | [] => none
  | m :: ms => match instOfChain ms with
    | some c => some c
    | none => match m with
      | .instOf c _ => some c
      | _ => none

variable (env : Env)

/-- `FValModifier`: fval_modifier.py:13-40, for a constant field name. -/
def fvalLeaf (rt : RefTable) (name : String) : Leaf where
  transform := fun h c => match c.val with
    | .none => .ok .none
    | .obj i => match (env.cls (h i).cls).field? name with
      | none => .error .valueError
      | some f => match ({ heap := h } : World).getattr env i name with
        | .error e => .error e
        | .ok v =>
          if f.store = .localKey && v.isNone then
            match instOfChain f.chain with
            | none => .error .attributeError
            | some cls =>
              if ((h i).attrs f.refName).isNone then .ok .none
              else .ok (.other (rt.make cls ((h i).attrs f.refName)))
          else .ok v
    | _ => .error .attributeError

/-- Class and key read by `IsObjModifier`: isobj_modifier.py:25-38. -/
def classAndKey (rt : RefTable) (h : Heap) : Val → Except Exc (String × Val)
  | .obj i => .ok ((h i).cls, ({ heap := h } : World).id env i)
  | .other t => match rt.get t with
    | some r => .ok r
    | none => .error .attributeError
  | _ => .error .attributeError

/-- `IsObjModifier`: isobj_modifier.py:13-41. -/
def isobjLeaf (rt : RefTable) (getter : Pipe) : Leaf where
  validate := fun h c =>
    if c.val.isNone then .error (c.vexc "none is not an object")
    else match getter.transform h c with
      | .error e => .error e
      | .ok that =>
        if that.isNone then .error (c.vexc "comparing value not found")
        else match classAndKey env rt h c.val with
          | .error e => .error e
          | .ok a => match classAndKey env rt h that with
            | .error e => .error e
            | .ok b =>
              if b.1 == a.1 && pyEq b.2 a.2 then .ok ()
              else .error (c.vexc "objects are not equal")

/-- `IsObjOfModifier`: isobjof_modifier.py:9-21, for a class given by name (it exists). -/
def isobjofLeaf (cls : String) : Leaf where
  validate := fun h c => match c.val with
    | .none => .error (c.vexc "none is not object of a class")
    | .obj i => if env.isSub (h i).cls cls then .ok () else .error (c.vexc s!"value is not instance of {cls}")
    | _ => .error (c.vexc s!"value is not instance of {cls}")

/-- `IsThisModifier`: isthis_modifier.py:8-20 (the owner is an object; values of other classes
than the owner's are rejected before `_id` is read). -/
def isthisLeaf : Leaf where
  validate := fun h c => match c.val with
    | .none => .error (c.vexc "none is not this")
    | .obj i => match c.owner with
      | none => .error (c.vexc "value is not this")
      | some o =>
        if i = o then .ok ()
        else if (h i).cls == (h o).cls &&
            pyEq (({ heap := h } : World).id env i) (({ heap := h } : World).id env o) then .ok ()
        else .error (c.vexc "value is not this")
    | _ => .error (c.vexc "value is not this")

end JC
