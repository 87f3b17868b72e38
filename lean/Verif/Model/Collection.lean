import Verif.Model.Chain

/-
Model of `modifiers/type_modifier.py`, `modifiers/collection_type_modifier.py`,
`modifiers/listof_modifier.py`, `modifiers/dictof_modifier.py` and
`modifiers/union_modifier.py`, over an arbitrary item modifier and an arbitrary state.
-/
namespace JC
variable {σ : Type}

/-- `Ctx.colval`: ctx.py:246-260 (the item's parent is a list or dict, never a JSON
class object). `fid` becomes `none`: the item's field definition is not the
definition of a class field. -/
def Ctx.colval (c : Ctx) (v : Val) (k : Key) : Ctx :=
  { c with parent := none, val := v, original := none,
           keypatho := c.keypatho ++ [k], keypathr := c.keypathr ++ [k],
           fkeypathr := c.fkeypathr ++ [k], keypathp := [k],
           keypathh := c.keypathh ++ [k], fid := none }

/-- What a collection modifier needs from the object world.
`ownerAllFields c` is `ctx.cdefowner.jconf.validate_all_fields`
(collection_type_modifier.py:58); `ownerConf c` is the access
`ctx.owner.cdef.jconf` (lines 89, 103, 117), which may raise when there is no owner;
`special c k v` is `some` action when `should_special_handle` holds
(listof_modifier.py:33-53). -/
structure ColEnv (σ : Type) where
  ownerAllFields : Ctx → Py σ Bool := fun _ => pure false
  ownerConf : Ctx → Py σ Unit := fun _ => pure ()
  special : Ctx → Key → Val → Option (Py σ Unit) := fun _ _ _ => none

/-- `enumerate(value)`: listof_modifier.py:24-25. -/
def enumVals : Nat → List Val → List (Key × Val)
  | _, [] => []
  | i, x :: xs => (.i i, x) :: enumVals (i + 1) xs

/-- `value.items()`: dictof_modifier.py (enumerator). -/
def enumDict (kvs : List (String × Val)) : List (Key × Val) :=
  kvs.map (fun kv => (.s kv.1, kv.2))

/-- The item loop of `validate`: collection_type_modifier.py:59-68. -/
def colValidateLoop (item : Ops σ) (c : Ctx) (all : Bool) :
    List (Key × Val) → List (String × String) → Py σ (List (String × String))
  | [], acc => pure acc
  | (k, v) :: r, acc => fun s =>
    match item.validate (c.colval v k) s with
    | (.ok _, s') => colValidateLoop item c all r acc s'
    | (.error (.validation msgs), s') =>
      if all then colValidateLoop item c all r (dictUpdate acc msgs) s'
      else (.error (.validation msgs), s')
    | (.error e, s') => (.error e, s')

/-- `validate` after the type check: collection_type_modifier.py:55-70. -/
def colValidate (ce : ColEnv σ) (item : Ops σ) (c : Ctx) (es : List (Key × Val)) : Py σ Unit := do
  let dflt ← ce.ownerAllFields c
  let msgs ← colValidateLoop item c (c.cfg.allFields.getD dflt) es []
  raiseMsgs msgs

/-- The item loop shared by `transform`, `tojson` and `serialize`
(collection_type_modifier.py:82-89, 99-103, 113-117); `f` is the item method. The
result keeps key/value pairs; keys are not re-cased (`to_object_key`, `to_json_key`
are the identity, dictof_modifier.py). `sp` is the special handling, used by
`transform` only. -/
def colMapLoop (ce : ColEnv σ) (sp : Bool) (f : Ctx → Py σ Val) (c : Ctx) :
    List (Key × Val) → Py σ (List (Key × Val))
  | [] => pure []
  | (k, v) :: r => do
    match (if sp then ce.special c k v else none) with
    | some act => do
      act
      colMapLoop ce sp f c r
    | none => do
      let x ← f (c.colval v k)
      ce.ownerConf c
      let xs ← colMapLoop ce sp f c r
      pure ((k, x) :: xs)

/-- Rebuild a list from enumerated results (`append_value`, listof_modifier.py:30-31). -/
def toListVal (es : List (Key × Val)) : Val := .list (es.map Prod.snd)

/-- Rebuild a dict from enumerated results (`append_value`, dictof_modifier.py):
`col[i] = v` on a fresh dict, the keys being those of a dict. -/
def toDictVal (es : List (Key × Val)) : Val :=
  .dict (es.foldl (fun d kv => dictSet kv.1.str kv.2 d) [])

/-- `ListOfModifier`: listof_modifier.py:10-53 with collection_type_modifier.py:51-118.
`nonnull` is `fdef.collection_nullability == NONNULL`. -/
def listOps (ce : ColEnv σ) (nonnull : Bool) (item : Ops σ) : Ops σ where
  validate := fun c => match c.val with
    | .none => pure ()
    | .list xs => colValidate ce item c (enumVals 0 xs)
    | _ => Py.raise (c.vexc "value is not list")
  transform := fun c => match c.val with
    | .none => if nonnull then pure (.list []) else pure .none
    | .list xs => do
      let r ← colMapLoop ce true item.transform c (enumVals 0 xs)
      pure (toListVal r)
    | v => pure v
  tojson := fun c => match c.val with
    | .none => pure .none
    | .list xs => do
      let r ← colMapLoop ce false item.tojson c (enumVals 0 xs)
      pure (toListVal r)
    | v => pure v
  serialize := fun c => match c.val with
    | .none => pure .none
    | .list xs => do
      let r ← colMapLoop ce false item.serialize c (enumVals 0 xs)
      pure (toListVal r)
    | v => pure v

/-- `DictOfModifier`: dictof_modifier.py with collection_type_modifier.py:51-118. -/
def dictOps (ce : ColEnv σ) (nonnull : Bool) (item : Ops σ) : Ops σ where
  validate := fun c => match c.val with
    | .none => pure ()
    | .dict xs => colValidate ce item c (enumDict xs)
    | _ => Py.raise (c.vexc "value is not dict")
  transform := fun c => match c.val with
    | .none => if nonnull then pure (.dict []) else pure .none
    | .dict xs => do
      let r ← colMapLoop { ce with special := fun _ _ _ => none } true item.transform c (enumDict xs)
      pure (toDictVal r)
    | v => pure v
  tojson := fun c => match c.val with
    | .none => pure .none
    | .dict xs => do
      let r ← colMapLoop ce false item.tojson c (enumDict xs)
      pure (toDictVal r)
    | v => pure v
  serialize := fun c => match c.val with
    | .none => pure .none
    | .dict xs => do
      let r ← colMapLoop ce false item.serialize c (enumDict xs)
      pure (toDictVal r)
    | v => pure v

/-- `UnionModifier.validate` loop: union_modifier.py:38-46. -/
def unionValidate (c : Ctx) : List (Ops σ) → Py σ Unit
  | [] => Py.raise (c.vexc "value is not of any provided type")
  | m :: ms => (m.validate c).catchV (fun _ => unionValidate c ms)

/-- `UnionModifier.transform` loop: union_modifier.py:26-33 (a bare `except`). -/
def unionTransform (c : Ctx) : List (Ops σ) → Py σ Val
  | [] => pure c.val
  | m :: ms => (m.transform c).catchAll (fun _ => unionTransform c ms)

/-- `UnionModifier.serialize`/`tojson` loops: union_modifier.py:51-60, 65-74: validate
and convert inside one `try ... except ValidationException`. -/
def unionConv (f : Ops σ → Ctx → Py σ Val) (c : Ctx) : List (Ops σ) → Py σ Val
  | [] => pure .none
  | m :: ms => Py.catchV (do m.validate c; f m c) (fun _ => unionConv f c ms)

/-- `Ctx.alterfdef`: ctx.py:146-152 (drops `passin`). -/
def Ctx.alterfdef (c : Ctx) : Ctx := { c with fid := none, passin := .none }

/-- `UnionModifier`: union_modifier.py:12-74. -/
def unionOps (alts : List (Ops σ)) : Ops σ where
  validate := fun c => match c.val with
    | .none => pure ()
    | _ => unionValidate c.alterfdef alts
  transform := fun c => match c.val with
    | .none => pure .none
    | _ => unionTransform c.alterfdef alts
  tojson := fun c => match c.val with
    | .none => pure .none
    | _ => unionConv (·.tojson) c.alterfdef alts
  serialize := fun c => match c.val with
    | .none => pure .none
    | _ => unionConv (·.serialize) c.alterfdef alts

end JC
