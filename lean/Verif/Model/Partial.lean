import Verif.Model.Instance

/-
Partial objects: `pick`, `omit`, `complete` (jsonclassify.py:168-190, 379-388).
-/
namespace JC
variable (env : Env)

/-- The properties of JSON objects, none of which has a setter: jsonclassify.py:253-321, installed
in every class in 1021-1028. -/
def readOnlyProps : List String :=
  ["is_new", "is_modified", "is_partial", "is_deleted", "modified_fields", "persisted_modified_fields", "previous_values", "unlinked_objects"]

/-- `setattr(obj, name, value)` for a public name, properties included: a name that is neither that
of reference ids nor that of a field goes to `object.__setattr__`, which refuses properties
without setter. `__setattr__`, jsonclassify.py:671-716. Fields that have the name of a property
are not modelled. -/
def setPublic (i : Nat) (n : String) (v : Val) : Py World Unit := do
  let w ← Py.get
  if readOnlyProps.contains n && ((w.cdef env i).localKey? n).isNone && ((w.cdef env i).field? n).isNone then Py.raise .attributeError
  else setAttr env i n v

/-- `obj.pick(picks)`: jsonclassify.py:168-175. -/
def pickFields (i : Nat) (picks : List String) : Py World Unit := do
  setPublic env i "is_partial" (.bool true)
  updObj i (fun o => { o with picks := some picks })

/-- `for o in omits: picks.remove(o)`: jsonclassify.py:188-189. -/
def removeNames : List String → List String → Except Exc (List String)
  | [], ps => .ok ps
  | o :: os, ps => if ps.contains o then removeNames os (ps.erase o) else .error .valueError

/-- `obj.omit(omits)`: jsonclassify.py:178-190. -/
def omitFields (i : Nat) (omits : List String) : Py World Unit := do
  setPublic env i "is_partial" (.bool true)
  let w ← Py.get
  let ps ← readW (fun _ => removeNames omits ((w.heap i).picks.getD ((w.cdef env i).fields.map Field.name)))
  updObj i (fun o => { o with picks := some ps })

/-- The objects, and of which objects `_modified_fields` is a list instead of a set. -/
structure PState where
  w : World
  listed : Nat → Bool := fun _ => false

/-- something done to the objects only -/
def liftP {α : Type} (m : Py World α) : Py PState α := fun s =>
  match m s.w with
  | (r, w') => (r, { s with w := w' })

/-- `setattr(obj, name, value)` for the name of a field that is no relation: a list has no method
`add`, so `self._modified_fields.add(name)` raises, after `_is_modified` has been set:
`__setattr__`, jsonclassify.py:713-735. Everything else is `setAttr`. -/
def assignPlain (i : Nat) (n : String) (v : Val) : Py PState Unit := fun s =>
  match (s.w.cdef env i).field? n with
  | none => liftP (setAttr env i n v) s
  | some f =>
    if s.listed i && !(s.w.heap i).isNew && f.store != .calculated && !pyEq v (s.w.attr i n) then
      (.error .attributeError, { s with w := (updObj i (fun o => { o with isModified := true }) s.w).2 })
    else liftP (setAttr env i n v) s

/-- `obj.complete()`: jsonclassify.py:379-388, where `fetch` is the ORM's `_orm_complete`. -/
def completeObj (fetch : Nat → Py PState Unit) (i : Nat) : Py PState Unit := fun s =>
  if (s.w.heap i).picks.isSome then
    match fetch i s with
    | (.error e, s') => (.error e, s')
    | (.ok _, s') => (.ok (), {
        w := (updObj i (fun o => { o with isModified := (s.w.heap i).isModified, modFields := (s.w.heap i).modFields }) s'.w).2,
        listed := fun j => if j = i then true else s'.listed j })
  else (.ok (), s)

end JC
