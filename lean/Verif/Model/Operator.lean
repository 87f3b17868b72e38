import Verif.Model.Instance

/-
Operator assignment: `opby`, and the modifiers `asop` and `asopd`.
-/
namespace JC
variable (env : Env)

/-- A field declared with `asop(transformer)` or `asopd` (no transformer): asop_modifier.py:24-26,
asopd_modifier.py:15-16, cdef.py:95-96. The transformer comes with its number of parameters; it
gets the operator and, with two parameters, the object. It may read objects. -/
structure OpField where
  field : Field
  transformer : Option (Nat × (Heap → Val → Nat → Except Exc Val)) := none

/-- One round of the loop of `opby`: jsonclassify.py:241-250. A transformer with three parameters is
accepted by `asop` (asop_modifier.py:19-21) and passed over here. -/
def opbyOne (i : Nat) (op : Val) (a : OpField) : Py World Unit :=
  match a.transformer with
  | none => do
    let k ← readW (fun w => itemId env w op)
    setAttr env i a.field.refName k
  | some (n, f) =>
    if n = 1 ∨ n = 2 then do
      let x ← readW (fun w => f w.heap op i)
      let k ← readW (fun w => itemId env w x)
      setAttr env i a.field.refName k
    else pure ()

/-- The loop of `opby`: jsonclassify.py:240-250. -/
def opbyLoop (i : Nat) (op : Val) : List OpField → Py World Unit
  | [] => pure ()
  | a :: as => do
    opbyOne env i op a
    opbyLoop i op as

/-- `opby`: jsonclassify.py:225-251. `fs` are the fields of the object's class declared with
`asop` or `asopd`, in order (`CDef.assign_operator_fields`). -/
def apiOpby (fs : List OpField) (i : Nat) (op : Val) : Py World Unit := do
  updObj i (fun o => { o with operator := op })
  let w ← Py.get
  if op.isNone then pure ()
  else if (w.heap i).isNew then opbyLoop env i op fs
  else pure ()

/-- `AsopModifier.validate` and `AsopdModifier.validate`: asop_modifier.py:28-33,
asopd_modifier.py:18-23. `refs` gives the reference id name of a named field of a class
(`ref_name_strategy(cdef.field_named(name))`, `none` if there is no such field: `ValueError`,
cdef.py:123-138). An index is no field name. -/
def asopLeaf (refs : String → String → Option String) : Leaf where
  validate := fun h c => match c.holder with
    | none => .error .attributeError
    | some o => match c.keypathr.getLast? with
      | none => .error .indexError
      | some (.i _) => if (h o).isNew then .error .valueError else .ok ()
      | some (.s n) =>
        if (h o).isNew || (h o).modFields.contains n then
          match refs (h o).cls n with
          | none => .error .valueError
          | some r => if ((h o).attrs r).isNone then .error (c.vexc "no operator being assigned") else .ok ()
        else .ok ()

end JC
