import Verif.Model.Link

/-
Loading related objects: `include` (jsonclassify.py:391-435) and the `fobj` modifier
(modifiers/fobj_modifier.py). The ORM behind the queries is a parameter.
-/
namespace JC
variable (env : Env)

/-- The queries `include` makes: orm.py:144-163. `find` and `one` are given the name of the
reference id to look for and the id (`find` gets a list with the id). -/
inductive OrmQuery where
  | id (c : String) (key : Val)
  | ids (c : String) (keys : Val)
  | one (c : String) (ref : String) (key : Val)
  | find (c : String) (ref : String) (key : Val)

/-- An ORM: what executing a query does and answers, the class of the objects in a relation
field (`inst_cls`), and whether the field uses a join table. -/
structure Orm where
  exec : OrmQuery → Py World Val
  instCls : Field → String
  joins : Field → Bool

variable (orm : Orm)

/-- The query for the objects whose reference id is this object's id: jsonclassify.py:413-432.
Without a foreign field the reference name cannot be made. -/
def backQuery (w : World) (i : Nat) (f : Field) (mk : String → String → Val → OrmQuery) : Except Exc (Option OrmQuery) :=
  match env.foreignField f with
  | some of => .ok (some (mk (orm.instCls f) of.refName (w.id env i)))
  | none => .error .attributeError

/-- The query `include` makes: jsonclassify.py:401-432; none for other than relation fields. -/
def includeQuery (w : World) (i : Nat) (f : Field) : Except Exc (Option OrmQuery) :=
  match f.store with
  | .localKey => match f.ftype with
    | .inst => .ok (some (.id (orm.instCls f) (w.attr i f.refName)))
    | .list => .ok (some (.ids (orm.instCls f) (w.attr i f.refName)))
    | _ => .ok none
  | .foreignKey =>
    if orm.joins f then backQuery env orm w i f .find
    else match f.ftype with
      | .inst => backQuery env orm w i f .one
      | .list => backQuery env orm w i f .find
      | _ => .ok none
  | _ => .ok none

/-- Executing the query and assigning the answer. -/
def includeFetch (i : Nat) (f : Field) (q : Option OrmQuery) : Py World Unit :=
  match q with
  | some q => do
    let v ← orm.exec q
    setAttr env i f.name v
  | none => pure ()

/-- `obj.include(name)`: jsonclassify.py:391-435. The modified fields and the modified flag
are put back at the end; the previous values are not. -/
def apiInclude (i : Nat) (n : String) : Py World Unit := do
  let w ← Py.get
  match (w.cdef env i).field? n with
  | none => Py.raise .valueError
  | some f => do
    let q ← readW (fun w => includeQuery env orm w i f)
    includeFetch env orm i f q
    updObj i (fun o => { o with modFields := (w.heap i).modFields, isModified := (w.heap i).isModified })

/-- Is the field of the object `None`, then load it: fobj_modifier.py:24-25. -/
def fobjLoad (i : Nat) (n : String) : Py World Unit := do
  let v ← readW (fun w => w.getattr env i n)
  if v.isNone then apiInclude env orm i n else pure ()

/-- `fobj(name)`: modifiers/fobj_modifier.py:19-26. -/
def fobjTransform (n : String) (v : Val) : Py World Val :=
  match v with
  | .none => pure .none
  | .obj i => do
    fobjLoad env orm i n
    readW (fun w => w.getattr env i n)
  | _ => Py.raise .attributeError

end JC
