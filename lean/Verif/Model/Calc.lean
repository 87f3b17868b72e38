import Verif.Model.SubPipe
import Verif.Model.Methods

/-
Calculated fields with setters: `getter`, `setter` (getter_modifier.py:11-26,
setter_modifier.py:11-26), the `assign` modifier, and assignment to a calculated field.
-/
namespace JC

/-- What a setter given as a callable does: assignments and methods of lists and dicts on objects,
one after the other, each depending on what it reads, then it returns or raises. A setter that
catches exceptions, constructs objects or does not terminate is not modelled. -/
inductive SetterRun where
  | done
  | fail (e : Exc)
  | act (i : Nat) (o : FOp) (next : Heap → SetterRun)

/-- The value of `assign(name, value)`: assign_modifier.py:14-19 (a callable has no parameters). -/
inductive AssignArg where
  | const (v : Val)
  | call (f : Heap → Except Exc Val)
  | types (p : Pipe)

/-- A modifier of a setter pipeline. -/
inductive SMod where
  | mod (m : LMod)
  | assign (name : String) (arg : AssignArg)

/-- The argument of `setter`: setter_modifier.py:14-22. -/
inductive FieldSetter where
  | fn (f : Nat → Val → Heap → SetterRun)
  | types (p : List SMod)

/-- The setter of a field of a class, if it has one (`fdef.setter`). -/
abbrev Setters := String → String → Option FieldSetter

variable (env : Env)

/-- running a setter, with `set` for assignments -/
def SetterRun.run (set : Nat → String → Val → Py World Unit) : SetterRun → Py World Unit
  | .done => pure ()
  | .fail e => Py.raise e
  | .act i o k => do
    match o with
    | .set n v => set i n v
    | .lst n op => listOp env i n op
    | .dct n op => dictOp env i n op
    let w ← Py.get
    (k w.heap).run set

/-- the value assigned: assign_modifier.py:21-31 -/
def AssignArg.value (a : AssignArg) (h : Heap) (c : Ctx) : Except Exc Val :=
  match a with
  | .const v => .ok v
  | .call f => f h
  | .types p => p.transform h c

/-- `AssignModifier.transform`: assign_modifier.py:21-31. Only JSON class objects take attributes. -/
def assignTransform (set : Nat → String → Val → Py World Unit) (name : String) (a : AssignArg) (c : Ctx) : Py World Val := do
  let v ← readW (fun w => a.value w.heap c)
  match c.val with
  | .obj i => do
    set i name v
    pure c.val
  | _ => Py.raise .attributeError

/-- The modifier, with `set` for assignments. -/
def SMod.ops (set : Nat → String → Val → Py World Unit) : SMod → Ops World
  | .mod .eager => { isEager := true }
  | .mod .pre => { isPre := true }
  | .mod (.leaf l) => { validate := fun c => readW (fun w => l.validate w.heap c), transform := fun c => readW (fun w => l.transform w.heap c),
                        tojson := fun c => readW (fun w => l.tojson w.heap c), serialize := fun c => readW (fun w => l.serialize w.heap c) }
  | .assign n a => { transform := assignTransform set n a }

/-- `Ctx.rootctxp`: ctx.py:131-144. -/
def rootCtxP (w : World) (i : Nat) (n : String) (v : Val) : Ctx :=
  { root := i, owner := some i, parent := some i, original := some i, operator := (w.heap i).operator,
    keypathr := [.s n], fkeypathr := [.s ((w.cdef env i).outKey n)], keypatho := [.s n], keypathp := [.s n], keypathh := [.s n], passin := v }

/-- The setter applied to an object and a value: jsonclassify.py:723-727. -/
def FieldSetter.run (set : Nat → String → Val → Py World Unit) (s : FieldSetter) (i : Nat) (n : String) (v : Val) : Py World Unit := do
  let w ← Py.get
  match s with
  | .fn f => (f i v w.heap).run env set
  | .types p => do
    let _ ← chainTransform (p.map (SMod.ops set)) (rootCtxP env w i n v)
    pure ()

/-- `setattr(i, n, v)` with setters: `__setattr__`, jsonclassify.py:671-766. The first argument
limits the nesting of setters. -/
def assignAttr (S : Setters) : Nat → Nat → String → Val → Py World Unit
  | 0, _, _, _ => Py.raise .recursion
  | d + 1, i, n, v => do
    let w ← Py.get
    match (w.cdef env i).localKey? n with
    | some _ => setAttr env i n v
    | none => match (w.cdef env i).field? n with
      | none => setAttr env i n v
      | some f =>
        if f.store = .calculated then
          match S (w.heap i).cls n with
          | none => Py.raise (.other 0)
          | some s => s.run env (assignAttr S d) i n v
        else setAttr env i n v

/-- The assignment loop of `update`: jsonclassify.py:137-138. -/
def assignAll (S : Setters) (d : Nat) (i : Nat) : List (String × Val) → Py World Unit
  | [] => pure ()
  | (k, v) :: r => do
    assignAttr env S d i k v
    assignAll S d i r

/-- `obj.update(**kwargs)` with setters: jsonclassify.py:120-139. -/
def updateAttrs (S : Setters) (d : Nat) (i : Nat) (kvs : List (String × Val)) : Py World Unit := fun w =>
  if kvs.all (fun kv => (w.cdef env i).updateNames.contains kv.1) then assignAll env S d i kvs w
  else (.error .valueError, w)

end JC
