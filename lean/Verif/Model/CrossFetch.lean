import Verif.Model.SubPipe
import Verif.Model.Strings
import Verif.Model.Convert

/-
`crossfetch` (modifiers/cross_fetch_modifier.py), `invalid` (modifiers/invalid_modifier.py),
`randomfloat` (modifiers/random_float_modifier.py), and pipelines given as parameters
(modifiers/modifier.py:20-24). The ORM behind the query is a parameter.
-/
namespace JC

/-- A parameter given as a pipeline: modifier.py:22-24. It starts with None. -/
def Pipe.param (p : Pipe) : Param := fun h c => p.transform h (c.nval .none)

/-- What the ORM answers: `known` are the classes of the graph (cgraph.py `fetch`), `one cls key v`
is `cls.one(**{key: v}).optional.exec()`, the object found or None. The query does not change the
objects of the program; what it finds is among them. -/
structure Finder where
  known : String → Bool
  one : Heap → String → String → Val → Except Exc Val

variable (env : Env)

/-- `CrossFetchModifier`: cross_fetch_modifier.py:14-28. A parent that is no JSON class object has
no `cdef`. An unknown class raises JSONClassNotFoundException (`other 2`). -/
def crossfetchLeaf (db : Finder) (cls thisKey : String) (thatKey : Option String) : Leaf where
  transform := fun h c => match c.parent with
    | none => .error .attributeError
    | some p =>
      if !db.known cls then .error (.other 2)
      else match ({ heap := h } : World).getattr env p thisKey with
        | .error e => .error e
        | .ok v => match db.one h cls (thatKey.getD thisKey) v with
          | .error e => .error e
          | .ok .none => .error (c.vexc "cross fetch failed")
          | .ok r => .ok r

/-- `InvalidModifier`: invalid_modifier.py:10-15. -/
def invalidLeaf : Leaf where
  validate := fun _ c => .error (c.vexc "value is invalid")

/-- `random.uniform(a, b)` for finite bounds: a number between them, in whichever order they are
given. -/
structure RandUniform where
  pick : Rat → Rat → Rat
  ge : ∀ a b, min a b ≤ pick a b
  le : ∀ a b, pick a b ≤ max a b

/-- `RandomFloatModifier`: random_float_modifier.py:15-22, for finite numbers (others: `other 1`). -/
def randomfloatMod (R : RandUniform) (pmin pmax : Param) : Leaf where
  transform := fun h c => do
    let a ← pmin h c
    let b ← pmax h c
    match a.flt?, b.flt? with
    | some (.fin x), some (.fin y) => .ok (.flt (.fin (R.pick x y)))
    | _, _ => .error (.other 1)

end JC
