import Verif.Model.Methods

/-
The primary key under which an object is stored: `_previous_id` (jsonclassify.py:653-664).
-/
namespace JC
variable (env : Env)

/-- `obj._previous_id`: jsonclassify.py:653-664. `_id` is 646-650. -/
def previousId (w : World) (i : Nat) : Except Exc Val :=
  let o := w.heap i
  if o.isNew then .ok (w.id env i)
  else match (w.cdef env i).primary with
    | none => .ok .none
    | some n =>
      if o.isModified && o.modFields.contains n then
        match dictGet o.prev n with
        | some v => .ok v
        | none => .error .keyError
      else .ok (w.id env i)

end JC
