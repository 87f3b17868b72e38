import Verif.Model.SubPipe
import Verif.Model.Save

/-
The modifiers that act when an object is saved: `setonsave`, `fsetonsave`, `onsave`,
`onupdate`, `onwrite`.

Setters and callbacks are user code: they read objects and the value and may raise, but do not
change objects. Everything a callback does outside the objects is seen by what it raises: a
callback is an arbitrary function of the state and its arguments to "returns" or "raises". The
number of its parameters (counted at every call, `signature(self.callback)`) decides which
arguments it gets; a function that ignores some of its arguments is the same thing.
-/
namespace JC

/-- The argument of `setonsave`: a callable without parameters, a callable of the value, or
types. -/
inductive Setter where
  | const (f : Heap → Except Exc Val)
  | fn (f : Heap → Val → Except Exc Val)
  | types (p : Pipe)

/-- `SetOnSaveModifier.serialize`: setonsave_modifier.py:24-31 (`Types` objects are not
callable). -/
def Setter.run (s : Setter) (h : Heap) (c : Ctx) : Except Exc Val :=
  match s with
  | .fn f => f h c.val
  | .const f => f h
  | .types p => p.transform h c

/-- `SetOnSaveModifier`: setonsave_modifier.py:11-31; `FSetOnSaveModifier` has the same methods
and sets the flag `force_set_on_save` of the field: fsetonsave_modifier.py:7-13. -/
def setOnSaveLeaf (s : Setter) : Leaf where
  serialize := fun h c => s.run h c

/-- `types.setonsave(s)`: types.py:1212-1224; `types.fsetonsave(s)`: types.py:1226-1237 (with
`Field.forceSetOnSave`). -/
def setOnSaveMods (s : Setter) : List Mod := [.pre, .leaf (setOnSaveLeaf s)]

/-- `self.callback(…); return ctx.val` -/
def thenVal (r : Except Exc Unit) (v : Val) : Except Exc Val :=
  match r with
  | .error e => .error e
  | .ok _ => .ok v

/-- `OnSaveModifier`: onsave_modifier.py:10-27. -/
def onSaveLeaf (cb : Heap → Val → Except Exc Unit) : Leaf where
  serialize := fun h c => thenVal (cb h c.val) c.val

/-- `name = ctx.keypathp[-1]; parent = ctx.parent` (onupdate_modifier.py:25-26,
onwrite_modifier.py:25-26): the object asked and the key. A list or dict has neither
`previous_values` nor `is_new`. -/
def askedOf (c : Ctx) : Except Exc (Nat × Key) :=
  match c.keypathp.getLast? with
  | none => .error .indexError
  | some k => match c.parent with
    | none => .error .attributeError
    | some p => .ok (p, k)

/-- `OnUpdateModifier`: onupdate_modifier.py:10-41. The callback gets the recorded previous
value and the value. -/
def onUpdateLeaf (cb : Heap → Val → Val → Ctx → Except Exc Unit) : Leaf where
  serialize := fun h c => match askedOf c with
    | .error e => .error e
    | .ok (_, .i _) => .ok c.val
    | .ok (p, .s n) => match dictGet (h p).prev n with
      | none => .ok c.val
      | some prev => thenVal (cb h prev c.val c) c.val

/-- `OnWriteModifier`: onwrite_modifier.py:10-36. -/
def onWriteLeaf (cb : Heap → Val → Ctx → Except Exc Unit) : Leaf where
  serialize := fun h c => match askedOf c with
    | .error e => .error e
    | .ok (p, k) =>
      if !(h p).isNew && !(match k with
        | .s n => (h p).modFields.contains n
        | .i _ => false) then .ok c.val
      else thenVal (cb h c.val c) c.val

end JC
