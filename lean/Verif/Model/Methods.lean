import Verif.Model.Instance
import Verif.Model.OwnedDict

/-
Operations a program performs on one object's fields: assignments, and every method of the
owned lists and dicts found there (for containers directly under a field name).
-/
namespace JC
variable (env : Env)

/-- Assignment to a field and in-place changes of a list or dict stored in a field. -/
inductive FOp where
  /-- `obj.n = v` -/
  | set (n : String) (v : Val)
  /-- `obj.n.append(v)` and so on -/
  | lst (n : String) (op : LOp Val)
  /-- `obj.n[k] = v` and so on -/
  | dct (n : String) (op : DOp Val)

/-- the field an operation is about -/
def FOp.name : FOp → String
  | .set n _ => n
  | .lst n _ => n
  | .dct n _ => n

/-- is the call `__olist_will_change__` -/
def LEv.isWill {α : Type} : LEv α → Bool
  | .will => true
  | _ => false

/-- is the call `__odict_will_change__` -/
def DEv.isWill {α : Type} : DEv α → Bool
  | .will => true
  | _ => false

/-- The owner's side of a call made by an owned list: jsonclassify.py:824-921. -/
def ownerLEv (i : Nat) (n : String) : LEv Val → Py World Unit
  | .will => willChange env false i n
  | .add k v => olistAdd env i n k v
  | .del v => olistDel env i n v
  | .sor => markModified i n

/-- `__odict_add__`: jsonclassify.py:804-814. For a list or dict value the owned copy is
assigned to `odict[key]`, which reports the removal of the old value and then the addition
of a list or dict, without end: odict.py:112-124. -/
def odictAdd (i : Nat) (n : String) : Nat → Val → Py World Unit
  | 0, _ => Py.raise .recursion
  | m + 1, v => match v with
    | .list _ => do
      markModified i n
      odictAdd i n m v
    | .dict _ => do
      markModified i n
      odictAdd i n m v
    | _ => markModified i n

/-- The owner's side of a call made by an owned dict: jsonclassify.py:787-821. -/
def ownerDEv (i : Nat) (n : String) : DEv Val → Py World Unit
  | .will => willChange env true i n
  | .add _ v => odictAdd i n env.fuel v
  | .del _ => markModified i n

/-- the calls in order -/
def forEvs {ε : Type} (f : ε → Py World Unit) : List ε → Py World Unit
  | [] => pure ()
  | e :: es => do
    f e
    forEvs f es

/-- the exception at the end, if any -/
def raiseOpt : Option Exc → Py World Unit
  | some e => Py.raise e
  | none => pure ()

/-- An operation on an owned list: announcement, new contents, reports, exception
(olist.py:49-186; the methods announce before and report after the change). -/
def listOp (i : Nat) (n : String) (op : LOp Val) : Py World Unit := do
  let w ← Py.get
  match w.attr i n with
  | .list xs => do
    forEvs (ownerLEv env i n) ((ownedOp pyEq op xs).log.filter LEv.isWill)
    rawSet i n (.list (ownedOp pyEq op xs).items)
    forEvs (ownerLEv env i n) ((ownedOp pyEq op xs).log.filter (fun e => !e.isWill))
    raiseOpt (ownedOp pyEq op xs).exc
  | _ => Py.raise .attributeError

/-- An operation on an owned dict (odict.py:50-144). -/
def dictOp (i : Nat) (n : String) (op : DOp Val) : Py World Unit := do
  let w ← Py.get
  match w.attr i n with
  | .dict kvs => do
    forEvs (ownerDEv env i n) ((ownedDOp Val.none op kvs).log.filter DEv.isWill)
    rawSet i n (.dict (ownedDOp Val.none op kvs).items)
    forEvs (ownerDEv env i n) ((ownedDOp Val.none op kvs).log.filter (fun e => !e.isWill))
    raiseOpt (ownedDOp Val.none op kvs).exc
  | _ => Py.raise .attributeError

/-- `__setattr__` (jsonclassify.py:671-766) and the methods of owned containers. -/
def FOp.run (i : Nat) : FOp → Py World Unit
  | .set n v => setAttr env i n v
  | .lst n op => listOp env i n op
  | .dct n op => dictOp env i n op

/-- A sequence of operations; the program catches exceptions and goes on. -/
def runOps (i : Nat) : List FOp → World → World
  | [], w => w
  | op :: ops, w => runOps i ops (op.run env i w).2

end JC
