import Verif.Model.Methods

/-
Model of `==` on objects of JSON classes, and of attribute assignment, linking and unlinking
as in `Model/Link` and `Model/Methods`, with every comparison of objects made by `==` instead
of identity.

`jsonclass.py:126` makes every class a dataclass with the generated `__eq__`: objects of one
class are equal if the tuples of their fields are. The comparison of tuples, lists and dicts
stops at the first difference and takes an item for equal to itself (as in Python before 3.13;
since 3.13 `__eq__` compares field by field, with the same outcome but for NaN and getters).

Simplifications: an index that is not allocated is no object and is equal to itself only; an
object is equal to itself (its getters are not called for this); the NaN in two fields are two
objects.
-/
namespace JC
variable (env : Env)

/-- the tuple `(self.f1, self.f2, …)` of the generated `__eq__`; calculated fields call their
getters: jsonclassify.py:769-784 -/
def objVals (w : World) (i : Nat) : List Field → Except Exc (List Val)
  | [] => .ok []
  | f :: fs => match (if f.store = .calculated then f.getter w.heap i else .ok (w.attr i f.name)) with
    | .error e => .error e
    | .ok v => match objVals w i fs with
      | .error e => .error e
      | .ok vs => .ok (v :: vs)

mutual
/-- `==` on values, `oe` for objects -/
def veq (oe : Nat → Nat → Except Exc Bool) : Val → Val → Except Exc Bool
  | .list xs, .list ys => if xs.length = ys.length then veqList oe xs ys else .ok false
  | .dict xs, .dict ys => if xs.length = ys.length then veqDict oe xs ys else .ok false
  | .obj i, .obj j => oe i j
  | a, b => .ok (pyEq a b)
/-- item by item, up to the first difference -/
def veqList (oe : Nat → Nat → Except Exc Bool) : List Val → List Val → Except Exc Bool
  | [], [] => .ok true
  | x :: xs, y :: ys => match veq oe x y with
    | .ok true => veqList oe xs ys
    | r => r
  | _, _ => .ok false
/-- entry by entry, up to the first difference -/
def veqDict (oe : Nat → Nat → Except Exc Bool) : List (String × Val) → List (String × Val) → Except Exc Bool
  | [], _ => .ok true
  | (k, x) :: xs, ys => match ys.lookup k with
    | none => .ok false
    | some y => match veq oe x y with
      | .ok true => veqDict oe xs ys
      | r => r
end

/-- the generated `__eq__` (jsonclass.py:126), with a limit of nested calls -/
def oeq (w : World) : Nat → Nat → Nat → Except Exc Bool
  | 0, _, _ => .error .recursion
  | n + 1, i, j =>
    if i = j then .ok true
    else if i < w.next ∧ j < w.next ∧ (w.heap i).cls = (w.heap j).cls then
      match objVals w i (w.cdef env i).fields, objVals w j (w.cdef env i).fields with
      | .ok a, .ok b => veqList (oeq w n) a b
      | .error e, _ => .error e
      | _, .error e => .error e
    else .ok false

/-- `a == b` -/
def deq (n : Nat) (w : World) (a b : Val) : Except Exc Bool := veq (oeq env w n) a b

/-! ### Linking with `==` -/

variable (eq : World → Val → Val → Except Exc Bool)

/-- `v in xs` -/
def inE (w : World) (v : Val) : List Val → Except Exc Bool
  | [] => .ok false
  | x :: xs => match eq w x v with
    | .ok false => inE w v xs
    | r => r

/-- `xs.remove(v)` (`none`: ValueError) -/
def removeE (w : World) (v : Val) : List Val → Except Exc (Option (List Val))
  | [] => .ok none
  | x :: xs => match eq w x v with
    | .error e => .error e
    | .ok true => .ok (some xs)
    | .ok false => match removeE w v xs with
      | .error e => .error e
      | .ok r => .ok (r.map (x :: ·))

/-- `_add_unlinked_object`: jsonclassify.py:520-528 -/
def addUnlinkedE (i : Nat) (n : String) (v : Val) : Py World Unit := do
  let b ← readW (fun w => inE eq w v ((dictGet (w.heap i).unlinked n).getD []))
  updObj i (fun o =>
    let xs := (dictGet o.unlinked n).getD []
    { o with unlinked := dictSet n (if b then xs else xs ++ [v]) o.unlinked })

/-- `_del_unlinked_object`: jsonclassify.py:530-538 -/
def delUnlinkedE (i : Nat) (n : String) (v : Val) : Py World Unit := do
  let r ← readW (fun w => removeE eq w v ((dictGet (w.heap i).unlinked n).getD []))
  updObj i (fun o =>
    let xs := (dictGet o.unlinked n).getD []
    { o with unlinked := dictSet n (r.getD xs) o.unlinked })

/-- `OwnedList.remove` on a list attribute: olist.py:72-75 -/
def listRemoveAttrE (run : UCmd → Py World Unit) (i : Nat) (name : String) (v : Val) : Py World Unit := do
  let w ← Py.get
  match w.attr i name with
  | .list xs => do
    willChange env false i name
    let r ← readW (fun w => removeE eq w v xs)
    match r with
    | some ys => do
      rawSet i name (.list ys)
      run (.del i name v)
    | none => Py.raise .valueError
  | _ => Py.raise .attributeError

/-- The other side of `__unlink_field__` for one item: jsonclassify.py:938-953. A single
reference is compared by identity there. -/
def unlinkOtherE (run : UCmd → Py World Unit) (i : Nat) (of : Field) (item : Val) : Py World Unit :=
  match item with
  | .obj j => do
    let w ← Py.get
    match of.ftype with
    | .inst =>
      if pyEq (w.attr j of.name) (.obj i) then (do
        rawSet j of.name .none
        unlinkKey j of
        addUnlinkedE eq j of.name (.obj i))
      else pure ()
    | .list => match w.attr j of.name with
      | .list xs => do
        let b ← readW (fun w => inE eq w (.obj i) xs)
        if b then (do
          listRemoveAttrE env eq run j of.name (.obj i)
          addUnlinkedE eq j of.name (.obj i))
        else pure ()
      | _ => pure ()
    | _ => pure ()
  | _ => Py.raise .attributeError

/-- `__unlink_field__`: jsonclassify.py:924-953 -/
def unlinkBodyE (run : UCmd → Py World Unit) (i : Nat) (f : Field) (v : Val) : Py World Unit :=
  match env.foreignField f with
  | none => match linkItems f v with
    | [] => pure ()
    | x :: _ => addUnlinkedE eq i f.name x
  | some of => forItems (linkItems f v) (fun item => do
      addUnlinkedE eq i f.name item
      unlinkOtherE env eq run i of item)

/-- `__olist_del__` for a local key list: jsonclassify.py:882-895 -/
def delLocalE (run : UCmd → Py World Unit) (i : Nat) (f : Field) (path : String) (v : Val) : Py World Unit := do
  markLocalKey i f
  let w ← Py.get
  match w.attr i f.name with
  | .list xs => do
    let n ← readW (fun _ => listLen (w.attr i path))
    if xs.length ≠ n then do
      let m ← readW (fun _ => findById env w v xs)
      match m with
      | some x => listRemoveAttrE env eq run i f.name x
      | none => pure ()
    else pure ()
  | _ => pure ()

/-- The key part of `__olist_del__` for a reference list: jsonclassify.py:902-909; ids are
compared as in `Model/Link`, the removal goes through `OwnedList.remove`. -/
def delKeyE (run : UCmd → Py World Unit) (i : Nat) (f : Field) (path : String) (v : Val) : Py World Unit :=
  if f.store = .localKey then do
    let w ← Py.get
    match w.attr i f.refName with
    | .list ks => do
      let n ← readW (fun _ => listLen (w.attr i path))
      if ks.length ≠ n && !v.isNone then do
        let k ← readW (fun _ => itemId env w v)
        let b ← readW (fun w => inE eq w k ks)
        if b then listRemoveAttrE env eq run i f.refName k else pure ()
      else pure ()
    | _ => Py.raise .typeError
  else pure ()

/-- The reference part of `__olist_del__`: jsonclassify.py:896-909 -/
def delRefE (run : UCmd → Py World Unit) (i : Nat) (fo : Option Field) (path : String) (v : Val) : Py World Unit :=
  match fo with
  | some f =>
    if f.isRef then do
      run (.unlink i f (.list [v]))
      delKeyE env eq run i f path v
    else pure ()
  | none => pure ()

/-- `__olist_del__`: jsonclassify.py:880-913 -/
def delBodyE (run : UCmd → Py World Unit) (i : Nat) (path : String) (v : Val) : Py World Unit := do
  let w ← Py.get
  match (w.cdef env i).localKey? path with
  | some f => delLocalE env eq run i f path v
  | none => do
    delRefE env eq run i ((w.cdef env i).field? path) path v
    markModified i path

/-- unlinking with a recursion limit, as `runU` -/
def runUE : Nat → UCmd → Py World Unit
  | 0, _ => Py.raise .recursion
  | n + 1, .unlink i f v => unlinkBodyE env eq (runUE n) i f v
  | n + 1, .del i p v => delBodyE env eq (runUE n) i p v

/-- `__unlink_field__` -/
def unlinkFieldE (i : Nat) (f : Field) (v : Val) : Py World Unit := runUE env eq env.fuel (.unlink i f v)

/-- `__olist_del__` -/
def olistDelE (i : Nat) (path : String) (v : Val) : Py World Unit := runUE env eq env.fuel (.del i path v)

/-- The other side of `__link_field__` for one item: jsonclassify.py:971-982 -/
def linkSideE (run : LCmd → Py World Unit) (i : Nat) (of : Field) (j : Nat) : Py World Unit := do
  let w ← Py.get
  match of.ftype with
  | .inst => do
    let b ← readW (fun w' => eq w' (w.attr j of.name) (.obj i))
    if b then pure ()
    else do
      run (.set j of.name (.obj i))
      delUnlinkedE eq j of.name (.obj i)
  | .list => match w.attr j of.name with
    | .list xs => do
      let b ← readW (fun w => inE eq w (.obj i) xs)
      if b then pure () else do
        listAppendAttr env run j of.name (.obj i)
        delUnlinkedE eq j of.name (.obj i)
    | _ => do
        run (.set j of.name (.list [.obj i]))
        delUnlinkedE eq j of.name (.obj i)
  | _ => pure ()

/-- one item of `__link_field__`: jsonclassify.py:966-983 -/
def linkOtherE (run : LCmd → Py World Unit) (i : Nat) (of : Field) (item : Val) : Py World Unit :=
  match item with
  | .obj j => do
    linkSideE env eq run i of j
    linkGraph env i j
  | _ => Py.raise .attributeError

/-- `__link_field__`: jsonclassify.py:956-983 -/
def linkBodyE (run : LCmd → Py World Unit) (i : Nat) (f : Field) (v : Val) : Py World Unit :=
  match env.foreignField f with
  | none => match linkItems f v with
    | [] => pure ()
    | x :: _ => delUnlinkedE eq i f.name x
  | some of => forItems (linkItems f v) (fun item => do
      delUnlinkedE eq i f.name item
      linkOtherE env eq run i of item)

/-- The end of `__olist_add__`: jsonclassify.py:868-877 -/
def addTailE (run : LCmd → Py World Unit) (i : Nat) (path : String) (idx : Int) (v : Val) : Py World Unit :=
  match v with
  | .list _ => do
    olistDelE env eq i path v
    run (.add i path idx v)
  | .dict _ => do
    olistDelE env eq i path v
    run (.add i path idx v)
  | _ => markModified i path

/-- `__olist_add__`: jsonclassify.py:846-877 -/
def addBodyE (run : LCmd → Py World Unit) (i : Nat) (path : String) (idx : Int) (v : Val) : Py World Unit := do
  let w ← Py.get
  match (w.cdef env i).localKey? path with
  | some f => markLocalKey i f
  | none => do
    addRef env run i ((w.cdef env i).field? path) path idx v
    addTailE env eq run i path idx v

/-- `__setattr__` from the field lookup on: jsonclassify.py:708-766 -/
def setBodyE (run : LCmd → Py World Unit) (i : Nat) (n : String) (v : Val) : Py World Unit := do
  let w ← Py.get
  match (w.cdef env i).field? n with
  | none => rawSet i n v
  | some f =>
    if f.store = .calculated then Py.raise (.other 0)
    else do
      let b ← readW (fun w' => eq w' v (w.attr i n))
      if b then pure ()
      else do
        track env i f
        if f.isRef then do
          unlinkFieldE env eq i f (w.attr i n)
          rawSet i n v
          syncKey env i f v
          run (.link i f v)
        else rawSet i n v

/-- linking with a recursion limit, as `runL` -/
def runLE : Nat → LCmd → Py World Unit
  | 0, _ => Py.raise .recursion
  | n + 1, .link i f v => linkBodyE env eq (runLE n) i f v
  | n + 1, .add i p k v => addBodyE env eq (runLE n) i p k v
  | n + 1, .set i n' v => setBodyE env eq (runLE n) i n' v

/-- `setattr(i, n, v)` for a name that is not a local key -/
def setFieldE (i : Nat) (n : String) (v : Val) : Py World Unit := runLE env eq env.fuel (.set i n v)

/-- `__olist_add__` -/
def olistAddE (i : Nat) (path : String) (idx : Int) (v : Val) : Py World Unit := runLE env eq env.fuel (.add i path idx v)

/-- The object side of an assignment to a local key: jsonclassify.py:681-702 -/
def setLocalKeyFieldE (i : Nat) (f : Field) (v : Val) : Py World Unit :=
  match f.ftype with
  | .inst => do
    rawSet i f.refName v
    setFieldE env eq i f.name .none
  | .list => match v with
    | .none => do
      rawSet i f.refName (.list [])
      setFieldE env eq i f.name (.list [])
    | .list ks => do
      rawSet i f.refName (.list ks)
      let xs ← readW (fun w => itemsForKeys env w (match w.attr i f.name with
          | .list xs => xs
          | _ => []) ks)
      setFieldE env eq i f.name (.list xs)
    | _ => Py.raise .typeError
  | _ => pure ()

/-- Assignment to a local key: jsonclassify.py:677-710 -/
def setLocalKeyE (i : Nat) (f : Field) (v : Val) : Py World Unit := do
  let w ← Py.get
  let b ← readW (fun w' => eq w' v (w.attr i f.refName))
  if b then pure ()
  else do
    setLocalKeyFieldE env eq i f v
    markModified i f.name
    rawSet i f.refName v

/-- `__setattr__`: jsonclassify.py:671-766 -/
def setAttrE (i : Nat) (n : String) (v : Val) : Py World Unit := do
  let w ← Py.get
  match (w.cdef env i).localKey? n with
  | some f => setLocalKeyE env eq i f v
  | none => setFieldE env eq i n v

/-- the owner's side of a call made by an owned list: jsonclassify.py:824-921 -/
def ownerLEvE (i : Nat) (n : String) : LEv Val → Py World Unit
  | .will => willChange env false i n
  | .add k v => olistAddE env eq i n k v
  | .del v => olistDelE env eq i n v
  | .sor => markModified i n

/-- does the search of `remove` raise? -/
def searchE (w : World) (op : LOp Val) (xs : List Val) : Except Exc Unit :=
  match op with
  | .remove v => match removeE eq w v xs with
    | .error e => .error e
    | .ok _ => .ok ()
  | _ => .ok ()

/-- `a == b` where it is known not to raise -/
def holdsE (w : World) (a b : Val) : Bool :=
  match eq w a b with
  | .ok b => b
  | .error _ => false

/-- An operation on an owned list (olist.py:49-186): `remove` looks for an equal item, the
other methods do not compare. -/
def listOpE (i : Nat) (n : String) (op : LOp Val) : Py World Unit := do
  let w ← Py.get
  match w.attr i n with
  | .list xs => do
    forEvs (ownerLEvE env eq i n) ((ownedOp (holdsE eq w) op xs).log.filter LEv.isWill)
    readW (fun _ => searchE eq w op xs)
    rawSet i n (.list (ownedOp (holdsE eq w) op xs).items)
    forEvs (ownerLEvE env eq i n) ((ownedOp (holdsE eq w) op xs).log.filter (fun e => !e.isWill))
    raiseOpt (ownedOp (holdsE eq w) op xs).exc
  | _ => Py.raise .attributeError

/-- `__setattr__` and the methods of owned containers, objects compared by `eq` -/
def FOp.runE (i : Nat) : FOp → Py World Unit
  | .set n v => setAttrE env eq i n v
  | .lst n op => listOpE env eq i n op
  | .dct n op => dictOp env i n op

/-- a sequence of operations on any objects; the program catches exceptions and goes on -/
def historyE : List (Nat × FOp) → World → World
  | [], w => w
  | (i, op) :: ops, w => historyE ops (op.runE env eq i w).2

/-- The assignment loop of `update`: jsonclassify.py:137-138. -/
def setAllE (i : Nat) : List (String × Val) → Py World Unit
  | [] => pure ()
  | (k, v) :: r => do
    setAttrE env eq i k v
    setAllE i r

/-- `obj.update(**kwargs)`: jsonclassify.py:120-139. -/
def apiUpdateE (i : Nat) (kvs : List (String × Val)) : Py World Unit := fun w =>
  if kvs.all (fun kv => (w.cdef env i).updateNames.contains kv.1) then setAllE env eq i kvs w
  else (.error .valueError, w)

/-- The loop of `reset`: jsonclassify.py:331-335. -/
def resetLoopE (i : Nat) : List (String × Val) → Py World Unit
  | [] => pure ()
  | (k, v) :: r => do
    setAttrE env eq i k v
    updObj i (fun o => { o with isModified := false, modFields := [], prev := [] })
    resetLoopE i r

/-- `obj.reset()`: jsonclassify.py:324-335. -/
def apiResetE (i : Nat) : Py World Unit := fun w =>
  if !(w.cdef env i).resetAllFields then (.error .resetNotEnabled, w)
  else if (w.heap i).isNew then (.error .resetError, w)
  else resetLoopE env eq i (w.heap i).prev w

end JC
