import Verif.Model.World
import Verif.Model.OwnedList

/-
Model of attribute assignment, linking and unlinking: `jsonclassify.py` `__setattr__`,
`__unlink_field__`, `__link_field__`, and the container callbacks
`__olist_add__`, `__olist_del__`, `__olist_sor__`, `__odict_add__`, `__odict_del__`.

The mutually recursive methods are modelled as commands run with fuel: `runU` for
unlinking (which never assigns through `__setattr__`) and `runL` for linking.
Simplifications, everywhere in this file: `item.other` is read as a stored attribute
(a foreign field is never a calculated field); lists found under local keys are treated
as owned lists; a field never has the name of a local key.
-/
namespace JC
variable (env : Env)

/-- The definition of `field.foreign_field`. -/
def Env.foreignField (f : Field) : Option Field :=
  match f.foreign with
  | some (c, n) => (env.cls c).field? n
  | none => none

/-- `for item in items: body` -/
def forItems : List Val → (Val → Py World Unit) → Py World Unit
  | [], _ => pure ()
  | x :: xs, body => do
    body x
    forItems xs body

/-- Items to link or unlink: jsonclassify.py:925-933, 957-965. -/
def linkItems (f : Field) (v : Val) : List Val :=
  match f.ftype, v with
  | .inst, .obj j => [.obj j]
  | .list, .list xs => xs
  | _, _ => []

/-- length of a list valued attribute (`len` of anything else raises TypeError) -/
def listLen (v : Val) : Except Exc Nat :=
  match v with
  | .list xs => .ok xs.length
  | _ => .error .typeError

/-- Unlinking commands: `unlink i f v` is `i.__unlink_field__(f, v)`; `del i p v` is
`i.__olist_del__(list at p, v)`. -/
inductive UCmd where
  | unlink (i : Nat) (f : Field) (v : Val)
  | del (i : Nat) (path : String) (v : Val)

/-- `OwnedList.remove` on a list attribute: olist.py:72-75. -/
def listRemoveAttr (run : UCmd → Py World Unit) (i : Nat) (name : String) (v : Val) :
    Py World Unit := do
  let w ← Py.get
  match w.attr i name with
  | .list xs => do
    willChange env false i name
    match listRemove v xs with
    | some ys => do
      rawSet i name (.list ys)
      run (.del i name v)
    | none => Py.raise .valueError
  | _ => Py.raise .attributeError

/-- `v._id` for an item value -/
def itemId (w : World) (v : Val) : Except Exc Val :=
  match v with
  | .obj j => .ok (w.id env j)
  | _ => .error .attributeError

/-- `next((v for v in xs if v._id == key), None)` -/
def findById (w : World) (key : Val) : List Val → Except Exc (Option Val)
  | [] => .ok none
  | x :: xs => match itemId env w x with
    | .error e => .error e
    | .ok k => if pyEq k key then .ok (some x) else findById w key xs

/-- Clearing the other side's local key: jsonclassify.py:943-947. -/
def unlinkKey (j : Nat) (of : Field) : Py World Unit :=
  if of.store = .localKey then (do
    rawSet j of.refName .none
    updObj j (fun o => { o with modFields := setAdd of.name o.modFields }))
  else pure ()

/-- The other side of `__unlink_field__` for one item: jsonclassify.py:938-953. -/
def unlinkOther (run : UCmd → Py World Unit) (i : Nat) (of : Field) (item : Val) :
    Py World Unit :=
  match item with
  | .obj j => do
    let w ← Py.get
    match of.ftype with
    | .inst =>
      if pyEq (w.attr j of.name) (.obj i) then (do
        rawSet j of.name .none
        unlinkKey j of
        addUnlinked j of.name (.obj i))
      else pure ()
    | .list => match w.attr j of.name with
      | .list xs =>
        if pyIn (.obj i) xs then (do
          listRemoveAttr env run j of.name (.obj i)
          addUnlinked j of.name (.obj i))
        else pure ()
      | _ => pure ()
    | _ => pure ()
  | _ => Py.raise .attributeError

/-- `__unlink_field__`: jsonclassify.py:924-953. Without a foreign field the loop
returns after the first item. -/
def unlinkBody (run : UCmd → Py World Unit) (i : Nat) (f : Field) (v : Val) : Py World Unit :=
  match env.foreignField f with
  | none => match linkItems f v with
    | [] => pure ()
    | x :: _ => addUnlinked i f.name x
  | some of => forItems (linkItems f v) (fun item => do
      addUnlinked i f.name item
      unlinkOther env run i of item)

/-- The marking done by the callbacks of a local key list: jsonclassify.py:849-852,
883-886. -/
def markLocalKey (i : Nat) (f : Field) : Py World Unit :=
  updObj i (fun o => if !o.isNew && !(o.modFields.contains f.name) then
    { o with isModified := true, modFields := setAdd f.name o.modFields } else o)

/-- `__olist_del__` for a local key list: jsonclassify.py:882-895. -/
def delLocal (run : UCmd → Py World Unit) (i : Nat) (f : Field) (path : String) (v : Val) :
    Py World Unit := do
  markLocalKey i f
  let w ← Py.get
  match w.attr i f.name with
  | .list xs => do
    let n ← readW (fun _ => listLen (w.attr i path))
    if xs.length ≠ n then do
      let m ← readW (fun _ => findById env w v xs)
      match m with
      | some x => listRemoveAttr env run i f.name x
      | none => pure ()
    else pure ()
  | _ => pure ()

/-- The key part of `__olist_del__` for a reference list: jsonclassify.py:902-909. -/
def delKey (run : UCmd → Py World Unit) (i : Nat) (f : Field) (path : String) (v : Val) :
    Py World Unit :=
  if f.store = .localKey then do
    let w ← Py.get
    match w.attr i f.refName with
    | .list ks => do
      let n ← readW (fun _ => listLen (w.attr i path))
      if ks.length ≠ n && !v.isNone then do
        let k ← readW (fun _ => itemId env w v)
        if pyIn k ks then listRemoveAttr env run i f.refName k else pure ()
      else pure ()
    | _ => Py.raise .typeError
  else pure ()

/-- The reference part of `__olist_del__`: jsonclassify.py:896-909. -/
def delRef (run : UCmd → Py World Unit) (i : Nat) (fo : Option Field) (path : String) (v : Val) :
    Py World Unit :=
  match fo with
  | some f =>
    if f.isRef then do
      run (.unlink i f (.list [v]))
      delKey env run i f path v
    else pure ()
  | none => pure ()

/-- `__olist_del__`: jsonclassify.py:880-913. `path` is the key path of the list; the
list itself has already been changed. -/
def delBody (run : UCmd → Py World Unit) (i : Nat) (path : String) (v : Val) :
    Py World Unit := do
  let w ← Py.get
  match (w.cdef env i).localKey? path with
  | some f => delLocal env run i f path v
  | none => do
    delRef env run i ((w.cdef env i).field? path) path v
    markModified i path

/-- Unlinking with a recursion limit. -/
def runU : Nat → UCmd → Py World Unit
  | 0, _ => Py.raise .recursion
  | n + 1, .unlink i f v => unlinkBody env (runU n) i f v
  | n + 1, .del i p v => delBody env (runU n) i p v

/-- `__unlink_field__` -/
def unlinkField (i : Nat) (f : Field) (v : Val) : Py World Unit :=
  runU env env.fuel (.unlink i f v)

/-- `__olist_del__` -/
def olistDel (i : Nat) (path : String) (v : Val) : Py World Unit :=
  runU env env.fuel (.del i path v)

/-- Linking commands: `link i f v` is `i.__link_field__(f, v)`; `add i p k v` is
`i.__olist_add__(list at p, k, v)`; `set i n v` is `setattr(i, n, v)` for a field name. -/
inductive LCmd where
  | link (i : Nat) (f : Field) (v : Val)
  | add (i : Nat) (path : String) (idx : Int) (v : Val)
  | set (i : Nat) (n : String) (v : Val)

/-- `OwnedList.append` on a list attribute: olist.py:50-53. -/
def listAppendAttr (run : LCmd → Py World Unit) (i : Nat) (name : String) (v : Val) :
    Py World Unit := do
  let w ← Py.get
  match w.attr i name with
  | .list xs => do
    willChange env false i name
    rawSet i name (.list (xs ++ [v]))
    run (.add i name xs.length v)
  | _ => Py.raise .attributeError

/-- The other side of `__link_field__` for one item: jsonclassify.py:971-982. -/
def linkSide (run : LCmd → Py World Unit) (i : Nat) (of : Field) (j : Nat) : Py World Unit := do
  let w ← Py.get
  match of.ftype with
  | .inst =>
    if pyEq (w.attr j of.name) (.obj i) then pure ()
    else do
      run (.set j of.name (.obj i))
      delUnlinked j of.name (.obj i)
  | .list => match w.attr j of.name with
    | .list xs => if pyIn (.obj i) xs then pure () else do
        listAppendAttr env run j of.name (.obj i)
        delUnlinked j of.name (.obj i)
    | _ => do
        run (.set j of.name (.list [.obj i]))
        delUnlinked j of.name (.obj i)
  | _ => pure ()

/-- The other side and the graphs: jsonclassify.py:971-983. -/
def linkOther (run : LCmd → Py World Unit) (i : Nat) (of : Field) (item : Val) :
    Py World Unit :=
  match item with
  | .obj j => do
    linkSide env run i of j
    linkGraph env i j
  | _ => Py.raise .attributeError

/-- `__link_field__`: jsonclassify.py:956-983. The code iterates over the live list; the
items are fixed at the start in the model. -/
def linkBody (run : LCmd → Py World Unit) (i : Nat) (f : Field) (v : Val) : Py World Unit :=
  match env.foreignField f with
  | none => match linkItems f v with
    | [] => pure ()
    | x :: _ => delUnlinked i f.name x
  | some of => forItems (linkItems f v) (fun item => do
      delUnlinked i f.name item
      linkOther env run i of item)

/-- The key part of `__olist_add__` for a reference list: jsonclassify.py:859-866. -/
def addKey (run : LCmd → Py World Unit) (i : Nat) (f : Field) (path : String) (idx : Int)
    (v : Val) : Py World Unit :=
  if f.store = .localKey then do
    let w ← Py.get
    match w.attr i f.refName with
    | .list ks => do
      let n ← readW (fun _ => listLen (w.attr i path))
      if ks.length ≠ n then do
        let k ← readW (fun _ => itemId env w v)
        if k.isNone then Py.raise .valueError
        else do
          rawSet i f.refName (.list (pyInsert ks idx k))
          run (.add i f.refName (min ks.length idx) k)
      else pure ()
    | _ => Py.raise .typeError
  else pure ()

/-- The reference part of `__olist_add__`: jsonclassify.py:853-866. -/
def addRef (run : LCmd → Py World Unit) (i : Nat) (fo : Option Field) (path : String) (idx : Int)
    (v : Val) : Py World Unit :=
  match fo with
  | some f =>
    if f.isRef then do
      run (.link i f (.list [v]))
      addKey env run i f path idx v
    else pure ()
  | none => pure ()

/-- The end of `__olist_add__`: for a list or dict value the owned copy is assigned to
`olist[idx]`, which reports the removal of the old item and then the addition of a list or
dict, without end (see `olist_add_container_diverges`); any other value marks the path as
modified: jsonclassify.py:868-877 with olist.py:137-147. -/
def addTail (run : LCmd → Py World Unit) (i : Nat) (path : String) (idx : Int) (v : Val) :
    Py World Unit :=
  match v with
  | .list _ => do
    olistDel env i path v
    run (.add i path idx v)
  | .dict _ => do
    olistDel env i path v
    run (.add i path idx v)
  | _ => markModified i path

/-- `__olist_add__`: jsonclassify.py:846-877. -/
def addBody (run : LCmd → Py World Unit) (i : Nat) (path : String) (idx : Int) (v : Val) :
    Py World Unit := do
  let w ← Py.get
  match (w.cdef env i).localKey? path with
  | some f => markLocalKey i f
  | none => do
    addRef env run i ((w.cdef env i).field? path) path idx v
    addTail env run i path idx v

/-- collect `item._id` for the non-`None` items: jsonclassify.py:756-759 -/
def itemIds (w : World) : List Val → Except Exc (List Val)
  | [] => .ok []
  | .none :: xs => itemIds w xs
  | x :: xs => match itemId env w x with
    | .error e => .error e
    | .ok k => match itemIds w xs with
      | .error e => .error e
      | .ok ks => .ok (k :: ks)

/-- Local key update in `__setattr__`: jsonclassify.py:745-762. -/
def syncKey (i : Nat) (f : Field) (v : Val) : Py World Unit :=
  if f.store ≠ .localKey then pure () else
  match f.ftype, v with
  | .inst, .none => rawSet i f.refName .none
  | .inst, .obj j => do
    let w ← Py.get
    rawSet i f.refName (w.id env j)
  | .list, .none => rawSet i f.refName (.list [])
  | .list, .list xs => do
    let ks ← readW (fun w => itemIds env w xs)
    rawSet i f.refName (.list ks)
  | .list, _ => Py.raise .typeError
  | _, _ => pure ()

/-- `__setattr__` from the field lookup on: jsonclassify.py:708-766. -/
def setBody (run : LCmd → Py World Unit) (i : Nat) (n : String) (v : Val) : Py World Unit := do
  let w ← Py.get
  match (w.cdef env i).field? n with
  | none => rawSet i n v
  | some f =>
    if f.store = .calculated then Py.raise (.other 0)
    else if pyEq v (w.attr i n) then pure ()
    else do
      track env i f
      if f.isRef then do
        unlinkField env i f (w.attr i n)
        rawSet i n v
        syncKey env i f v
        run (.link i f v)
      else rawSet i n v

/-- Linking with a recursion limit. -/
def runL : Nat → LCmd → Py World Unit
  | 0, _ => Py.raise .recursion
  | n + 1, .link i f v => linkBody env (runL n) i f v
  | n + 1, .add i p k v => addBody env (runL n) i p k v
  | n + 1, .set i n' v => setBody env (runL n) i n' v

/-- `setattr(i, n, v)` for a name that is not a local key. -/
def setField (i : Nat) (n : String) (v : Val) : Py World Unit := runL env env.fuel (.set i n v)

/-- `__olist_add__` -/
def olistAdd (i : Nat) (path : String) (idx : Int) (v : Val) : Py World Unit :=
  runL env env.fuel (.add i path idx v)

/-- `existitem` for every assigned key: jsonclassify.py:695-701. -/
def itemsForKeys (w : World) (cur : List Val) : List Val → Except Exc (List Val)
  | [] => .ok []
  | k :: ks => match findById env w k cur with
    | .error e => .error e
    | .ok r => match itemsForKeys w cur ks with
      | .error e => .error e
      | .ok xs => .ok (match r with
        | some x => x :: xs
        | none => xs)

/-- The object side of an assignment to a local key: jsonclassify.py:681-702. Values
other than `None` and lists assigned to a list of local keys raise TypeError (Python
would iterate over strings and dicts). -/
def setLocalKeyField (i : Nat) (f : Field) (v : Val) : Py World Unit :=
  match f.ftype with
  | .inst => do
    rawSet i f.refName v
    setField env i f.name .none
  | .list => match v with
    | .none => do
      rawSet i f.refName (.list [])
      setField env i f.name (.list [])
    | .list ks => do
      rawSet i f.refName (.list ks)
      let xs ← readW (fun w => itemsForKeys env w (match w.attr i f.name with
          | .list xs => xs
          | _ => []) ks)
      setField env i f.name (.list xs)
    | _ => Py.raise .typeError
  | _ => pure ()

/-- Assignment to a local key: jsonclassify.py:677-710, including the fall-through to the
plain assignment at the end (the key's name is taken not to be a declared field). -/
def setLocalKey (i : Nat) (f : Field) (v : Val) : Py World Unit := do
  let w ← Py.get
  if pyEq v (w.attr i f.refName) then pure ()
  else do
    setLocalKeyField env i f v
    markModified i f.name
    rawSet i f.refName v

/-- `setattr(i, n, v)` on a JSON class object for a public name: `__setattr__`,
jsonclassify.py:671-766. -/
def setAttr (i : Nat) (n : String) (v : Val) : Py World Unit := do
  let w ← Py.get
  match (w.cdef env i).localKey? n with
  | some f => setLocalKey env i f v
  | none => setField env i n v

end JC
