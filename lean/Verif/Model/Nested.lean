import Verif.Model.OwnedList
import Verif.Model.OwnedDict
import Verif.Model.OwnedConv
import Verif.Model.World
import Verif.Model.Methods

/-
Lists and dicts inside each other, as objects with an identity: what a program can do with
the containers it gets from a field, at any depth, and what the owner notices.

One object without relations is modelled (`has_linked` and `is_ref` false, no local keys,
no calculated fields); attributes that are no fields are left out.
-/
namespace JC

/-- An item of a container or the value of a field: a plain value, or a reference to an
owned list or dict. -/
inductive Slot where
  | leaf (v : Val)
  | box (i : Nat)
  deriving Inhabited

/-- the items of an owned list or dict -/
inductive Items where
  | list (xs : List Slot)
  | dict (kvs : List (String × Slot))

/-- An `OwnedList` or `OwnedDict` (olist.py:11-47, odict.py:12-48): the items and `keypath`.
The owner is the one object. -/
structure Box where
  items : Items := .list []
  path : String := ""

/-- An entry of `_previous_values`: the value itself (jsonclassify.py:733-736) or an unowned
copy (787-802, 824-842). -/
inductive Prev where
  | kept (s : Slot)
  | copy (v : Val)

/-- The object and the containers made so far (below `next`). -/
structure NState where
  boxes : Nat → Box := fun _ => {}
  next : Nat := 0
  fields : String → Slot := fun _ => .leaf .none
  isNew : Bool := false
  isModified : Bool := false
  modFields : List String := []
  prev : List (String × Prev) := []

/-- The plain data in a slot (`unowned_copy_list`, `unowned_copy_dict`: outils.py:49-69; also
what `==` sees); the first argument bounds the depth. -/
def readSlot (b : Nat → Box) : Nat → Slot → Val
  | _, .leaf v => v
  | 0, .box _ => .none
  | n + 1, .box i => match (b i).items with
    | .list xs => .list (xs.map (readSlot b n))
    | .dict kvs => .dict (kvs.map (fun kv => (kv.1, readSlot b n kv.2)))

/-- the data in a slot now -/
def NState.read (s : NState) (x : Slot) : Val := readSlot s.boxes s.next x

/-- a new container -/
def NState.alloc (s : NState) (b : Box) : Slot × NState :=
  (.box s.next, { s with boxes := fun j => if j = s.next then b else s.boxes j, next := s.next + 1 })

mutual
/-- `to_owned_list(self, v, path)`, `to_owned_dict(self, v, path)`: outils.py:14-46; on
anything else the value itself. -/
def ownVal (path : String) : Val → NState → Slot × NState
  | .list xs, s =>
    let r := ownItems path 0 xs s
    r.2.alloc ⟨.list r.1, path⟩
  | .dict kvs, s =>
    let r := ownEntries path kvs s
    r.2.alloc ⟨.dict r.1, path⟩
  | v, s => (.leaf v, s)
/-- the loop outils.py:35-41 -/
def ownItems (path : String) (k : Nat) : List Val → NState → List Slot × NState
  | [], s => ([], s)
  | v :: vs, s =>
    let r := ownVal (concatKeypath [.s path, .i k]) v s
    let r' := ownItems path (k + 1) vs r.2
    (r.1 :: r'.1, r'.2)
/-- the loop outils.py:18-24 -/
def ownEntries (path : String) : List (String × Val) → NState → List (String × Slot) × NState
  | [], s => ([], s)
  | (k, v) :: kvs, s =>
    let r := ownVal (concatKeypath [.s path, .s k]) v s
    let r' := ownEntries path kvs r.2
    ((k, r.1) :: r'.1, r'.2)
end

/-- `if not self.is_new: self._is_modified = True; self._modified_fields.add(name)` -/
def NState.mark (s : NState) (name : String) : NState :=
  if s.isNew then s else { s with isModified := true, modFields := setAdd name s.modFields }

/-- record a previous value unless there is one -/
def NState.remember (s : NState) (name : String) (p : Prev) : NState :=
  if (dictGet s.prev name).isNone then { s with prev := s.prev ++ [(name, p)] } else s

variable (cd : ClassDef)

/-- `__setattr__` of a field that is no relation: jsonclassify.py:712-718, 726-745, 766. -/
def nAssign (n : String) (v : Val) (s : NState) : NState :=
  match cd.field? n with
  | none => s
  | some f =>
    if pyEq v (s.read (s.fields n)) then s
    else
      let s1 := s.mark n
      let s2 := if !s.isNew && recordsPrev cd f then s1.remember n (.kept (s.fields n)) else s1
      let r := ownVal n v s2
      { r.2 with fields := fun m => if m = n then r.1 else s.fields m }

/-- `__olist_will_change__`, `__odict_will_change__`: jsonclassify.py:787-802, 824-841. -/
def nWill (isDict : Bool) (path : String) : Py NState Unit := fun s =>
  match cd.field? (initialKeypath path) with
  | none => if isDict then (.error .valueError, s) else (.ok (), s)
  | some f =>
    if recordsPrev cd f && (f.ftype = .dict || f.ftype = .list) then
      (.ok (), s.remember (initialKeypath path) (.copy (s.read (s.fields (initialKeypath path)))))
    else (.ok (), s)

/-- is it a list or dict -/
def Slot.isContainer : Slot → Bool
  | .box _ => true
  | .leaf (.list _) => true
  | .leaf (.dict _) => true
  | .leaf _ => false

/-- `__olist_add__`, `__odict_add__`: jsonclassify.py:804-814, 844-877. For a list or dict the
owned copy is assigned to the same place, which reports another addition of a list or dict,
without end. -/
def nAdd (path : String) (x : Slot) : Py NState Unit := fun s =>
  if x.isContainer then (.error .recursion, s.mark path) else (.ok (), s.mark path)

/-- `__olist_del__`, `__olist_sor__`, `__odict_del__`: jsonclassify.py:817-821, 908-921. -/
def nMark (path : String) : Py NState Unit := fun s => (.ok (), s.mark path)

/-- the owner's side of a call by an owned list -/
def nLEv (path : String) : LEv Slot → Py NState Unit
  | .will => nWill cd false path
  | .add _ x => nAdd path x
  | .del _ => nMark path
  | .sor => nMark path

/-- the owner's side of a call by an owned dict -/
def nDEv (path : String) : DEv Slot → Py NState Unit
  | .will => nWill cd true path
  | .add _ x => nAdd path x
  | .del _ => nMark path

/-- calls in order, up to the first that raises -/
def nEach {ε : Type} (f : ε → Py NState Unit) : List ε → Py NState Unit
  | [] => pure ()
  | e :: es => do
    f e
    nEach f es

/-- new items of a container -/
def NState.put (s : NState) (i : Nat) (it : Items) : NState :=
  { s with boxes := fun j => if j = i then { s.boxes i with items := it } else s.boxes j }

/-- an exception at the end, if any -/
def nRaise : Option Exc → Py NState Unit
  | some e => Py.raise e
  | none => pure ()

/-- A method of the owned list `i`: olist.py:49-186. -/
def nListOp (i : Nat) (op : LOp Slot) : Py NState Unit := fun s =>
  match (s.boxes i).items with
  | .dict _ => (.error .attributeError, s)
  | .list xs =>
    let r := ownedOp (fun a b => pyEq (s.read a) (s.read b)) op xs
    (do
      nEach (nLEv cd (s.boxes i).path) (r.log.filter LEv.isWill)
      Py.modify (fun s => s.put i (.list r.items))
      nEach (nLEv cd (s.boxes i).path) (r.log.filter (fun e => !e.isWill))
      nRaise r.exc) s

/-- A method of the owned dict `i`: odict.py:50-144. -/
def nDictOp (i : Nat) (op : DOp Slot) : Py NState Unit := fun s =>
  match (s.boxes i).items with
  | .list _ => (.error .attributeError, s)
  | .dict kvs =>
    let r := ownedDOp (Slot.leaf .none) op kvs
    (do
      nEach (nDEv cd (s.boxes i).path) (r.log.filter DEv.isWill)
      Py.modify (fun s => s.put i (.dict r.items))
      nEach (nDEv cd (s.boxes i).path) (r.log.filter (fun e => !e.isWill))
      nRaise r.exc) s

/-- the data an entry of `_previous_values` holds now -/
def NState.prevVal (s : NState) : Prev → Val
  | .kept x => s.read x
  | .copy v => v

/-- the loop of `reset` over the entries there were at the start -/
def nResetLoop : List (String × Prev) → NState → NState
  | [], s => s
  | (k, p) :: r, s =>
    let s' := nAssign cd k (s.prevVal p) s
    nResetLoop r { s' with isModified := false, modFields := [], prev := [] }

/-- `obj.reset()`: jsonclassify.py:324-335. -/
def nReset : Py NState Unit := fun s =>
  if !cd.resetAllFields then (.error .resetNotEnabled, s)
  else if s.isNew then (.error .resetError, s)
  else (.ok (), nResetLoop cd s.prev s)

/-- `obj.persisted_modified_fields`: jsonclassify.py:294-305; ValueError for a name that is
no field (cdef.py:123-138). -/
def persistedModified (names : List String) : Except Exc (List String) :=
  match names with
  | [] => .ok []
  | n :: ns => match cd.field? n with
    | none => .error .valueError
    | some f => do
      let r ← persistedModified ns
      pure (if f.store = .temp then r else n :: r)

/-- What a program does: assign a field, call a method of a list or of a dict. -/
inductive NOp where
  | set (n : String) (v : Val)
  | lst (i : Nat) (op : LOp Slot)
  | dct (i : Nat) (op : DOp Slot)

/-- one operation -/
def NOp.run : NOp → Py NState Unit
  | .set n v => fun s => (.ok (), nAssign cd n v s)
  | .lst i op => nListOp cd i op
  | .dct i op => nDictOp cd i op

end JC
