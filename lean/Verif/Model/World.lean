import Verif.Model.Collection

/-
The object heap, class definitions and the bookkeeping of `jsonclassify.py`:
attribute access, modification tracking, unlinked objects, object graphs, mark graphs.
-/
namespace JC

/-- Key of a mark table entry: `MarkClassTable._primary_key_table` /
`_memory_id_table` (mgraph.py:11-13). -/
inductive MarkKey where
  | pk (s : String)
  | mem (i : Nat)
  deriving DecidableEq, Repr, Inhabited

/-- One JSON class object: the attributes set in `_set_initial_status`
(jsonclassify.py:472-484), its class and its data attributes (fields and local keys).
`attrs` is total: `__init__` (jsonclassify.py:39-50) gives every field and local key a
value. `picks` is `_partial_picks` when `_is_partial`. -/
structure Obj where
  cls : String := ""
  attrs : String → Val := fun _ => .none
  isNew : Bool := true
  isModified : Bool := false
  modFields : List String := []
  prev : List (String × Val) := []
  unlinked : List (String × List Val) := []
  linkKeys : List (String × List Val) := []
  unlinkKeys : List (String × List Val) := []
  graph : Nat := 0
  operator : Val := .none
  picks : Option (List String) := none
  isDeleted : Bool := false
  deriving Inhabited

/-- The objects, by heap index. -/
abbrev Heap := Nat → Obj

/-- The state: the objects (heap indices below `next` are allocated), the mark graph
of the current call (`Ctx.mgraph`, mgraph.py), and the object graphs (`OGraph._maps`
flattened to one table keyed by class name and `str(id)`, ograph.py:27).  `visits` is a
ghost: the objects whose fields were validated, in order; no modelled code reads it. -/
structure World where
  heap : Heap := fun _ => {}
  next : Nat := 0
  marks : List ((String × MarkKey) × Nat) := []
  graphs : Nat → List ((String × String) × Nat) := fun _ => []
  nextg : Nat := 0
  visits : List Nat := []
  deriving Inhabited

/-- `FStore`: fdef.py. -/
inductive Store where
  | embedded | localKey | foreignKey | calculated | temp
  deriving DecidableEq, Repr, Inhabited

/-- `FType`, as far as it is inspected by the modelled code. -/
inductive FTy where
  | inst | list | dict | other
  deriving DecidableEq, Repr, Inhabited

/-- `WriteRule`: fdef.py. -/
inductive WriteRule where
  | unlimited | noWrite | writeOnce | writeNonnull
  deriving DecidableEq, Repr, Inhabited

/-- A modifier without effects on objects: it may read all objects and the context, and
returns a value or raises. All scalar modifiers, user supplied callables and
`required` are of this kind (user callables that mutate objects, or look at the mark
graph through `ctx.mgraph`, are not modelled). -/
structure Leaf where
  validate : Heap → Ctx → Except Exc Unit := fun _ _ => .ok ()
  transform : Heap → Ctx → Except Exc Val := fun _ c => .ok c.val
  tojson : Heap → Ctx → Except Exc Val := fun _ c => .ok c.val
  serialize : Heap → Ctx → Except Exc Val := fun _ c => .ok c.val

/-- How `ListOfModifier.should_special_handle` reacts to `_add`/`_del` items:
listof_modifier.py:33-39. -/
inductive Special where
  | no | localKeys | joinTable
  deriving DecidableEq, Repr, Inhabited

/-- The modifiers of a field, in declared order (`ChainedModifier.vs`). -/
inductive Mod where
  /-- `EagerModifier` -/
  | eager
  /-- `PreserializeModifier` -/
  | pre
  /-- any effect free modifier -/
  | leaf (l : Leaf)
  /-- `ListOfModifier` with `collection_nullability == NONNULL` and item types -/
  | listOf (nonnull : Bool) (special : Special) (item : List Mod)
  /-- `DictOfModifier` -/
  | dictOf (nonnull : Bool) (item : List Mod)
  /-- `InstanceOfModifier` with `fdef.inst_cls` and `fdef.strictness` -/
  | instOf (cls : String) (strict : Option Bool)
  /-- `UnionModifier` -/
  | union (alts : List (List Mod))

/-- `JField` with the parts of its `FDef` that the modelled code reads.
`refName` is `ref_name_strategy(field)` (for local key fields), `jrefName` is
`output_key_strategy(refName)`; `foreign` is `field.foreign_field` as class and field
name; `default` is `field.default` (`none` = no default); `getter` is the calculated
field's getter, which may read objects. Setters are not modelled. `hasSpecialLink` of
nested lists (`fdef.has_linked` on items) is not modelled: `has_linked` is `is_ref`. -/
structure Field where
  name : String := ""
  jsonName : String := ""
  store : Store := .embedded
  ftype : FTy := .other
  writeRule : WriteRule := .unlimited
  noRead : Bool := false
  hasReset : Bool := false
  refName : String := ""
  jrefName : String := ""
  foreign : Option (String × String) := none
  collNonnull : Bool := false
  default : Option Val := none
  chain : List Mod := []
  isInst : Bool := false
  forceSetOnSave : Bool := false
  getter : Heap → Nat → Except Exc Val := fun _ _ => .ok .none

/-- `FDef.is_ref`: fdef.py:546-552. -/
def Field.isRef (f : Field) : Bool := f.store = .localKey || f.store = .foreignKey

/-- `CDef` and `JConf` of a class, as far as the modelled code reads them. -/
structure ClassDef where
  name : String := ""
  fields : List Field := []
  primary : Option String := none
  strictInput : Bool := false
  validateAllFields : Bool := false
  resetAllFields : Bool := false
  outputNull : Bool := false
  isAbstract : Bool := false
  outKey : String → String := id

/-- The fixed environment of a program: class definitions by name, the subclass
relation, `str()` of primary keys, and the recursion limit for attribute assignment. -/
structure Env where
  cls : String → ClassDef := fun _ => {}
  isSub : String → String → Bool := fun a b => a == b
  pystr : Val → String := fun _ => ""
  fuel : Nat := 20

/-- `CDef.field_named`: cdef.py:123-138 (`none` = ValueError). -/
def ClassDef.field? (c : ClassDef) (n : String) : Option Field :=
  c.fields.find? (fun f => f.name = n)

/-- `_reference_names` and `_list_reference_names` come from these fields: cdef.py:306-320. -/
def Field.hasRefName (f : Field) : Bool := f.store = .localKey && (f.ftype = .inst || f.ftype = .list)

/-- `CDef.available_names` (a set): cdef.py:306-334. -/
def ClassDef.availableNames (c : ClassDef) : List String :=
  c.fields.map Field.name ++ c.fields.map Field.jsonName ++ (c.fields.filter Field.hasRefName).map Field.refName
    ++ (c.fields.filter Field.hasRefName).map Field.jrefName

/-- `CDef.update_names` (a set): cdef.py:306-337. -/
def ClassDef.updateNames (c : ClassDef) : List String :=
  c.fields.map Field.name ++ (c.fields.filter Field.hasRefName).map Field.refName

/-- `self._local_keys` / `self._local_key_map`: jsonclassify.py:42-50. -/
def ClassDef.localKey? (c : ClassDef) (n : String) : Option Field :=
  c.fields.find? (fun f => f.store = .localKey && f.refName = n)

variable (env : Env)

/-- class definition of an object -/
def World.cdef (w : World) (i : Nat) : ClassDef := env.cls (w.heap i).cls

/-- `getattr` for stored attributes. -/
def World.attr (w : World) (i : Nat) (n : String) : Val := (w.heap i).attrs n

/-- replace an object -/
def World.upd (w : World) (i : Nat) (f : Obj → Obj) : World :=
  { w with heap := fun j => if j = i then f (w.heap i) else w.heap j }

/-- `__getattribute__`: jsonclassify.py:769-784: calculated fields call their getter. -/
def World.getattr (w : World) (i : Nat) (n : String) : Except Exc Val :=
  match (w.cdef env i).field? n with
  | some f => if f.store = .calculated then f.getter w.heap i else .ok (w.attr i n)
  | none => .ok (w.attr i n)

/-- `_id`: jsonclassify.py:645-650 (the primary field is a stored field). -/
def World.id (w : World) (i : Nat) : Val :=
  match (w.cdef env i).primary with
  | some n => w.attr i n
  | none => .none

/-- lift a read-only computation -/
def readW {α : Type} (f : World → Except Exc α) : Py World α := fun w => (f w, w)

/-- modify an object -/
def updObj (i : Nat) (f : Obj → Obj) : Py World Unit := Py.modify (fun w => w.upd i f)

/-- `__original_setattr__` for a data attribute. -/
def rawSet (i : Nat) (n : String) (v : Val) : Py World Unit :=
  updObj i (fun o => { o with attrs := fun m => if m = n then v else o.attrs m })

/-- `set.add` -/
def setAdd (n : String) (xs : List String) : List String := if n ∈ xs then xs else xs ++ [n]

/-- `if not self.is_new: self._is_modified = True; self._modified_fields.add(name)`:
jsonclassify.py:730-732 and in the container callbacks. -/
def markModified (i : Nat) (n : String) : Py World Unit :=
  updObj i (fun o => if o.isNew then o else
    { o with isModified := true, modFields := setAdd n o.modFields })

/-- first index of an equal element, list membership `x in xs` -/
def pyIn (v : Val) (xs : List Val) : Bool := xs.any (fun x => pyEq x v)

/-- `list.remove`: drop the first equal element (`none`: ValueError). -/
def listRemove (v : Val) : List Val → Option (List Val)
  | [] => none
  | x :: xs => if pyEq x v then some xs else (listRemove v xs).map (x :: ·)

/-- `_add_unlinked_object`: jsonclassify.py:520-528. -/
def addUnlinked (i : Nat) (n : String) (v : Val) : Py World Unit :=
  updObj i (fun o =>
    let xs := (dictGet o.unlinked n).getD []
    { o with unlinked := dictSet n (if pyIn v xs then xs else xs ++ [v]) o.unlinked })

/-- `_del_unlinked_object`: jsonclassify.py:530-538. -/
def delUnlinked (i : Nat) (n : String) (v : Val) : Py World Unit :=
  updObj i (fun o =>
    let xs := (dictGet o.unlinked n).getD []
    { o with unlinked := dictSet n ((listRemove v xs).getD xs) o.unlinked })

/-- "previous values are recorded": `jconf.reset_all_fields or has_reset_modifier`. -/
def recordsPrev (cd : ClassDef) (f : Field) : Bool := cd.resetAllFields || f.hasReset

/-- Tracking part of `__setattr__`: jsonclassify.py:729-737. -/
def track (i : Nat) (f : Field) : Py World Unit := fun w =>
  let cd := w.cdef env i
  (.ok (), w.upd i (fun o => if o.isNew then o else
    { o with
      isModified := true
      modFields := setAdd f.name o.modFields
      prev := if recordsPrev cd f && (dictGet o.prev f.name).isNone
        then o.prev ++ [(f.name, o.attrs f.name)] else o.prev }))

/-- `__olist_will_change__` / `__odict_will_change__`: jsonclassify.py:787-801, 824-843,
for a container stored under the field `name` (at any depth). For an unknown name the
list version returns and the dict version raises ValueError. The recorded copy is a
deep copy; values are immutable in the model. -/
def willChange (isDict : Bool) (i : Nat) (name : String) : Py World Unit := fun w =>
  let cd := w.cdef env i
  match cd.field? name with
  | none => if isDict then (.error .valueError, w) else (.ok (), w)
  | some f =>
    if recordsPrev cd f && !f.isRef && (dictGet (w.heap i).prev name).isNone
        && (f.ftype = .dict || f.ftype = .list) then
      (.ok (), w.upd i (fun o => { o with prev := o.prev ++ [(name, o.attrs name)] }))
    else (.ok (), w)

/-! ### Object graphs (ograph.py) -/

/-- `_check_get_str_id`: ograph.py:44-52 with the class name, the table key. -/
def graphKey (w : World) (i : Nat) : Except Exc (String × String) :=
  match w.id env i with
  | .none => .error .unlinkable
  | v => .ok ((w.heap i).cls, env.pystr v)

/-- table lookup -/
def gLookup (g : List ((String × String) × Nat)) (k : String × String) : Option Nat :=
  match g with
  | [] => none
  | (k', o) :: r => if k' = k then some o else gLookup r k

/-- `object_map[primary_value] = object`: ograph.py:54-61. -/
def gPut (k : String × String) (i : Nat) : List ((String × String) × Nat) →
    List ((String × String) × Nat)
  | [] => [(k, i)]
  | (k', o) :: r => if k' = k then (k, i) :: r else (k', o) :: gPut k i r

/-- The object loop of `merged_graph`: ograph.py:92-100, over the objects of the second
graph. `none` stands for "has/get found nothing". -/
def mergeLoop (w : World) : List Nat → List ((String × String) × Nat) →
    Except Exc (List ((String × String) × Nat))
  | [], g => .ok g
  | o :: os, g =>
    match graphKey env w o with
    | .error e => .error e
    | .ok k => match gLookup g k with
      | none => mergeLoop w os (gPut k o g)
      | some o' => if o' = o then mergeLoop w os (gPut k o g) else .error .mergeConflict

/-- The first half of `__link_graph__`: put self into its own graph if it can be put and
its key is not taken there (`Unlinkable` is swallowed): jsonclassify.py:986-992. -/
def putSelf (i : Nat) (w : World) : World :=
  match graphKey env w i with
  | .error _ => w
  | .ok k => match gLookup (w.graphs (w.heap i).graph) k with
    | some _ => w
    | none => { w with graphs := fun g => if g = (w.heap i).graph
                  then gPut k i (w.graphs g) else w.graphs g }

/-- The second half of `__link_graph__`, `self._graph = self._graph.merged_graph(...)`:
jsonclassify.py:993-994 with ograph.py:87-103. -/
def mergeGraphs (i j : Nat) : Py World Unit := fun w =>
  if (w.heap i).graph = (w.heap j).graph then (.ok (), w)
  else match mergeLoop env w ((w.graphs (w.heap j).graph).map Prod.snd)
      (w.graphs (w.heap i).graph) with
    | .error e => (.error e, w)
    | .ok g =>
      let members := g.map Prod.snd
      (.ok (), { w with
        heap := fun o => if o = i ∨ o ∈ members then { w.heap o with graph := w.nextg }
                         else w.heap o
        graphs := fun n => if n = w.nextg then g else w.graphs n
        nextg := w.nextg + 1 })

/-- `__link_graph__`: jsonclassify.py:986-994. -/
def linkGraph (i j : Nat) : Py World Unit := fun w => mergeGraphs env i j (putSelf env i w)

end JC
