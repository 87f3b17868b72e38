import Verif.Model.Link

/-
Model of `modifiers/instanceof_modifier.py`, of the modifiers of a field as a whole
(`den`), and of the methods of `jsonclassify.py` built on them: `__init__`, `set`,
`update`, `validate`, `is_valid`, `tojson` (without the guard, see Model/Save), `reset`.
-/
namespace JC
variable (env : Env)

/-! ### Mark graph (mgraph.py), stored in `World.marks` -/

/-- table lookup -/
def mLookup (k : String × MarkKey) : List ((String × MarkKey) × Nat) → Option Nat
  | [] => none
  | (k', o) :: r => if k' = k then some o else mLookup k r

/-- `MGraph.get` / `MarkClassTable.get`: mgraph.py:38-46, 75-76. `has` (line 29-36, 72-73)
is `get` being something. -/
def World.markGet (w : World) (i : Nat) : Option Nat :=
  let c := (w.heap i).cls
  match w.id env i with
  | .none => mLookup (c, .mem i) w.marks
  | k => match mLookup (c, .pk (env.pystr k)) w.marks with
    | some o => some o
    | none => mLookup (c, .mem i) w.marks

/-- `MGraph.put`: mgraph.py:15-21, 66-67. New entries shadow older ones. -/
def World.markPut (w : World) (i : Nat) : World :=
  let c := (w.heap i).cls
  match w.id env i with
  | .none => { w with marks := ((c, .mem i), i) :: w.marks }
  | k => { w with marks := ((c, .pk (env.pystr k)), i) :: w.marks }

/-- `MGraph.putp`: mgraph.py:23-27, 69-70. -/
def World.markPutp (w : World) (pk : Val) (i : Nat) : World :=
  { w with marks := (((w.heap i).cls, .pk (env.pystr pk)), i) :: w.marks }

/-! ### Contexts -/

/-- `self.owner.__class__.cdef.jconf.output_key_strategy(key)`: ctx.py:167, 184, 197,
214, 230, 263. -/
def Ctx.ekey (c : Ctx) (w : World) (k : String) : Except Exc String :=
  match c.owner with
  | some o => .ok ((w.cdef env o).outKey k)
  | none => .error .attributeError

/-- the heap index of an object value -/
def Val.idx? : Val → Option Nat
  | .obj i => some i
  | _ => Option.none

/-- `if b: m` -/
def pyWhen (b : Bool) (m : Py World Unit) : Py World Unit := if b then m else pure ()

/-- `Ctx.nexto`: ctx.py:183-194. -/
def Ctx.nexto (c : Ctx) (v : Val) (k ek : String) (fid : String × String) : Ctx :=
  { c with owner := v.idx?, parent := v.idx?, holder := c.owner, val := v, original := none,
           keypatho := [], keypathr := c.keypathr ++ [.s k], fkeypathr := c.fkeypathr ++ [.s ek],
           keypathp := [], keypathh := [.s k], fid := some fid }

/-- `Ctx.nextoc`: ctx.py:213-227. -/
def Ctx.nextoc (c : Ctx) (v : Val) (k ek : String) (fid : String × String) (cls : String) : Ctx :=
  { c.nexto v k ek fid with idchain := c.idchain ++ [cls] }

/-- `Ctx.nextv`: ctx.py:166-181. -/
def Ctx.nextv (c : Ctx) (v : Val) (k ek : String) (fid : String × String) : Ctx :=
  { c with val := v, original := none, keypatho := c.keypatho ++ [.s k],
           keypathr := c.keypathr ++ [.s k], fkeypathr := c.fkeypathr ++ [.s ek],
           keypathp := c.keypathp ++ [.s k], keypathh := c.keypathh ++ [.s k], fid := some fid }

/-- `Ctx.nextvc`: ctx.py:196-211. -/
def Ctx.nextvc (c : Ctx) (v : Val) (k ek : String) (fid : String × String) (cls : String) : Ctx :=
  { c.nextv v k ek fid with idchain := c.idchain ++ [cls] }

/-- `Ctx.nextvo`: ctx.py:229-244. -/
def Ctx.nextvo (c : Ctx) (v : Val) (k ek : String) (fid : String × String) (o : Nat) : Ctx :=
  { c.nextv v k ek fid with owner := some o }

/-- `Ctx.default`: ctx.py:262-276. -/
def Ctx.dflt (c : Ctx) (owner : Option Nat) (k ek : String) (fid : String × String) : Ctx :=
  { c.nextv .none k ek fid with owner := owner, parent := owner }

/-- `Ctx.rootctx`: ctx.py:119-129 for a root object, a value and a configuration. -/
def rootCtx (w : World) (i : Nat) (cfg : Cfg) (v : Val) : Ctx :=
  { root := i, owner := some i, parent := some i, holder := none, val := v,
    original := some i, cfg := cfg, operator := (w.heap i).operator }

/-! ### Modifier denotations -/

/-- `setattr(ctx.parent, ctx.keypathp[0], val)` when the parent is a JSON class object:
chained_modifier.py:80-81. -/
def setParent (c : Ctx) (v : Val) : Py World Unit :=
  match c.parent with
  | some p => match c.keypathp with
    | .s n :: _ => setAttr env p n v
    | .i _ :: _ => Py.raise .typeError
    | [] => Py.raise .indexError
  | none => pure ()

/-- read-only modifiers -/
def leafOps (l : Leaf) : Ops World where
  validate := fun c => readW (fun w => l.validate w.heap c)
  transform := fun c => readW (fun w => l.transform w.heap c)
  tojson := fun c => readW (fun w => l.tojson w.heap c)
  serialize := fun c => readW (fun w => l.serialize w.heap c)

/-- `_link_local_keys` / `_unlink_local_keys`: jsonclassify.py:492-505. -/
def linkLocalKeys (add : Bool) (i : Nat) (fname : String) (k : Val) : Py World Unit := do
  let w ← Py.get
  match (w.cdef env i).field? fname with
  | none => Py.raise .valueError
  | some f =>
    if add then do
      pyWhen (w.attr i f.refName).isNone (setAttr env i f.refName (.list []))
      listAppendAttr env (runL env env.fuel) i f.refName k
    else if (w.attr i f.refName).isNone then pure ()
    else listRemoveAttr env (runU env env.fuel) i f.refName k

/-- `_add_link_key` / `_add_unlink_key`: jsonclassify.py:508-517. -/
def addLinkKey (add : Bool) (i : Nat) (fname : String) (k : Val) : Py World Unit :=
  updObj i (fun o =>
    if add then { o with linkKeys := dictSet fname ((dictGet o.linkKeys fname).getD [] ++ [k]) o.linkKeys }
    else { o with unlinkKeys := dictSet fname ((dictGet o.unlinkKeys fname).getD [] ++ [k]) o.unlinkKeys })

/-- `special_handle`: listof_modifier.py:41-53. -/
def specialHandle (sp : Special) (c : Ctx) (kvs : List (String × Val)) : Py World Unit :=
  match c.owner, c.keypatho.getLast? with
  | some o, some (.s fname) =>
    let go (add : Bool) (k : Val) : Py World Unit :=
      if sp = .localKeys then linkLocalKeys env add o fname k else addLinkKey add o fname k
    match dictGet kvs "_add" with
    | some k => go true k
    | none => match dictGet kvs "_del" with
      | some k => go false k
      | none => pure ()
  | _, _ => Py.raise .attributeError

/-- The object world seen by collection modifiers. -/
def colEnv (sp : Special) : ColEnv World where
  ownerAllFields := fun c => match c.owner with
    | some o => readW (fun w => .ok (w.cdef env o).validateAllFields)
    | none => Py.raise .attributeError
  ownerConf := fun c => match c.owner with
    | some _ => pure ()
    | none => Py.raise .attributeError
  special := fun c _ v => match v with
    | .dict kvs =>
      if sp ≠ .no ∧ ((dictGet kvs "_add").isSome ∨ (dictGet kvs "_del").isSome)
      then some (specialHandle env sp c kvs) else none
    | _ => none

/-- How instances are handled: class name and field strictness give a modifier. -/
abbrev Visitor := String → Option Bool → Ops World

mutual
/-- Meaning of one modifier, given the meaning of instance modifiers. -/
def Mod.den (vis : Visitor) : Mod → Ops World
  | .eager => { isEager := true }
  | .pre => { isPre := true }
  | .leaf l => leafOps l
  | .listOf nn sp item => listOps (colEnv env sp) nn (chainOps (setParent env) (denL vis item))
  | .dictOf nn item => dictOps (colEnv env .no) nn (chainOps (setParent env) (denL vis item))
  | .instOf cls st => vis cls st
  | .union alts => unionOps (denA vis alts)
/-- meaning of a list of modifiers -/
def denL (vis : Visitor) : List Mod → List (Ops World)
  | [] => []
  | m :: ms => Mod.den vis m :: denL vis ms
/-- meaning of union alternatives -/
def denA (vis : Visitor) : List (List Mod) → List (Ops World)
  | [] => []
  | a :: as => chainOps (setParent env) (denL vis a) :: denA vis as
end

/-- A field's modifier chain. -/
def Field.ops (vis : Visitor) (f : Field) : Ops World :=
  chainOps (setParent env) (denL env vis f.chain)

/-! ### validate -/

/-- `list(initial_keypaths(ctx.val.modified_fields))` when the object is not new:
instanceof_modifier.py:42-45; `none` = every field is validated. -/
def onlyModified (o : Obj) : Option (List String) :=
  if o.isNew then none else some (initialKeypaths o.modFields)

/-- "this field is skipped": instanceof_modifier.py:51-53. -/
def skipField (f : Field) (only : Option (List String)) : Bool :=
  match only with
  | some ms => f.store = .embedded && !(ms.contains f.name)
  | none => false

/-- Validation of one field inside the `try`: instanceof_modifier.py:55-59. -/
def validateField (ops : Field → Ops World) (c : Ctx) (i : Nat) (f : Field) (fv : Val) :
    Py World Unit := do
  let w ← Py.get
  let ek ← readW (fun w => c.ekey env w f.name)
  let fid := ((w.heap i).cls, f.name)
  (ops f).validate (if f.ftype = .inst then c.nexto fv f.name ek fid
    else c.nextvo fv f.name ek fid (c.original.getD i))

/-- The field loop: instanceof_modifier.py:48-64. -/
def validateFields (ops : Field → Ops World) (c : Ctx) (i : Nat) (only : Option (List String))
    (all : Bool) : List Field → List (String × String) → Py World (List (String × String))
  | [], acc => pure acc
  | f :: fs, acc => fun w =>
    match w.getattr env i f.name with
    | .error e => (.error e, w)
    | .ok fv =>
      if skipField f only then validateFields ops c i only all fs acc w
      else match validateField env ops c i f fv w with
        | (.ok _, w') => validateFields ops c i only all fs acc w'
        | (.error (.validation msgs), w') =>
          if all then validateFields ops c i only all fs (dictUpdate acc msgs) w'
          else (.error (.validation msgs), w')
        | (.error e, w') => (.error e, w')

/-- ghost update -/
def World.visit (w : World) (i : Nat) : World := { w with visits := w.visits ++ [i] }

/-- The field loop and the final raise: instanceof_modifier.py:41-67. -/
def instValidateBody (ops : Field → Ops World) (cls : String) (c : Ctx) (i : Nat) :
    Py World Unit := do
  let w ← Py.get
  let msgs ← validateFields env ops c i (onlyModified (w.heap i))
    (c.cfg.allFields.getD (env.cls cls).validateAllFields) (w.cdef env i).fields []
  raiseMsgs msgs

/-- `InstanceOfModifier.validate`: instanceof_modifier.py:27-67. A value that is not a
JSON class object has no `_id`. -/
def instValidate (ops : Field → Ops World) (cls : String) (c : Ctx) : Py World Unit :=
  match c.val with
  | .none => pure ()
  | .obj i => fun w =>
    if (w.markGet env i).isSome then (.ok (), w)
    else
      let w := (w.markPut env i).visit i
      if env.isSub (w.heap i).cls cls then
        instValidateBody env ops cls c i w
      else (.error (c.vexc ("value is not instance of " ++ cls)), w)
  | _ => Py.raise .attributeError

/-! ### transform -/

/-- `cls()`: an object right after the attribute loop of `__init__`
(jsonclassify.py:36-50): all fields `None`, key lists empty. -/
def freshObj (cls : String) (g : Nat) : Obj :=
  { cls := cls
    attrs := fun n => match (env.cls cls).localKey? n with
      | some f => if f.ftype = .list then .list [] else .none
      | none => .none
    graph := g }

/-- Allocation. -/
def alloc (cls : String) : Py World Nat := fun w =>
  (.ok w.next, { w with
    heap := fun j => if j = w.next then freshObj env cls w.nextg else w.heap j
    next := w.next + 1
    nextg := w.nextg + 1 })

/-- run with a fresh mark graph, restoring the caller's afterwards -/
def withFreshMarks {α : Type} (m : Py World α) : Py World α := fun w =>
  match m { w with marks := [] } with
  | (r, w') => (r, { w' with marks := w.marks })

/-- `self._graph.put(self)` guarded: jsonclassify.py:53-56. -/
def graphPutSelf (i : Nat) : Py World Unit := Py.modify (fun w =>
  match graphKey env w i with
  | .error _ => w
  | .ok k => { w with graphs := fun g => if g = (w.heap i).graph then gPut k i (w.graphs g)
                        else w.graphs g })

/-- `_set`: jsonclassify.py:72-77. -/
def setDict (vis : Visitor) (i : Nat) (kvs : List (String × Val)) (fill : Bool) : Py World Unit := do
  let w ← Py.get
  let _ ← withFreshMarks ((vis (w.heap i).cls none).transform
    (rootCtx w i { fillBlanks := fill, allFields := some false } (.dict kvs)))
  pure ()

/-- `cls(**kwargs)` for single key arguments: `__init__`, jsonclassify.py:30-56. -/
def newObj (vis : Visitor) (cls : String) (kvs : List (String × Val)) : Py World Nat := do
  if (env.cls cls).isAbstract then Py.raise .abstract
  else do
    let i ← alloc env cls
    setDict vis i kvs true
    graphPutSelf env i
    pure i

/-- `_strictness_check`: instanceof_modifier.py:69-74. -/
def strictCheck (c : Ctx) (names : List String) : List (String × Val) → Except Exc Unit
  | [] => .ok ()
  | (k, _) :: r =>
    if k ∈ names then strictCheck c names r
    else .error (.validation
      [(concatKeypath [.s (dotJoin (c.keypathr.map Key.str)), .s k], "key is not allowed")])

/-- `_fill_default_value`: instanceof_modifier.py:76-82. -/
def fillDefault (ops : Field → Ops World) (c : Ctx) (dest : Nat) (f : Field) : Py World Unit :=
  match f.default with
  | some v => setAttr env dest f.name v
  | none => do
    let w ← Py.get
    let ek ← readW (fun w => c.ekey env w f.name)
    let t ← (ops f).transform (c.dflt c.original f.name ek ((w.heap dest).cls, f.name))
    setAttr env dest f.name t

/-- `_has_field_value`: instanceof_modifier.py:84-85. -/
def hasFieldValue (f : Field) (kvs : List (String × Val)) : Bool :=
  (dictGet kvs f.jsonName).isSome || (dictGet kvs f.name).isSome

/-- `ctx.val.get(k)` with `None` for a missing key. -/
def getD (kvs : List (String × Val)) (k : String) : Val := (dictGet kvs k).getD .none

/-- `_get_field_value`: instanceof_modifier.py:87-91. -/
def getFieldValue (f : Field) (kvs : List (String × Val)) : Val :=
  if (getD kvs f.jsonName).isNone then getD kvs f.name else getD kvs f.jsonName

/-- `setattr(dest, refname, ctx.val.get(k))` if the value is not None:
instanceof_modifier.py:146-150. -/
def setRefKey (dest : Nat) (refName : String) (kvs : List (String × Val)) (k : String) :
    Py World Unit :=
  if (getD kvs k).isNone then pure () else setAttr env dest refName (getD kvs k)

/-- A field absent from the input: instanceof_modifier.py:138-155. -/
def absentField (ops : Field → Ops World) (c : Ctx) (dest : Nat) (soft : Bool)
    (kvs : List (String × Val)) (f : Field) : Py World Unit :=
  if f.isRef then
    if f.store = .localKey then do
      setRefKey env dest f.refName kvs f.refName
      setRefKey env dest f.refName kvs f.jrefName
    else pure ()
  else if c.cfg.fillBlanks && !soft && f.store ≠ .calculated then fillDefault env ops c dest f
  else pure ()

/-- "this write is allowed": instanceof_modifier.py:157-166. `cur` is the current value. -/
def allowWrite (f : Field) (cur new : Val) : Bool :=
  match f.writeRule with
  | .unlimited => true
  | .noWrite => false
  | .writeOnce => cur.isNone
  | .writeNonnull => !new.isNone

/-- A field present in the input: instanceof_modifier.py:156-174. The current value is
read for write-once fields only. -/
def presentField (ops : Field → Ops World) (c : Ctx) (dest : Nat)
    (kvs : List (String × Val)) (f : Field) : Py World Unit := do
  let cur ← readW (fun w => if f.writeRule = .writeOnce then w.getattr env dest f.name else .ok .none)
  if allowWrite f cur (getFieldValue f kvs) then do
    let w ← Py.get
    let ek ← readW (fun w => c.ekey env w f.name)
    let t ← (ops f).transform
      (c.nextvo (getFieldValue f kvs) f.name ek ((w.heap dest).cls, f.name) dest)
    pyWhen (f.store ≠ .calculated) (setAttr env dest f.name t)
  else if c.cfg.fillBlanks && f.store ≠ .calculated then fillDefault env ops c dest f
  else pure ()

/-- One step of the field loop: instanceof_modifier.py:137-174. -/
def transformField (ops : Field → Ops World) (c : Ctx) (dest : Nat) (soft : Bool)
    (kvs : List (String × Val)) (f : Field) : Py World Unit :=
  if hasFieldValue f kvs then presentField env ops c dest kvs f
  else absentField env ops c dest soft kvs f

/-- The field loop: instanceof_modifier.py:137-174. -/
def transformFields (ops : Field → Ops World) (c : Ctx) (dest : Nat) (soft : Bool)
    (kvs : List (String × Val)) : List Field → Py World Unit
  | [] => pure ()
  | f :: fs => do
    transformField env ops c dest soft kvs f
    transformFields ops c dest soft kvs fs

/-- `nonnull_ref_lists`: instanceof_modifier.py:139-143. -/
def nonnullRefLists (kvs : List (String × Val)) (fs : List Field) : List String :=
  (fs.filter (fun f => !hasFieldValue f kvs && f.isRef && f.ftype = .list && f.collNonnull)).map
    Field.name

/-- instanceof_modifier.py:175-177. -/
def fillRefLists (dest : Nat) : List String → Py World Unit
  | [] => pure ()
  | n :: ns => do
    let v ← readW (fun w => w.getattr env dest n)
    pyWhen v.isNone (setAttr env dest n (.list []))
    fillRefLists dest ns

/-- The primary key in the input: instanceof_modifier.py:104-109. -/
def inputPk (cls : String) (kvs : List (String × Val)) : Val :=
  match (env.cls cls).primary with
  | some n => getD kvs n
  | none => .none

/-- The object to write to, and whether it was found in the mark graph:
instanceof_modifier.py:110-125. -/
def findDest (vis : Visitor) (cls : String) (c : Ctx) (kvs : List (String × Val)) :
    Py World (Nat × Bool) :=
  let pk := inputPk env cls kvs
  match c.original with
  | some o => do
    pyWhen (!pk.isNone) (Py.modify (fun w => w.markPutp env pk o))
    pure (o, false)
  | none =>
    if pk.isNone then do
      let i ← newObj env vis cls []
      Py.modify (fun w => w.markPut env i)
      pure (i, false)
    else do
      let w ← Py.get
      match mLookup (cls, .pk (env.pystr pk)) w.marks with
      | some o => pure (o, true)
      | none => do
        let i ← newObj env vis cls []
        Py.modify (fun w => w.markPutp env pk i)
        pure (i, false)

/-- Writing a dict to the object found: instanceof_modifier.py:126-178. -/
def applyDict (ops : Field → Ops World) (cls : String) (strict : Option Bool) (c : Ctx)
    (dest : Nat) (soft : Bool) (kvs : List (String × Val)) : Py World Unit := do
  let w ← Py.get
  let cd := w.cdef env dest
  pyWhen (strict.getD (env.cls cls).strictInput)
    (readW (fun _ => strictCheck c cd.availableNames kvs))
  transformFields env ops c dest soft kvs cd.fields
  fillRefLists env dest (nonnullRefLists kvs cd.fields)

/-- `InstanceOfModifier.transform`: instanceof_modifier.py:94-178. -/
def instTransform (vis : Visitor) (ops : Field → Ops World) (cls : String) (strict : Option Bool)
    (c : Ctx) : Py World Val :=
  let orig : Val := match c.original with
    | some o => .obj o
    | none => .none
  match c.val with
  | .none => pure orig
  | .dict kvs => do
    let d ← findDest env vis cls c kvs
    applyDict env ops cls strict c d.1 d.2 kvs
    pure (.obj d.1)
  | v => pure (if c.original.isSome then orig else v)

/-! ### tojson -/

/-- "is the reverse field of where we came from": instanceof_modifier.py:201-208. -/
def isReverse (c : Ctx) (f : Field) : Bool :=
  if c.cfg.reverseRel then false
  else match env.foreignField f with
    | none => false
    | some of => c.fid = f.foreign ||
        match c.keypathr.reverse with
        | _ :: .s k :: _ => of.name = k
        | _ => false

/-- `field.name not in val._partial_picks` for a partial object. -/
def notPicked (o : Obj) (f : Field) : Bool :=
  match o.picks with
  | some ps => !(ps.contains f.name)
  | none => false

/-- The local key entry: instanceof_modifier.py:209-217. -/
def keyEntry (w : World) (i : Nat) (outNull : Bool) (f : Field) (acc : List (String × Val)) :
    List (String × Val) :=
  if f.store = .localKey && (outNull || !(w.attr i f.refName).isNone)
  then dictSet f.jrefName (w.attr i f.refName) acc else acc

/-- Fields left out of the output: instanceof_modifier.py:218-228. -/
def skipJson (c : Ctx) (o : Obj) (noKeyRefs : Bool) (f : Field) : Bool :=
  (f.isRef && (isReverse env c f || noKeyRefs)) || (f.noRead && !c.cfg.ignoreWriteonly)
    || f.store = .temp || notPicked o f

/-- The field loop: instanceof_modifier.py:196-236. -/
def jsonFields (ops : Field → Ops World) (c : Ctx) (i : Nat) (outNull noKeyRefs : Bool) :
    List Field → List (String × Val) → Py World (List (String × Val))
  | [], acc => pure acc
  | f :: fs, acc => fun w =>
    match w.getattr env i f.name with
    | .error e => (.error e, w)
    | .ok fv =>
      if f.store = .localKey && notPicked (w.heap i) f then
        jsonFields ops c i outNull noKeyRefs fs acc w
      else
        let acc := keyEntry w i outNull f acc
        if skipJson env c (w.heap i) noKeyRefs f then jsonFields ops c i outNull noKeyRefs fs acc w
        else match c.ekey env w f.name with
          | .error e => (.error e, w)
          | .ok ek =>
            let fid := ((w.heap i).cls, f.name)
            let cname := (w.cdef env i).name
            let ic := if f.ftype = .inst then c.nextoc fv f.name ek fid cname
              else c.nextvc fv f.name ek fid cname
            match (ops f).tojson ic w with
            | (.error e, w') => (.error e, w')
            | (.ok r, w') =>
              jsonFields ops c i outNull noKeyRefs fs
                (if outNull || !r.isNone then dictSet f.jsonName r acc else acc) w'

/-- `InstanceOfModifier.tojson`: instanceof_modifier.py:184-237. -/
def instTojson (ops : Field → Ops World) (c : Ctx) : Py World Val :=
  match c.val with
  | .none => pure .none
  | .obj i => do
    let w ← Py.get
    let cd := w.cdef env i
    let kvs ← jsonFields env ops c i (c.cfg.outputNull.getD cd.outputNull)
      (c.idchain.contains cd.name) cd.fields []
    pure (.dict kvs)
  | _ => Py.raise .attributeError

/-! ### serialize -/

/-- "the key is set but the object is not loaded": instanceof_modifier.py:254-258. -/
def keyOnly (w : World) (i : Nat) (f : Field) : Bool :=
  f.store = .localKey && (w.attr i f.name).isNone && !(w.attr i f.refName).isNone

/-- `value.is_modified or value.is_new` -/
def dirty (o : Obj) : Bool := o.isModified || o.isNew

/-- One field: instanceof_modifier.py:259-263. -/
def serializeField (ops : Field → Ops World) (c : Ctx) (i : Nat) (f : Field) : Py World Unit :=
  if f.store = .calculated then pure ()
  else do
    let w ← Py.get
    let ek ← readW (fun w => c.ekey env w f.name)
    let t ← (ops f).serialize (c.nextv (w.attr i f.name) f.name ek ((w.heap i).cls, f.name))
    setAttr env i f.name t

/-- The field loop: instanceof_modifier.py:251-265. -/
def serializeFields (ops : Field → Ops World) (c : Ctx) (i : Nat) :
    Bool → List Field → Py World Unit
  | _, [] => pure ()
  | upd, f :: fs => do
    if f.isRef || f.isInst || upd || f.forceSetOnSave then do
      let w ← Py.get
      if keyOnly w i f then serializeFields ops c i upd fs
      else do
        serializeField env ops c i f
        let w ← Py.get
        serializeFields ops c i (upd || dirty (w.heap i)) fs
    else serializeFields ops c i upd fs

/-- `InstanceOfModifier.serialize`: instanceof_modifier.py:239-265. -/
def instSerialize (ops : Field → Ops World) (c : Ctx) : Py World Val :=
  match c.val with
  | .none => pure .none
  | .obj i => fun w =>
    if (w.markGet env i).isSome then (.ok (.obj i), w)
    else
      let w := w.markPut env i
      Py.andThen (serializeFields env ops c i (dirty (w.heap i)) (w.cdef env i).fields)
        (fun _ => pure (.obj i)) w
  | _ => Py.raise .attributeError

/-! ### Tying the knot -/

/-- `InstanceOfModifier` with a limit on nested instance visits. -/
def instOps : Nat → Visitor
  | 0 => fun _ _ =>
    { validate := fun _ => Py.raise .recursion
      transform := fun _ => Py.raise .recursion
      tojson := fun _ => Py.raise .recursion
      serialize := fun _ => Py.raise .recursion }
  | n + 1 => fun cls st =>
    { validate := instValidate env (Field.ops env (instOps n)) cls
      transform := instTransform env (instOps n) (Field.ops env (instOps n)) cls st
      tojson := instTojson env (Field.ops env (instOps n))
      serialize := instSerialize env (Field.ops env (instOps n)) }

/-! ### Methods (single key arguments; key path arguments are in Model/Methods) -/

/-- `obj.validate(all_fields)`: jsonclassify.py:192-207. -/
def apiValidate (n : Nat) (i : Nat) (all : Option Bool) : Py World Unit := fun w =>
  withFreshMarks ((instOps env n (w.heap i).cls none).validate
    (rootCtx w i { allFields := all } (.obj i))) w

/-- `obj.is_valid`: jsonclassify.py:210-222. -/
def apiIsValid (n : Nat) (i : Nat) : Py World Bool := fun w =>
  match apiValidate env n i (some false) w with
  | (.ok _, w') => (.ok true, w')
  | (.error (.validation _), w') => (.ok false, w')
  | (.error e, w') => (.error e, w')

/-- `obj.tojson(...)` after the read guard: jsonclassify.py:161-166. -/
def apiTojson (n : Nat) (i : Nat) (ignoreWriteonly reverseRel : Bool) (outNull : Option Bool) :
    Py World Val := fun w =>
  withFreshMarks ((instOps env n (w.heap i).cls none).tojson
    (rootCtx w i { ignoreWriteonly, reverseRel, outputNull := outNull } (.obj i))) w

/-- `obj.set(**kwargs)`: jsonclassify.py:59-69, single key arguments. -/
def apiSet (n : Nat) (i : Nat) (kvs : List (String × Val)) : Py World Unit :=
  setDict (instOps env n) i kvs false

/-- `cls(**kwargs)`: jsonclassify.py:30-56, single key arguments. -/
def apiNew (n : Nat) (cls : String) (kvs : List (String × Val)) : Py World Nat :=
  newObj env (instOps env n) cls kvs

/-- The assignment loop of `update`: jsonclassify.py:137-138. -/
def setAll (i : Nat) : List (String × Val) → Py World Unit
  | [] => pure ()
  | (k, v) :: r => do
    setAttr env i k v
    setAll i r

/-- `obj.update(**kwargs)`: jsonclassify.py:120-139. -/
def apiUpdate (i : Nat) (kvs : List (String × Val)) : Py World Unit := fun w =>
  if kvs.all (fun kv => (w.cdef env i).updateNames.contains kv.1) then setAll env i kvs w
  else (.error .valueError, w)

/-- `_mark_unmodified`: jsonclassify.py:464-469 (`_is_new` included). -/
def markUnmodified (i : Nat) : Py World Unit := updObj i (fun o =>
  { o with isNew := false, isModified := false, modFields := [], prev := [] })

/-- The loop of `reset`: jsonclassify.py:331-335; the dict iterated over is the one the
object had at the start. -/
def resetLoop (i : Nat) : List (String × Val) → Py World Unit
  | [] => pure ()
  | (k, v) :: r => do
    setAttr env i k v
    updObj i (fun o => { o with isModified := false, modFields := [], prev := [] })
    resetLoop i r

/-- `obj.reset()`: jsonclassify.py:324-335. -/
def apiReset (i : Nat) : Py World Unit := fun w =>
  if !(w.cdef env i).resetAllFields then (.error .resetNotEnabled, w)
  else if (w.heap i).isNew then (.error .resetError, w)
  else resetLoop env i (w.heap i).prev w

end JC
