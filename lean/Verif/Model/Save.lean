import Verif.Model.Instance

/-
Saving, deleting and the permission guards: jsonclassify.py:338-368, 545-553, 573-642.

Guards, callbacks and the storage operations (`_database_write`, `_orm_delete`, which the
ORM layers override) are user code: arbitrary effectful functions on the objects. They
may not call `save` or `delete` themselves. The state carries a log of the
steps taken; the log is a ghost, no modelled code reads it.
-/
namespace JC

/-- An entry of `can_create` etc.: a `Types` object or a callable of object and
operator. -/
inductive Guard where
  | types (chain : List Mod)
  | fn (f : Nat → Val → Py World Val)

/-- The guard and callback lists of a class: jconf.py:80-136. A callback of one parameter
is one that ignores the operator. -/
structure Hooks where
  canCreate : List Guard := []
  canUpdate : List Guard := []
  canDelete : List Guard := []
  canRead : List Guard := []
  onCreate : List (Nat → Val → Py World Unit) := []
  onUpdate : List (Nat → Val → Py World Unit) := []
  onDelete : List (Nat → Val → Py World Unit) := []

/-- Classes, hooks and storage. `depth` bounds the nesting of instances in one validation
or serialization, `loops` the iterations over one dict or list of unlinked objects. -/
structure SaveEnv where
  env : Env
  hooks : String → Hooks := fun _ => {}
  write : Nat → Py World Unit := fun _ => pure ()
  ormDelete : Nat → Py World Unit := fun _ => pure ()
  depth : Nat := 20
  loops : Nat := 1000

/-- Steps. `validated` carries the state before a successful validation, `serialized` the
state after set-on-save, `written` and `deleted` the state in which the storage operation
starts. -/
inductive SEv where
  | guard (i : Nat)
  | callback (i : Nat)
  | validated (i : Nat) (w : World)
  | serialized (i : Nat) (w : World)
  | written (i : Nat) (w : World)
  | deleted (i : Nat) (w : World)

/-- state with log -/
structure SState where
  w : World
  log : List SEv := []

variable (se : SaveEnv)

/-- a step on the objects -/
def liftS {α : Type} (m : Py World α) : Py SState α := fun s =>
  match m s.w with
  | (r, w') => (r, { s with w := w' })

/-- log a step -/
def logS (e : World → SEv) : Py SState Unit := fun s => (.ok (), { s with log := s.log ++ [e s.w] })

/-- One guard: jsonclassify.py:583-596. Note that `transform` is outside the `try`. -/
def runGuard (i : Nat) (op : Val) : Guard → Py World Unit
  | .types chain => fun w =>
    let ops := chainOps (setParent se.env) (denL se.env (instOps se.env se.depth) chain)
    let c := rootCtx w i {} (.obj i)
    withFreshMarks (do
      let t ← ops.transform c
      (ops.validate (c.nval t)).catchV (fun _ => Py.raise .unauthorized)) w
  | .fn f => do
    let r ← f i op
    match r with
    | .none => pure ()
    | .bool true => pure ()
    | _ => Py.raise .unauthorized

/-- the loop jsonclassify.py:582-596 -/
def runGuards (i : Nat) (op : Val) : List Guard → Py SState Unit
  | [] => pure ()
  | g :: gs => do
    logS (fun _ => .guard i)
    liftS (runGuard se i op g)
    runGuards i op gs

/-- `_can_cu_check_common`: jsonclassify.py:573-596. -/
def guardCheck (i : Nat) (gs : List Guard) : Py SState Unit := fun s =>
  if gs.length = 0 then (.ok (), s)
  else if (s.w.heap i).operator.isNone then (.error .unauthorized, s)
  else runGuards se i (s.w.heap i).operator gs s

/-- `_run_on_create_callbacks` etc.: jsonclassify.py:618-642. -/
def runCallbacks (i : Nat) : List (Nat → Val → Py World Unit) → Py SState Unit
  | [] => pure ()
  | f :: fs => do
    logS (fun _ => .callback i)
    liftS (fun w => f i (w.heap i).operator w)
    runCallbacks i fs

/-- hooks of an object -/
def hooksOf (w : World) (i : Nat) : Hooks := se.hooks (w.heap i).cls

/-- `_can_create_or_update_check`: jsonclassify.py:599-605. -/
def saveGuard (i : Nat) : Py SState Unit := fun s =>
  guardCheck se i (if (s.w.heap i).isNew then (hooksOf se s.w i).canCreate else (hooksOf se s.w i).canUpdate) s

/-- jsonclassify.py:345-348 -/
def saveCallbacks (i : Nat) : Py SState Unit := fun s =>
  runCallbacks i (if (s.w.heap i).isNew then (hooksOf se s.w i).onCreate else (hooksOf se s.w i).onUpdate) s

/-- jsonclassify.py:349-350 -/
def saveValidate (all skip : Bool) (i : Nat) : Py SState Unit := fun s =>
  if skip then (.ok (), s)
  else match apiValidate se.env se.depth i (some all) s.w with
    | (.ok _, w') => (.ok (), ⟨w', s.log ++ [.validated i s.w]⟩)
    | (.error e, w') => (.error e, ⟨w', s.log⟩)

/-- `_set_on_save`: jsonclassify.py:545-552. -/
def setOnSave (i : Nat) : Py World Unit := fun w =>
  withFreshMarks (do
    let _ ← (instOps se.env se.depth (w.heap i).cls none).serialize (rootCtx w i {} (.obj i))
    pure ()) w

/-- `lst.remove(item)` on a list of unlinked objects: jsonclassify.py:355. -/
def dropUnlinked (i : Nat) (key : String) (v : Val) (s : SState) : SState :=
  { s with w := s.w.upd i (fun o =>
    let xs := (dictGet o.unlinked key).getD []
    { o with unlinked := dictSet key ((listRemove v xs).getD xs) o.unlinked }) }

/-- The loop over the objects unlinked from one field: jsonclassify.py:354-357. The list is
the live one: the loop goes by position, and removing the current item shifts the
rest. (`_add_unlinked_object` replaces an empty list by a new one, jsonclassify.py:524-525;
user code doing that inside the loop is not distinguished.) -/
def saveItems (save : Nat → Py SState Unit) (i : Nat) (key : String) : Nat → Nat → Py SState Unit
  | 0, _ => Py.raise .recursion
  | fuel + 1, p => fun s =>
    match ((dictGet (s.w.heap i).unlinked key).getD [])[p]? with
    | none => (.ok (), s)
    | some (.obj j) =>
      Py.andThen (save j) (fun _ => saveItems save i key fuel (p + 1)) (dropUnlinked i key (.obj j) s)
    | some v => (.error .attributeError, dropUnlinked i key v s)

/-- The loop over the fields: jsonclassify.py:353. A dict that changes its size while it is
iterated over raises RuntimeError. -/
def saveUnlinked (save : Nat → Py SState Unit) (i : Nat) (size : Nat) : Nat → Nat → Py SState Unit
  | 0, _ => Py.raise .recursion
  | fuel + 1, p => fun s =>
    if (s.w.heap i).unlinked.length ≠ size then (.error (.other 0), s)
    else match ((s.w.heap i).unlinked)[p]? with
      | none => (.ok (), s)
      | some (key, _) =>
        Py.andThen (saveItems save i key se.loops 0) (fun _ => saveUnlinked save i size fuel (p + 1)) s

/-- `save`: jsonclassify.py:338-358. -/
def saveObj (all skip : Bool) : Nat → Nat → Py SState Unit
  | 0, _ => Py.raise .recursion
  | n + 1, i => do
    saveGuard se i
    saveCallbacks se i
    saveValidate se all skip i
    liftS (setOnSave se i)
    logS (.serialized i)
    logS (.written i)
    liftS (se.write i)
    fun s => saveUnlinked se (saveObj all skip n) i (s.w.heap i).unlinked.length se.loops 0 s

/-- `_can_delete_check`: jsonclassify.py:608-610. -/
def deleteGuard (i : Nat) : Py SState Unit := fun s => guardCheck se i (hooksOf se s.w i).canDelete s

/-- `_can_read_check`: jsonclassify.py:613-615. -/
def readGuard (i : Nat) : Py SState Unit := fun s => guardCheck se i (hooksOf se s.w i).canRead s

/-- `_run_on_delete_callbacks`: jsonclassify.py:636-642. -/
def deleteCallbacks (i : Nat) : Py SState Unit := fun s => runCallbacks i (hooksOf se s.w i).onDelete s

/-- `delete`: jsonclassify.py:361-368. -/
def deleteObj (i : Nat) : Py SState Unit := do
  deleteGuard se i
  deleteCallbacks se i
  logS (.deleted i)
  liftS (se.ormDelete i)

/-- `tojson`: jsonclassify.py:142-166. -/
def tojsonObj (i : Nat) (ignoreWriteonly reverseRel : Bool) (outNull : Option Bool) : Py SState Val := do
  readGuard se i
  liftS (apiTojson se.env se.depth i ignoreWriteonly reverseRel outNull)

end JC
