import Verif.Model.Link

/-
Model of how relation fields find their opposite field: `CDef.__init__` (the owner of a
field's `Types` object), `JField.foreign_class`, `JField._do_resolve_foreign` and
`CDef.rfield`.

Simplifications: all classes live in one class graph, so that a class is its name; a name
that is not yet resolved is a class name (`rnamedtypes` is `CGraph` territory); results are
computed on demand instead of being cached at first use (`resolve_later` in
`Props/Relation` says when this makes no difference).
-/
namespace JC

/-- A field as declared in a class body. `base` is everything that does not depend on other
classes; `target` is `raw_inst_types` of the field (`instance`) or of its items (`list`);
`fkey` is `fdef.foreign_key`, set by `linkedby` and `linkedthru` (linkedby_modifier.py:13-15,
linkedthru_modifier.py:13-15) but not by `linkedin` and `linkto`; `tid` is the identity of
the `Types` object, which a subclass shares with its base class when the field is written
with `types` (cdef.py:67-69). -/
structure RelDecl where
  base : Field := {}
  target : Option String := none
  fkey : Option String := none
  tid : Nat := 0

/-- A class as declared: settings and fields. -/
structure ClassDecl where
  conf : ClassDef := {}
  fields : List RelDecl := []

/-- All classes defined so far, and for each `Types` object the class stored in its
`fdef._cdef`. -/
structure Registry where
  cls : String → Option ClassDecl := fun _ => none
  owner : Nat → String := fun _ => ""

/-- `JSONClassNotFoundException`: cgraph.py:112-115. -/
inductive RelExc where
  | notFound (name : String)
  deriving DecidableEq, Repr

/-- `CDef.__init__` and `CGraph.put`: cdef.py:64-78 (`types.fdef._cdef = self` for every
field, inherited ones too), cgraph.py. -/
def Registry.define (reg : Registry) (name : String) (d : ClassDecl) : Registry where
  cls := fun n => if n = name then some d else reg.cls n
  owner := fun t => if d.fields.any (fun f => f.tid = t) then name else reg.owner t

/-- Define classes one after the other. -/
def Registry.defineAll (reg : Registry) : List (String × ClassDecl) → Registry
  | [] => reg
  | (n, d) :: ds => (reg.define n d).defineAll ds

/-- `FDef.inst_cls`: fdef.py:365-378. -/
def Registry.instCls (reg : Registry) : Option String → Except RelExc (Option String)
  | none => .ok none
  | some t => match reg.cls t with
    | some _ => .ok (some t)
    | none => .error (.notFound t)

/-- `JField.foreign_class`: jfield.py:102-112. -/
def Registry.foreignClass (reg : Registry) (d : RelDecl) : Except RelExc (Option String) :=
  match d.base.ftype with
  | .inst => reg.instCls d.target
  | .list => reg.instCls d.target
  | _ => .ok none

/-- The test inside the loop of `CDef.rfield`: cdef.py:275-282. -/
def rfieldHit (fname fkey : Option String) (d : RelDecl) : Bool :=
  match fname with
  | some n => d.base.name == n
  | none => match fkey with
    | some k => d.fkey == some k
    | none => false

/-- `CDef.rfield`: cdef.py:271-284. -/
def Registry.rfield (reg : Registry) (fcls : String) (fname fkey : Option String) :
    List RelDecl → Except RelExc (Option RelDecl)
  | [] => .ok none
  | d :: ds => match reg.foreignClass d with
    | .error e => .error e
    | .ok c => if c = some fcls && rfieldHit fname fkey d then .ok (some d) else reg.rfield fcls fname fkey ds

/-- fields of a class (`fcls.cdef._tuple_fields`) -/
def Registry.fields (reg : Registry) (c : String) : List RelDecl :=
  match reg.cls c with
  | some d => d.fields
  | none => []

/-- the result kept in `_foreign_cdef` and `_foreign_fname` -/
def foundIn (t : String) : Except RelExc (Option RelDecl) → Except RelExc (Option (String × String))
  | .error e => .error e
  | .ok none => .ok none
  | .ok (some g) => .ok (some (t, g.base.name))

/-- `JField._do_resolve_foreign`: jfield.py:170-195. The class of the field is read from the
field definition (`self.fdef.cdef.cls`), hence from the `Types` object. -/
def Registry.resolve (reg : Registry) (d : RelDecl) : Except RelExc (Option (String × String)) :=
  if d.base.isRef then
    match reg.foreignClass d with
    | .error e => .error e
    | .ok none => .ok none
    | .ok (some t) =>
      if d.base.store = .localKey then
        foundIn t (reg.rfield (reg.owner d.tid) none (some d.base.name) (reg.fields t))
      else
        foundIn t (reg.rfield (reg.owner d.tid) d.fkey none (reg.fields t))
  else .ok none

/-- The field as the rest of the model sees it (`JField.foreign_field`: jfield.py:94-100). -/
def Registry.field (reg : Registry) (d : RelDecl) : Field :=
  { d.base with foreign := match reg.resolve d with
      | .ok r => r
      | .error _ => none }

/-- The class as the rest of the model sees it. -/
def Registry.classDef (reg : Registry) (c : String) : ClassDef :=
  match reg.cls c with
  | some d => { d.conf with name := c, fields := d.fields.map reg.field }
  | none => {}

/-- The environment made of the declared classes. -/
def Registry.toEnv (reg : Registry) (e : Env) : Env := { e with cls := reg.classDef }

end JC
