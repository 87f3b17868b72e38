import Verif.Model.Value

/-!
How a class statement becomes the fields of a JSON class: the decorator (jsonclass.py:126-129), the
standard library's `dataclass(init=False)` that it calls (`_process_class` and `_get_field` of
dataclasses.py, the part that collects fields), and the head of the loop of `CDef.__init__`
(cdef.py:64-78), which decides between the given `Types`, the annotation and a default value.

Left out: `ClassVar`, `InitVar`, `KW_ONLY` and `__slots__`; `field(default=x)` counts as `x` and
`field()` as no default. A default value that is a JSON object is not considered (Python 3.10
accepts it, 3.11 does not). Class attributes that `jsonclassify` adds are no field names.
-/

namespace JC

/-- What stands behind `=` in the body of a class: a `types` declaration (its identity), a value,
or `field(default_factory=...)`. -/
inductive ClassAttr where
  | types (i : Nat)
  | value (v : Val)
  | factory

/-- A `dataclasses.Field`: the annotation and where the default comes from. `none` is `MISSING` for
both `default` and `default_factory`; `factory` is `MISSING` for `default` only. -/
structure StdField where
  ann : String
  attr : Option ClassAttr

/-- A class: the annotations of its body, the attributes of its body, the attributes that it has
now (`__dict__`), `__dataclass_fields__` if it was decorated, and the rest of `__mro__`. -/
inductive PyClass where
  | mk (annots : List (String × String)) (body attrs : List (String × ClassAttr))
      (fields : Option (List (String × StdField))) (mro : List PyClass)

namespace PyClass
/-- `__annotations__` -/
def annots : PyClass → List (String × String) | mk a _ _ _ _ => a
/-- what the body assigns -/
def body : PyClass → List (String × ClassAttr) | mk _ b _ _ _ => b
/-- `__dict__` -/
def attrs : PyClass → List (String × ClassAttr) | mk _ _ d _ _ => d
/-- `__dict__.get('__dataclass_fields__')` -/
def fields : PyClass → Option (List (String × StdField)) | mk _ _ _ f _ => f
/-- `__mro__[1:]` -/
def mro : PyClass → List PyClass | mk _ _ _ _ m => m
end PyClass

/-- `getattr(cls, name, MISSING)` in `_get_field` of dataclasses.py, called by jsonclass.py:126. -/
def classGetattr (own : List (String × ClassAttr)) (mro : List PyClass) (n : String) :
    Option ClassAttr :=
  (dictGet own n).or (mro.findSome? (fun b => dictGet b.attrs n))

/-- `getattr(b, '__dataclass_fields__', None)` in `_process_class` of dataclasses.py. -/
def fieldsOf (b : PyClass) : Option (List (String × StdField)) :=
  b.fields.or (b.mro.findSome? PyClass.fields)

/-- `for b in cls.__mro__[-1:0:-1]: ... fields[f.name] = f` in `_process_class`. -/
def baseFields (mro : List PyClass) : List (String × StdField) :=
  mro.reverse.foldl (fun acc b => match fieldsOf b with
    | none => acc
    | some fs => dictUpdate acc fs) []

/-- `_get_field`, and the `delattr` of `_process_class` for a factory that another class holds. -/
def dataField (own : List (String × ClassAttr)) (mro : List PyClass) (a : String × String) :
    Except Exc (String × StdField) :=
  match classGetattr own mro a.1 with
  | some (.value (.list _)) => .error .valueError
  | some (.value (.dict _)) => .error .valueError
  | some .factory => match dictGet own a.1 with
    | none => .error .attributeError
    | some _ => .ok (a.1, ⟨a.2, some .factory⟩)
  | r => .ok (a.1, ⟨a.2, r⟩)

/-- one `_get_field` after the other -/
def dataFields (own : List (String × ClassAttr)) (mro : List PyClass) :
    List (String × String) → Except Exc (List (String × StdField))
  | [] => .ok []
  | a :: as => match dataField own mro a with
    | .error e => .error e
    | .ok f => match dataFields own mro as with
      | .error e => .error e
      | .ok fs => .ok (f :: fs)

/-- the attribute is a `Field` without a default -/
def ClassAttr.isFactory : ClassAttr → Bool
  | .factory => true
  | _ => false

/-- A class statement without a decorator. -/
def plainClass (annots : List (String × String)) (body : List (String × ClassAttr))
    (mro : List PyClass) : PyClass :=
  .mk annots body body none mro

/-- A class statement under `@jsonclass`: `dataclass(init=False)(cls)` at jsonclass.py:126. -/
def jsonClass (annots : List (String × String)) (body : List (String × ClassAttr))
    (mro : List PyClass) : Except Exc PyClass :=
  match dataFields body mro annots with
  | .error e => .error e
  | .ok own =>
    if body.any (fun x => x.2.isFactory && (dictGet annots x.1).isNone) then .error .typeError
    else .ok (.mk annots body (body.filter (fun x => !x.2.isFactory))
      (some (dictUpdate (baseFields mro) own)) mro)

/-- Where the `Types` of a field come from: given, or made from the annotation by `rtypes`. -/
inductive TypesFrom where
  | given (i : Nat)
  | annotation (s : String)

/-- `JField.default`: nothing, a value, or the object `dataclasses.MISSING`. -/
inductive StartsWith where
  | nothing
  | value (v : Val)
  | missingObject

/-- The name, the types and the default of a `JField`: cdef.py:64-78. -/
def jfieldOf (f : String × StdField) : String × TypesFrom × StartsWith :=
  match f.2.attr with
  | some (.types i) => (f.1, .given i, .nothing)
  | none => (f.1, .annotation f.2.ann, .nothing)
  | some .factory => (f.1, .annotation f.2.ann, .missingObject)
  | some (.value .none) => (f.1, .annotation f.2.ann, .nothing)
  | some (.value v) => (f.1, .annotation f.2.ann, .value v)

/-- `cls.cdef.fields` of a decorated class: cdef.py:64-78, 101. -/
def jfields (c : PyClass) : List (String × TypesFrom × StartsWith) :=
  ((c.fields).getD []).map jfieldOf

end JC
