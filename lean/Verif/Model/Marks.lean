import Verif.Model.World
import Verif.Model.EnumMod

/-
Declarations: `Types` objects, the field definition each carries, and the tables a class makes
from the definitions of its fields.

`types.str.readonly.required` is a row of method calls, each of which makes a new `Types` from
the one before. Field definitions are objects that are written in place, so the model keeps
them in a store, and a `Types` refers to its own. Callables, classes, enum classes, item types
and checkers given as arguments are numbers.
-/
namespace JC

/-- `FType`: fdef.py:13-28. -/
inductive FKind where
  | str | int | float | bool | date | datetime | enum | list | dict | inst | any | union
  deriving DecidableEq, Repr, Inhabited

/-- `FSubtype`: fdef.py:31-35. -/
inductive FSub where
  | file | mongoid
  deriving DecidableEq, Repr, Inhabited

/-- `DeleteRule`: fdef.py:86-92. -/
inductive DeleteRule where
  | nullify | cascade | deny
  deriving DecidableEq, Repr, Inhabited

/-- `Nullability`: fdef.py:67-74. -/
inductive Nullability where
  | undefined | nullable | nonnull
  deriving DecidableEq, Repr, Inhabited

/-- `FDef` with the values of `FDef.__init__`: fdef.py:126-174. Left out: the input forms of
enums (see `EnumMark`), the item types of collections and unions, unresolved names. -/
structure FDef where
  cdef : Option Nat := none
  ftype : Option FKind := none
  fsubtype : Option FSub := none
  store : Store := .embedded
  getter : Option Nat := none
  setter : Option Nat := none
  primary : Bool := false
  index : Bool := false
  cindex : Bool := false
  cindexNames : List String := []
  cunique : Bool := false
  cuniqueNames : List String := []
  unique : Bool := false
  required : Bool := false
  enumOutput : Option EnumOut := none
  rawInst : Option String := none
  instCls : Option Nat := none
  forceSetOnSave : Bool := false
  foreignKey : Option String := none
  useJoin : Option Bool := none
  joinCls : Option Nat := none
  referrerKey : Option String := none
  refereeKey : Option String := none
  deleteRule : Option DeleteRule := none
  noRead : Bool := false
  writeRule : WriteRule := .unlimited
  collNull : Nullability := .nullable
  itemNull : Nullability := .undefined
  strict : Bool := false
  hasEager : Bool := false
  hasReset : Bool := false
  hasPre : Bool := false
  opAssign : Bool := false
  opTransformer : Option Nat := none
  queryable : Option Bool := none
  nocopy : Bool := false
  authIdentity : Bool := false
  authBy : Bool := false
  authChecker : Option Nat := none

/-- The modifiers whose `define` writes to the definition; `plain` stands for every other one. -/
inductive DMod where
  | plain (n : Nat)
  | eager | reset | preserialize
  | primary
  | readonly | writeonly | readwrite | writeonce | writenonnull
  | temp | embedded
  | index (unique : Bool) (name : Option String)
  | queryable | unqueryable | nocopy
  | getter (f : Nat) | setter (f : Nat)
  | linkto | linkedby (k : String) | linkedthru (k : String) | linkedin (c : Nat)
  | referrer (k : String) | referee (k : String)
  | nullify | cascade | deny
  | scalar (k : FKind)
  | enum (e : Nat)
  | outputname | outputvalue | outputlname
  | listof (t : Nat) | dictof (t : Nat) | union (ts : List Nat)
  | objof (c : String)
  | strict | required | present | nullable | nonnull
  | fsetonsave (f : Nat)
  | asop (f : Nat) | asopd
  | mongoid | uploader (u : Nat)
  | authidentity | authby (c : Nat)
  deriving DecidableEq, Repr, Inhabited

/-- `if fdef._delete_rule is None: fdef._delete_rule = DeleteRule.NULLIFY` -/
def orNullify : Option DeleteRule → Option DeleteRule
  | none => some .nullify
  | some r => some r

/-- `if fdef._collection_nullability is Nullability.UNDEFINED: … = NONNULL` -/
def orNonnull : Nullability → Nullability
  | .undefined => .nonnull
  | n => n

/-- the last two lines of linkto_modifier.py:13-15, linkedby_modifier.py:18-20,
linkedthru_modifier.py:18-20 -/
def linkedList (d : FDef) : Nullability :=
  if d.ftype = some .list then orNonnull d.collNull else d.collNull

/-- `listof_modifier.py:18-22` -/
def listNull (d : FDef) : Nullability :=
  if d.store = .localKey ∨ d.foreignKey.isSome then orNonnull d.collNull else d.collNull

/-- `index_modifier.py:13-25`; an empty name counts as no name -/
def defineIndex (unique : Bool) (name : Option String) (d : FDef) : FDef :=
  match name with
  | some n =>
    if n ≠ "" then
      if unique then { d with cunique := true, cuniqueNames := d.cuniqueNames ++ [n] }
      else { d with cindex := true, cindexNames := d.cindexNames ++ [n] }
    else if unique then { d with unique := true } else { d with index := true }
  | none => if unique then { d with unique := true } else { d with index := true }

/-- `if fdef._enum_output is None: fdef._enum_output = EnumOutput.NAME`: enum_modifier.py:24-25 -/
def orOutName : Option EnumOut → Option EnumOut
  | none => some .name
  | some o => some o

/-- `define` of the modifiers: the files named like the constructors in modifiers/
(`index`: index_modifier.py, `scalar`: type_modifier.py:18-19 and any_modifier.py:10-11,
`listof` and `dictof`: collection_type_modifier.py:27-29). -/
def DMod.define : DMod → FDef → FDef
  | .plain _, d => d
  | .eager, d => { d with hasEager := true }
  | .reset, d => { d with hasReset := true }
  | .preserialize, d => { d with hasPre := true }
  | .primary, d => { d with primary := true }
  | .readonly, d => { d with writeRule := .noWrite }
  | .writeonly, d => { d with noRead := true }
  | .readwrite, d => { d with writeRule := .unlimited, noRead := false }
  | .writeonce, d => { d with writeRule := .writeOnce }
  | .writenonnull, d => { d with writeRule := .writeNonnull }
  | .temp, d => { d with store := .temp }
  | .embedded, d => { d with store := .embedded }
  | .index u n, d => defineIndex u n d
  | .queryable, d => { d with queryable := some true }
  | .unqueryable, d => { d with queryable := some false }
  | .nocopy, d => { d with nocopy := true }
  | .getter f, d => { d with store := .calculated, getter := some f }
  | .setter f, d => { d with store := .calculated, setter := some f }
  | .linkto, d => { d with store := .localKey, deleteRule := orNullify d.deleteRule, collNull := linkedList d }
  | .linkedby k, d => { d with store := .foreignKey, foreignKey := some k, useJoin := some false,
                               deleteRule := orNullify d.deleteRule, collNull := linkedList d }
  | .linkedthru k, d => { d with store := .foreignKey, foreignKey := some k, useJoin := some true,
                                 deleteRule := orNullify d.deleteRule, collNull := linkedList d }
  | .linkedin c, d => { d with store := .foreignKey, joinCls := some c, useJoin := some true,
                               deleteRule := orNullify d.deleteRule }
  | .referrer k, d => { d with referrerKey := some k }
  | .referee k, d => { d with refereeKey := some k }
  | .nullify, d => { d with deleteRule := some .nullify }
  | .cascade, d => { d with deleteRule := some .cascade }
  | .deny, d => { d with deleteRule := some .deny }
  | .scalar k, d => { d with ftype := some k }
  | .enum _, d => { d with ftype := some .enum, enumOutput := orOutName d.enumOutput }
  | .outputname, d => { d with enumOutput := some .name }
  | .outputvalue, d => { d with enumOutput := some .value }
  | .outputlname, d => { d with enumOutput := some .lname }
  | .listof _, d => { d with ftype := some .list, collNull := listNull d }
  | .dictof _, d => { d with ftype := some .dict }
  | .union _, d => { d with ftype := some .union }
  | .objof c, d => { d with ftype := some .inst, rawInst := some c }
  | .strict, d => { d with strict := true }
  | .required, d => { d with required := true }
  | .present, d => { d with required := true }
  | .nullable, d => { d with itemNull := .nullable }
  | .nonnull, d => { d with collNull := .nonnull }
  | .fsetonsave _, d => { d with forceSetOnSave := true }
  | .asop f, d => { d with opAssign := true, opTransformer := some f }
  | .asopd, d => { d with opAssign := true }
  | .mongoid, d => { d with fsubtype := some .mongoid }
  | .uploader _, d => { d with fsubtype := some .file }
  | .authidentity, d => { d with authIdentity := true }
  | .authby c, d => { d with authBy := true, authChecker := some c }

/-- The methods and properties of `Types`: those that append a single modifier (`one`), and
those that append several: types.py:107-110, 163-168, 360-480 and the other transforms
(`transform`: `EagerModifier(), …`), 925 and 1262 (`tracked`: `ResetModifier(), …`), 1185,
1224, 1237, 1307 (`tsupdated`). -/
inductive Meth where
  | one (m : DMod)
  | primary | internal
  | transform (n : Nat)
  | tracked (n : Nat)
  | uploader (u : Nat)
  | setonsave (n : Nat)
  | fsetonsave (n : Nat)
  | tsupdated
  deriving DecidableEq, Repr, Inhabited

/-- the modifiers the method passes to `Types(self, …)` -/
def Meth.mods : Meth → List DMod
  | .one m => [m]
  | .primary => [.reset, .primary]
  | .internal => [.readonly, .writeonly]
  | .transform n => [.eager, .plain n]
  | .tracked n => [.reset, .plain n]
  | .uploader u => [.eager, .uploader u]
  | .setonsave n => [.preserialize, .plain n]
  | .fsetonsave n => [.preserialize, .fsetonsave n]
  | .tsupdated => [.plain 0, .preserialize, .plain 1]

/-- A `Types` object: a reference to its definition, and the `vs` of its chain. -/
structure TypesObj where
  fdef : Nat
  vs : List DMod

/-- The tables of a `CDef`, names for fields: cdef.py:36-62. `graph` is the class graph of its
configuration. -/
structure CTables where
  graph : Nat := 0
  names : List String := []
  primary : Option String := none
  calcs : List String := []
  setters : List String := []
  deny : List String := []
  nullify : List String := []
  cascade : List String := []
  unique : List String := []
  opAssign : List String := []
  authIdentity : List String := []
  authBy : List String := []

/-- The definitions (the first `nfd` numbers are in use), the `Types` objects and the classes
made so far, in the order they were made. -/
structure TState where
  fdefs : Nat → FDef := fun _ => {}
  nfd : Nat := 0
  types : List TypesObj := []
  classes : List CTables := []

/-- a write to a definition -/
def TState.put (s : TState) (r : Nat) (d : FDef) : TState :=
  { s with fdefs := fun k => if k = r then d else s.fdefs k }

/-- the state with `types = Types()` only: types.py:88-90, 1533 -/
def TState.start : TState := { fdefs := fun _ => {}, nfd := 1, types := [⟨0, []⟩] }

/-- the loop `for arg in args: modifier = modifier.append(arg); arg.define(self.fdef)`:
types.py:94-97, chained_modifier.py:21-23 -/
def defineLoop (r : Nat) : TState → List DMod → List DMod → TState × List DMod
  | s, vs, [] => (s, vs)
  | s, vs, m :: ms => defineLoop r (s.put r (m.define (s.fdefs r))) (vs ++ [m]) ms

/-- `Types(original, *args)`: types.py:83-97. `deepcopy(original.fdef)` makes a new definition;
it copies the class definition of the original along, of which only the class graph and the
name are read later, and these are the same in the copy. -/
def TState.derive (s : TState) (i : Nat) (m : Meth) : Option TState :=
  match s.types[i]? with
  | none => none
  | some t =>
    let s1 : TState := { s.put s.nfd (s.fdefs t.fdef) with nfd := s.nfd + 1 }
    let r := defineLoop s.nfd s1 t.vs m.mods
    some { r.1 with types := r.1.types ++ [⟨s.nfd, r.2⟩] }

/-- `if p: table.append(field)` -/
def tabIf (p : Bool) (n : String) (l : List String) : List String := if p then l ++ [n] else l

/-- the tables after a field with this definition: cdef.py:66, 79-100 -/
def CTables.add (c : CTables) (n : String) (d : FDef) : CTables :=
  { c with
    names := c.names ++ [n]
    primary := if d.primary then some n else c.primary
    calcs := tabIf (d.store = .calculated) n c.calcs
    setters := tabIf d.setter.isSome n c.setters
    deny := tabIf (d.deleteRule = some .deny) n c.deny
    nullify := tabIf (d.deleteRule = some .nullify) n c.nullify
    cascade := tabIf (d.deleteRule = some .cascade) n c.cascade
    unique := tabIf d.unique n c.unique
    opAssign := tabIf d.opAssign n c.opAssign
    authIdentity := tabIf d.authIdentity n c.authIdentity
    authBy := tabIf d.authBy n c.authBy }

/-- the loop over the fields: cdef.py:64-100. `k` is the new class definition. -/
def classLoop (k : Nat) : TState → CTables → List (String × Nat) → Option (TState × CTables)
  | s, c, [] => some (s, c)
  | s, c, (n, i) :: fs => match s.types[i]? with
    | none => none
    | some t =>
      let d := { s.fdefs t.fdef with cdef := some k }
      classLoop k (s.put t.fdef d) (c.add n d) fs

/-- `CDef.__init__`: cdef.py:26-101. Every field comes with the `Types` that declares it (given
by the user, or just made from an annotation). -/
def TState.addClass (s : TState) (g : Nat) (fs : List (String × Nat)) : Option TState :=
  match classLoop s.classes.length s { graph := g } fs with
  | none => none
  | some (s', c) => some { s' with classes := s'.classes ++ [c] }

/-- `FDef.inst_cls`: fdef.py:364-378, for a class given by name. `find g n` is what the class
graph `g` holds under the name. `none` for the state: unchanged. -/
def TState.instCls (s : TState) (find : Nat → String → Option Nat) (i : Nat) :
    Except Exc (Option Nat) × TState :=
  match s.types[i]? with
  | none => (.error .indexError, s)
  | some t =>
    let d := s.fdefs t.fdef
    match d.instCls with
    | some c => (.ok (some c), s)
    | none => match d.rawInst with
      | none => (.ok none, s)
      | some n => match d.cdef with
        | none => (.error .attributeError, s)
        | some k => match s.classes[k]? with
          | none => (.error .indexError, s)
          | some c => match find c.graph n with
            | none => (.error (.other 0), s)
            | some x => (.ok (some x), s.put t.fdef { d with instCls := some x })

/-- What a program does with declarations: it derives a `Types` from another, defines a class,
or asks for the class of a field (`tojson`, `validate`, … all do). -/
inductive TCmd where
  | derive (i : Nat) (m : Meth)
  | cls (g : Nat) (fs : List (String × Nat))
  | inst (i : Nat) (find : Nat → String → Option Nat)

/-- one step; `none`: not a program (it uses a `Types` that does not exist yet) -/
def TState.step (s : TState) : TCmd → Option TState
  | .derive i m => s.derive i m
  | .cls g fs => s.addClass g fs
  | .inst i f => some (s.instCls f i).2

/-- a program -/
def TState.run (s : TState) : List TCmd → Option TState
  | [] => some s
  | c :: cs => match s.step c with
    | none => none
    | some s' => s'.run cs

/-- the definition a `Types` object has -/
def TState.fdefOf (s : TState) (i : Nat) : Option FDef :=
  (s.types[i]?).map (fun t => s.fdefs t.fdef)

end JC
