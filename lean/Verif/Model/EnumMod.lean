import Verif.Model.Numbers

/-
Enum fields: `EnumModifier` and the marks that choose the accepted input forms and the
output form. An enum is a list of (name, value) pairs; aliases (two names for one value)
and enums that mix in another type are not modelled. `up` and `low` are Python's
`str.upper` and `str.lower`.
-/
namespace JC

/-- an enum class -/
structure EnumDef where
  name : String
  members : List (String × Val)
  deriving Inhabited

/-- `EnumInput`: fdef.py:94-101. -/
structure EnumIn where
  name : Bool
  value : Bool
  lname : Bool
  deriving DecidableEq, Repr, Inhabited

/-- `EnumOutput`: fdef.py:104-107. -/
inductive EnumOut where
  | name
  | value
  | lname
  deriving DecidableEq, Repr, Inhabited

/-- `enum_class[name]` (`none`: KeyError) -/
def EnumDef.byName (e : EnumDef) (n : String) : Option Val :=
  (e.members.find? (fun m => m.1 == n)).map (fun m => .enum e.name m.1)

/-- `enum_class(value)` (`none`: ValueError) -/
def EnumDef.byValue (e : EnumDef) (v : Val) : Option Val :=
  (e.members.find? (fun m => pyEq m.2 v)).map (fun m => .enum e.name m.1)

/-- `isinstance(v, enum_class)` -/
def EnumDef.isMember (e : EnumDef) : Val → Bool
  | .enum c _ => c == e.name
  | _ => false

/-- `try: return lookup except: pass`, then the rest -/
def orElseTry (r : Option Val) (rest : Except Exc Val) : Except Exc Val :=
  match r with
  | some v => .ok v
  | none => rest

/-- `EnumModifier.transform`: enum_modifier.py:28-57. The branch for VALUE falls off the
end of the function, so it returns None when there is no such value. -/
def enumTransform (up : String → String) (e : EnumDef) (i : EnumIn) (c : Ctx) : Except Exc Val :=
  if c.val.isNone then .ok .none
  else if e.isMember c.val then .ok c.val
  else if i.value then orElseTry (e.byValue c.val) (.ok .none)
  else match c.val with
    | .str s =>
      orElseTry (if i.name then e.byName s else none)
        (orElseTry (if i.lname then e.byName (up s) else none)
          (.error (c.vexc "unknown enum value")))
    | _ => .error (c.vexc "unknown enum value")

/-- `EnumModifier.tojson`: enum_modifier.py:70-78. Members of another enum are not
modelled (`other 9`). -/
def enumTojson (low : String → String) (e : EnumDef) (o : EnumOut) (c : Ctx) : Except Exc Val :=
  match c.val with
  | .none => .ok .none
  | .enum k m => if k = e.name then
      match o with
      | .value => match e.members.find? (fun p => p.1 == m) with
        | some p => .ok p.2
        | none => .error (.other 9)
      | .name => .ok (.str m)
      | .lname => .ok (.str (low m))
    else .error (.other 9)
  | _ => .error .attributeError

/-- `EnumModifier`: enum_modifier.py:12-78, with the forms recorded on the field. -/
def enumMod (up low : String → String) (e : EnumDef) (i : EnumIn) (o : EnumOut) : Leaf where
  transform := fun _ c => enumTransform up e i c
  validate := fun _ c => if c.val.isNone then .ok () else rejectIf c "invalid enum value" (!(e.isMember c.val))
  tojson := fun _ c => enumTojson low e o c

/-- the marks of an enum field, in the order of the chain -/
inductive EnumMark where
  | enum
  | inputname
  | inputvalue
  | inputlname
  | inputall
  deriving DecidableEq, Repr

/-- `flags | extra` -/
def EnumIn.or (a b : EnumIn) : EnumIn := ⟨a.name || b.name, a.value || b.value, a.lname || b.lname⟩

/-- `if enum_input is None: new else enum_input | new` -/
def addForm (f : EnumIn) : Option EnumIn → Option EnumIn
  | none => some f
  | some g => some (g.or f)

/-- `define` of the marks: enum_modifier.py:19-26, inputname_modifier.py:9-13,
inputvalue_modifier.py:9-13, inputlname_modifier.py:9-13, inputall_modifier.py:9-10. -/
def EnumMark.define : EnumMark → Option EnumIn → Option EnumIn
  | .enum, none => some ⟨true, false, false⟩
  | .enum, some f => some f
  | .inputname, f => addForm ⟨true, false, false⟩ f
  | .inputvalue, f => addForm ⟨false, true, false⟩ f
  | .inputlname, f => addForm ⟨false, false, true⟩ f
  | .inputall, _ => some ⟨true, true, true⟩

/-- the input forms of a field after its chain was defined -/
def enumForms (ms : List EnumMark) : Option EnumIn := ms.foldl (fun f m => m.define f) none

end JC
