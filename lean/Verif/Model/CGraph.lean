import Verif.Model.Value

/-
Class graphs: cgraph.py, the registration half of the decorators (jsonclass.py:128-131,
jsonenum.py:42-46) and name resolution (rtypes.py:264-291).

A class is an identity with a name; the class definition registered for it is identified
with the class. Building the redefinition exception reads source files (excs.py:55-70);
here it is the bare exception.
-/
namespace JC

/-- what the class graph raises -/
inductive GExc where
  | redefinition | notFound | unresolved | attributeError
deriving DecidableEq, Repr

/-- a class object (or enum class) with its `__name__` -/
structure Cls where
  uid : Nat
  name : String
deriving DecidableEq, Repr

/-- `CGraph._map` and `CGraph._enum_map`: cgraph.py:47-48 -/
structure CGState where
  classes : List (String × Cls) := []
  enums : List (String × Cls) := []

/-- `CGraph._graph_map`: cgraph.py:22-34. `CGraph(name)` is created empty on first use,
so a name never used denotes the empty graph. The name may be `None` (jsonenum). -/
abbrev CGraphs := Option String → CGState

/-- the argument of fetch/has: a name or a class -/
inductive NameOrClass where
  | name (s : String)
  | cls (c : Cls)

/-- cgraph.py:109-112 -/
def NameOrClass.key : NameOrClass → String
  | .name s => s
  | .cls c => c.name

def clsGet (m : List (String × Cls)) (n : String) : Option Cls := (m.find? (fun p => p.1 == n)).map Prod.snd

/-- `CGraph.put`: cgraph.py:81-95 -/
def CGState.put (g : CGState) (c : Cls) : Except GExc Unit × CGState :=
  match clsGet g.classes c.name with
  | some _ => (.error .redefinition, g)
  | none => (.ok (), { g with classes := g.classes ++ [(c.name, c)] })

/-- `CGraph.fetch`: cgraph.py:97-115 -/
def CGState.fetch (g : CGState) (x : NameOrClass) : Except GExc Cls :=
  match clsGet g.classes x.key with
  | some c => .ok c
  | none => .error .notFound

/-- `CGraph.has`: cgraph.py:117-131 -/
def CGState.has (g : CGState) (x : NameOrClass) : Bool := (clsGet g.classes x.key).isSome

/-- `CGraph.put_enum`: cgraph.py:133-148. On a taken name the code reads `exist_def.cls`
of the enum class, which has no such attribute. -/
def CGState.putEnum (g : CGState) (c : Cls) : Except GExc Unit × CGState :=
  match clsGet g.enums c.name with
  | some _ => (.error .attributeError, g)
  | none => (.ok (), { g with enums := g.enums ++ [(c.name, c)] })

/-- `CGraph.fetch_enum`: cgraph.py:150-168 -/
def CGState.fetchEnum (g : CGState) (x : NameOrClass) : Except GExc Cls :=
  match clsGet g.enums x.key with
  | some c => .ok c
  | none => .error .notFound

/-- `CGraph.has_enum`: cgraph.py:170-185 -/
def CGState.hasEnum (g : CGState) (x : NameOrClass) : Bool := (clsGet g.enums x.key).isSome

/-- `rnamedtypes`: rtypes.py:264-291; `inl` a class, `inr` an enum -/
def CGState.resolve (g : CGState) (n : String) : Except GExc (Cls ⊕ Cls) :=
  if g.has (.name n) then (g.fetch (.name n)).map .inl
  else if g.hasEnum (.name n) then (g.fetchEnum (.name n)).map .inr
  else .error .unresolved

/-- `cgraph or 'default'`: jconf.py:87 -/
def confGraph : Option String → String
  | none => "default"
  | some s => if s = "" then "default" else s

/-- a declaration with its `class_graph` argument -/
inductive Decl where
  /-- `@jsonclass(class_graph=g)`: jsonclass.py:105-131 -/
  | jsonclass (g : Option String) (c : Cls)
  /-- `@jsonenum(class_graph=g)`: jsonenum.py:42-47 -/
  | jsonenum (g : Option String) (c : Cls)

def CGraphs.upd (gs : CGraphs) (n : Option String) (s : CGState) : CGraphs := fun m => if m = n then s else gs m

/-- run one declaration -/
def declare (gs : CGraphs) : Decl → Except GExc Unit × CGraphs
  | .jsonclass g c =>
    let n := some (confGraph g)
    ((gs n).put c |>.1, gs.upd n ((gs n).put c).2)
  | .jsonenum g c =>
    (((gs g).putEnum c).1, gs.upd g ((gs g).putEnum c).2)

/-- run a program of declarations, each one's exception caught -/
def declareAll (gs : CGraphs) : List Decl → CGraphs
  | [] => gs
  | d :: ds => declareAll (declare gs d).2 ds

/-- the graphs of a fresh process -/
def CGraphs.init : CGraphs := fun _ => {}

end JC
