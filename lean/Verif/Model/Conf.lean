import Verif.Model.CGraph

/-
Class configuration: jconf.py and the decorator's treatment of its arguments
(jsonclass.py:102-127). Callables are opaque identities.
-/
namespace JC

/-- a key strategy: the three of keypath.py, or a user's callable -/
inductive Strategy where
  | camelize | underscore | identical
  | fn (uid : Nat)
deriving DecidableEq, Repr

/-- the argument for a key strategy: a callable, a string, or absent -/
inductive StratArg where
  | absent
  | named (s : String)
  | fn (uid : Nat)
  /-- one of the library's own functions passed as a callable -/
  | builtin (s : Strategy)
deriving DecidableEq, Repr

/-- `_figure_out`: jconf.py:321-332 -/
def figureOut : StratArg → Option Strategy
  | .absent => none
  | .named s => if s = "underscore" then some .underscore else if s = "camelize" then some .camelize else some .identical
  | .fn u => some (.fn u)
  | .builtin s => some s

/-- naming of reference fields: `reference_key` or a callable -/
inductive RefStrategy where
  | referenceKey
  | fn (uid : Nat)
deriving DecidableEq, Repr

/-- a callback or guard argument -/
inductive HookArg where
  | absent
  /-- a callable or a `types` object -/
  | one (uid : Nat)
  | many (uids : List Nat)
  | junk
deriving DecidableEq, Repr

/-- jconf.py:96-130, seven times the same -/
def hookList : HookArg → List Nat
  | .one u => [u]
  | .many us => us
  | _ => []

inductive HookName where
  | onCreate | onUpdate | onDelete | canCreate | canUpdate | canDelete | canRead
deriving DecidableEq, Repr

inductive BoolOpt where
  | strictInput | validateAllFields | abstract | resetAllFields | outputNull
deriving DecidableEq, Repr

/-- `JConf`: the private attributes of jconf.py:86-130 -/
structure Conf where
  cgraph : String
  output : Option Strategy
  input : Option Strategy
  refName : Option RefStrategy
  flag : BoolOpt → Option Bool
  hook : HookName → List Nat

/-- the arguments of `JConf(...)`: jconf.py:30-48 -/
structure ConfArgs where
  cgraph : Option String := none
  output : StratArg := .absent
  input : StratArg := .absent
  refName : Option RefStrategy := none
  flag : BoolOpt → Option Bool := fun _ => none
  hook : HookName → HookArg := fun _ => .absent

/-- `JConf.__init__`: jconf.py:85-130 -/
def Conf.make (a : ConfArgs) : Conf where
  cgraph := confGraph a.cgraph
  output := figureOut a.output
  input := figureOut a.input
  refName := a.refName
  flag := a.flag
  hook := fun h => hookList (a.hook h)

/-- the default configuration of a class graph: cgraph.py:49-64 -/
def defaultConf (name : String) : Conf := Conf.make
  { cgraph := some name, output := .builtin .camelize, input := .builtin .underscore,
    refName := some .referenceKey,
    flag := fun o => match o with | .strictInput => some true | _ => some false,
    hook := fun _ => .many [] }

/-- A property of `JConf` that falls back to the graph's default configuration:
jconf.py:189-262. When that has no value either, its property asks itself again, which
never returns. -/
def confProp {α : Type} (own dflt : Option α) : Except Exc α :=
  match own with
  | some v => .ok v
  | none => match dflt with
    | some v => .ok v
    | none => .error .recursion

/-- jconf.py:189-195 -/
def Conf.outputKeyStrategy (c : Conf) : Except Exc Strategy := confProp c.output (defaultConf c.cgraph).output
/-- jconf.py:197-203 -/
def Conf.inputKeyStrategy (c : Conf) : Except Exc Strategy := confProp c.input (defaultConf c.cgraph).input
/-- jconf.py:213-219 -/
def Conf.refNameStrategy (c : Conf) : Except Exc RefStrategy := confProp c.refName (defaultConf c.cgraph).refName
/-- jconf.py:205-211, 221-262 -/
def Conf.boolOpt (c : Conf) (o : BoolOpt) : Except Exc Bool := confProp (c.flag o) ((defaultConf c.cgraph).flag o)
/-- jconf.py:264-318 -/
def Conf.hooks (c : Conf) (h : HookName) : List Nat := c.hook h

/-- `@jsonclass(...)`: jsonclass.py:102-127. `camelize_json_keys=False` replaces both key
strategies. -/
def decoratorConf (camelizeJsonKeys : Option Bool) (a : ConfArgs) : Conf :=
  Conf.make (if camelizeJsonKeys = some false then { a with output := .builtin .identical, input := .builtin .identical } else a)

end JC
