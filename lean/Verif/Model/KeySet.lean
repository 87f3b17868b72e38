import Verif.Model.Methods

/-
`set` with compound keys: `_keypath_set` and `_set_to_container`,
jsonclassify.py:59-69, 80-117. Nested lists and dicts are parts of the value of the field that
holds them; the key path an owned container reports is taken to be its present position
(in the code it is the position the container had when it was wrapped).
-/
namespace JC

/-- a step into a container: list position or dict key -/
inductive PKey where
  | idx (k : Nat)
  | key (s : String)
  deriving DecidableEq, Repr

/-- as an argument of `concat_keypath` -/
def PKey.toKey : PKey → Key
  | .idx k => .i k
  | .key s => .s s

/-- what a container holds at a step -/
def stepGet (v : Val) : PKey → Option Val
  | .idx k => match v with
    | .list xs => xs[k]?
    | _ => none
  | .key s => match v with
    | .dict kvs => dictGet kvs s
    | _ => none

/-- the container with another value at a step -/
def stepSet (v : Val) (p : PKey) (x : Val) : Val := match p, v with
  | .idx k, .list xs => .list (xs.set k x)
  | .key s, .dict kvs => .dict (dictSet s x kvs)
  | _, v => v

/-- the value at a path -/
def pathGet (v : Val) : List PKey → Option Val
  | [] => some v
  | p :: ps => match stepGet v p with
    | some x => pathGet x ps
    | none => none

/-- the value with the part at a path replaced (for existing paths) -/
def pathSet (v : Val) : List PKey → Val → Val
  | [], x => x
  | p :: ps, x => match stepGet v p with
    | some y => stepSet v p (pathSet y ps x)
    | none => v

/-- digits of a decimal number -/
def digitsVal (acc : Nat) : List Char → Option Nat
  | [] => some acc
  | c :: cs => if c.isDigit then digitsVal (acc * 10 + (c.toNat - 48)) cs else none

/-- `int(text)` for an optional sign and ASCII digits; Python also takes surrounding
spaces, underscores and other digits, which raise ValueError here. -/
def keyInt (s : String) : Option Int := match s.toList with
  | '-' :: c :: cs => (digitsVal 0 (c :: cs)).map (fun n => -(n : Int))
  | '+' :: c :: cs => (digitsVal 0 (c :: cs)).map (fun n => (n : Int))
  | c :: cs => (digitsVal 0 (c :: cs)).map (fun n => (n : Int))
  | [] => none

/-- field type of a chain: the last type modifier decides (`FDef._ftype`) -/
def chainFTy : List Mod → FTy
  | [] => .other
  | m :: ms => match chainFTy ms with
    | .other => match m with
      | .listOf .. => .list
      | .dictOf .. => .dict
      | .instOf .. => .inst
      | _ => .other
    | t => t

/-- item types of a chain: `fdef.item_types` -/
def chainItems : List Mod → List Mod
  | [] => []
  | m :: ms => match chainItems ms with
    | [] => match m with
      | .listOf _ _ it => it
      | .dictOf _ it => it
      | _ => []
    | it => it

variable (env : Env)

/-- `dest[k] = v` on an owned list: the list at `path` in the field `n` of object `i`
(olist.py:137-147 and the owner's callbacks). -/
def listSetAt (i : Nat) (n : String) (path : List PKey) (k : Int) (v : Val) : Py World Unit := do
  let w ← Py.get
  match pathGet (w.attr i n) path with
  | some (.list xs) => do
    pyWhen (((ownedOp pyEq (.setIdx k v) xs).log.filter LEv.isWill).length > 0) (willChange env false i n)
    rawSet i n (pathSet (w.attr i n) path (.list (ownedOp pyEq (.setIdx k v) xs).items))
    forEvs (ownerLEv env i (concatKeypath (.s n :: path.map PKey.toKey)))
      ((ownedOp pyEq (.setIdx k v) xs).log.filter (fun e => !e.isWill))
    raiseOpt (ownedOp pyEq (.setIdx k v) xs).exc
  | _ => Py.raise .typeError

/-- `dest[k] = v` on an owned dict (odict.py:112-124). -/
def dictSetAt (i : Nat) (n : String) (path : List PKey) (k : String) (v : Val) : Py World Unit := do
  let w ← Py.get
  match pathGet (w.attr i n) path with
  | some (.dict kvs) => do
    pyWhen (((ownedDOp Val.none (.setItem k v) kvs).log.filter DEv.isWill).length > 0) (willChange env true i n)
    rawSet i n (pathSet (w.attr i n) path (.dict (ownedDOp Val.none (.setItem k v) kvs).items))
    forEvs (ownerDEv env i (concatKeypath (.s n :: path.map PKey.toKey)))
      ((ownedDOp Val.none (.setItem k v) kvs).log.filter (fun e => !e.isWill))
    raiseOpt (ownedDOp Val.none (.setItem k v) kvs).exc
  | _ => Py.raise .typeError

/-- the integer a list is indexed with -/
def intKey (s : String) : Py World Int := match keyInt s with
  | some k => pure k
  | none => Py.raise .valueError

/-- `dest[int(k)]` -/
def listItem (xs : List Val) (k : Int) : Py World (Nat × Val) := match normIdx xs.length k with
  | some m => match xs[m]? with
    | some x => pure (m, x)
    | none => Py.raise .indexError
  | none => Py.raise .indexError

/-- `dest[k]` -/
def dictItemOf (kvs : List (String × Val)) (k : String) : Py World Val := match dictGet kvs k with
  | some x => pure x
  | none => Py.raise .keyError

/-- `getattr(self, name)` and `field_named(name)`: jsonclassify.py:83-84. A name that is not a
field raises ValueError if the object has such an attribute, else AttributeError; local
keys are the only such attributes considered. -/
def keyField (i : Nat) (n : String) : Py World (Field × Val) := do
  let w ← Py.get
  match (w.cdef env i).field? n with
  | some f => do
    let v ← readW (fun w => w.getattr env i n)
    pure (f, v)
  | none => match (w.cdef env i).localKey? n with
    | some _ => Py.raise .valueError
    | none => Py.raise .attributeError

/-- `_set_to_container` and, where it comes to an object, `_set` and `_keypath_set` of
that object: jsonclassify.py:72-117. `n`, `path`: where `dest` is stored. Joining the remaining
keys and splitting them again gives the same keys (C01). A list indexed as a dict and
the other way round raises TypeError (a dict would take an integer key). -/
def keyWalk (vis : Visitor) (v : Val) : List String → Nat → String → List PKey → FTy → List Mod → Val → Py World Unit
  | ks, i, n, path, ty, chain, dest => match ty with
    | .other => pure ()
    | .inst => match dest with
      | .none => Py.raise .valueError
      | .obj j => match ks with
        | [] => Py.raise .indexError
        | [k] => setDict vis j [(k, v)] false
        | k :: k' :: ks => do
          let fv ← keyField env j k
          keyWalk vis v (k' :: ks) j k [] fv.1.ftype fv.1.chain fv.2
      | _ => Py.raise .attributeError
    | .list => match dest with
      | .none => Py.raise .valueError
      | .list xs => match ks with
        | [] => Py.raise .indexError
        | [k] => do
          let m ← intKey k
          listSetAt env i n path m v
        | k :: k' :: ks => do
          let m ← intKey k
          let x ← listItem xs m
          keyWalk vis v (k' :: ks) i n (path ++ [.idx x.1]) (chainFTy (chainItems chain)) (chainItems chain) x.2
      | _ => Py.raise .typeError
    | .dict => match dest with
      | .none => Py.raise .valueError
      | .dict kvs => match ks with
        | [] => Py.raise .indexError
        | [k] => dictSetAt env i n path k v
        | k :: k' :: ks => do
          let x ← dictItemOf kvs k
          keyWalk vis v (k' :: ks) i n (path ++ [.key k]) (chainFTy (chainItems chain)) (chainItems chain) x
      | _ => Py.raise .typeError

/-- one entry of `_keypath_set`: jsonclassify.py:81-86 -/
def keySet (vis : Visitor) (i : Nat) (ks : List String) (v : Val) : Py World Unit := match ks with
  | [] => Py.raise .indexError
  | n :: ks => do
    let fv ← keyField env i n
    keyWalk env vis v ks i n [] fv.1.ftype fv.1.chain fv.2

/-- `_keypath_set`: jsonclassify.py:80-86. -/
def keySetAll (vis : Visitor) (i : Nat) : List (String × Val) → Py World Unit
  | [] => pure ()
  | (k, v) :: r => do
    keySet env vis i (keypathSplit k) v
    keySetAll vis i r

/-- `obj.set(**kwargs)` with all keys: jsonclassify.py:59-69. -/
def apiSetAll (m : Nat) (i : Nat) (kvs : List (String × Val)) : Py World Unit := do
  setDict (instOps env m) i (singleKeyArgs kvs) false
  keySetAll env (instOps env m) i (compoundKeyArgs kvs)

end JC
