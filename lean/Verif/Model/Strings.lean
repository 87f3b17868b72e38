import Verif.Model.Numbers

/-
String, list, equality and presence modifiers. A Python `str` is a Lean `String` (no lone
surrogates). `other` values (sets, tuples, bytes, ...) have no length and are not
iterable in the model.
-/
namespace JC

/-! ### Python sequence operations -/

/-- Slice index normalisation: an index `k` on a sequence of length `n`; negative counts
from the end, out of range is clipped; None means the given default. -/
def sliceIx (n dflt : Nat) : Val → Except Exc Nat
  | .int k => .ok (if k < 0 then ((n : Int) + k).toNat else min k.toNat n)
  | .bool b => .ok (min (if b then 1 else 0) n)
  | .none => .ok dflt
  | _ => .error .typeError

/-- `xs[:k]` -/
def sliceTo {α : Type} (xs : List α) (k : Val) : Except Exc (List α) := do
  let i ← sliceIx xs.length xs.length k
  pure (xs.take i)

/-- `xs[k:]` -/
def sliceFrom {α : Type} (xs : List α) (k : Val) : Except Exc (List α) := do
  let i ← sliceIx xs.length 0 k
  pure (xs.drop i)

/-- `len(v)` when the value is a list or a string -/
def Val.len? : Val → Option Nat
  | .list xs => some xs.length
  | .str s => some s.toList.length
  | _ => Option.none

/-- `s.split(sep)` for a non-empty separator: left to right, non-overlapping; `skip`
characters of a matched separator are still to be dropped. -/
def splitGo (sep : List Char) : Nat → List Char → List (List Char)
  | _, [] => [[]]
  | k + 1, _ :: s => splitGo sep k s
  | 0, c :: s =>
    if sep.isPrefixOf (c :: s) then [] :: splitGo sep (sep.length - 1) s
    else match splitGo sep 0 s with
      | w :: ws => (c :: w) :: ws
      | [] => [[c]]

/-- `str.isspace` for one character (the characters `str.strip` removes) -/
def isSpace (c : Char) : Bool :=
  let n := c.toNat
  (9 ≤ n && n ≤ 13) || (28 ≤ n && n ≤ 32) || n == 133 || n == 160 || n == 5760 ||
  (8192 ≤ n && n ≤ 8202) || n == 8232 || n == 8233 || n == 8239 || n == 8287 || n == 12288

/-- `s.strip()` -/
def strip (s : List Char) : List Char :=
  ((s.dropWhile isSpace).reverse.dropWhile isSpace).reverse

/-- `n * s` for a string -/
def strTimes (n : Int) (s : List Char) : List Char := (List.replicate n.toNat s).flatten

/-- all items as strings, or TypeError (`str.join`) -/
def strItems : List Val → Except Exc (List (List Char))
  | [] => .ok []
  | .str s :: r => do
    let r ← strItems r
    pure (s.toList :: r)
  | _ :: _ => .error .typeError

/-- `a in b` for strings -/
def isInfixB (a : List Char) : List Char → Bool
  | [] => a.isEmpty
  | c :: s => a.isPrefixOf (c :: s) || isInfixB a s

/-- `s.replace(old, new)` -/
def replaceL (old new s : List Char) : List Char :=
  match old with
  | [] => new ++ (s.map (fun c => c :: new)).flatten
  | _ => joinL new (splitGo old 0 s)

/-! ### Length -/

/-- `LengthModifier`: length_modifier.py:17-30. `pmax = none` when the two parameters are
equal or only one was given. -/
def lengthMod (pmin : Param) (pmax : Option Param) : Leaf where
  validate := fun h c => match c.val.len? with
    | none => .ok ()
    | some n => do
      let a ← pmin h c
      let b ← (match pmax with
        | none => .ok a
        | some p => p h c)
      let hi ← numLt b (.int n)
      if hi then .error (c.vexc "length of value is not in range") else do
        let lo ← numLt (.int n) a
        rejectIf c "length of value is not in range" lo

/-- `MinlengthModifier`: minlength_modifier.py:16-21. -/
def minlengthMod (p : Param) : Leaf where
  validate := fun h c => match c.val.len? with
    | none => .ok ()
    | some n => do
      let a ← p h c
      let r ← numLt (.int n) a
      rejectIf c "length of value is not greater than or equal" r

/-- `MaxlengthModifier`: maxlength_modifier.py:16-21. -/
def maxlengthMod (p : Param) : Leaf where
  validate := fun h c => match c.val.len? with
    | none => .ok ()
    | some n => do
      let a ← p h c
      let r ← numLt a (.int n)
      rejectIf c "length of value is not less than or equal" r

/-! ### Shaping -/

/-- `TruncateModifier`: truncate_modifier.py:16-17 (slicing a dict raises). -/
def truncateMod (p : Param) : Leaf where
  transform := fun h c => match c.val with
    | .str s => do
      let k ← p h c
      let r ← sliceTo s.toList k
      pure (.str (String.ofList r))
    | .list xs => do
      let k ← p h c
      let r ← sliceTo xs k
      pure (.list r)
    | .dict _ => do
      let _ ← p h c
      .error .typeError
    | v => .ok v

/-- the padding `(target_length - len(val)) * char` -/
def padStr (n : Nat) : Val → Val → Except Exc (List Char)
  | .int t, .str ch => .ok (strTimes (t - n) ch.toList)
  | _, _ => .error .typeError

/-- `PadEndModifier`: padend_modifier.py:16-23. -/
def padendMod (pchar plen : Param) : Leaf where
  transform := fun h c => do
    let t ← plen h c
    let ch ← pchar h c
    match c.val with
    | .str s => do
      let p ← padStr s.toList.length t ch
      pure (.str (String.ofList (s.toList ++ p)))
    | v => .ok v

/-- `PadStartModifier`: padstart_modifier.py:16-23. -/
def padstartMod (pchar plen : Param) : Leaf where
  transform := fun h c => do
    let ch ← pchar h c
    let t ← plen h c
    match c.val with
    | .str s => do
      let p ← padStr s.toList.length t ch
      pure (.str (String.ofList (p ++ s.toList)))
    | v => .ok v

/-- `TrimModifier`: trim_modifier.py:12-13. -/
def trimMod : Leaf where
  transform := fun _ c => match c.val with
    | .str s => .ok (.str (String.ofList (strip s.toList)))
    | v => .ok v

/-- `ReverseModifier`: reverse_modifier.py:11-13. -/
def reverseMod : Leaf where
  transform := fun _ c => match c.val with
    | .str s => .ok (.str (String.ofList s.toList.reverse))
    | .list xs => .ok (.list xs.reverse)
    | v => .ok v

/-- `LenModifier`: len_modifier.py:12-14. -/
def lenMod : Leaf where
  transform := fun _ c => match c.val.len? with
    | some n => .ok (.int n)
    | none => .ok c.val

/-- `SplitModifier`: split_modifier.py:16-17. Splitting by None (whitespace) is not
modelled (TypeError). -/
def splitMod (p : Param) : Leaf where
  transform := fun h c => match c.val with
    | .str s => do
      let sep ← p h c
      match sep with
      | .str t =>
        if t.toList.isEmpty then .error .valueError
        else .ok (.list ((splitGo t.toList 0 s.toList).map (fun w => .str (String.ofList w))))
      | _ => .error .typeError
    | v => .ok v

/-- `JoinModifier`: join_modifier.py:15-16. -/
def joinMod (p : Param) : Leaf where
  transform := fun h c => match c.val with
    | .list xs => do
      let sep ← p h c
      match sep with
      | .str t => do
        let ws ← strItems xs
        pure (.str (String.ofList (joinL t.toList ws)))
      | _ => .error .attributeError
    | v => .ok v

/-- `ReplaceModifier`: replace_modifier.py:16-20. -/
def replaceMod (pold pnew : Param) : Leaf where
  transform := fun h c => do
    let o ← pold h c
    let n ← pnew h c
    match c.val with
    | .str s => match o, n with
      | .str o, .str n => .ok (.str (String.ofList (replaceL o.toList n.toList s.toList)))
      | _, _ => .error .typeError
    | v => .ok v

/-- `AppendModifier`: append_modifier.py:16-22; `pystr` is Python's `str(v)`. -/
def appendMod (pystr : Val → String) (p : Param) : Leaf where
  transform := fun h c => match c.val with
    | .list xs => do
      let v ← p h c
      pure (.list (xs ++ [v]))
    | .str s => do
      let v ← p h c
      pure (.str (String.ofList (s.toList ++ (pystr v).toList)))
    | v => .ok v

/-- `PrependModifier`: prepend_modifier.py:16-22 (no `str()` here). -/
def prependMod (p : Param) : Leaf where
  transform := fun h c => match c.val with
    | .list xs => do
      let v ← p h c
      pure (.list (v :: xs))
    | .str s => do
      let v ← p h c
      match v with
      | .str t => .ok (.str (String.ofList (t.toList ++ s.toList)))
      | _ => .error .typeError
    | v => .ok v

/-- `InsertAtModifier`: insertat_modifier.py:17-25. -/
def insertatMod (pystr : Val → String) (pitem pidx : Param) : Leaf where
  transform := fun h c => do
    let i ← pidx h c
    let v ← pitem h c
    match c.val with
    | .list xs => do
      let a ← sliceTo xs i
      let b ← sliceFrom xs i
      pure (.list (a ++ [v] ++ b))
    | .str s => do
      let a ← sliceTo s.toList i
      let b ← sliceFrom s.toList i
      pure (.str (String.ofList (a ++ (pystr v).toList ++ b)))
    | v => .ok v

/-- `ToListModifier`: tolist_modifier.py:12-14 (sets and tuples are not modelled). -/
def tolistMod : Leaf where
  transform := fun _ c => match c.val with
    | .str s => .ok (.list (s.toList.map (fun ch => .str (String.ofList [ch]))))
    | v => .ok v

/-- `WrapIntoListModifier`: wrapintolist_modifier.py:12-13. -/
def wrapintolistMod : Leaf where
  transform := fun _ c => match c.val with
    | .none => .ok .none
    | v => .ok (.list [v])

/-- `[f(v) for v in xs]` with a raising `f` -/
def mapE (f : Val → Except Exc Val) : List Val → Except Exc (List Val)
  | [] => .ok []
  | x :: xs => do
    let y ← f x
    let ys ← mapE f xs
    pure (y :: ys)

/-- `MapModifier`: map_modifier.py:16-23; the callback (a callable or a pipeline) is a
parameter. -/
def mapMod (cb : Heap → Ctx → Except Exc Val) : Leaf where
  transform := fun h c => match c.val with
    | .list xs => do
      let ys ← mapE (fun v => cb h (c.nval v)) xs
      pure (.list ys)
    | v => .ok v

/-- the loop of `FilterModifier` -/
def filterE (keep : Val → Except Exc Bool) : List Val → Except Exc (List Val)
  | [] => .ok []
  | x :: xs => do
    let b ← keep x
    let ys ← filterE keep xs
    pure (if b then x :: ys else ys)

/-- `FilterModifier` with a pipeline: filter_modifier.py:16-28. The transform may raise, an
exception of the validation drops the item. -/
def filterTypesMod (tr : Heap → Ctx → Except Exc Val) (va : Heap → Ctx → Except Exc Unit) : Leaf where
  transform := fun h c => match c.val with
    | .list xs => do
      let ys ← filterE (fun v => do
        let t ← tr h (c.nval v)
        pure (match va h (c.nval t) with
          | .ok _ => true
          | .error _ => false)) xs
      pure (.list ys)
    | v => .ok v

/-- `FilterModifier` with a callable: filter_modifier.py:29-36: kept when the callback
returns None or True itself. -/
def filterCallMod (cb : Val → Except Exc Val) : Leaf where
  transform := fun _ c => match c.val with
    | .list xs => do
      let ys ← filterE (fun v => do
        let r ← cb v
        pure (match r with
          | .none => true
          | .bool b => b
          | _ => false)) xs
      pure (.list ys)
    | v => .ok v

/-! ### Prefixes and suffixes -/

/-- `HasPrefixModifier`: hasprefix_modifier.py:16-22. On lists the slice is
`val[:len(val)]`. -/
def hasprefixMod (p : Param) : Leaf where
  validate := fun h c => match c.val with
    | .list xs => do
      let q ← p h c
      rejectIf c "prefix is not found" (!(pyEq (.list (xs.take xs.length)) q))
    | .str s => do
      let q ← p h c
      match q with
      | .str t => rejectIf c "prefix is not found" (!(t.toList.isPrefixOf s.toList))
      | _ => .error .typeError
    | _ => .ok ()

/-- `len(v)` of a parameter -/
def pyLen : Val → Except Exc Nat
  | .list xs => .ok xs.length
  | .str s => .ok s.toList.length
  | .dict d => .ok d.length
  | _ => .error .typeError

/-- `HasSuffixModifier`: hassuffix_modifier.py:16-22. -/
def hassuffixMod (p : Param) : Leaf where
  validate := fun h c => match c.val with
    | .list xs => do
      let q ← p h c
      let n ← pyLen q
      let t ← sliceFrom xs (.int (-n))
      rejectIf c "suffix is not found" (!(pyEq (.list t) q))
    | .str s => do
      let q ← p h c
      match q with
      | .str t => rejectIf c "suffix is not found" (!(t.toList.isSuffixOf s.toList))
      | _ => .error .typeError
    | _ => .ok ()

/-- a slice of the parameter compared with a list value -/
def sliceEq (f : (α : Type) → List α → Except Exc (List α)) (xs : List Val) : Val → Except Exc Bool
  | .list ys => do
    let r ← f _ ys
    pure (pyEq (.list r) (.list xs))
  | .str s => do
    let _ ← f _ s.toList
    pure false
  | _ => .error .typeError

/-- `IsPrefixOfModifier`: isprefixof_modifier.py:16-22. -/
def isprefixofMod (p : Param) : Leaf where
  validate := fun h c => match c.val with
    | .list xs => do
      let q ← p h c
      let b ← sliceEq (fun _ ys => sliceTo ys (.int xs.length)) xs q
      rejectIf c "prefix is not found" (!b)
    | .str s => do
      let q ← p h c
      match q with
      | .str t => rejectIf c "prefix is not found" (!(s.toList.isPrefixOf t.toList))
      | _ => .error .attributeError
    | _ => .ok ()

/-- `IsSuffixOfModifier`: issuffixof_modifier.py:16-22. -/
def issuffixofMod (p : Param) : Leaf where
  validate := fun h c => match c.val with
    | .list xs => do
      let q ← p h c
      let b ← sliceEq (fun _ ys => sliceFrom ys (.int (-xs.length))) xs q
      rejectIf c "suffix is not found" (!b)
    | .str s => do
      let q ← p h c
      match q with
      | .str t => rejectIf c "suffix is not found" (!(s.toList.isSuffixOf t.toList))
      | _ => .error .attributeError
    | _ => .ok ()

/-! ### Equality, choice, presence -/

/-- `StrModifier` (type_modifier.py:21-30): None or a str. -/
def strMod : Leaf where
  validate := fun _ c => match c.val with
    | .none => .ok ()
    | .str _ => .ok ()
    | _ => .error (c.vexc "value is not str")

/-- `EqModifier`: eq_modifier.py:16-22. -/
def eqMod (p : Param) : Leaf where
  validate := fun h c => match c.val with
    | .none => .ok ()
    | v => do
      let q ← p h c
      rejectIf c "value is not equal" (!(pyEq v q))

/-- `NeqModifier`: neq_modifier.py:16-18 (None is compared too). -/
def neqMod (p : Param) : Leaf where
  validate := fun h c => do
    let q ← p h c
    rejectIf c "value is not unequal" (pyEq c.val q)

/-- `v in choices` -/
def pyContains (v : Val) : Val → Except Exc Bool
  | .list xs => .ok (pyIn v xs)
  | .str s => match v with
    | .str t => .ok (isInfixB t.toList s.toList)
    | _ => .error .typeError
  | .dict d => match v with
    | .str t => .ok (d.any (fun kv => kv.1 == t))
    | .list _ => .error .typeError
    | .dict _ => .error .typeError
    | _ => .ok false
  | _ => .error .typeError

/-- `OneOfModifier`: oneof_modifier.py:17-22. -/
def oneofMod (p : Param) : Leaf where
  validate := fun h c => match c.val with
    | .none => .ok ()
    | v => do
      let q ← p h c
      let b ← pyContains v q
      rejectIf c "value is not in choices" (!b)

/-- `PresentModifier`: present_modifier.py:20-22. -/
def presentMod : Leaf where
  validate := fun _ c => rejectIf c "value is not present" c.val.isNone

/-- `getattr(ctx.owner, key)` for a declared field of the owner (calculated fields call
their getter); the result is AttributeError for undeclared names and a missing owner. -/
def ownerAttr (env : Env) (h : Heap) (c : Ctx) (key : String) : Except Exc Val :=
  match c.owner with
  | none => .error .attributeError
  | some o => match (env.cls (h o).cls).field? key with
    | none => .error .attributeError
    | some f => if f.store = .calculated then f.getter h o else .ok ((h o).attrs key)

/-- `except AttributeError: raise ValueError` -/
def attrToValue {α : Type} : Except Exc α → Except Exc α
  | .error .attributeError => .error .valueError
  | r => r

/-- `PresentWithModifier`: presentwith_modifier.py:20-29. -/
def presentwithMod (env : Env) (key : String) : Leaf where
  validate := fun h c => if c.val.isNone then do
      let r ← attrToValue (ownerAttr env h c key)
      rejectIf c "value is not present with" (!r.isNone)
    else .ok ()

/-- the loop of presentwithout_modifier.py:25-36 -/
def presentwithoutLoop (env : Env) (h : Heap) (c : Ctx) : List String → Except Exc Unit
  | [] => .error (c.vexc "value is not present without")
  | k :: ks => do
    let r ← attrToValue (ownerAttr env h c k)
    if r.isNone then presentwithoutLoop env h c ks else .ok ()

/-- `PresentWithoutModifier`: presentwithout_modifier.py:23-36. -/
def presentwithoutMod (env : Env) (keys : List String) : Leaf where
  validate := fun h c => if c.val.isNone then presentwithoutLoop env h c keys else .ok ()

/-- `RequiredModifier`: required_modifier.py:19-43; `store` is `ctx.fdef.fstore` (embedded
when there is no definition). A dict holder is not modelled. -/
def requiredMod (env : Env) (store : Store) : Leaf where
  validate := fun h c => match store with
    | .foreignKey => .ok ()
    | .localKey => if c.val.isNone then
        match c.holder with
        | none => .error .attributeError
        | some o => match c.keypathh with
          | [] => .error .indexError
          | k :: _ => match (env.cls (h o).cls).field? k.str with
            | none => .error .valueError
            | some f => rejectIf c "value required" ((h o).attrs f.refName).isNone
      else .ok ()
    | _ => rejectIf c "value required" c.val.isNone

/-- `DefaultModifier`: default_modifier.py:16-22. A callable default is called without
arguments, otherwise the parameter is resolved; both are a `Param` here. -/
def defaultMod (p : Param) : Leaf where
  transform := fun h c => if c.val.isNone then p h c else .ok c.val

end JC
