import Verif.Model.World

/-
Numeric and boolean modifiers. Each is a `Leaf` (an effect free modifier). Formatted
numbers are left out of messages. Arithmetic on floats is exact (no rounding, no
overflow), see DESIGN.md.
-/
namespace JC

/-- A modifier parameter, resolved by `resolve_param`: modifier.py:20-36. A constant, a
callable or a `types` pipeline; the latter two may read objects and the context and may
raise. -/
abbrev Param := Heap → Ctx → Except Exc Val

/-- a constant parameter: modifier.py:35-36 -/
def Param.const (v : Val) : Param := fun _ _ => .ok v

/-- `type(v) is int or type(v) is float` (bool is excluded) -/
def Val.isNumber : Val → Bool
  | .int _ => true
  | .flt _ => true
  | _ => false

/-- The number denoted by a Python number (bool included). -/
def Val.flt? : Val → Option Flt
  | .bool b => some (.fin (if b then 1 else 0))
  | .int n => some (.fin n)
  | .flt f => some f
  | _ => Option.none

/-- `a < b` on floats -/
def Flt.lt : Flt → Flt → Bool
  | .nan, _ => false
  | _, .nan => false
  | .ninf, .ninf => false
  | .ninf, _ => true
  | .pinf, _ => false
  | .fin _, .ninf => false
  | .fin _, .pinf => true
  | .fin a, .fin b => a < b

/-- `a <= b` on floats -/
def Flt.le : Flt → Flt → Bool
  | .nan, _ => false
  | _, .nan => false
  | .ninf, _ => true
  | _, .pinf => true
  | .pinf, _ => false
  | .fin _, .ninf => false
  | .fin a, .fin b => a ≤ b

/-- comparison of numbers; anything else raises TypeError -/
def numCmp (r : Flt → Flt → Bool) (a b : Val) : Except Exc Bool :=
  match a.flt?, b.flt? with
  | some x, some y => .ok (r x y)
  | _, _ => .error .typeError

/-- Python `a < b` for numbers -/
def numLt : Val → Val → Except Exc Bool := numCmp Flt.lt
/-- Python `a <= b` for numbers -/
def numLe : Val → Val → Except Exc Bool := numCmp Flt.le

/-- `if b: ctx.raise_vexc(msg)` -/
def rejectIf (c : Ctx) (msg : String) (b : Bool) : Except Exc Unit :=
  if b then .error (c.vexc msg) else .ok ()

/-- `MinModifier` (`min`, `gte`): min_modifier.py:16-20. -/
def minMod (p : Param) : Leaf where
  validate := fun h c => if c.val.isNumber then do
      let b ← p h c
      let r ← numLt c.val b
      rejectIf c "value is not greater than or equal" r
    else .ok ()

/-- `MaxModifier` (`max`, `lte`): max_modifier.py:16-19. -/
def maxMod (p : Param) : Leaf where
  validate := fun h c => if c.val.isNumber then do
      let b ← p h c
      let r ← numLt b c.val
      rejectIf c "value is not less than or equal" r
    else .ok ()

/-- `GtModifier`: gt_modifier.py:16-20. -/
def gtMod (p : Param) : Leaf where
  validate := fun h c => if c.val.isNumber then do
      let b ← p h c
      let r ← numLe c.val b
      rejectIf c "value is not greater than" r
    else .ok ()

/-- `LtModifier`: lt_modifier.py:16-19. -/
def ltMod (p : Param) : Leaf where
  validate := fun h c => if c.val.isNumber then do
      let b ← p h c
      let r ← numLe b c.val
      rejectIf c "value is not less than" r
    else .ok ()

/-- `RangeModifier`: range_modifier.py:19-23; the bounds are resolved even when the value
is not a number. -/
def rangeMod (lo hi : Param) : Leaf where
  validate := fun h c => if c.val.isNone then .ok () else do
    let a ← lo h c
    (minMod (.const a)).validate h c
    let b ← hi h c
    (maxMod (.const b)).validate h c

/-- `PositiveModifier`: positive_modifier.py:12-15. -/
def positiveMod : Leaf where
  validate := fun _ c => if c.val.isNumber then do
      let r ← numLe c.val (.int 0)
      rejectIf c "value is not positive" r
    else .ok ()

/-- `NegativeModifier`: negative_modifier.py:12-15. -/
def negativeMod : Leaf where
  validate := fun _ c => if c.val.isNumber then do
      let r ← numLe (.int 0) c.val
      rejectIf c "value is not negative" r
    else .ok ()

/-- `NonnegativeModifier`: nonnegative_modifier.py:14-17. -/
def nonnegativeMod : Leaf where
  validate := fun _ c => if c.val.isNumber then do
      let r ← numLt c.val (.int 0)
      rejectIf c "value is not nonnegative" r
    else .ok ()

/-- `NonpositiveModifier`: nonpositive_modifier.py:13-16. -/
def nonpositiveMod : Leaf where
  validate := fun _ c => if c.val.isNumber then do
      let r ← numLt (.int 0) c.val
      rejectIf c "value is not nonpositive" r
    else .ok ()

/-- `OddModifier`: odd_modifier.py:12-14 (Python `%` with a positive modulus). -/
def oddMod : Leaf where
  validate := fun _ c => match c.val with
    | .int n => rejectIf c "value is not odd" (n.fmod 2 == 0)
    | _ => .ok ()

/-- `EvenModifier`: even_modifier.py:12-14. -/
def evenMod : Leaf where
  validate := fun _ c => match c.val with
    | .int n => rejectIf c "value is not even" (n.fmod 2 != 0)
    | _ => .ok ()

/-! ### Transforms -/

/-- `LowerbondModifier`: lowerbond_modifier.py:16-20. -/
def lowerbondMod (p : Param) : Leaf where
  transform := fun h c => if c.val.isNumber then do
      let b ← p h c
      let r ← numLt c.val b
      .ok (if r then b else c.val)
    else .ok c.val

/-- `UpperbondModifier`: upperbond_modifier.py:16-20. -/
def upperbondMod (p : Param) : Leaf where
  transform := fun h c => if c.val.isNumber then do
      let b ← p h c
      let r ← numLt b c.val
      .ok (if r then b else c.val)
    else .ok c.val

/-- Python `abs` on floats -/
def Flt.abs : Flt → Flt
  | .nan => .nan
  | .pinf => .pinf
  | .ninf => .pinf
  | .fin q => .fin (if q < 0 then -q else q)

/-- `AbsModifier`: abs_modifier.py:12-14. -/
def absMod : Leaf where
  transform := fun _ c => match c.val with
    | .int n => .ok (.int n.natAbs)
    | .flt f => .ok (.flt f.abs)
    | v => .ok v

/-- The arithmetic transforms on integers; a float operand is not modelled and is
reported as `other 1`. `x` is the value, `b` the parameter. -/
def intArith (f : Int → Int → Except Exc Int) (p : Param) : Leaf where
  transform := fun h c => if c.val.isNumber then do
      let b ← p h c
      match c.val, b with
      | .int x, .int y => do
        let r ← f x y
        .ok (.int r)
      | _, .flt _ => .error (.other 1)
      | .flt _, .int _ => .error (.other 1)
      | _, _ => .error .typeError
    else .ok c.val

/-- `AddModifier`: add_modifier.py:15-16, integers. -/
def addMod : Param → Leaf := intArith (fun x b => .ok (b + x))
/-- `SubModifier`: sub_modifier.py:15-16, integers. -/
def subMod : Param → Leaf := intArith (fun x b => .ok (x - b))
/-- `MulModifier`: mul_modifier.py:15-16, integers. -/
def mulMod : Param → Leaf := intArith (fun x b => .ok (b * x))
/-- `ModModifier`: mod_modifier.py:15-16, integers; `other 2` is ZeroDivisionError. -/
def modMod : Param → Leaf := intArith (fun x b => if b = 0 then .error (.other 2) else .ok (x.fmod b))

/-- conversion of a float to an integer; infinities raise OverflowError (`other 3`), nan
raises ValueError -/
def fltToInt (f : Rat → Int) : Flt → Except Exc Val
  | .fin q => .ok (.int (f q))
  | .nan => .error .valueError
  | _ => .error (.other 3)

/-- `FloorModifier`: floor_modifier.py:12-14. -/
def floorMod : Leaf where
  transform := fun _ c => match c.val with
    | .flt f => fltToInt Rat.floor f
    | v => .ok v

/-- `CeilModifier`: ceil_modifier.py:12-14. -/
def ceilMod : Leaf where
  transform := fun _ c => match c.val with
    | .flt f => fltToInt Rat.ceil f
    | v => .ok v

/-- Python `round(q)`: to nearest, ties to even. -/
def roundHalfEven (q : Rat) : Int :=
  let f := q.floor
  let d := q - f
  if d < 1 / 2 then f
  else if 1 / 2 < d then f + 1
  else if f % 2 = 0 then f else f + 1

/-- `RoundModifier`: round_modifier.py:11-13. -/
def roundMod : Leaf where
  transform := fun _ c => match c.val with
    | .flt f => fltToInt roundHalfEven f
    | v => .ok v

/-- `InverseModifier`: inverse_modifier.py:12-13. -/
def inverseMod : Leaf where
  transform := fun _ c => match c.val with
    | .bool b => .ok (.bool !b)
    | v => .ok v

/-- `ToBoolModifier`: tobool_modifier.py:12-13. -/
def toboolMod : Leaf where
  transform := fun _ c => .ok (.bool c.val.truthy)

/-- `FloatModifier.transform`: float_modifier.py:18-23 (integers too large for a float
are not modelled) with `TypeModifier.validate`: type_modifier.py:21-30. -/
def floatMod : Leaf where
  transform := fun _ c => match c.val with
    | .int n => .ok (.flt (.fin n))
    | v => .ok v
  validate := fun _ c => match c.val with
    | .none => .ok ()
    | .flt _ => .ok ()
    | _ => .error (c.vexc "value is not float")

/-- `IntModifier`: int_modifier.py with type_modifier.py:21-30, exact type. -/
def intMod : Leaf where
  validate := fun _ c => match c.val with
    | .none => .ok ()
    | .int _ => .ok ()
    | _ => .error (c.vexc "value is not int")

/-- `BoolModifier`: bool_modifier.py with type_modifier.py:21-30, exact type. -/
def boolMod : Leaf where
  validate := fun _ c => match c.val with
    | .none => .ok ()
    | .bool _ => .ok ()
    | _ => .error (c.vexc "value is not bool")

end JC
