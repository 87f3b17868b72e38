import Verif.Model.Numbers
import Verif.Model.Strings
import Verif.Model.SubPipe

/-
Conversions between numbers and text, letter case, division, powers and roots, generated
values, passwords.

Text of floats, square roots of floats, random choices, object ids and `bcrypt` are parameters.
-/
namespace JC

/-! ### Text and numbers -/

/-- Values of decimal digits (`unicodedata.decimal`). Fixed on ASCII only. -/
structure DigitTable where
  val : Char → Option Nat
  small : ∀ c d, val c = some d → d < 10
  ascii : ∀ d : Nat, d < 10 → val (Char.ofNat (48 + d)) = some d
  notSpace : ∀ c d, val c = some d → isSpace c = false
  notSign : val '-' = none ∧ val '+' = none ∧ val '_' = none

/-- The digits of `int(text)`: digits with single underscores between them. `started`: the
character before is a digit. -/
def readDigits (T : DigitTable) : Bool → Nat → List Char → Option Nat
  | started, acc, [] => if started then some acc else none
  | started, acc, c :: cs =>
    if c = '_' then (if started then readDigits T false acc cs else none)
    else match T.val c with
      | some d => readDigits T true (10 * acc + d) cs
      | none => none

/-- The characters `int(text)` drops at both ends: white space, but for a text of ASCII
characters only not U+001C to U+001F. -/
def intSpace (s : List Char) (c : Char) : Bool :=
  if s.all (fun c => c.toNat < 128) then (9 ≤ c.toNat && c.toNat ≤ 13) || c.toNat == 32 else isSpace c

/-- without the characters satisfying `p` at both ends -/
def stripBy (p : Char → Bool) (s : List Char) : List Char := ((s.dropWhile p).reverse.dropWhile p).reverse

/-- Python `int(text)`; `none` = ValueError. (Texts of more than 4300 digits, which later
Python versions refuse, are not treated differently.) -/
def readInt (T : DigitTable) (s : List Char) : Option Int :=
  match stripBy (intSpace s) s with
  | '-' :: cs => (readDigits T false 0 cs).map (fun n : Nat => -(n : Int))
  | '+' :: cs => (readDigits T false 0 cs).map (fun n : Nat => (n : Int))
  | cs => (readDigits T false 0 cs).map (fun n : Nat => (n : Int))

/-- `ToIntModifier`: toint_modifier.py:12-14. -/
def tointMod (T : DigitTable) : Leaf where
  transform := fun _ c => match c.val with
    | .bool b => .ok (.int (if b then 1 else 0))
    | .str s => match readInt T s.toList with
      | some n => .ok (.int n)
      | none => .error .valueError
    | v => .ok v

/-- decimal digits of a natural number -/
def natText (n : Nat) : List Char :=
  if n < 10 then [Char.ofNat (48 + n)] else natText (n / 10) ++ [Char.ofNat (48 + n % 10)]

/-- Python `str` of an int -/
def intText (n : Int) : List Char := if n < 0 then '-' :: natText n.natAbs else natText n.natAbs

/-- `ToStrModifier`: tostr_modifier.py:12-14; `ftext` is `str` of a float. -/
def tostrMod (ftext : Flt → String) : Leaf where
  transform := fun _ c => match c.val with
    | .bool b => .ok (.str (if b then "True" else "False"))
    | .int n => .ok (.str (String.ofList (intText n)))
    | .flt f => .ok (.str (ftext f))
    | v => .ok v

/-- `ToFloatModifier`: tofloat_modifier.py:12-14; `fread` is `float(text)`, `none` = ValueError. -/
def tofloatMod (fread : String → Option Flt) : Leaf where
  transform := fun _ c => match c.val with
    | .bool b => .ok (.flt (.fin (if b then 1 else 0)))
    | .str s => match fread s with
      | some f => .ok (.flt f)
      | none => .error .valueError
    | v => .ok v

/-! ### Arithmetic -/

/-- Python `x / y` on integers: exact, ZeroDivisionError is `other 2` -/
def intDiv (x y : Int) : Except Exc Val :=
  if y = 0 then .error (.other 2) else .ok (.flt (.fin ((x : Rat) / (y : Rat))))

/-- Python `pow(b, e)` on integers: an int for `e ≥ 0`, otherwise a float; `pow(0, -1)` raises
ZeroDivisionError. -/
def intPow (b e : Int) : Except Exc Val :=
  if 0 ≤ e then .ok (.int (b ^ e.toNat))
  else if b = 0 then .error (.other 2)
  else .ok (.flt (.fin (1 / ((b : Rat) ^ (-e).toNat))))

/-- an operation on the integer value and integer parameter; floats are not modelled
(`other 1`) -/
def intOp (f : Int → Int → Except Exc Val) (p : Param) : Leaf where
  transform := fun h c => if c.val.isNumber then do
      let b ← p h c
      match c.val, b with
      | .int x, .int y => f x y
      | _, .flt _ => .error (.other 1)
      | .flt _, .int _ => .error (.other 1)
      | _, _ => .error .typeError
    else .ok c.val

/-- `DivModifier`: div_modifier.py:15-16, integers. -/
def divMod : Param → Leaf := intOp (fun x by_ => intDiv x by_)
/-- `PowModifier`: pow_modifier.py:15-16, integers: the parameter to the power of the value. -/
def powMod : Param → Leaf := intOp (fun x by_ => intPow by_ x)

/-- `SqrtModifier`: sqrt_modifier.py:12-19; `root` is `math.sqrt` of a nonnegative number (it
raises OverflowError for integers that do not fit a float). -/
def sqrtMod (root : Val → Except Exc Flt) : Leaf where
  transform := fun _ c => if c.val.isNumber then do
      let r ← numLe (.int 0) c.val
      if r then do
        let f ← root c.val
        .ok (.flt f)
      else .error (c.vexc "value is less than 0 thus cannot be sqrted")
    else .ok c.val

/-! ### Letter case -/

/-- Full case mappings of single characters and the cased property. Fixed on ASCII only. The
context dependent lower case of the Greek capital sigma is not modelled. -/
structure CaseTable where
  upper : Char → List Char
  lower : Char → List Char
  title : Char → List Char
  cased : Char → Bool
  upper_ascii : ∀ c : Char, c.toNat < 128 → upper c = [c.toUpper]
  lower_ascii : ∀ c : Char, c.toNat < 128 → lower c = [c.toLower]
  title_ascii : ∀ c : Char, c.toNat < 128 → title c = [c.toUpper]
  cased_ascii : ∀ c : Char, c.toNat < 128 → cased c = c.isAlpha

/-- a transform of strings -/
def strTransform (f : List Char → List Char) : Leaf where
  transform := fun _ c => match c.val with
    | .str s => .ok (.str (String.ofList (f s.toList)))
    | v => .ok v

/-- `str.capitalize` -/
def capitalize (C : CaseTable) : List Char → List Char
  | [] => []
  | c :: cs => C.title c ++ cs.flatMap C.lower

/-- `str.title`: `prev` = the character before is cased -/
def titleGo (C : CaseTable) : Bool → List Char → List Char
  | _, [] => []
  | prev, c :: cs => (if prev then C.lower c else C.title c) ++ titleGo C (C.cased c) cs

/-- `ToUpperModifier`: toupper_modifier.py:12-13. -/
def toupperMod (C : CaseTable) : Leaf := strTransform (fun s => s.flatMap C.upper)
/-- `ToLowerModifier`: tolower_modifier.py:12-13. -/
def tolowerMod (C : CaseTable) : Leaf := strTransform (fun s => s.flatMap C.lower)
/-- `ToCapModifier`: tocap_modifier.py:12-13. -/
def tocapMod (C : CaseTable) : Leaf := strTransform (capitalize C)
/-- `ToTitleModifier`: totitle_modifier.py:12-13. -/
def totitleMod (C : CaseTable) : Leaf := strTransform (titleGo C false)

/-! ### Generated values -/

/-- One use of the module `random`. -/
structure Rand where
  /-- `sample(population, k)` for `0 ≤ k ≤ len(population)`: the chosen positions -/
  pick : (n k : Nat) → List Nat
  pick_len : ∀ n k, k ≤ n → (pick n k).length = k
  pick_lt : ∀ n k, k ≤ n → ∀ i ∈ pick n k, i < n
  pick_nodup : ∀ n k, k ≤ n → (pick n k).Nodup
  /-- `randrange(a, b)` for `a < b` -/
  range : Int → Int → Int
  range_ge : ∀ a b, a < b → a ≤ range a b
  range_lt : ∀ a b, a < b → range a b < b

/-- `''.join(sample(alphabet, k))`: ValueError if `k` is negative or larger than the
population. -/
def sampleText (R : Rand) (alphabet : List Char) : Val → Except Exc Val
  | .int k =>
    if k < 0 ∨ (alphabet.length : Int) < k then .error .valueError
    else .ok (.str (String.ofList ((R.pick alphabet.length k.toNat).map (fun i => alphabet.getD i ' '))))
  | .bool b => .ok (.str (String.ofList ((R.pick alphabet.length (if b then 1 else 0)).map (fun i => alphabet.getD i ' '))))
  | _ => .error .typeError

/-- random_digits_modifier.py:18 -/
def digitChars : List Char := ['0', '1', '2', '3', '4', '5', '6', '7', '8', '9']
/-- random_alnums_modifier.py:18-21 -/
def alnumChars : List Char :=
  ['a', 'b', 'c', 'd', 'e', 'f', 'g', 'h', 'i', 'j', 'k', 'l', 'm', 'n', 'o', 'p', 'q', 'r', 's', 't', 'u', 'v', 'w', 'x', 'y', 'z',
   'A', 'B', 'C', 'D', 'E', 'F', 'G', 'H', 'I', 'J', 'K', 'L', 'M', 'N', 'O', 'P', 'Q', 'R', 'S', 'T', 'U', 'V', 'W', 'X', 'Y', 'Z'] ++ digitChars
/-- random_alnumpuncs_modifier.py:20 -/
def punctChars : List Char :=
  ['!', '"', '#', '$', '%', '&', '\'', '(', ')', '*', '+', ',', '-', '.', '/', ':', ';', '<', '=', '>', '?', '@', '[', '\\', ']', '^', '_', '`',
   '{', '|', '}', '~']

/-- a generated text: the value is not looked at -/
def randomTextMod (R : Rand) (alphabet : List Char) (p : Param) : Leaf where
  transform := fun h c => do
    let k ← p h c
    sampleText R alphabet k

/-- `RandomDigitsModifier`: random_digits_modifier.py:17-19. -/
def randomdigitsMod (R : Rand) : Param → Leaf := randomTextMod R digitChars
/-- `RandomAlnumsModifier`: random_alnums_modifier.py:17-22. -/
def randomalnumsMod (R : Rand) : Param → Leaf := randomTextMod R alnumChars
/-- `RandomAlnumpuncsModifier`: random_alnumpuncs_modifier.py:17-23. -/
def randomalnumpuncsMod (R : Rand) : Param → Leaf := randomTextMod R (punctChars ++ alnumChars)

/-- `RandomIntModifier`: random_int_modifier.py:19-26, integer bounds (`other 1` otherwise). -/
def randomintMod (R : Rand) (pmin pmax : Param) : Leaf where
  transform := fun h c => do
    let a ← pmin h c
    let b ← pmax h c
    match a, b with
    | .int a, .int b =>
      if a < b then .ok (.int (R.range a b)) else .error (c.vexc "is not less than or equal")
    | _, _ => .error (.other 1)

/-- `MongoIdModifier.transform`: mongoid_modifier.py:16-18; `fresh` is `str(ObjectId())`. -/
def mongoidMod (fresh : String) : Leaf where
  transform := fun _ c => match c.val with
    | .none => .ok (.str fresh)
    | v => .ok v

/-! ### Passwords -/

/-- `bcrypt` on texts. `hash p s` is `hashpw(p.encode(), s).decode('utf-8')`; `none` = it
raises ValueError (a NUL character). `check p t` is `checkpw(p.encode(), t.encode())`; `none` =
it raises ValueError (a NUL character, or `t` is no hash). -/
structure Bcrypt where
  Salt : Type
  hash : String → Salt → Option String
  check : String → String → Option Bool

/-- `SaltModifier`: salt_modifier.py:17-21. -/
def saltMod (B : Bcrypt) (s : B.Salt) : Leaf where
  transform := fun _ c => match c.val with
    | .str p => match B.hash p s with
      | some t => .ok (.str t)
      | none => .error .valueError
    | v => .ok v

/-- `CheckpwModifier`: checkpw_modifier.py:19-27. The value is the stored text, `against` gives
the password. -/
def checkpwMod (B : Bcrypt) (against : Pipe) : Leaf where
  validate := fun h c => do
    let a ← against.transform h c
    match a, c.val with
    | .str pw, .str stored => match B.check pw stored with
      | some true => .ok ()
      | some false => .error (c.vexc "value is incorrect")
      | none => .error .valueError
    | _, _ => .error (c.vexc "value is incorrect")

end JC
