import Verif.Model.Strings
import Verif.Model.Keypath

/-
Field annotations: rtypes.py. `str_to_types` reads an annotation given as text (which is
what every annotation is under `from __future__ import annotations`), `to_types` one given
as a type object.

A text is a list of characters. The regular expressions are transcribed by hand; `.` is taken
to match every character (annotations have no line breaks). A definition is the list of the
modifiers appended, in order. The item types of `listof` and `dictof` are converted when they
are first read in the code, at once here.
-/
namespace JC

/-- a Python text -/
abbrev Txt := List Char

/-- `c!"ab"` is `['a', 'b']` -/
syntax:max "c!" noWs str : term

open Lean in
macro_rules
  | `(c!$s:str) => do
    let cs := (s.getString.toList.map (fun c => Syntax.mkCharLit c)).toArray
    `(([$cs,*] : List Char))

/-- the built-in types of rtypes.py:105-119 -/
inductive Prim where
  | str | int | float | bool | date | datetime | any
deriving DecidableEq, Repr

/-- One modifier of a definition made from an annotation. -/
inductive TMod where
  | prim (p : Prim)
  | required | nonnull | linkto
  | linkedby (k : Txt)
  | linkedthru (k : Txt)
  | unresolved (n : Txt)
  | objof (c : Nat)
  | enum (e : Nat)
  | listof (t : List TMod)
  | dictof (t : List TMod)
  | union (ts : List (List TMod))

/-- what goes wrong: a failed `assert`, or the exceptions raised -/
inductive AExc where
  | assertion | typeError | valueError | indexError | recursion
deriving DecidableEq, Repr

/-- `t if opt else t.required` -/
def reqIf (opt : Bool) (t : List TMod) : List TMod := if opt then t else t ++ [.required]

/-- each type modifier's `define` sets `_ftype`; required, nonnull, links and unresolved
names do not -/
def ftypeStep (b : Bool) : TMod → Bool
  | .listof _ => true
  | .prim _ => false
  | .dictof _ => false
  | .union _ => false
  | .objof _ => false
  | .enum _ => false
  | _ => b

/-- does the definition have the field type LIST: the last type modifier is `listof` -/
def ftypeIsList (t : List TMod) : Bool := t.foldl ftypeStep false

/-- The text before the last `]`: the group of `(.*)\]`. -/
def uptoLast (s : Txt) : Option Txt := match s.reverse.dropWhile (· ≠ ']') with
  | [] => none
  | _ :: r => some r.reverse

/-- the last comma, with something acceptable after it -/
def lastComma (ok : Txt → Bool) : Txt → Option (Txt × Txt)
  | [] => none
  | c :: cs => match lastComma ok cs with
    | some (a, b) => some (c :: a, b)
    | none => if c = ',' && ok cs then some ([], cs) else none

/-- `.+,` with a greedy `.+` -/
def lastComma1 (ok : Txt → Bool) : Txt → Option (Txt × Txt)
  | [] => none
  | c :: cs => match lastComma ok cs with
    | some (a, b) => some (c :: a, b)
    | none => none

/-- the group of `[Dd]ict\[.+, *(.*)\]`, given the text after the first bracket:
rtypes.py:139 -/
def dictItem (s : Txt) : Option Txt := match lastComma1 (fun b => b.contains ']') s with
  | some (_, b) => uptoLast (b.dropWhile (· = ' '))
  | none => none

/-- the groups of `^(Annotated)\[(.+), *(.+)\]`, given the text after the first bracket:
rtypes.py:145 -/
def annotatedParts (s : Txt) : Option (Txt × Txt) :=
  match lastComma1 (fun b => (b.drop 1).contains ']') s with
  | some (a, b) => match uptoLast (b.dropWhile (· = ' ')) with
    | some (x :: xs) => some (a, x :: xs)
    | _ => some (a, [' '])
  | none => none

/-- the text before the last `')`: the group of `(.+)'\)` -/
def uptoQuote : Txt → Option Txt
  | [] => none
  | c :: cs => match uptoQuote cs with
    | some k => some (c :: k)
    | none => match c, cs with
      | '\'', ')' :: _ => some []
      | _, _ => none

/-- what follows a prefix -/
def after? (p s : Txt) : Option Txt := if p.isPrefixOf s then some (s.drop p.length) else none

/-- `apply_link_specifier`: rtypes.py:18-47. The `(.+)` of a key needs a character. -/
def applyLink (t : List TMod) (spec : Txt) : Except AExc (List TMod) :=
  if c!"linkto".isPrefixOf spec then .ok (t ++ [.linkto])
  else match after? c!"linkedby('" spec with
    | some r => match uptoQuote r with
      | some (c :: k) => if ftypeIsList t then .ok (t ++ [.nonnull, .linkedby (c :: k)])
          else .ok (t ++ [.linkedby (c :: k)])
      | _ => .error .assertion
    | none => match after? c!"linkedthru('" spec with
      | some r => match uptoQuote r with
        | some (c :: k) => .ok (t ++ [.nonnull, .linkedthru (c :: k)])
        | _ => .error .assertion
      | none => .error .typeError

/-- the loop of `union_split` with the bracket depth and the current piece, reversed:
rtypes.py:49-67 -/
def uSplit : Int → Txt → Txt → List Txt
  | _, cur, [] => [cur.reverse]
  | d, cur, c :: cs =>
    if c = '[' then uSplit (d + 1) (c :: cur) cs
    else if c = ']' then uSplit (d - 1) (c :: cur) cs
    else if c = '|' then
      if d < 1 then cur.reverse :: uSplit d [] cs else uSplit d (c :: cur) cs
    else uSplit d (c :: cur) cs

/-- `union_split`: rtypes.py:49-67. -/
def unionSplit (s : Txt) : List Txt := (uSplit 0 [] s).map strip

/-- `re.split(", *", s)`: rtypes.py:126 -/
def commaSplit (s : Txt) : List Txt := match splitP (· == ',') s with
  | [] => []
  | p :: ps => p :: ps.map (fun q => q.dropWhile (· = ' '))

/-- `match('^[Dd]ict\\[', s)` -/
def isDictText (s : Txt) : Bool := c!"dict[".isPrefixOf s || c!"Dict[".isPrefixOf s

/-- `merge_back_dicts`: rtypes.py:69-91. -/
def mergeBack : List Txt → Except AExc (List Txt)
  | [] => .ok []
  | a :: rest =>
    if isDictText a then match rest with
      | [] => .error .indexError
      | b :: rest' => match mergeBack rest' with
        | .ok r => .ok ((a ++ c!", " ++ b) :: r)
        | .error e => .error e
    else match mergeBack rest with
      | .ok r => .ok (a :: r)
      | .error e => .error e

/-- rtypes.py:105-118 -/
def primOf (s : Txt) : Option Prim :=
  if s = c!"str" then some .str
  else if s = c!"int" then some .int
  else if s = c!"float" then some .float
  else if s = c!"bool" then some .bool
  else if s = c!"date" then some .date
  else if s = c!"datetime" then some .datetime
  else if s = c!"Any" then some .any
  else none

/-- `[f(x) for x in xs]`, stopping at the first exception -/
def eachText (f : Txt → Except AExc (List TMod)) : List Txt → Except AExc (List (List TMod))
  | [] => .ok []
  | x :: xs => match f x with
    | .error e => .error e
    | .ok t => match eachText f xs with
      | .error e => .error e
      | .ok ts => .ok (t :: ts)

/-- the union of rtypes.py:128-132 and 158-162 -/
def unionOf (opt : Bool) : Except AExc (List (List TMod)) → Except AExc (List TMod)
  | .ok ts => .ok (reqIf opt [.union ts])
  | .error e => .error e

/-- wrap the item's definition: rtypes.py:137-143 -/
def wrapItem (opt : Bool) (mk : List TMod → TMod) : Except AExc (List TMod) → Except AExc (List TMod)
  | .ok t => .ok (reqIf opt [mk t])
  | .error e => .error e

/-- One level of `str_to_types` for a text without `|` outside brackets:
rtypes.py:121-150. `rec` is `str_to_types`. -/
def bracketTypes (rec : Txt → Bool → Except AExc (List TMod)) (s : Txt) (opt : Bool) : Except AExc (List TMod) :=
  match after? c!"Union[" s with
  | some r => match uptoLast r with
    | some inner => match mergeBack (commaSplit inner) with
      | .ok ps => unionOf opt (eachText (fun p => rec p true) ps)
      | .error e => .error e
    | none => .error .assertion
  | none => match after? c!"Optional[" s with
    | some r => match uptoLast r with
      | some inner => rec inner true
      | none => .error .assertion
    | none =>
      if c!"list[".isPrefixOf s || c!"List[".isPrefixOf s then match uptoLast (s.drop 5) with
        | some inner => wrapItem opt .listof (rec inner false)
        | none => .error .assertion
      else if isDictText s then match dictItem (s.drop 5) with
        | some inner => wrapItem opt .dictof (rec inner false)
        | none => .error .assertion
      else match after? c!"Annotated[" s with
        | some r => match annotatedParts r with
          | some (a, l) => match rec a opt with
            | .ok t => applyLink t l
            | .error e => .error e
          | none => .error .assertion
        | none => .ok (reqIf opt [.unresolved s])

/-- rtypes.py:151-162: several alternatives separated by `|` -/
def pipeTypes (rec : Txt → Bool → Except AExc (List TMod)) (parts : List Txt) (opt : Bool) : Except AExc (List TMod) :=
  let rs := parts.filter (· ≠ c!"None")
  let opt := opt || parts.length ≠ rs.length
  match rs with
  | [r] => rec r opt
  | _ => unionOf opt (eachText (fun p => rec p true) rs)

/-- `str_to_types`: rtypes.py:93-162, with a recursion limit. -/
def strToTypes : Nat → Txt → Bool → Except AExc (List TMod)
  | 0, _, _ => .error .recursion
  | n + 1, s, opt => match primOf s with
    | some p => .ok (reqIf opt [.prim p])
    | none => match unionSplit s with
      | [_] => bracketTypes (strToTypes n) s opt
      | parts => pipeTypes (strToTypes n) parts opt

/-- a text annotation: `to_types(text)`, rtypes.py:178-179. The recursion is on shorter
texts. -/
def typesOfText (s : Txt) : Except AExc (List TMod) := strToTypes (s.length + 1) s false

/-- An annotation as a type object: the cases of `to_types`, rtypes.py:165-228. `union` has the
arguments of a `typing.Union` (no `None` among them) and whether `NoneType` was one;
`annotated` the annotated type and the other arguments; `pipe` is `X | Y` (a
`types.UnionType`, which is not a `typing.Union` before Python 3.14). -/
inductive Rt where
  | prim (p : Prim)
  | list (a : Rt)
  | dict (k a : Rt)
  | union (as : List Rt) (nul : Bool)
  | annotated (a : Rt) (ls : List Txt)
  | enum (e : Nat)
  | cls (c : Nat)
  | forward (s : Txt)
  | pipe (as : List Rt)
  | other

mutual
/-- `to_types`: rtypes.py:165-228. -/
def toTypes : Rt → Bool → Except AExc (List TMod)
  | .prim p, opt => .ok (reqIf opt [.prim p])
  | .list a, opt => wrapItem opt .listof (toTypes a false)
  | .dict _ a, opt => wrapItem opt .dictof (toTypes a false)
  | .union as nul, _ => match as with
    | [a] => toTypes a nul
    | as => unionOf nul (toTypesL as)
  | .annotated a ls, opt => match ls with
    | [l] => match toTypes a opt with
      | .ok t => applyLink t l
      | .error e => .error e
    | _ => .error .typeError
  | .enum e, opt => .ok (reqIf opt [.enum e])
  | .cls c, opt => .ok (reqIf opt [.objof c])
  | .forward s, _ => typesOfText s
  | .pipe _, _ => .error .valueError
  | .other, _ => .error .valueError

/-- the alternatives of a union: rtypes.py:213-215 -/
def toTypesL : List Rt → Except AExc (List (List TMod))
  | [] => .ok []
  | a :: as => match toTypes a true with
    | .error e => .error e
    | .ok t => match toTypesL as with
      | .error e => .error e
      | .ok ts => .ok (t :: ts)
end

end JC
